import Verif.Lemmas.ManagerPerm
import Verif.Props.ManagerDemo

/-! # C61: the order of bundles and networks is immaterial -/

namespace Mtln

variable {p : ℕ}

theorem MTLN.Reordered.start {T dt : ℝ} {M R M' : MTLN p} {k : ℕ} (hr : M.Reordered R)
    (hn : (names M.bundles).Nodup) (hd : EndsDisjoint M.networks) (h : M.start T dt = .ok (k, M')) :
    ∃ R', R.start T dt = .ok (k, R') ∧ M'.Reordered R' ∧ (names M'.bundles).Nodup ∧ EndsDisjoint M'.networks := by
  obtain ⟨nws, bs, h1, h2, rfl, h3, rfl⟩ := MTLN.start_ok_iff.1 h
  have hdt : R.runDt dt = M.runDt dt := by rw [MTLN.runDt_eq, MTLN.runDt_eq, hr.dt]
  have hov : (M.overrideDt dt).bundles.Perm (R.overrideDt dt).bundles ∧
      names (M.overrideDt dt).bundles = names M.bundles ∧ (M.overrideDt dt).time = M.time ∧
      (R.overrideDt dt).time = R.time := by
    unfold MTLN.overrideDt
    split
    · refine ⟨hr.bundles.map _, ?_, rfl, rfl⟩
      simp only [names, List.map_map]
      rfl
    · exact ⟨hr.bundles, rfl, rfl, rfl⟩
  obtain ⟨nws', g1, p1⟩ := mapPy_perm hr.networks h1
  obtain ⟨bs', g3, p3⟩ := mapPy_perm hov.1 h3
  refine ⟨_, MTLN.start_ok_iff.2 ⟨nws', bs', by rw [hdt]; exact g1, by rw [hdt]; exact h2, by rw [hdt], g3, rfl⟩,
    ⟨p3, p1, ?_, ?_⟩, ?_, (disjoint_compute h1).2 hd⟩
  · exact hdt
  · show (R.overrideDt dt).time = (M.overrideDt dt).time
    rw [hov.2.2.1, hov.2.2.2, hr.time]
  · show (names bs).Nodup
    rw [names_mapPy (f := MTLD.start _) ?_ h3, hov.2.1]
    · exact hn
    · intro n b b' h
      obtain ⟨lr, cg, -, -, rfl⟩ := MTLD.start_ok_iff.1 h
      rfl

/-- **C61**, runs: two managers with the same clock whose bundles (of different names) and networks are listed in
different orders, no end of a bundle being attached to two networks.  If one can be run, so can the other, and afterwards
they have the same bundles and networks, with all voltages, currents and probe records, in some order. -/
theorem C61_run (T dt : ℝ) (M R M' : MTLN p) (hr : M.Reordered R) (hn : (M.bundles.map fun b => b.2.name).Nodup)
    (hd : EndsDisjoint M.networks) (h : M.runUntil T dt = .ok M') :
    ∃ R', R.runUntil T dt = .ok R' ∧ M'.bundles.Perm R'.bundles ∧ M'.networks.Perm R'.networks ∧
      R'.time = M'.time ∧ R'.dt = M'.dt := by
  simp only [MTLN.runUntil, bind_ok_iff] at h ⊢
  obtain ⟨⟨k, M0⟩, h1, h2⟩ := h
  obtain ⟨R0, g1, r1, n1, d1⟩ := hr.start hn hd h1
  obtain ⟨R', g2, r2⟩ := r1.iterate n1 d1 h2
  exact ⟨R', ⟨_, g1, g2⟩, r2.bundles, r2.networks, r2.time, r2.dt⟩

theorem addNetworks_ok_iff {M M' : MTLN p} {nws : List NetworkD} : nws.foldlM MTLN.addNetwork M = .ok M' ↔
    ∃ nws', mapPy (fun nw => nw.updateIndexNumbers M.bundles) nws = .ok nws' ∧
      M' = { M with networks := M.networks ++ nws' } := by
  induction nws generalizing M with
  | nil =>
    simp only [List.foldlM_nil, pure, Except.pure, Except.ok.injEq, mapPy]
    simp [eq_comm]
  | cons nw nws ih =>
    simp only [List.foldlM_cons, bind_ok_iff, MTLN.addNetwork, mapPy, Except.ok.injEq]
    constructor
    · rintro ⟨_, ⟨x, hx, rfl⟩, h⟩
      obtain ⟨y, hy, rfl⟩ := ih.1 h
      exact ⟨_, ⟨x, hx, y, hy, rfl⟩, by simp⟩
    · rintro ⟨_, ⟨x, hx, y, hy, rfl⟩, rfl⟩
      exact ⟨_, ⟨x, hx, rfl⟩, ih.2 ⟨y, hy, by simp⟩⟩

theorem managerNew_ok_iff {M : MTLN p} {bs : List (AnyBundle p)} {nws : List NetworkD} : MTLN.new bs nws = .ok M ↔
    (bs.map fun b => b.2.name).Nodup ∧ IsLeast ({10 ^ 10} ∪ {t | ∃ b ∈ bs, t = b.2.dt}) M.dt ∧ M.bundles = bs ∧
      mapPy (fun nw => nw.updateIndexNumbers bs) nws = .ok M.networks ∧ M.time = 0 := by
  simp only [MTLN.new, bind_ok_iff, addNetworks_ok_iff]
  constructor
  · rintro ⟨N, h1, nws', h2, rfl⟩
    obtain ⟨g1, g2, g3, g4, g5⟩ := (C59_add_bundles _ _ _ (by simp)).1 h1
    have hb : N.bundles = bs := by simpa using g2
    refine ⟨by simpa using g1, by simpa using g5, hb, ?_, g4⟩
    rw [hb] at h2
    simp only [g3, List.nil_append]
    exact h2
  · rintro ⟨h1, h2, h3, h4, h5⟩
    refine ⟨{ M with networks := [] }, (C59_add_bundles _ _ _ (by simp)).2 ⟨by simpa using h1, by simpa using h3, rfl, h5,
      by simpa using h2⟩, M.networks, ?_, ?_⟩
    · simp only [h3]; exact h4
    · simp

/-- **C61**, construction: bundles and networks may be given to the constructor in any order. -/
theorem C61_construction (bs bs' : List (AnyBundle p)) (nws nws' : List NetworkD) (M : MTLN p) (hb : bs.Perm bs')
    (hw : nws.Perm nws') (h : MTLN.new bs nws = .ok M) :
    ∃ M', MTLN.new bs' nws' = .ok M' ∧ M.bundles.Perm M'.bundles ∧ M.networks.Perm M'.networks ∧ M'.dt = M.dt ∧
      M'.time = M.time := by
  obtain ⟨h1, h2, h3, h4, h5⟩ := managerNew_ok_iff.1 h
  have hfun : (fun nw : NetworkD => nw.updateIndexNumbers bs') = fun nw => nw.updateIndexNumbers bs := by
    funext nwd
    unfold NetworkD.updateIndexNumbers
    refine mapPy_congr fun e _ => ?_
    have : ∀ {N S}, Network.shiftIndex (N := N) (S := S) bs' e.1 = Network.shiftIndex bs e.1 := by
      intro N S
      funext nw a
      unfold Network.shiftIndex
      rw [findBundle_perm h1 hb]
    simp only [this]
  obtain ⟨k, g, pk⟩ := mapPy_perm hw h4
  refine ⟨{ M with bundles := bs', networks := k }, managerNew_ok_iff.2 ⟨(hb.map _).nodup_iff.1 h1, ?_, rfl, ?_, h5⟩, ?_, pk, rfl,
    rfl⟩
  · have : {t | ∃ b ∈ bs', t = b.2.dt} = {t | ∃ b ∈ bs, t = b.2.dt} := by
      ext t
      simp only [Set.mem_setOf_eq, hb.mem_iff]
    rw [this]
    exact h2
  · rw [hfun]; exact g
  · rw [h3]; exact hb

/-- **C61**: constructing a manager with bundles and networks in another order and running it gives the same bundles and
networks, provided no end of a bundle is attached to two networks. -/
theorem C61_order (T dt : ℝ) (bs bs' : List (AnyBundle p)) (nws nws' : List NetworkD) (M R : MTLN p) (hb : bs.Perm bs')
    (hw : nws.Perm nws') (h : MTLN.new bs nws = .ok M) (hd : EndsDisjoint M.networks) (hrun : M.runUntil T dt = .ok R) :
    ∃ M' R', MTLN.new bs' nws' = .ok M' ∧ M'.runUntil T dt = .ok R' ∧ R.bundles.Perm R'.bundles ∧
      R.networks.Perm R'.networks := by
  obtain ⟨M', h', p1, p2, p3, p4⟩ := C61_construction bs bs' nws nws' M hb hw h
  obtain ⟨h1, -, h3, -, -⟩ := managerNew_ok_iff.1 h
  obtain ⟨R', g, q1, q2, -, -⟩ := C61_run T dt M M' R ⟨p1, p2, p3, p4⟩ (by rw [h3]; exact h1) hd hrun
  exact ⟨M', R', h', g, q1, q2⟩

/-! ## A manager with two bundles and two networks -/

/-- A network at the right end of the demo line. -/
noncomputable def demoTermL : Network 1 0 := { demoTerm with nodes := fun _ => { demoNode [] with side := .L } }

theorem demoTermL_det {dt : ℝ} (hdt : 0 < dt) : (demoTermL.system dt).det ≠ 0 := by
  have : demoTermL.system dt = demoTerm.system dt := by
    have hx : demoTermL.dxc = demoTerm.dxc := by
      unfold Network.dxc
      have hd : (fun a => (demoTermL.nodes a).dx) = fun a => (demoTerm.nodes a).dx := by
        funext a
        fin_cases a
        rfl
      ext a b
      simp only [Matrix.of_apply]
      rw [congrFun hd a]
      rfl
    unfold Network.system
    rw [hx]
    rfl
  rw [this]
  exact demoTerm_det hdt

/-- Two bundles; the first is terminated at both ends. -/
noncomputable def demoTwo : MTLN 0 :=
  { bundles := [⟨1, demoOne⟩, ⟨1, MTLD.single demoSlow "slow"⟩]
    networks := [[(0, ⟨1, 0, demoTerm⟩)], [(0, ⟨1, 0, demoTermL⟩)]], dt := 1 }

theorem demoTwo_new : MTLN.new [⟨1, demoOne⟩, ⟨1, MTLD.single demoSlow "slow"⟩]
    [[(0, ⟨1, 0, demoTerm⟩)], [(0, ⟨1, 0, demoTermL⟩)]] = .ok demoTwo := by
  have e1 : demoOne.dt = 1 := by norm_num [demoOne, MTLD.single, demoBare]
  have e2 : (MTLD.single demoSlow "slow").dt = 2 := by norm_num [MTLD.single, demoSlow]
  have hreg : ∀ nw : Network 1 0, (nw.nodes 0).bundleName = "demo" → nw.registered demoTwo.bundles 0 = nw →
      NetworkD.updateIndexNumbers demoTwo.bundles [(0, ⟨1, 0, nw⟩)] = .ok [(0, ⟨1, 0, nw⟩)] := by
    intro nw hn hr
    rw [updateIndexNumbers_ok_iff]
    refine ⟨?_, ?_⟩
    · intro e he a
      obtain rfl := List.mem_singleton.1 he
      fin_cases a
      simp only [Fin.zero_eta, hn]
      simp [findBundle, demoTwo, demoOne, MTLD.single]
    · simp [hr]
  have hid : ∀ nw : Network 1 0, (nw.nodes 0).bundleName = "demo" → nw.registered demoTwo.bundles 0 = nw := by
    intro nw hn
    unfold Network.registered
    have : (fun a => (nw.nodes a).registered demoTwo.bundles 0) = nw.nodes := by
      funext a
      fin_cases a
      simp only [Fin.zero_eta]
      unfold Node.registered
      have hf : findBundle demoTwo.bundles (nw.nodes 0).bundleName = some ⟨1, demoOne⟩ := by
        rw [hn]
        simp [findBundle, demoTwo, demoOne, MTLD.single]
      rw [hf]
      simp [conductorsBefore]
    rw [this]
  refine managerNew_ok_iff.2 ⟨by simp [demoOne, MTLD.single], ⟨?_, ?_⟩, rfl, ?_, rfl⟩
  · right; exact ⟨_, List.mem_cons_self .., e1.symm⟩
  · rintro t (h | ⟨b, hb, rfl⟩)
    · rw [Set.mem_singleton_iff] at h; subst h; norm_num [demoTwo]
    · simp only [List.mem_cons, List.not_mem_nil, or_false] at hb
      rcases hb with rfl | rfl
      · exact e1.ge
      · simp only [e2]; norm_num [demoTwo]
  · have h1 := hreg demoTerm rfl (hid _ rfl)
    have h2 := hreg demoTermL rfl (hid _ rfl)
    show mapPy (fun nw => NetworkD.updateIndexNumbers demoTwo.bundles nw) _ = _
    simp only [mapPy, h1, h2, bind, Except.bind]
    rfl

theorem demoTwo_startable : demoTwo.Startable 0 := by
  have hdt : demoTwo.runDt 0 = 1 := by rw [MTLN.runDt_eq, if_neg (by simp)]; rfl
  refine ⟨by rw [hdt]; norm_num, ?_, ?_, ?_⟩
  · intro b hb
    have : b = ⟨1, demoOne⟩ ∨ b = ⟨1, MTLD.single demoSlow "slow"⟩ := by simpa [MTLN.overrideDt, demoTwo] using hb
    rcases this with rfl | rfl
    · have e : demoOne.dt = 1 := by norm_num [demoOne, MTLD.single, demoBare]
      obtain ⟨h1, h2⟩ := demo_single_terms (demoBare 0) (d := 1) (dt := 1) one_ne_zero one_pos rfl
        (fun k hk => if_pos hk) rfl rfl rfl rfl rfl rfl
      refine ⟨?_, ?_, ?_⟩
      · simp only [e]; exact h1
      · simp only [e]; exact h2
      · intro q hq
        have : q ∈ demoOne.probes := hq
        simp only [demoOne, List.mem_singleton] at this
        subst this
        exact Or.inl rfl
    · have e : (MTLD.single demoSlow "slow").dt = 2 := by norm_num [MTLD.single, demoSlow]
      obtain ⟨h1, h2⟩ := demo_single_terms demoSlow (d := 2) (dt := 2) two_ne_zero two_pos rfl
        (fun k hk => if_pos hk) rfl rfl rfl rfl rfl rfl
      refine ⟨?_, ?_, ?_⟩
      · simp only [e]; exact h1
      · simp only [e]; exact h2
      · intro q hq
        simp [MTLD.single] at hq
  · intro nwd hnwd e he
    rw [hdt]
    have : nwd = [(0, ⟨1, 0, demoTerm⟩)] ∨ nwd = [(0, ⟨1, 0, demoTermL⟩)] := by simpa [demoTwo] using hnwd
    rcases this with rfl | rfl <;> obtain rfl := List.mem_singleton.1 he
    · exact ⟨rfl, demoTerm_det one_pos⟩
    · exact ⟨rfl, demoTermL_det one_pos⟩
  · intro d hd
    have : d.bundleName = "demo" ∧ d.lineIndex = 0 := by
      have : d = demoNode [] ∨ d = { demoNode [] with side := .L } := by
        simpa [allNodes, demoTwo, demoTerm, demoTermL, demoNet, NetBuild.finish, demoNode] using hd
      rcases this with rfl | rfl <;> exact ⟨rfl, rfl⟩
    obtain ⟨h1, h2⟩ := this
    exact ⟨⟨1, demoOne⟩, by rw [h1]; simp [findBundle, demoTwo, demoOne, MTLD.single], by rw [h2]; exact Nat.one_pos, by
      show (2 : ℕ) ≠ 0; norm_num⟩

theorem demoTwo_disjoint : EndsDisjoint demoTwo.networks := by
  unfold EndsDisjoint
  simp only [demoTwo, List.map_cons, List.map_nil, List.pairwise_cons, List.mem_singleton, forall_eq, List.not_mem_nil,
    false_imp_iff, implies_true, List.Pairwise.nil, and_true]
  intro d hd d' hd' he
  have h1 : d = demoNode [] := by
    simpa [NetworkD.nodes, demoTerm, demoNet, NetBuild.finish, demoNode] using hd
  have h2 : d' = { demoNode [] with side := .L } := by
    simpa [NetworkD.nodes, demoTermL] using hd'
  subst h1; subst h2
  have : Side.S = Side.L := congrArg End.side he
  simp at this

/-- Non-vacuity of C61: two bundles and two networks, both orders. -/
example (T : ℝ) : ∃ M R M' R', MTLN.new [⟨1, demoOne⟩, ⟨1, MTLD.single demoSlow "slow"⟩]
      [[(0, ⟨1, 0, demoTerm⟩)], [(0, ⟨1, 0, demoTermL⟩)]] = .ok M ∧ EndsDisjoint M.networks ∧ M.runUntil T 0 = .ok R ∧
    MTLN.new [⟨1, MTLD.single demoSlow "slow"⟩, ⟨1, demoOne⟩] [[(0, ⟨1, 0, demoTermL⟩)], [(0, ⟨1, 0, demoTerm⟩)]] = .ok M' ∧
    M'.runUntil T 0 = .ok R' ∧ M.bundles.Perm M'.bundles ∧ R.bundles.Perm R'.bundles := by
  obtain ⟨R, hR⟩ := demoTwo_startable.run T
  obtain ⟨M', R', h1, h2, h3, -⟩ := C61_order T 0 _ _ _ _ _ _ (.swap ..) (.swap ..) demoTwo_new demoTwo_disjoint hR
  refine ⟨_, R, M', R', demoTwo_new, demoTwo_disjoint, hR, h1, h2, ?_, h3⟩
  rw [(managerNew_ok_iff.1 h1).2.2.1]
  exact .swap ..

end Mtln
