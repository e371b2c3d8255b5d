import Verif.Lemmas.ManagerRun
import Mathlib.Data.List.Perm.Basic
import Mathlib.Data.List.Pairwise

/-! # Managers whose bundles and networks are listed in another order -/

namespace Mtln

variable {n p : ℕ}

theorem mapPy_perm {α β : Type} {f : α → Py β} {l k : List α} (h : l.Perm k) : ∀ {l' : List β}, mapPy f l = .ok l' →
    ∃ k', mapPy f k = .ok k' ∧ l'.Perm k' := by
  induction h with
  | nil => intro l' h; exact ⟨l', h, .refl _⟩
  | cons a _ ih =>
    intro l' h
    simp only [mapPy, bind_ok_iff, Except.ok.injEq] at h ⊢
    obtain ⟨b, hb, l1, hl, rfl⟩ := h
    obtain ⟨k1, hk, hp⟩ := ih hl
    exact ⟨_, ⟨b, hb, k1, hk, rfl⟩, hp.cons b⟩
  | swap a b l =>
    intro l' h
    simp only [mapPy, bind_ok_iff, Except.ok.injEq] at h ⊢
    obtain ⟨x, hx, _, ⟨y, hy, l1, hl, rfl⟩, rfl⟩ := h
    exact ⟨_, ⟨y, hy, _, ⟨x, hx, l1, hl, rfl⟩, rfl⟩, .swap ..⟩
  | trans _ _ ih1 ih2 =>
    intro l' h
    obtain ⟨k1, h1, p1⟩ := ih1 h
    obtain ⟨k2, h2, p2⟩ := ih2 h1
    exact ⟨k2, h2, p1.trans p2⟩

/-- The names of bundles. -/
def names (bs : List (AnyBundle p)) : List String := bs.map fun b => b.2.name

theorem findBundle_iff {bs : List (AnyBundle p)} (h : (names bs).Nodup) {name : String} {b : AnyBundle p} :
    findBundle bs name = some b ↔ b ∈ bs ∧ b.2.name = name := by
  induction bs with
  | nil => simp [findBundle]
  | cons a bs ih =>
    simp only [names, List.map_cons, List.nodup_cons] at h
    have ih := ih h.2
    simp only [findBundle, List.find?_cons] at ih ⊢
    by_cases ha : a.2.name = name
    · simp only [ha, decide_true, Option.some.injEq, List.mem_cons]
      constructor
      · rintro rfl; exact ⟨Or.inl rfl, ha⟩
      · rintro ⟨rfl | hb, hn⟩
        · rfl
        · exact absurd (List.mem_map.2 ⟨b, hb, by rw [hn, ha]⟩) h.1
    · simp only [ha, decide_false, List.mem_cons]
      rw [ih]
      constructor
      · rintro ⟨h1, h2⟩; exact ⟨Or.inr h1, h2⟩
      · rintro ⟨rfl | h1, h2⟩
        · exact absurd h2 ha
        · exact ⟨h1, h2⟩

theorem findBundle_perm {bs bs' : List (AnyBundle p)} (h : (names bs).Nodup) (hp : bs.Perm bs') (name : String) :
    findBundle bs' name = findBundle bs name := by
  have h' : (names bs').Nodup := (hp.map fun b : AnyBundle p => b.2.name).nodup_iff.1 h
  apply Option.ext
  intro b
  rw [findBundle_iff h, findBundle_iff h', hp.mem_iff]

theorem readCurrent_perm {bs bs' : List (AnyBundle p)} (h : (names bs).Nodup) (hp : bs.Perm bs') :
    readCurrent bs' = readCurrent bs := by
  funext d
  unfold readCurrent
  rw [findBundle_perm h hp]

theorem updateCurrents_perm {bs bs' : List (AnyBundle p)} (h : (names bs).Nodup) (hp : bs.Perm bs') :
    NetworkD.updateCurrents bs' = NetworkD.updateCurrents bs := by
  funext nwd
  unfold NetworkD.updateCurrents Network.updateCurrents
  rw [readCurrent_perm h hp]

/-! ## Assignments by different networks -/

theorem hit_congr : ∀ {ws : List Write} {s t : MTLD n p} {k : ℕ} {j : Fin n}, t.name = s.name → t.m = s.m →
    t.v k j = s.v k j → (t.hit ws).v k j = (s.hit ws).v k j
  | [], _, _, _, _, _, _, h => h
  | w :: ws, s, t, k, j, hn, hm, h => by
    rw [MTLD.hit_cons, MTLD.hit_cons]
    refine hit_congr ?_ ?_ ?_
    · rw [Write.on_name, Write.on_name, hn]
    · rw [Write.on_m, Write.on_m, hm]
    · by_cases hc : w.target.At s k j
      · have hc' : w.target.At t k j := by unfold End.At at *; rw [hn, hm]; exact hc
        rw [(w.on_v s k j).1 hc, (w.on_v t k j).1 hc']
      · have hc' : ¬ w.target.At t k j := by unfold End.At at *; rw [hn, hm]; exact hc
        rw [(w.on_v s k j).2 hc, (w.on_v t k j).2 hc', h]

theorem hit_name_m (ws : List Write) (b : MTLD n p) : (b.hit ws).name = b.name ∧ (b.hit ws).m = b.m := by
  obtain ⟨v, hv⟩ := MTLD.hit_rest ws b
  rw [hv]
  exact ⟨rfl, rfl⟩

/-- Assignments to different entries commute. -/
theorem hit_comm {ws ws' : List Write} {b : MTLD n p}
    (h : ∀ w ∈ ws, ∀ w' ∈ ws', ∀ k j, w.target.At b k j → ¬ w'.target.At b k j) :
    (b.hit ws).hit ws' = (b.hit ws').hit ws := by
  obtain ⟨v1, h1⟩ := MTLD.hit_rest ws b
  obtain ⟨v2, h2⟩ := MTLD.hit_rest ws' (b.hit ws)
  obtain ⟨v3, h3⟩ := MTLD.hit_rest ws' b
  obtain ⟨v4, h4⟩ := MTLD.hit_rest ws (b.hit ws')
  have hv : ((b.hit ws).hit ws').v = ((b.hit ws').hit ws).v := by
    funext k j
    have e1 := hit_name_m ws b
    have e2 := hit_name_m ws' b
    by_cases hc : ∃ w ∈ ws, w.target.At b k j
    · obtain ⟨w, hw, hat⟩ := hc
      have hno : ∀ w' ∈ ws', ¬ w'.target.At b k j := fun w' hw' => h w hw w' hw' k j hat
      rw [MTLD.hit_other (ws := ws') (b := b.hit ws)]
      · exact (hit_congr e2.1 e2.2 (MTLD.hit_other hno)).symm
      · intro w' hw'
        unfold End.At
        rw [e1.1, e1.2]
        exact hno w' hw'
    · push Not at hc
      rw [MTLD.hit_other (ws := ws) (b := b.hit ws')]
      · exact hit_congr e1.1 e1.2 (MTLD.hit_other hc)
      · intro w hw
        unfold End.At
        rw [e2.1, e2.2]
        exact hc w hw
  rw [h2, h4] at hv
  simp only at hv
  rw [h2, h4, h1, h3, hv]

/-- The nodes of one tiered network. -/
def NetworkD.nodes (nwd : NetworkD) : List Node := nwd.flatMap fun e => List.ofFn e.2.2.2.nodes

theorem NetworkD.writes_target (nwd : NetworkD) : nwd.writes.map Write.target = nwd.nodes.map Node.end' := by
  simp only [NetworkD.writes, NetworkD.nodes, List.map_flatMap, Mtln.writes_target]

/-- No end of a bundle is attached to two networks. -/
def EndsDisjoint (nws : List NetworkD) : Prop :=
  (nws.map NetworkD.nodes).Pairwise fun l l' => ∀ d ∈ l, ∀ d' ∈ l', d.end' ≠ d'.end'

theorem hit_allWrites (nws : List NetworkD) (b : MTLD n p) :
    b.hit (allWrites nws) = nws.foldl (fun b nwd => b.hit nwd.writes) b := by
  induction nws generalizing b with
  | nil => rfl
  | cons nwd nws ih =>
    show b.hit (nwd.writes ++ allWrites nws) = _
    rw [MTLD.hit_append, ih]
    rfl

theorem foldl_hit_perm {nws nws' : List NetworkD} (hp : nws.Perm nws') (hd : EndsDisjoint nws) :
    ∀ {b : MTLD n p}, b.m ≠ 0 ∨ (∀ w ∈ allWrites nws, w.bundle ≠ b.name) →
    nws.foldl (fun b nwd => b.hit nwd.writes) b = nws'.foldl (fun b nwd => b.hit nwd.writes) b := by
  have comm : ∀ {x y : NetworkD}, (∀ d ∈ x.nodes, ∀ d' ∈ y.nodes, d.end' ≠ d'.end') → ∀ {b : MTLD n p},
      (b.m ≠ 0 ∨ ∀ w ∈ x.writes, w.bundle ≠ b.name) → (b.hit x.writes).hit y.writes = (b.hit y.writes).hit x.writes := by
    intro x y hxy b hb
    apply hit_comm
    intro w hw w' hw' k j h1 h2
    rcases hb with hb | hb
    · have t1 : w.target ∈ x.nodes.map Node.end' := by rw [← NetworkD.writes_target]; exact List.mem_map_of_mem hw
      have t2 : w'.target ∈ y.nodes.map Node.end' := by rw [← NetworkD.writes_target]; exact List.mem_map_of_mem hw'
      obtain ⟨d, hd, e⟩ := List.mem_map.1 t1
      obtain ⟨d', hd', e'⟩ := List.mem_map.1 t2
      refine hxy d hd d' hd' ?_
      rw [e, e']
      obtain ⟨a1, a2, a3⟩ := h1
      obtain ⟨c1, c2, c3⟩ := h2
      have hs : w.target.side = w'.target.side := by
        rw [a2] at c2
        cases h3 : w.target.side <;> cases h4 : w'.target.side <;> rw [h3, h4] at c2 <;> simp [Side.node] at c2 ⊢
        · exact hb c2.symm
        · exact hb c2
      have hb' : w.target.bundle = w'.target.bundle := a1.symm.trans c1
      have hr' : w.target.row = w'.target.row := a3.symm.trans c3
      cases hw1 : w.target; cases hw2 : w'.target
      rw [hw1, hw2] at hs hb' hr'
      simp_all
    · exact hb w hw h1.1.symm
  induction hp with
  | nil => intro b _; rfl
  | cons x hp ih =>
    intro b hb
    simp only [List.foldl_cons]
    refine ih (List.pairwise_cons.1 hd).2 ?_
    obtain ⟨e1, e2⟩ := hit_name_m x.writes b
    rw [e1, e2]
    rcases hb with hb | hb
    · exact Or.inl hb
    · exact Or.inr fun w hw => hb w (List.mem_append_right _ hw)
  | swap x y l =>
    intro b hb
    simp only [List.foldl_cons]
    have hxy := (List.pairwise_cons.1 hd).1 x.nodes (by simp)
    congr 1
    refine comm hxy ?_
    rcases hb with hb | hb
    · exact Or.inl hb
    · exact Or.inr fun w hw => hb w (List.mem_append_left _ hw)
  | trans h1 h2 ih1 ih2 =>
    intro b hb
    rw [ih1 hd hb]
    refine ih2 ?_ ?_
    · unfold EndsDisjoint at *
      refine (h1.map NetworkD.nodes).pairwise hd ?_
      intro l l' h d hd d' hd' he
      exact h d' hd' d hd he.symm
    · rcases hb with hb | hb
      · exact Or.inl hb
      · refine Or.inr fun w hw => hb w ?_
        unfold allWrites at *
        simp only [List.mem_flatMap] at hw ⊢
        obtain ⟨x, hx, hw⟩ := hw
        exact ⟨x, h1.mem_iff.2 hx, hw⟩

/-! ## Managers -/

/-- The same manager with bundles and networks in another order. -/
structure MTLN.Reordered (M M' : MTLN p) : Prop where
  bundles : M.bundles.Perm M'.bundles
  networks : M.networks.Perm M'.networks
  dt : M'.dt = M.dt
  time : M'.time = M.time

theorem nodes_forAll {f : ∀ {N S}, Network N S → Py (Network N S)}
    (hf : ∀ {N S} {nw nw' : Network N S}, f nw = .ok nw' → nw'.nodes = nw.nodes) {nws nws' : List NetworkD}
    (h : mapPy (NetworkD.forAll f) nws = .ok nws') : nws'.map NetworkD.nodes = nws.map NetworkD.nodes := by
  induction nws generalizing nws' with
  | nil => simp only [mapPy, Except.ok.injEq] at h; subst h; rfl
  | cons x l ih =>
    simp only [mapPy, bind_ok_iff, Except.ok.injEq] at h
    obtain ⟨b, hb, l1, hl, rfl⟩ := h
    rw [List.map_cons, List.map_cons, ih hl]
    congr 1
    refine (flatMap_congr₂ ?_ (forAll_ok_iff.1 hb)).symm
    rintro e ⟨l, nw'⟩ ⟨-, h⟩
    obtain ⟨c, hc, rfl⟩ := onAny_ok_iff.1 h
    show List.ofFn e.2.2.2.nodes = List.ofFn c.nodes
    rw [hf hc]

theorem names_mapPy {f : ∀ {n}, MTLD n p → Py (MTLD n p)}
    (hf : ∀ {n} {b b' : MTLD n p}, f b = .ok b' → b'.name = b.name) {bs bs' : List (AnyBundle p)}
    (h : mapPy (onBundle f) bs = .ok bs') : names bs' = names bs := by
  induction bs generalizing bs' with
  | nil => simp only [mapPy, Except.ok.injEq] at h; subst h; rfl
  | cons x l ih =>
    simp only [mapPy, bind_ok_iff, Except.ok.injEq] at h
    obtain ⟨b, hb, l1, hl, rfl⟩ := h
    obtain ⟨c, hc, rfl⟩ := onBundle_ok_iff.1 hb
    have := ih hl
    unfold names at *
    rw [List.map_cons, List.map_cons, this]
    simp only [hf hc]

theorem disjoint_advance {time dt : ℝ} {nws nws' : List NetworkD}
    (h : mapPy (NetworkD.advanceVoltage time dt) nws = .ok nws') : EndsDisjoint nws' ↔ EndsDisjoint nws := by
  unfold EndsDisjoint
  rw [nodes_forAll (f := Network.advanceVoltage time dt) ?_ h]
  intro N S nw nw' h
  obtain ⟨v, X, rfl⟩ := advanceVoltage_rest h
  rfl

theorem disjoint_currents {bs : List (AnyBundle p)} {nws nws' : List NetworkD}
    (h : mapPy (NetworkD.updateCurrents bs) nws = .ok nws') : EndsDisjoint nws' ↔ EndsDisjoint nws := by
  unfold EndsDisjoint
  rw [nodes_forAll (f := Network.updateCurrents bs) ?_ h]
  intro N S nw nw' h
  obtain ⟨i', -, rfl⟩ := updateCurrents_ok_iff.1 h
  rfl

theorem disjoint_compute {dt : ℝ} {nws nws' : List NetworkD}
    (h : mapPy (NetworkD.computeVTerms dt) nws = .ok nws') : EndsDisjoint nws' ↔ EndsDisjoint nws := by
  unfold EndsDisjoint
  rw [nodes_forAll (f := Network.computeVTerms dt) ?_ h]
  intro N S nw nw' h
  obtain ⟨-, -, rfl⟩ := computeVTerms_ok_iff.1 h
  rfl

theorem MTLN.Reordered.step {M R M' : MTLN p} (hr : M.Reordered R) (hn : (names M.bundles).Nodup)
    (hd : EndsDisjoint M.networks) (h : M.step = .ok M') :
    ∃ R', R.step = .ok R' ∧ M'.Reordered R' ∧ (names M'.bundles).Nodup ∧ EndsDisjoint M'.networks := by
  obtain ⟨nws1, bs2, nws2, h1, h2, h3, h4, rfl⟩ := MTLN.step_ok_iff.1 h
  obtain ⟨rws1, g1, p1⟩ := mapPy_perm hr.networks h1
  have hd1 : EndsDisjoint nws1 := (disjoint_advance h1).2 hd
  have hn2 : (names bs2).Nodup := by rw [names_mapPy stepWith_name h3]; exact hn
  have hm : ∀ b ∈ M.bundles, b.2.m ≠ 0 ∨ ∀ w ∈ allWrites nws1, w.bundle ≠ b.2.name := by
    intro b hb
    by_contra hc
    push Not at hc
    obtain ⟨hc0, w, hw, hwb⟩ := hc
    obtain ⟨d, hdn, het⟩ := allWrites_mem hw
    have hname : d.bundleName = b.2.name := by
      rw [← hwb]
      exact congrArg End.bundle het
    simp only [allNodes, List.mem_flatMap] at hdn
    obtain ⟨nwd, hnwd, e, he, hdn⟩ := hdn
    obtain ⟨a, rfl⟩ := List.mem_ofFn.1 hdn
    have hread : ∃ x, readCurrent bs2 (e.2.2.2.nodes a) = .ok x := by
      obtain ⟨x, hx⟩ := List.getElem?_of_mem hnwd
      obtain ⟨nwd', -, hf⟩ := (mapPy_getElem? h4 x).2 _ hx
      obtain ⟨y, hy⟩ := List.getElem?_of_mem he
      obtain ⟨e', -, hf'⟩ := (mapPy_getElem? hf y).2 _ hy
      simp only [bind_ok_iff, onAny_ok_iff] at hf'
      obtain ⟨_, ⟨c, hc, -⟩, -⟩ := hf'
      obtain ⟨i', hi, -⟩ := updateCurrents_ok_iff.1 hc
      exact ⟨_, hi a⟩
    obtain ⟨x, hx⟩ := hread
    have hfind := (mapPy_onBundle_find (f := MTLD.stepWith M.time M.dt (allWrites nws1)) stepWith_name h3
      b.2.name).2 b ((findBundle_iff hn).2 ⟨hb, rfl⟩)
    obtain ⟨c, hc, hf⟩ := hfind
    obtain ⟨v, i, phi, ps, rfl⟩ := MTLD.stepWith_config hc
    unfold readCurrent at hx
    rw [hname, hf] at hx
    simp only [hc0, ne_eq, not_true_eq_false, and_false, dite_false] at hx
    simp at hx
  have hstep : ∀ b ∈ M.bundles, onBundle (MTLD.stepWith M.time M.dt (allWrites rws1)) b =
      onBundle (MTLD.stepWith M.time M.dt (allWrites nws1)) b := by
    intro b hb
    have : b.2.stepWith M.time M.dt (allWrites rws1) = b.2.stepWith M.time M.dt (allWrites nws1) := by
      simp only [MTLD.stepWith]
      cases hc : b.2.stepVoltage M.time M.dt with
      | error e => rfl
      | ok c =>
        obtain ⟨cg, -, rfl⟩ := MTLD.stepVoltage_ok_iff.1 hc
        have := foldl_hit_perm (p := p) p1 hd1
          (b := { b.2 with v := advanceVoltage b.2.m cg (b.2.sample M.time M.dt) b.2.v b.2.i }) (hm b hb)
        rw [← hit_allWrites, ← hit_allWrites] at this
        simp only [bind, Except.bind]
        rw [this]
    simp only [onBundle, this]
  obtain ⟨rbs, g3, p3⟩ := mapPy_perm hr.bundles h3
  rw [mapPy_congr (g := onBundle (MTLD.stepWith M.time M.dt (allWrites rws1)))
    (fun b hb => (hstep b (hr.bundles.mem_iff.2 hb)).symm)] at g3
  rw [← updateCurrents_perm hn2 p3] at h4
  obtain ⟨rws2, g4, p4⟩ := mapPy_perm p1 h4
  have hvalid : ∀ w ∈ allWrites rws1, w.Valid R.bundles := by
    intro w hw
    unfold Write.Valid
    rw [findBundle_perm hn hr.bundles]
    refine h2 w ?_
    unfold allWrites at *
    simp only [List.mem_flatMap] at hw ⊢
    obtain ⟨x, hx, hw⟩ := hw
    exact ⟨x, p1.mem_iff.2 hx, hw⟩
  refine ⟨_, MTLN.step_ok_iff.2 ⟨rws1, rbs, rws2, ?_, hvalid, ?_, g4, rfl⟩, ⟨p3, p4, hr.dt, ?_⟩, hn2, ?_⟩
  · rw [hr.time, hr.dt]; exact g1
  · rw [hr.time, hr.dt]; exact g3
  · show R.time + R.dt = M.time + M.dt
    rw [hr.time, hr.dt]
  · exact (disjoint_currents h4).2 hd1

theorem MTLN.Reordered.iterate : ∀ {k : ℕ} {M R M' : MTLN p}, M.Reordered R → (names M.bundles).Nodup →
    EndsDisjoint M.networks → iterPy MTLN.step k M = .ok M' →
    ∃ R', iterPy MTLN.step k R = .ok R' ∧ M'.Reordered R'
  | 0, M, R, M', hr, _, _, h => by
    simp only [iterPy, Except.ok.injEq] at h
    subst h
    exact ⟨R, rfl, hr⟩
  | k + 1, M, R, M', hr, hn, hd, h => by
    simp only [iterPy, bind_ok_iff] at h ⊢
    obtain ⟨N, h1, h2⟩ := h
    obtain ⟨R1, g1, r1, n1, d1⟩ := hr.step hn hd h1
    obtain ⟨R2, g2, r2⟩ := r1.iterate n1 d1 h2
    exact ⟨R2, ⟨R1, g1, g2⟩, r2⟩

end Mtln
