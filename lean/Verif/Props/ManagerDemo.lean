import Verif.Lemmas.Single
import Verif.Props.Manager

/-! # A concrete manager: non-vacuity of C02, C44, C52, C59, C60; refutation of C60 and C64 -/

namespace Mtln

open Matrix

/-! ## The demo manager -/

/-- The network at the left end of the demo line: 1 Ω and 1 V to ground. -/
noncomputable def demoTerm : Network 1 0 :=
  { demoNet [] 0 with
    P1 := putEntry 0 0 0 (-1 / 1)
    vSources := Function.update (fun _ _ => 0) 0 fun _ => 1
    Ps := putEntry 0 0 0 (1 / 1) }

theorem demoTerm_connected : (demoNet [] 0).connectToGround 0 1 (some fun _ => 1) = .ok demoTerm := by
  unfold Network.connectToGround Network.assertNode
  rw [demoNet_find]
  simp [bind, Except.bind, raiseIf, demoTerm, demoNet, NetBuild.finish]

/-- The bundle of the demo line, with a probe at the left end. -/
noncomputable def demoOne : MTLD 1 0 :=
  { MTLD.single (demoBare 0) "demo" with
    probes := [{ type := "voltage", t := [], val := .empty, position := ![0, 0, 0], index := 0, dt := 1,
                 currentFrame := 0 }] }

/-- A line and a bundle with cells twice as long. -/
noncomputable def demoSlow : MTL 1 0 :=
  { demoBare 0 with
    name := "slow"
    u := fun k => (2 : ℝ) • (demoBare 0).u k
    du := fun k => (2 : ℝ) • (demoBare 0).du k
    dun := fun k => if k < 2 then 2 else 0
    dt := 2
    conn := Disp.new 2 }

theorem demo_q1sum (L : MTL 1 0) (k : ℕ) : (vSum L.conn.q1 k : Mat 1) = 0 := by
  ext a b
  unfold vSum QEntry.val poleSum
  simp

/-- The coefficients of the demo bundles exist. -/
theorem demo_single_terms (L : MTL 1 0) {d dt : ℝ} (hd : d ≠ 0) (hdt : 0 < dt) (hm : L.m = 2)
    (hdun : ∀ k < 2, L.dun k = d) (hl : L.l = fun _ => 1) (hc : L.c = fun _ => 1) (hr : L.r = fun _ => 0)
    (hg : L.g = fun _ => 0) (hD : L.conn.d = fun _ => 0) (hE : L.conn.e = fun _ => 0) :
    (∃ lr, updateLr L.m dt L.dun L.l L.r (MTLD.single L "x").tz = .ok lr) ∧
    ∃ cg, updateCg L.m dt L.dun L.c L.g = .ok cg := by
  constructor
  · refine ⟨_, updateLr_ok_iff.2 ⟨hdt.ne', ?_, rfl⟩⟩
    intro k hk
    rw [hm] at hk
    unfold lrF1
    rw [hdun k hk, hl, hr, show (MTLD.single L "x").tz.d = fun _ => 0 from hD,
      show (MTLD.single L "x").tz.e = fun _ => 0 from hE, show (MTLD.single L "x").tz.q1sum k = 0 from demo_q1sum L k]
    simp [hd, hdt.ne']
  · refine ⟨_, updateCg_ok_iff.2 ⟨hdt.ne', ?_, rfl⟩⟩
    intro k hk
    rw [hm] at hk ⊢
    have hn : nodalLength 2 L.dun k = d := by
      have h0 := hdun 0 (by norm_num)
      have h1 := hdun 1 (by norm_num)
      interval_cases k <;> simp [nodalLength, h0, h1]
      ring
    unfold cgF1
    rw [hn, hc, hg]
    simp [hd, hdt.ne']

theorem demoTerm_det {dt : ℝ} (hdt : 0 < dt) : (demoTerm.system dt).det ≠ 0 := by
  have hdx : demoTerm.dxc = 1 := demoNet_dxc [] 0
  apply det_ne_zero_of_injective
  intro x hx
  have e0 := congrFun hx (.inl 0)
  simp only [Network.system, mulVec, dotProduct, Fintype.sum_sum_type, Finset.univ_unique, Finset.univ_eq_empty,
    Finset.sum_empty, Fin.default_eq_zero, Finset.sum_singleton, fromBlocks_apply₁₁, Matrix.sub_apply,
    Matrix.smul_apply, hdx, Matrix.one_apply, smul_eq_mul, Pi.zero_apply] at e0
  simp only [demoTerm, demoNet, NetBuild.finish, putEntry, Matrix.of_apply, Matrix.zero_apply] at e0
  norm_num at e0
  have hpos : dt⁻¹ + 1 ≠ 0 := by positivity
  funext z
  rcases z with z | z
  · fin_cases z
    rcases e0 with e0 | e0
    · exact absurd e0 hpos
    · exact e0
  · exact z.elim0

/-- The demo manager. -/
noncomputable def demoManager : MTLN 0 := { bundles := [⟨1, demoOne⟩], networks := [[(0, ⟨1, 0, demoTerm⟩)]], dt := 1 }

theorem demoManager_new : MTLN.new [⟨1, demoOne⟩] [[(0, ⟨1, 0, demoTerm⟩)]] = .ok demoManager := by
  have h1 : MTLN.addBundle {} ⟨1, demoOne⟩ = .ok ({ bundles := [⟨1, demoOne⟩], dt := 1 } : MTLN 0) := by
    simp only [MTLN.addBundle, bind_ok_iff, pyAssert_ok_iff]
    refine ⟨(), by simp, ?_⟩
    have e : demoOne.dt = 1 := by norm_num [demoOne, MTLD.single, demoBare]
    simp only [List.nil_append, e]
    norm_num
  have h2 : MTLN.addNetwork ({ bundles := [⟨1, demoOne⟩], dt := 1 } : MTLN 0) [(0, ⟨1, 0, demoTerm⟩)] =
      .ok demoManager := by
    obtain ⟨M', hM', -⟩ := addNetwork_exists (M := ({ bundles := [⟨1, demoOne⟩], dt := 1 } : MTLN 0))
      (nwd := [(0, ⟨1, 0, demoTerm⟩)]) (by
        intro e he a
        obtain rfl := List.mem_singleton.1 he
        fin_cases a
        simp [findBundle, demoOne, MTLD.single, demoTerm, demoNet, NetBuild.finish, demoNode])
    have hn := C55_level_zero_partial (by simp) hM'
    rw [hM']
    simp only [MTLN.addNetwork, bind_ok_iff, Except.ok.injEq] at hM'
    obtain ⟨nw', -, rfl⟩ := hM'
    simp only at hn
    rw [hn]
    rfl
  unfold MTLN.new
  simp only [List.foldlM_cons, List.foldlM_nil, h1, h2, bind, Except.bind, pure, Except.pure]

theorem demoManager_startable : demoManager.Startable 0 := by
  have hdt : demoManager.runDt 0 = 1 := by rw [MTLN.runDt_eq, if_neg (by simp)]; rfl
  refine ⟨by rw [hdt]; norm_num, ?_, ?_, ?_⟩
  · intro b hb
    have : b = ⟨1, demoOne⟩ := by simpa [MTLN.overrideDt, demoManager] using hb
    subst this
    have e : demoOne.dt = 1 := by norm_num [demoOne, MTLD.single, demoBare]
    obtain ⟨h1, h2⟩ := demo_single_terms (demoBare 0) (d := 1) (dt := 1) one_ne_zero one_pos rfl
      (fun k hk => if_pos hk) rfl rfl rfl rfl rfl rfl
    refine ⟨?_, ?_, ?_⟩
    · simp only [e]; exact h1
    · simp only [e]; exact h2
    · intro q hq
      have : q ∈ demoOne.probes := hq
      simp only [demoOne, List.mem_singleton] at this
      subst this
      exact Or.inl rfl
  · intro nwd hnwd e he
    obtain rfl := List.mem_singleton.1 hnwd
    obtain rfl := List.mem_singleton.1 he
    rw [hdt]
    exact ⟨rfl, demoTerm_det one_pos⟩
  · intro d hd
    have : d = demoNode [] := by
      simpa [allNodes, demoManager, demoTerm, demoNet, NetBuild.finish, demoNode] using hd
    subst this
    exact ⟨⟨1, demoOne⟩, by simp [findBundle, demoManager, demoOne, MTLD.single, demoNode], by simp [demoNode], by
      show (2 : ℕ) ≠ 0; norm_num⟩

/-- Non-vacuity of C02 and C44: the demo manager comes from the constructor, runs for any time, and the right end of its
bundle is not connected. -/
example (T : ℝ) : ∃ (M M' : MTLN 0) (b : MTLD 1 0), MTLN.new [⟨1, b⟩] [[(0, ⟨1, 0, demoTerm⟩)]] = .ok M ∧
    M.runUntil T 0 = .ok M' ∧ M.bundles[0]? = some ⟨1, b⟩ ∧ b.probes ≠ [] ∧
    ∀ nwd ∈ M.networks, ∀ e ∈ nwd, ∀ a, ¬ ((e.2.2.2.nodes a).bundleName = b.name ∧
      (e.2.2.2.nodes a).side.node b.m = Side.L.node b.m ∧ (e.2.2.2.nodes a).lineIndex = (0 : Fin 1)) := by
  obtain ⟨M', hM'⟩ := demoManager_startable.run T
  refine ⟨_, M', demoOne, demoManager_new, hM', rfl, by simp [demoOne], ?_⟩
  intro nwd hnwd e he a
  obtain rfl := List.mem_singleton.1 hnwd
  obtain rfl := List.mem_singleton.1 he
  rintro ⟨-, h, -⟩
  have : (0 : ℕ) = 2 := by
    fin_cases a
    exact h
  omega

/-- Non-vacuity of C52: the network of the demo manager writes to and reads from its bundle. -/
example : (∃ bs', demoTerm.updateVoltages demoManager.bundles = .ok bs') ∧
    (∃ nw', demoTerm.updateCurrents demoManager.bundles = .ok nw') ∧ (demoTerm.nodes 0).end'.At demoOne 0 0 ∧
    ∀ a', (demoTerm.nodes a').end'.At demoOne 0 0 → a' = 0 := by
  have hf : findBundle demoManager.bundles "demo" = some ⟨1, demoOne⟩ := by
    simp [findBundle, demoManager, demoOne, MTLD.single]
  refine ⟨(C52_succeeds_iff _ _).2 fun a => ⟨⟨1, demoOne⟩, ?_, ?_⟩, ?_, ⟨rfl, rfl, rfl⟩,
    fun a' _ => Subsingleton.elim _ _⟩
  · fin_cases a; exact hf
  · fin_cases a; exact Nat.one_pos
  · obtain ⟨nw', h⟩ : ∃ nw', nw' = { demoTerm with i := fun a : Fin 1 => demoOne.i 0 a } := ⟨_, rfl⟩
    refine ⟨nw', (C52_currents _ _ _).2 ⟨_, h, fun a => ⟨1, demoOne, ?_, ?_, ?_, ?_⟩⟩⟩
    · fin_cases a; exact Nat.one_pos
    · fin_cases a; exact hf
    · show (2 : ℕ) ≠ 0; norm_num
    · fin_cases a; rfl

/-- Non-vacuity of C59: bundles with two different names, and with twice the same. -/
example : (∃ M', [⟨1, demoOne⟩, ⟨1, MTLD.single demoSlow "slow"⟩].foldlM MTLN.addBundle ({} : MTLN 0) = .ok M') ∧
    demoManager.addBundle ⟨1, demoOne⟩ = .error .AssertionError := by
  constructor
  · refine ⟨{ bundles := [⟨1, demoOne⟩, ⟨1, MTLD.single demoSlow "slow"⟩], dt := 1 }, ?_⟩
    refine (C59_add_bundles _ _ _ (by simp)).2 ⟨by simp [demoOne, MTLD.single], rfl, rfl, rfl, ?_⟩
    have e1 : demoOne.dt = 1 := by norm_num [demoOne, MTLD.single, demoBare]
    have e2 : (MTLD.single demoSlow "slow").dt = 2 := by norm_num [MTLD.single, demoSlow]
    constructor
    · right; exact ⟨_, List.mem_cons_self .., e1.symm⟩
    · rintro t (h | ⟨b, hb, rfl⟩)
      · rw [Set.mem_singleton_iff] at h; subst h; norm_num
      · simp only [List.mem_cons, List.not_mem_nil, or_false] at hb
        rcases hb with rfl | rfl
        · exact e1.ge
        · simp only [e2]; norm_num
  · exact (C59_duplicate _ _).1.2 ⟨_, List.mem_cons_self .., rfl⟩

/-! ## C60 -/

/-- **C60** is false: in a manager with two bundles, whose own time steps are 1 and 2, a run without explicit time step
advances time by 1 but uses coefficients computed with 2 in the second bundle. -/
theorem C60_refuted : ∃ (M M0 : MTLN 0) (k : ℕ) (b0 : MTLD 1 0) (lr : LR 1),
    MTLN.new [⟨1, MTLD.single (demoBare 0) "demo"⟩, ⟨1, MTLD.single demoSlow "slow"⟩] [] = .ok M ∧
    M.start 1 0 = .ok (k, M0) ∧ M0.dt = 1 ∧ M0.bundles[1]? = some ⟨1, b0⟩ ∧ b0.lr = some lr ∧
    updateLr b0.m 2 b0.dun b0.l b0.r b0.tz = .ok lr ∧ updateLr b0.m M0.dt b0.dun b0.l b0.r b0.tz ≠ .ok lr := by
  have e1 : (MTLD.single (demoBare 0) "demo").dt = 1 := by norm_num [MTLD.single, demoBare]
  have e2 : (MTLD.single demoSlow "slow").dt = 2 := by norm_num [MTLD.single, demoSlow]
  obtain ⟨M, hM⟩ : ∃ M : MTLN 0, M =
      { bundles := [⟨1, MTLD.single (demoBare 0) "demo"⟩, ⟨1, MTLD.single demoSlow "slow"⟩], dt := 1 } := ⟨_, rfl⟩
  have hnew : MTLN.new [⟨1, MTLD.single (demoBare 0) "demo"⟩, ⟨1, MTLD.single demoSlow "slow"⟩] [] = .ok M := by
    unfold MTLN.new
    simp only [bind_ok_iff, List.foldlM_nil, pure, Except.pure]
    refine ⟨M, (C59_add_bundles _ _ _ (by simp)).2 ⟨by simp [MTLD.single], by rw [hM]; rfl, by rw [hM], by rw [hM], ?_⟩,
      rfl⟩
    rw [hM]
    constructor
    · right; exact ⟨_, List.mem_cons_self .., e1.symm⟩
    · rintro t (h | ⟨b, hb, rfl⟩)
      · rw [Set.mem_singleton_iff] at h; subst h; norm_num
      · simp only [List.mem_cons, List.not_mem_nil, or_false] at hb
        rcases hb with rfl | rfl
        · exact e1.ge
        · simp only [e2]; norm_num
  have hs : M.Startable 0 := by
    have hdt : M.runDt 0 = 1 := by rw [MTLN.runDt_eq, if_neg (by simp), hM]
    refine ⟨by rw [hdt]; norm_num, ?_, ?_, ?_⟩
    · intro b hb
      have : b = ⟨1, MTLD.single (demoBare 0) "demo"⟩ ∨ b = ⟨1, MTLD.single demoSlow "slow"⟩ := by
        simpa [MTLN.overrideDt, hM] using hb
      rcases this with rfl | rfl
      · obtain ⟨h1, h2⟩ := demo_single_terms (demoBare 0) (d := 1) (dt := 1) one_ne_zero one_pos rfl
          (fun k hk => if_pos hk) rfl rfl rfl rfl rfl rfl
        refine ⟨?_, ?_, by simp [MTLD.single]⟩
        · simp only [e1]; exact h1
        · simp only [e1]; exact h2
      · obtain ⟨h1, h2⟩ := demo_single_terms demoSlow (d := 2) (dt := 2) two_ne_zero two_pos rfl
          (fun k hk => if_pos hk) rfl rfl rfl rfl rfl rfl
        refine ⟨?_, ?_, by simp [MTLD.single]⟩
        · simp only [e2]; exact h1
        · simp only [e2]; exact h2
    · rw [hM]; simp
    · rw [hM]; simp [allNodes]
  obtain ⟨k, M0, h0, -⟩ := hs.start 1
  obtain ⟨hd, b0, hb0, hbdt, lr, cg, hlr, -, hu, -⟩ := C60_default_dt_partial M M0 1 k h0 1
    (MTLD.single demoSlow "slow") (by rw [hM]; rfl)
  obtain ⟨lr', cg', hb0', h3, h4⟩ := MTLN.start_bundle (n := 1) (x := 1) (b := MTLD.single demoSlow "slow") h0
    (by rw [hM]; rfl)
  rw [hb0] at hb0'
  simp only [Option.some.injEq, Sigma.mk.injEq, heq_eq_eq, true_and] at hb0'
  have hdt1 : M0.dt = 1 := by rw [hd, hM]
  refine ⟨M, M0, k, b0, lr, hnew, h0, hdt1, hb0, hlr, ?_, ?_⟩
  · rw [hb0']
    rw [e2] at hu
    exact hu
  · intro hc
    rw [hdt1, hb0'] at hc
    rw [e2] at hu
    have v1 := (updateLr_ok_iff.1 hu).2.2
    have v2 := (updateLr_ok_iff.1 hc).2.2
    rw [v1] at v2
    have v3 := congrFun (congrArg LR.vDiff v2) 0
    have key : ∀ dt : ℝ, lrF1 dt (MTLD.single demoSlow "slow").dun (MTLD.single demoSlow "slow").l
        (MTLD.single demoSlow "slow").r (MTLD.single demoSlow "slow").tz 0 = (2 * (1 / dt)) • (1 : Mat 1) := by
      intro dt
      unfold lrF1
      rw [show (MTLD.single demoSlow "slow").dun 0 = 2 from rfl, show (MTLD.single demoSlow "slow").l 0 = 1 from rfl,
        show (MTLD.single demoSlow "slow").r 0 = 0 from rfl, show (MTLD.single demoSlow "slow").tz.d 0 = 0 from rfl,
        show (MTLD.single demoSlow "slow").tz.e 0 = 0 from rfl,
        show (MTLD.single demoSlow "slow").tz.q1sum 0 = 0 from demo_q1sum demoSlow 0]
      simp [smul_smul]
    have v4 : (lrF1 2 (MTLD.single demoSlow "slow").dun (MTLD.single demoSlow "slow").l
        (MTLD.single demoSlow "slow").r (MTLD.single demoSlow "slow").tz 0)⁻¹ =
      (lrF1 1 (MTLD.single demoSlow "slow").dun (MTLD.single demoSlow "slow").l
        (MTLD.single demoSlow "slow").r (MTLD.single demoSlow "slow").tz 0)⁻¹ := v3
    rw [key, key] at v4
    have v5 := congrArg Matrix.det v4
    simp only [Matrix.det_nonsing_inv, Matrix.det_fin_one, Matrix.smul_apply, Matrix.one_apply_eq, smul_eq_mul] at v5
    norm_num at v5

/-- Non-vacuity of C60: a run of the demo manager with an explicit time step. -/
example : ∃ (k : ℕ) (M0 : MTLN 0), demoManager.start 1 (1 / 2) = .ok (k, M0) ∧
    demoManager.bundles[0]? = some ⟨1, demoOne⟩ := by
  have hs : demoManager.Startable (1 / 2) := by
    have hdt : demoManager.runDt (1 / 2) = 1 / 2 := by rw [MTLN.runDt_eq, if_pos (by norm_num)]
    refine ⟨by rw [hdt]; norm_num, ?_, ?_, demoManager_startable.nodes⟩
    · intro b hb
      have : b = ⟨1, demoOne.withDt (1 / 2)⟩ := by
        unfold MTLN.overrideDt at hb
        rw [if_pos (by norm_num)] at hb
        simpa [demoManager] using hb
      subst this
      obtain ⟨h1, h2⟩ := demo_single_terms (demoBare 0) (d := 1) (dt := 1 / 2) one_ne_zero (by norm_num) rfl
        (fun k hk => if_pos hk) rfl rfl rfl rfl rfl rfl
      refine ⟨h1, h2, ?_⟩
      intro q hq
      have : q ∈ demoOne.probes := hq
      simp only [demoOne, List.mem_singleton] at this
      subst this
      exact Or.inl rfl
    · intro nwd hnwd e he
      obtain rfl := List.mem_singleton.1 hnwd
      obtain rfl := List.mem_singleton.1 he
      rw [hdt]
      exact ⟨rfl, demoTerm_det (by norm_num)⟩
  obtain ⟨k, M0, h0, -⟩ := hs.start 1
  exact ⟨k, M0, h0, rfl⟩

/-! ## C64 -/

/-- **C64**, what is true: a network does not depend on the conductances of the lines at all. -/
theorem C64_no_conductance_partial {p : ℕ} (l : List (LineConnections p)) (G : ∀ {n}, MTL n p → ℕ → Mat n) :
    Network.new (l.map fun d => { d with line := ⟨d.line.1, { d.line.2 with g := G d.line.2 }⟩ }) = Network.new l := by
  unfold Network.new
  rw [List.foldlM_map]
  rfl

/-- The demo line with conductance. -/
noncomputable def demoLossy : MTL 1 0 := { demoBare 0 with g := fun _ => 1 }

/-- **C64** is false: with 1 S/m on a line ending in 1 Ω and 1 V, a network at rest takes a step after which the charging
current and the current in the conductance of the half cell at the line end, twice, are not the sum of the currents that
come from the source. -/
theorem C64_refuted : ∃ nw nw' : Network 1 0,
    (do
      let nw ← Network.new [{ line := ⟨1, demoLossy⟩, side := "S", bundleName := "demo", connections :=
        [{ id := 0, conductor := 0, connector := { connectorType := "Conn_R" } }] }]
      let nw ← onAny (fun nw => nw.connectToGround 0 1 (some fun _ => 1)) nw
      onAny (Network.computeVTerms 1) nw) = .ok ⟨1, 0, nw⟩ ∧
    nw.advanceVoltage 0 1 = .ok nw' ∧ nw.v = 0 ∧ nw.i = 0 ∧
    demoLossy.dun 0 * (demoLossy.c 0 0 0 * (nw'.v 0 - nw.v 0) / 1) = (1 - nw'.v 0) / 1 + (1 - nw.v 0) / 1 ∧
    demoLossy.dun 0 * (demoLossy.c 0 0 0 * (nw'.v 0 - nw.v 0) / 1 + demoLossy.g 0 0 0 * (nw'.v 0 + nw.v 0) / 2) ≠
      (1 - nw'.v 0) / 1 + (1 - nw.v 0) / 1 := by
  have h1 : Network.new [{ line := ⟨1, demoLossy⟩, side := "S", bundleName := "demo", connections :=
        [{ id := 0, conductor := 0, connector := { connectorType := "Conn_R" } }] }] = .ok ⟨1, 0, demoNet [] 0⟩ := by
    rw [← demoRes_new, ← C64_no_conductance_partial (demoEnd "Conn_R") (fun _ _ => 1)]
    rfl
  obtain ⟨nw, hnw⟩ : ∃ nw, demoTerm.computeVTerms 1 = .ok nw := by
    rw [show (∃ nw, demoTerm.computeVTerms 1 = .ok nw) ↔ _ from exists_congr fun nw => computeVTerms_ok_iff]
    exact ⟨_, rfl, one_ne_zero, rfl⟩
  have hp := computeVTerms_prepared hnw
  obtain ⟨-, -, e⟩ := computeVTerms_ok_iff.1 hnw
  obtain ⟨nw', h'⟩ := advance_exists (time := 0) hp (by rw [e]; exact demoTerm_det one_pos)
  have hdx : nw.dxc = 1 := by rw [e]; exact demoNet_dxc [] 0
  obtain ⟨-, v', X', hN, -, e'⟩ := (advance_ok_iff hp).1 h'
  have e0 := congrFun hN 0
  have hv : nw.v = 0 := by rw [e]; rfl
  have hi : nw.i = 0 := by rw [e]; rfl
  have heT : ∀ t, (nw.nodes 0).eT t = 0 := by intro t; rw [e]; rfl
  refine ⟨nw, nw', ?_, h', hv, hi, ?_⟩
  · rw [h1]
    simp only [bind_ok_iff, onAny, Except.ok.injEq]
    exact ⟨_, rfl, _, ⟨demoTerm, demoTerm_connected, rfl⟩, nw, hnw, rfl⟩
  have hP : nw.P1 0 0 = -1 := by rw [e]; simp [demoTerm, putEntry]
  have hPs : nw.Ps 0 0 = 1 := by rw [e]; simp [demoTerm, putEntry]
  have hQ : nw.Q1 0 0 = 0 := by rw [e]; rfl
  have hQs : nw.Qs 0 0 = 0 := by rw [e]; rfl
  have hs : ∀ t, nw.vSources 0 t = 1 := by intro t; rw [e]; simp [demoTerm]
  simp [hdx, mulVec, dotProduct, hP, hPs, hQ, hQs, hv, hi, heT, hs] at e0
  have hd : demoLossy.dun 0 = 1 := rfl
  have hc : demoLossy.c 0 0 0 = 1 := rfl
  have hg : demoLossy.g 0 0 0 = 1 := rfl
  rw [hd, hc, hg, hv, e']
  simp only [Pi.zero_apply]
  constructor
  · linarith
  · intro hcon
    linarith

end Mtln
