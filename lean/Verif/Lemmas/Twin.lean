import Verif.Lemmas.Single
import Verif.Lemmas.ManagerComb
import Verif.Lemmas.Fields
import Verif.Props.Tank

/-! # A line with resistive terminations, and the same line with networks at its ends -/

namespace Mtln

open Matrix

variable {n p S : ℕ}

/-- A network that does nothing but connect all conductors at one end of a bundle to ground, through resistances `R` and
sources `V`; `du` and `C` are the length and the capacitances of the cell at that end. -/
structure Network.Grounds (nw : Network n S) (name : String) (side : Side) (du : ℝ) (C : Mat n) (R : Fin n → ℝ)
    (V : Fin n → ℝ → ℝ) : Prop where
  bundle : ∀ a, (nw.nodes a).bundleName = name
  row : ∀ a, (nw.nodes a).lineIndex = a
  side : ∀ a, (nw.nodes a).side = side
  eT : ∀ a t, (nw.nodes a).eT t = 0
  cSize : nw.cSize = n
  dxc : nw.dxc = du • C
  P1 : ∀ x a, nw.P1.mulVec x a = -(x a / R a)
  src : ∀ t a, nw.Ps.mulVec (fun b => nw.vSources b t) a = V a t / R a
  Q1 : nw.Q1 = 0
  Qs : nw.Qs = 0
  O : nw.O = 0
  M : nw.M = 0
  N1 : nw.N1 = 0
  Ns : nw.Ns = 0

theorem Network.Grounds.sameCircuit {nw nw' : Network n S} {name : String} {side : Side} {du : ℝ} {C : Mat n}
    {R : Fin n → ℝ} {V : Fin n → ℝ → ℝ} (h : nw.Grounds name side du C R V) (hc : nw.SameCircuit nw')
    (h1 : nw'.cSize = nw.cSize) (h2 : nw'.c = nw.c) : nw'.Grounds name side du C R V := by
  constructor
  · rw [hc.nodes]; exact h.bundle
  · rw [hc.nodes]; exact h.row
  · rw [hc.nodes]; exact h.side
  · rw [hc.nodes]; exact h.eT
  · rw [h1]; exact h.cSize
  · rw [← h.dxc]; unfold Network.dxc; rw [hc.nodes, h2]
  · rw [hc.P1]; exact h.P1
  · rw [hc.Ps, hc.src]; exact h.src
  · rw [hc.Q1]; exact h.Q1
  · rw [hc.Qs]; exact h.Qs
  · rw [hc.O]; exact h.O
  · rw [hc.M]; exact h.M
  · rw [hc.N1]; exact h.N1
  · rw [hc.Ns]; exact h.Ns

section

variable {nw : Network n S} {name : String} {side : Side} {du dt : ℝ} {C : Mat n} {R : Fin n → ℝ} {V : Fin n → ℝ → ℝ}

/-- The system of the network is regular if that of the line terminal is. -/
theorem Network.Grounds.det (h : nw.Grounds name side du C R V) (hR : ∀ a, R a ≠ 0)
    (hd : (termF1 dt du (diagonal R) C 0).det ≠ 0) : (nw.system dt).det ≠ 0 := by
  apply det_ne_zero_of_injective
  intro x hx
  have hx' : x = Sum.elim (fun a => x (.inl a)) (fun a => x (.inr a)) := by funext y; cases y <;> rfl
  rw [hx'] at hx
  unfold Network.system at hx
  rw [fromBlocks_mulVec, h.Q1, h.O, h.N1, h.M] at hx
  simp only [Sum.elim_comp_inl, Sum.elim_comp_inr, smul_zero, sub_zero, neg_zero, zero_mulVec, add_zero, zero_add,
    one_mulVec] at hx
  have h2 : ∀ a, x (.inr a) = 0 := fun a => congrFun hx (.inr a)
  have h1 : ∀ a, (1 / dt) * (du * C.mulVec (fun a => x (.inl a)) a) + x (.inl a) / R a = 0 := by
    intro a
    have := congrFun hx (.inl a)
    simp only [Sum.elim_inl, sub_mulVec, smul_mulVec, Pi.sub_apply, Pi.smul_apply, h.P1, h.dxc, smul_eq_mul,
      Pi.zero_apply] at this
    linarith
  have h3 : (termF1 dt du (diagonal R) C 0).mulVec (fun a => x (.inl a)) = 0 := by
    funext a
    unfold termF1
    simp only [mul_zero, smul_zero, add_zero, add_mulVec, smul_mulVec, one_mulVec, Pi.add_apply, Pi.smul_apply,
      ← mulVec_mulVec, mulVec_diagonal, smul_eq_mul, Pi.zero_apply]
    have e := h1 a
    have hr := hR a
    have : R a * ((1 / dt) * (du * C.mulVec (fun a => x (.inl a)) a) + x (.inl a) / R a) = 0 := by rw [e, mul_zero]
    rw [mul_add, mul_div_cancel₀ _ hr] at this
    rw [← this]
    ring
  have h4 := Matrix.eq_zero_of_mulVec_eq_zero hd h3
  rw [hx']
  funext y
  cases y with
  | inl a => exact congrFun h4 a
  | inr a => exact h2 a

/-- The new voltages of the network are those of the line terminal. -/
theorem Network.Grounds.voltage (h : nw.Grounds name side du C R V) (hR : ∀ a, R a ≠ 0)
    (hd : (termF1 dt du (diagonal R) C 0).det ≠ 0) {time : ℝ} {v' : Fin n → ℝ} {X' : Fin S → ℝ}
    (hN : nw.NodeEquations time dt v' X') :
    v' = ((termF1 dt du (diagonal R) C 0)⁻¹ * termF2 dt du (diagonal R) C 0) *ᵥ nw.v
      + (termF1 dt du (diagonal R) C 0)⁻¹ *ᵥ (-((2 : ℝ) • diagonal R *ᵥ nw.i)
        + ((fun a => V a time) + fun a => V a (time - dt)) - (du / dt) • (diagonal R * C) *ᵥ 0) := by
  rw [terminal_update_iff hd]
  funext a
  have hN := congrFun hN a
  have hsum : (fun b => nw.vSources b time) + (fun b => nw.vSources b (time - dt)) =
      fun b => nw.vSources b time + nw.vSources b (time - dt) := rfl
  have he : ((fun a => (nw.nodes a).eT time) - fun a => (nw.nodes a).eT (time - dt)) = 0 := by
    funext a
    simp [h.eT]
  simp only [he, h.Q1, h.Qs, h.O, h.dxc, mulVec_add nw.Ps, zero_mulVec, mulVec_zero, smul_zero, Pi.add_apply, Pi.sub_apply,
    Pi.smul_apply, Pi.zero_apply, h.P1, h.src, smul_eq_mul, smul_mulVec, add_zero, sub_zero] at hN
  simp only [mulVec_zero, zero_mulVec, smul_zero, add_zero, Pi.add_apply, Pi.sub_apply, Pi.smul_apply, mulVec_diagonal,
    smul_eq_mul]
  have hr := hR a
  have : R a * (1 / dt * (du * C.mulVec (v' - nw.v) a)) =
      R a * (-((v' a + nw.v a) / R a) + (V a time / R a + V a (time - dt) / R a) - 2 * nw.i a) := by rw [hN]
  have e : R a * (-((v' a + nw.v a) / R a) + (V a time / R a + V a (time - dt) / R a) - 2 * nw.i a) =
      -(v' a + nw.v a) + (V a time + V a (time - dt)) - 2 * R a * nw.i a := by
    field_simp
  rw [e] at this
  have e2 : R a * (1 / dt * (du * C.mulVec (v' - nw.v) a)) = R a * (du / dt * C.mulVec (v' - nw.v) a) := by ring
  rw [e2] at this
  linarith

end

/-- A line and the parts of a manager with the same state. -/
structure Twin {S₁ S₂ : ℕ} (keep : Bool) (R₁ R₂ : Fin n → ℝ) (V₁ V₂ : Fin n → ℝ → ℝ) (name : String) (s : MTL n p) (time : ℝ)
    (b : MTLD n p) (w₁ : Network n S₁) (w₂ : Network n S₂) : Prop where
  cells : s.m ≠ 0
  zs : s.zs = diagonal R₁
  zl : s.zl = diagonal R₂
  gS : s.g 0 = 0
  gL : s.g s.m = 0
  sS : ∀ a t, s.vSources 0 a t = V₁ a t
  sL : ∀ a t, s.vSources s.m a t = V₂ a t
  eL : s.eL = fun _ _ _ => 0
  eT : s.eT = fun _ _ _ => 0
  term : s.TermConsistent
  bname : b.name = name
  bm : b.m = s.m
  bdun : b.dun = s.dun
  bq3phi : b.tz.q3phi = s.conn.q3phi
  bphi : b.tz.updatePhi = s.conn.updatePhi
  beL : b.eL = fun _ _ _ => 0
  beT : b.eT = fun _ _ _ => 0
  bprobes : b.probes = if keep then s.probes else []
  lr : b.lr = s.lr
  cg : b.cg = s.cg
  time : time = s.time
  v : b.v = s.v
  i : b.i = s.i
  phi : b.phi = s.phi
  g₁ : w₁.Grounds name .S (s.dun 0) (s.c 0) R₁ V₁
  g₂ : w₂.Grounds name .L (s.dun (s.m - 1)) (s.c s.m) R₂ V₂
  p₁ : w₁.Prepared s.dt
  p₂ : w₂.Prepared s.dt
  v₁ : w₁.v = s.v 0
  v₂ : w₂.v = s.v s.m
  i₁ : w₁.i = s.i 0
  i₂ : w₂.i = -s.i (s.m - 1)

theorem forAll_single {f : ∀ {N S}, Network N S → Py (Network N S)} {N S : ℕ} {nw nw' : Network N S} (h : f nw = .ok nw') :
    NetworkD.forAll f [(0, ⟨N, S, nw⟩)] = .ok [(0, ⟨N, S, nw'⟩)] := by
  simp [NetworkD.forAll, mapPy, onAny, h, bind, Except.bind]

/-- The manager made of the parts. -/
def twinManager {S₁ S₂ : ℕ} (b : MTLD n p) (w₁ : Network n S₁) (w₂ : Network n S₂) (time dt : ℝ) : MTLN p :=
  { bundles := [⟨n, b⟩], networks := [[(0, ⟨n, S₁, w₁⟩)], [(0, ⟨n, S₂, w₂⟩)]], time := time, dt := dt }

theorem Twin.step {keep : Bool} {S₁ S₂ : ℕ} {R₁ R₂ : Fin n → ℝ} {V₁ V₂ : Fin n → ℝ → ℝ} {name : String} {s s' : MTL n p} {time : ℝ}
    {b : MTLD n p} {w₁ : Network n S₁} {w₂ : Network n S₂} (h : Twin keep R₁ R₂ V₁ V₂ name s time b w₁ w₂)
    (hR₁ : ∀ a, R₁ a ≠ 0) (hR₂ : ∀ a, R₂ a ≠ 0) (hs : s.step = .ok s') :
    ∃ (b' : MTLD n p) (w₁' : Network n S₁) (w₂' : Network n S₂), (twinManager b w₁ w₂ time s.dt).step = .ok (twinManager b' w₁' w₂' (time + s.dt) s.dt) ∧
      s'.dt = s.dt ∧ Twin keep R₁ R₂ V₁ V₂ name s' (time + s.dt) b' w₁' w₂' := by
  obtain ⟨lr, cg, ps, hlr, hcg, hps, rfl⟩ := (step_ok_iff _ _).1 hs
  have hm0 : 0 < s.m := Nat.pos_of_ne_zero h.cells
  have d₁ : (termF1 s.dt (s.dun 0) (diagonal R₁) (s.c 0) 0).det ≠ 0 := by
    have := h.term.det_left; rwa [h.zs, h.gS] at this
  have d₂ : (termF1 s.dt (s.dun (s.m - 1)) (diagonal R₂) (s.c s.m) 0).det ≠ 0 := by
    have := h.term.det_right; rwa [h.zl, h.gL] at this
  obtain ⟨n₁, a₁⟩ := advance_exists (time := time) h.p₁ (h.g₁.det hR₁ d₁)
  obtain ⟨n₂, a₂⟩ := advance_exists (time := time) h.p₂ (h.g₂.det hR₂ d₂)
  obtain ⟨-, v₁, X₁, N₁, -, e₁⟩ := (advance_ok_iff h.p₁).1 a₁
  obtain ⟨-, v₂, X₂, N₂, -, e₂⟩ := (advance_ok_iff h.p₂).1 a₂
  set s₂ := s.advanceFields lr cg with hs₂
  have esmp : ∀ k, s.sample.eTNow k - s.sample.eTPrev k = 0 := by
    intro k; funext a; simp [MTL.sample, sampleSources, h.eT]
  have smp : s.sample.vNow 0 = (fun a => V₁ a s.time) ∧ s.sample.vPrev 0 = (fun a => V₁ a (s.time - s.dt)) ∧
      s.sample.vNow s.m = (fun a => V₂ a s.time) ∧ s.sample.vPrev s.m = fun a => V₂ a (s.time - s.dt) :=
    ⟨funext fun a => h.sS a _, funext fun a => h.sS a _, funext fun a => h.sL a _, funext fun a => h.sL a _⟩
  have q₁ : v₁ = s₂.v 0 := by
    rw [h.g₁.voltage hR₁ d₁ N₁, hs₂, advanceFields_v_left _ _ _ hm0, h.term.left1, h.term.left2, h.zs, h.gS, h.v₁, h.i₁,
      esmp, h.time, smp.1, smp.2.1]
  have q₂ : v₂ = s₂.v s.m := by
    rw [h.g₂.voltage hR₂ d₂ N₂, hs₂, advanceFields_v_right _ _ _ hm0, h.term.right1, h.term.right2, h.zl, h.gL, h.v₂, h.i₂,
      esmp, h.time, smp.2.2.1, smp.2.2.2, mulVec_neg, smul_neg, neg_neg]
  -- the bundle
  set nws : List NetworkD := [[(0, ⟨n, S₁, n₁⟩)], [(0, ⟨n, S₂, n₂⟩)]] with hnws
  have hws : allWrites nws = n₁.writes ++ n₂.writes := by simp [hnws, allWrites, NetworkD.writes]
  have g₁' : n₁.Grounds name .S (s.dun 0) (s.c 0) R₁ V₁ := by
    subst e₁; exact h.g₁.sameCircuit ⟨rfl, rfl, rfl, rfl, rfl, rfl, rfl, rfl, rfl, rfl⟩ rfl rfl
  have g₂' : n₂.Grounds name .L (s.dun (s.m - 1)) (s.c s.m) R₂ V₂ := by
    subst e₂; exact h.g₂.sameCircuit ⟨rfl, rfl, rfl, rfl, rfl, rfl, rfl, rfl, rfl, rfl⟩ rfl rfl
  have hv₁ : n₁.v = v₁ := by rw [e₁]
  have hv₂ : n₂.v = v₂ := by rw [e₂]
  have mem₁ : ∀ w ∈ n₁.writes, ∃ a : Fin n, w = ⟨name, a, .S, v₁ a⟩ := by
    intro w hw
    obtain ⟨a, rfl⟩ := List.mem_ofFn.1 hw
    exact ⟨a, by rw [g₁'.bundle, g₁'.row, g₁'.side, hv₁]⟩
  have mem₂ : ∀ w ∈ n₂.writes, ∃ a : Fin n, w = ⟨name, a, .L, v₂ a⟩ := by
    intro w hw
    obtain ⟨a, rfl⟩ := List.mem_ofFn.1 hw
    exact ⟨a, by rw [g₂'.bundle, g₂'.row, g₂'.side, hv₂]⟩
  have ex₁ : ∀ a : Fin n, (⟨name, a, .S, v₁ a⟩ : Write) ∈ n₁.writes := fun a =>
    List.mem_ofFn.2 ⟨a, by rw [g₁'.bundle, g₁'.row, g₁'.side, hv₁]⟩
  have ex₂ : ∀ a : Fin n, (⟨name, a, .L, v₂ a⟩ : Write) ∈ n₂.writes := fun a =>
    List.mem_ofFn.2 ⟨a, by rw [g₂'.bundle, g₂'.row, g₂'.side, hv₂]⟩
  have besmp : ∀ k, (b.sample time s.dt).eTNow k - (b.sample time s.dt).eTPrev k = 0 := by
    intro k; funext a; simp [MTLD.sample, sampleSources, h.beT]
  set bv : MTLD n p := { b with v := advanceVoltage b.m cg (b.sample time s.dt) b.v b.i } with hbv
  have hbvm : bv.m = s.m := h.bm
  have hv : (b.fieldsWith lr cg time s.dt (allWrites nws)).v = s₂.v := by
    rw [MTLD.fieldsWith_v, hws]
    funext k j
    by_cases k0 : k = 0
    · subst k0
      rw [← q₁]
      refine MTLD.hit_value ⟨_, List.mem_append_left _ (ex₁ j), h.bname, rfl, rfl⟩ ?_
      intro w hw hat
      rcases List.mem_append.1 hw with hw | hw
      · obtain ⟨a, rfl⟩ := mem₁ w hw
        obtain ⟨-, -, hj⟩ := hat
        rw [show j = a from Fin.ext hj]
      · obtain ⟨a, rfl⟩ := mem₂ w hw
        obtain ⟨-, hk, -⟩ := hat
        exact absurd (hk.symm.trans rfl) (by show ¬ b.m = 0; rw [h.bm]; exact h.cells)
    · by_cases km : k = s.m
      · subst km
        rw [← q₂]
        refine MTLD.hit_value ⟨_, List.mem_append_right _ (ex₂ j), h.bname, h.bm.symm, rfl⟩ ?_
        intro w hw hat
        rcases List.mem_append.1 hw with hw | hw
        · obtain ⟨a, rfl⟩ := mem₁ w hw
          obtain ⟨-, hk, -⟩ := hat
          exact absurd hk h.cells
        · obtain ⟨a, rfl⟩ := mem₂ w hw
          obtain ⟨-, -, hj⟩ := hat
          rw [show j = a from Fin.ext hj]
      · rw [MTLD.hit_other]
        · show advanceVoltage b.m cg (b.sample time s.dt) b.v b.i k j = _
          by_cases hk : k < s.m
          · rw [hs₂, advanceFields_v_interior _ _ _ _ (Nat.pos_of_ne_zero k0) hk, esmp]
            unfold advanceVoltage
            rw [if_pos ⟨Nat.pos_of_ne_zero k0, by rw [h.bm]; exact hk⟩, besmp, h.v, h.i]
          · rw [hs₂, advanceFields_v_beyond _ _ _ _ hm0 (by omega)]
            unfold advanceVoltage
            rw [if_neg (by rw [h.bm]; omega), h.v]
        · intro w hw hat
          rcases List.mem_append.1 hw with hw | hw
          · obtain ⟨a, rfl⟩ := mem₁ w hw
            exact k0 hat.2.1
          · obtain ⟨a, rfl⟩ := mem₂ w hw
            exact km (hat.2.1.trans h.bm)
  have hi : (b.fieldsWith lr cg time s.dt (allWrites nws)).i = s₂.i := by
    rw [MTLD.fieldsWith_i, hv]
    show _ = advanceCurrent s.m lr s.dun (s.conn.q3phi s.phi) s.sample s₂.v s.i
    rw [h.bm, h.bdun, h.bq3phi, h.phi, h.i]
    funext k
    unfold advanceCurrent
    simp only [MTLD.sample, MTL.sample, sampleSources, h.beL, h.beT, h.eL, h.eT]
  have hphi : (b.fieldsWith lr cg time s.dt (allWrites nws)).phi = s₂.phi := by
    rw [MTLD.fieldsWith_phi, hi, h.bphi, h.phi]
    rfl
  obtain ⟨b', hb'⟩ : ∃ b' : MTLD n p, b' = { b.fieldsWith lr cg time s.dt (allWrites nws) with probes := if keep then ps else [] } := ⟨_, rfl⟩
  have hbs : b.stepWith time s.dt (allWrites nws) = .ok b' := by
    rw [MTLD.stepWith_ok_iff]
    obtain ⟨hval, hps'⟩ := (updateProbes_ok_iff _ _ _ _ _ _).1 hps
    refine ⟨lr, cg, by rw [h.lr, hlr], by rw [h.cg, hcg], ?_, ?_⟩
    · rw [h.bprobes]
      cases keep
      · simp
      · simpa using hval
    · rw [hb', h.bprobes, hv, hi, h.bm, h.time]
      cases keep
      · rfl
      · rw [hps']
        rfl
  have hbi : b'.i = s₂.i := by rw [hb']; exact hi
  have hbname : b'.name = name := by rw [hb']; exact h.bname
  have hbm : b'.m = s.m := by rw [hb']; exact h.bm
  have hfind : findBundle [(⟨n, b'⟩ : AnyBundle p)] name = some ⟨n, b'⟩ := by simp [findBundle, hbname]
  -- the currents
  have c₁ : n₁.updateCurrents [(⟨n, b'⟩ : AnyBundle p)] = .ok { n₁ with i := s₂.i 0 } := by
    rw [updateCurrents_ok_iff]
    refine ⟨_, fun a => ?_, rfl⟩
    unfold readCurrent
    rw [g₁'.bundle, hfind]
    simp only [g₁'.row, g₁'.side]
    rw [dif_pos ⟨a.2, by rw [hbm]; exact h.cells⟩, hbi]
    simp [Side.factor, Side.cell]
  have c₂ : n₂.updateCurrents [(⟨n, b'⟩ : AnyBundle p)] = .ok { n₂ with i := -s₂.i (s.m - 1) } := by
    rw [updateCurrents_ok_iff]
    refine ⟨_, fun a => ?_, rfl⟩
    unfold readCurrent
    rw [g₂'.bundle, hfind]
    simp only [g₂'.row, g₂'.side]
    rw [dif_pos ⟨a.2, by rw [hbm]; exact h.cells⟩, hbi]
    simp [Side.factor, Side.cell, hbm]
  have hsc : s.SameConfig { s₂ with probes := ps } := by constructor <;> rfl
  obtain ⟨m₁, hm₁⟩ : ∃ m₁ : Network n S₁, m₁ = { n₁ with i := s₂.i 0 } := ⟨_, rfl⟩
  obtain ⟨m₂, hm₂⟩ : ∃ m₂ : Network n S₂, m₂ = { n₂ with i := -s₂.i (s.m - 1) } := ⟨_, rfl⟩
  rw [← hm₁] at c₁
  rw [← hm₂] at c₂
  refine ⟨b', m₁, m₂, MTLN.step_ok_iff.2 ⟨nws, [⟨n, b'⟩], [[(0, ⟨n, S₁, m₁⟩)], [(0, ⟨n, S₂, m₂⟩)]], ?_, ?_, ?_, ?_, rfl⟩,
    rfl, ?_⟩
  · have f₁ := forAll_single (f := Network.advanceVoltage time s.dt) a₁
    have f₂ := forAll_single (f := Network.advanceVoltage time s.dt) a₂
    simp only [twinManager, mapPy, NetworkD.advanceVoltage, f₁, f₂, bind, Except.bind, hnws]
  · intro w hw
    refine ⟨⟨n, b⟩, ?_, ?_⟩
    · have : w.bundle = name := by
        rw [hws] at hw
        rcases List.mem_append.1 hw with hw | hw
        · obtain ⟨a, rfl⟩ := mem₁ w hw; rfl
        · obtain ⟨a, rfl⟩ := mem₂ w hw; rfl
      rw [this]
      simp [findBundle, twinManager, h.bname]
    · rw [hws] at hw
      rcases List.mem_append.1 hw with hw | hw
      · obtain ⟨a, rfl⟩ := mem₁ w hw; exact a.2
      · obtain ⟨a, rfl⟩ := mem₂ w hw; exact a.2
  · simp [twinManager, mapPy, onBundle, hbs, bind, Except.bind]
  · have f₁ := forAll_single (f := Network.updateCurrents [(⟨n, b'⟩ : AnyBundle p)]) c₁
    have f₂ := forAll_single (f := Network.updateCurrents [(⟨n, b'⟩ : AnyBundle p)]) c₂
    rw [hnws]
    simp only [mapPy, NetworkD.updateCurrents, f₁, f₂, bind, Except.bind]
  · subst hm₁
    subst hm₂
    constructor
    · exact h.cells
    · exact h.zs
    · exact h.zl
    · exact h.gS
    · exact h.gL
    · exact h.sS
    · exact h.sL
    · exact h.eL
    · exact h.eT
    · exact hsc.termConsistent h.term
    · exact hbname
    · exact hbm
    · rw [hb']; exact h.bdun
    · rw [hb']; exact h.bq3phi
    · rw [hb']; exact h.bphi
    · rw [hb']; exact h.beL
    · rw [hb']; exact h.beT
    · rw [hb']
    · rw [hb']; exact h.lr
    · rw [hb']; exact h.cg
    · rw [h.time]; rfl
    · rw [hb']; exact hv
    · exact hbi
    · rw [hb']; exact hphi
    · exact g₁'.sameCircuit ⟨rfl, rfl, rfl, rfl, rfl, rfl, rfl, rfl, rfl, rfl⟩ rfl rfl
    · exact g₂'.sameCircuit ⟨rfl, rfl, rfl, rfl, rfl, rfl, rfl, rfl, rfl, rfl⟩ rfl rfl
    · obtain ⟨x1, x2, x3⟩ := Network.Prepared.iff.1 h.p₁
      rw [e₁]
      exact Network.Prepared.iff.2 ⟨x1, x2, x3⟩
    · obtain ⟨x1, x2, x3⟩ := Network.Prepared.iff.1 h.p₂
      rw [e₂]
      exact Network.Prepared.iff.2 ⟨x1, x2, x3⟩
    · rw [e₁]; exact q₁
    · rw [e₂]; exact q₂
    · rfl
    · rfl

theorem Twin.iterate {keep : Bool} {S₁ S₂ : ℕ} {R₁ R₂ : Fin n → ℝ} {V₁ V₂ : Fin n → ℝ → ℝ} {name : String} (hR₁ : ∀ a, R₁ a ≠ 0)
    (hR₂ : ∀ a, R₂ a ≠ 0) : ∀ {k : ℕ} {s s' : MTL n p} {time : ℝ} {b : MTLD n p} {w₁ : Network n S₁} {w₂ : Network n S₂},
    Twin keep R₁ R₂ V₁ V₂ name s time b w₁ w₂ → iterPy MTL.step k s = .ok s' →
    ∃ (b' : MTLD n p) (w₁' : Network n S₁) (w₂' : Network n S₂) (time' : ℝ),
      iterPy MTLN.step k (twinManager b w₁ w₂ time s.dt) = .ok (twinManager b' w₁' w₂' time' s.dt) ∧
      Twin keep R₁ R₂ V₁ V₂ name s' time' b' w₁' w₂'
  | 0, s, s', time, b, w₁, w₂, h, hs => by
    simp only [iterPy, Except.ok.injEq] at hs
    subst hs
    exact ⟨b, w₁, w₂, time, rfl, h⟩
  | k + 1, s, s', time, b, w₁, w₂, h, hs => by
    simp only [iterPy, bind_ok_iff] at hs ⊢
    obtain ⟨s₁, h₁, h₂⟩ := hs
    obtain ⟨b', w₁', w₂', g, e, t⟩ := h.step hR₁ hR₂ h₁
    obtain ⟨b'', w₁'', w₂'', time'', g', t'⟩ := Twin.iterate hR₁ hR₂ t h₂
    rw [e] at g'
    exact ⟨b'', w₁'', w₂'', time'', ⟨_, g, g'⟩, t'⟩

end Mtln
