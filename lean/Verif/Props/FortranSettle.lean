import Verif.Props.Fortran
import Verif.Lemmas.Physical
import Mathlib.LinearAlgebra.Matrix.Charpoly.Coeff

/-!
# C145: what the Fortran solvers tend to
-/

namespace Mtln

namespace Fortran

open Matrix

variable {n : ℕ}

/-- The circuit for direct current of a line of `zSteps` cells: the resistances and conductances of the cells, the source of 25 V
behind the resistances `R` at the beginning, and `R` at the end. -/
structure Circuit (zSteps : ℕ) (r g R : Mat n) (V I : Grid n) : Prop where
  cell : ∀ k < zSteps, V (k + 1) - V k = -(deltaZ • (r *ᵥ I k))
  node : ∀ k, 0 < k → k < zSteps → I k - I (k - 1) = -(deltaZ • (g *ᵥ V k))
  first : V 0 = (fun _ => 25) - R *ᵥ (I 0 + (deltaZ / 2) • (g *ᵥ V 0))
  last : V zSteps = R *ᵥ (I (zSteps - 1) - (deltaZ / 2) • (g *ᵥ V zSteps))

/-- The Python line with the data of the Fortran solver. -/
noncomputable def asLine (zSteps : ℕ) (dT : ℝ) (l c r g R : Mat n) : MTL n 0 where
  name := "fortran"
  m := zSteps
  u := fun k => ![0, 0, k * deltaZ]
  du := fun _ => ![0, 0, deltaZ]
  dun := fun _ => deltaZ
  l := fun _ => l
  c := fun _ => c
  r := fun _ => r
  g := fun _ => g
  zs := R
  zl := R
  dt := dT
  time := 0
  v := fun _ => 0
  i := fun _ => 0
  phi := fun _ _ => 0
  probes := []
  conn := Disp.new dT
  vSources := fun k _ _ => if k = 0 then 25 else 0
  eL := fun _ _ _ => 0
  eT := fun _ _ _ => 0
  left1 := (termF1 dT deltaZ R c g)⁻¹ * termF2 dT deltaZ R c g
  left2 := (termF1 dT deltaZ R c g)⁻¹
  right1 := (termF1 dT deltaZ R c g)⁻¹ * termF2 dT deltaZ R c g
  right2 := (termF1 dT deltaZ R c g)⁻¹
  lr := none
  cg := none

theorem absorbing_diag {d : Fin n → ℝ} (h : ∀ i, 0 < d i) : Absorbing (Matrix.diagonal d) := by
  intro x hx
  obtain ⟨a, ha⟩ := Function.ne_iff.1 hx
  simp only [dotProduct, mulVec_diagonal]
  have e : ∀ i : Fin n, x i * (d i * x i) = d i * x i ^ 2 := fun i => by ring
  simp only [e]
  refine Finset.sum_pos' (fun i _ => mul_nonneg (h i).le (sq_nonneg _)) ⟨a, Finset.mem_univ _, ?_⟩
  exact mul_pos (h a) (lt_of_le_of_ne (sq_nonneg _) (Ne.symm (pow_ne_zero 2 ha)))

theorem SPD.diag_pos {A : Mat n} (h : SPD A) (i : Fin n) : 0 < A i i := by
  have := h.pos (Pi.single i 1) (by simp)
  simpa using this

theorem terminals_pos {l c : Mat n} (hl : SPD l) (hc : SPD c) : ∀ i, 0 < Real.sqrt (l i i / c i i) := fun i =>
  Real.sqrt_pos.2 (div_pos (SPD.diag_pos hl i) (SPD.diag_pos hc i))

theorem terminals_dissipative (l c : Mat n) : Dissipative (terminals l c) := by
  intro x
  unfold terminals
  simp only [dotProduct, mulVec_diagonal]
  refine Finset.sum_nonneg fun i _ => ?_
  have := Real.sqrt_nonneg (l i i / c i i)
  nlinarith [mul_nonneg this (sq_nonneg (x i))]

/-- The time step of `get_max_timestep` for the cells of the Fortran solver is larger than `0.95 * deltaZ / W` if all squares of
phase velocities are less than `W ^ 2 / 0.95 ^ 2`. -/
theorem step_below {zSteps : ℕ} {l c : Mat n} {W : ℝ} (hn : 0 < n) (hz : 0 < zSteps) (hW0 : 0 < W)
    (hx : ∀ x ∈ eigRe (l * c), 0.95 ^ 2 < W ^ 2 * x) :
    ∃ d, maxTimestep zSteps (fun _ => deltaZ) (fun _ => l) (fun _ => c) = .ok d ∧ 0.95 * deltaZ / W < d := by
  have hdz := deltaZ_pos
  have pos : ∀ x ∈ eigRe (l * c), 0 < x := by
    intro x h
    have := hx x h
    by_contra h'
    push Not at h'
    nlinarith [sq_nonneg W, mul_nonneg (sq_nonneg W) (neg_nonneg.2 h')]
  obtain ⟨d, hd⟩ : ∃ d, maxTimestep zSteps (fun _ => deltaZ) (fun _ => l) (fun _ => c) = .ok d := by
    unfold maxTimestep
    rw [if_neg, if_neg]
    · exact ⟨_, rfl⟩
    · rintro ⟨k, -, x, h, h'⟩
      exact absurd (pos x h) (not_lt.2 h')
    · rintro (h | h)
      · omega
      · exact hdz.ne' (h 0 hz)
  refine ⟨d, hd, ?_⟩
  obtain ⟨hd0, -, -, k, -, -, k', -, w, ⟨x, h, rfl⟩, e⟩ := maxTimestep_spec hd fun _ _ => hdz.le
  have hs := Real.sqrt_pos.2 (pos x h)
  have e' : d = deltaZ * Real.sqrt x := by
    field_simp at e
    linarith
  rw [e', div_lt_iff₀ hW0]
  have h2 : 0.95 < W * Real.sqrt x := by
    have h3 : (0.95 : ℝ) ^ 2 < (W * Real.sqrt x) ^ 2 := by
      rw [mul_pow, Real.sq_sqrt (pos x h).le]
      exact hx x h
    exact lt_of_pow_lt_pow_left₀ 2 (by positivity) h3
  nlinarith

/-- **C145** For physical data, and phase velocities below `W / 0.95` where `W` is the largest velocity of a conductor by itself
that the solver has seen, the arrays tend to the solution of the circuit for direct current. -/
theorem C145_settles_partial {zSteps : ℕ} {l c r g : Mat n} {saved : Saved} {W : ℝ} (hn : 0 < n) (hz : 0 < zSteps) (hl : SPD l)
    (hc : SPD c) (hr : Dissipative r) (hg : Dissipative g)
    (hW : IsGreatest (insert saved.maxVLosses (Set.range (velocity l c))) W) (hx : ∀ x ∈ eigRe (l * c), 0.95 ^ 2 < W ^ 2 * x) :
    ∃ V I, Circuit zSteps r g (terminals l c) V I ∧ ∀ ε > 0, ∃ J, ∀ j ≥ J, ∃ x,
      nConductorsLosses zSteps j l c r g saved = .ok (x, { saved with maxVLosses := W }) ∧
      (∀ k ≤ zSteps, ∀ a, |x.v k a - V k a| ≤ ε) ∧ ∀ k < zSteps, ∀ a, |x.i k a - I k a| ≤ ε := by
  have hdz := deltaZ_pos
  have hlc : ∀ i, 0 < l i i * c i i := fun i => mul_pos (SPD.diag_pos hl i) (SPD.diag_pos hc i)
  have hW0 : 0 < W := lt_of_lt_of_le (velocity_pos (hlc ⟨0, hn⟩)) (hW.2 (Or.inr ⟨_, rfl⟩))
  obtain ⟨d, hd, hlt⟩ := step_below hn hz hW0 hx
  obtain ⟨dT, hdT⟩ : ∃ dT : ℝ, dT = 0.95 * deltaZ / W := ⟨_, rfl⟩
  have hdT0 : 0 < dT := by rw [hdT]; positivity
  rw [← hdT] at hlt
  have hz' : (zSteps : ℝ) ≠ 0 := by exact_mod_cast hz.ne'
  have hR := terminals_dissipative l c
  have hA : Absorbing (terminals l c) := absorbing_diag (terminals_pos hl hc)
  have hdet := termF1_det_ne hdT0 hdz.le hR hc hg
  obtain ⟨s, hs⟩ : ∃ s, s = asLine zSteps dT l c r g (terminals l c) := ⟨_, rfl⟩
  have hU : s.Uniform (zSteps * deltaZ) l c r g (terminals l c) (terminals l c) (fun _ _ => 25) fun _ _ => 0 := by
    subst hs
    refine ⟨hz, hdT0, fun k _ => ?_, fun _ _ => rfl, fun _ _ => rfl, fun _ _ => rfl, fun _ _ => rfl, ⟨_, rfl⟩, rfl, rfl,
      fun _ _ => rfl, fun _ _ => if_neg hz.ne', fun _ _ _ => rfl, fun _ _ _ => rfl⟩
    show deltaZ = zSteps * deltaZ / zSteps
    field_simp
  have ht : s.TermFor s.dt := by
    subst hs
    exact ⟨hdet, hdet, rfl, rfl, rfl, rfl⟩
  have hrest : s.AtRest := by
    subst hs
    exact ⟨fun _ => rfl, fun _ => rfl, fun _ _ => rfl⟩
  have hp : s.Passive := by
    subst hs
    exact ⟨hz, hdT0, fun _ _ => hdz.le, fun _ _ => by simpa [asLine, Disp.new] using hl.symm, fun _ _ => hc.symm,
      fun _ _ => by simpa [asLine, Disp.new] using hr, fun _ _ => hg, hR, hR, fun _ _ => rfl, fun _ _ => rfl, fun _ _ _ _ => rfl⟩
  have hreg : s.Regular c := by
    subst hs
    exact ⟨fun _ _ => rfl, hc, fun _ _ => hl, fun _ _ => by simpa [asLine, Disp.new] using dissipative_zero, fun _ _ => hdz⟩
  have eR : s.zs = terminals l c ∧ s.zl = terminals l c ∧ s.m = zSteps ∧ s.dt = dT ∧ s.probes = [] := by
    subst hs
    exact ⟨rfl, rfl, rfl, rfl, rfl⟩
  obtain ⟨e1, e2, e3, e4, e5⟩ := eR
  obtain ⟨V, I, hdc⟩ := C139_exists hp (Or.inl (by rw [e1]; exact hA)) (fun _ => 25) (fun _ => 0)
  have settle := C139_settles (C := c) (d := d) (τ := s.dt) (t := 0) (V0 := fun _ => 25) (V1 := fun _ => 0) hp hreg le_rfl ht
    (by subst hs; exact hd) (by rw [e4]; nlinarith) (Or.inl (by rw [e1]; exact hA))
    ⟨fun a u _ => hU.source u a, fun a u _ => hU.load u a, fun k x u _ => hU.eL k x u, fun k x u _ => hU.eT k x u⟩
    (Or.inl (by rw [e1]; exact hA)) (Or.inl (by rw [e2]; exact hA)) hdc
  refine ⟨V, I, ?_, fun ε hε => ?_⟩
  · subst hs
    refine ⟨fun k hk => ?_, fun k h0 hk => ?_, hdc.first, ?_⟩
    · have := hdc.cell k hk
      simpa [asLine, Disp.new] using this
    · have := hdc.node k h0 hk
      simpa [asLine] using this
    · have h : V zSteps = (0 : Col n) + terminals l c *ᵥ (I (zSteps - 1) - (deltaZ / 2) • (g *ᵥ V zSteps)) := hdc.last
      rwa [zero_add] at h
  · obtain ⟨J, hJ⟩ := settle ε hε
    refine ⟨J, fun j hj => ?_⟩
    obtain ⟨s', hrun⟩ := hU.runs (by positivity) ⟨hl, hc, hr, hg, hR, hR, diagonal_transpose _, diagonal_transpose _⟩
      (by rw [e5]; simp) (j * dT)
    obtain ⟨-, N, tr, R⟩ := (runUntil_ok_iff _ _ _).1 hrun
    have hN : N = j := by
      rw [R.len, e4, mul_div_cancel_right₀ _ hdT0.ne']
      simp
    obtain ⟨x, h1, h2, h3⟩ := C144_losses hlc hW hW0.ne' hU e3 (by rw [e4, hdT]) ht hrest R j hN.ge
    obtain ⟨h4, h5⟩ := hJ _ s' N tr R j hj hN.ge
    rw [e3] at h4 h5
    exact ⟨x, h1, fun k hk a => by rw [h2 k hk]; exact h4 k hk a, fun k hk a => by rw [h3 k hk]; exact h5 k hk a⟩

theorem eigRe_diagonal {d : Fin n → ℝ} {x : ℝ} (h : x ∈ eigRe (diagonal d)) : ∃ i, x = d i := by
  obtain ⟨z, hz, rfl⟩ := h
  rw [diagonal_map (map_zero _), charpoly_diagonal, Polynomial.roots_prod _ _
    (Finset.prod_ne_zero_iff.2 fun i _ => Polynomial.X_sub_C_ne_zero _)] at hz
  obtain ⟨i, -, hi⟩ := Multiset.mem_bind.1 hz
  rw [Polynomial.roots_X_sub_C, Multiset.mem_singleton] at hi
  refine ⟨i, ?_⟩
  rw [hi]
  simp

/-- Without losses the circuit has half of the source everywhere. -/
theorem Circuit.lossless {zSteps : ℕ} {d : Fin n → ℝ} {V I : Grid n} (h : Circuit zSteps 0 0 (diagonal d) V I) (hz : 0 < zSteps)
    (hd : ∀ i, 0 < d i) : (∀ k ≤ zSteps, ∀ a, V k a = 12.5) ∧ ∀ k < zSteps, ∀ a, I k a = 12.5 / d a := by
  have hv : ∀ k ≤ zSteps, V k = V 0 := by
    intro k
    induction k with
    | zero => intro _; rfl
    | succ k ih =>
      intro hk
      have := h.cell k hk
      rw [zero_mulVec, smul_zero, neg_zero, sub_eq_zero] at this
      rw [this, ih (by omega)]
  have hi : ∀ k < zSteps, I k = I 0 := by
    intro k
    induction k with
    | zero => intro _; rfl
    | succ k ih =>
      intro hk
      have := h.node (k + 1) (by omega) hk
      rw [zero_mulVec, smul_zero, neg_zero, sub_eq_zero, Nat.add_sub_cancel] at this
      rw [this, ih (by omega)]
  have key : ∀ a, V 0 a = 12.5 ∧ I 0 a = 12.5 / d a := by
    intro a
    have h1 := congrFun h.first a
    have h2 := congrFun h.last a
    rw [hv zSteps le_rfl, hi (zSteps - 1) (by omega)] at h2
    simp only [zero_mulVec, smul_zero, add_zero, sub_zero, Pi.sub_apply, mulVec_diagonal] at h1 h2
    have h3 : d a * I 0 a = 12.5 := by linarith
    refine ⟨by linarith, ?_⟩
    rw [eq_div_iff (hd a).ne']
    linarith
  exact ⟨fun k hk a => by rw [hv k hk]; exact (key a).1, fun k hk a => by rw [hi k hk]; exact (key a).2⟩

/-- **C145** Conductors without coupling: the arrays always tend to the solution of the circuit for direct current. -/
theorem C145_uncoupled {zSteps : ℕ} {a b : Fin n → ℝ} {r g : Mat n} {saved : Saved} {W : ℝ} (hn : 0 < n) (hz : 0 < zSteps)
    (ha : ∀ i, 0 < a i) (hb : ∀ i, 0 < b i) (hr : Dissipative r) (hg : Dissipative g)
    (hW : IsGreatest (insert saved.maxVLosses (Set.range (velocity (diagonal a) (diagonal b)))) W) :
    ∃ V I, Circuit zSteps r g (terminals (diagonal a) (diagonal b)) V I ∧ ∀ ε > 0, ∃ J, ∀ j ≥ J, ∃ x,
      nConductorsLosses zSteps j (diagonal a) (diagonal b) r g saved = .ok (x, { saved with maxVLosses := W }) ∧
      (∀ k ≤ zSteps, ∀ a, |x.v k a - V k a| ≤ ε) ∧ ∀ k < zSteps, ∀ a, |x.i k a - I k a| ≤ ε := by
  refine C145_settles_partial hn hz ⟨diagonal_transpose _, absorbing_diag ha⟩ ⟨diagonal_transpose _, absorbing_diag hb⟩ hr hg hW ?_
  intro x hx
  rw [diagonal_mul_diagonal] at hx
  obtain ⟨i, rfl⟩ := eigRe_diagonal hx
  have h1 : velocity (diagonal a) (diagonal b) i ≤ W := hW.2 (Or.inr ⟨i, rfl⟩)
  have hab : 0 < a i * b i := mul_pos (ha i) (hb i)
  have hs := Real.sqrt_pos.2 hab
  simp only [velocity, diagonal_apply_eq] at h1
  have h2 : 1 ≤ W * Real.sqrt (a i * b i) := by
    rwa [div_le_iff₀ hs] at h1
  have h3 : 1 ≤ (W * Real.sqrt (a i * b i)) ^ 2 := one_le_pow₀ h2
  rw [mul_pow, Real.sq_sqrt hab.le] at h3
  norm_num
  linarith

/-- **C145** A homogeneous medium of square of the velocity `1 / κ`: coupled conductors, where the velocity `W` of a conductor by
itself is not too small. -/
theorem C145_homogeneous_partial {zSteps : ℕ} {l c r g : Mat n} {saved : Saved} {W κ : ℝ} (hn : 0 < n) (hz : 0 < zSteps) (hl : SPD l)
    (hc : SPD c) (hκ : l * c = κ • 1) (hr : Dissipative r) (hg : Dissipative g)
    (hW : IsGreatest (insert saved.maxVLosses (Set.range (velocity l c))) W) (hx : 0.95 ^ 2 < W ^ 2 * κ) :
    ∃ V I, Circuit zSteps r g (terminals l c) V I ∧ ∀ ε > 0, ∃ J, ∀ j ≥ J, ∃ x,
      nConductorsLosses zSteps j l c r g saved = .ok (x, { saved with maxVLosses := W }) ∧
      (∀ k ≤ zSteps, ∀ a, |x.v k a - V k a| ≤ ε) ∧ ∀ k < zSteps, ∀ a, |x.i k a - I k a| ≤ ε := by
  refine C145_settles_partial hn hz hl hc hr hg hW ?_
  intro x h
  rw [hκ, smul_one_eq_diagonal] at h
  obtain ⟨i, rfl⟩ := eigRe_diagonal h
  exact hx

end Fortran

end Mtln
