import Verif.Props.FrequencyResponse
import Mathlib.Topology.Algebra.Module.FiniteDimension
import Mathlib.Topology.Instances.Matrix

/-! # Fourier sums of the steps of a line -/

namespace Mtln

open Matrix Filter Topology

variable {n p : ℕ}

/-- A real vector as a complex one. -/
noncomputable def cvec : Col n →ₗ[ℝ] (Fin n → ℂ) where
  toFun x a := (x a : ℂ)
  map_add' x y := by funext a; simp
  map_smul' r x := by funext a; simp

theorem cvec_apply (x : Col n) (a : Fin n) : cvec x a = (x a : ℂ) := rfl

theorem cvec_mulVec (A : Mat n) (x : Col n) : cvec (A *ᵥ x) = cx A *ᵥ cvec x := by
  funext a
  simp [cvec_apply, mulVec, dotProduct, cx]

theorem norm_cvec (x : Col n) (a : Fin n) : ‖cvec x a‖ = |x a| := by
  rw [cvec_apply, Complex.norm_real, Real.norm_eq_abs]

/-- A Fourier sum of the differences of a sequence that begins with zero. -/
theorem fourier_diff {E : Type*} [AddCommGroup E] [Module ℂ E] {x : ℕ → E} (h0 : x 0 = 0) {z h : ℂ} (hh : h ≠ 0) (N : ℕ) :
    ∑ j ∈ Finset.range N, (z * h ^ (2 * j + 1)) • (x (j + 1) - x j) =
      (h⁻¹ - h) • ∑ j ∈ Finset.range (N + 1), (z * h ^ (2 * j)) • x j + (z * h ^ (2 * N + 1)) • x N := by
  induction N with
  | zero => simp [h0]
  | succ N ih =>
    rw [Finset.sum_range_succ, ih, Finset.sum_range_succ _ (N + 1)]
    have e : h⁻¹ * (z * h ^ (2 * (N + 1))) = z * h ^ (2 * N + 1) := by
      rw [show 2 * (N + 1) = (2 * N + 1) + 1 by ring, pow_succ]
      field_simp
    simp only [smul_add, sub_smul, smul_sub, smul_smul, sub_mul]
    rw [e, show h * (z * h ^ (2 * (N + 1))) = z * h ^ (2 * (N + 1) + 1) by ring]
    abel

/-- A Fourier sum of the means of a sequence that begins with zero. -/
theorem fourier_mean {E : Type*} [AddCommGroup E] [Module ℂ E] {x : ℕ → E} (h0 : x 0 = 0) {z h : ℂ} (hh : h ≠ 0) (N : ℕ) :
    ∑ j ∈ Finset.range N, (z * h ^ (2 * j + 1)) • (x (j + 1) + x j) =
      (h⁻¹ + h) • ∑ j ∈ Finset.range (N + 1), (z * h ^ (2 * j)) • x j - (z * h ^ (2 * N + 1)) • x N := by
  induction N with
  | zero => simp [h0]
  | succ N ih =>
    rw [Finset.sum_range_succ, ih, Finset.sum_range_succ _ (N + 1)]
    have e : h⁻¹ * (z * h ^ (2 * (N + 1))) = z * h ^ (2 * N + 1) := by
      rw [show 2 * (N + 1) = (2 * N + 1) + 1 by ring, pow_succ]
      field_simp
    simp only [smul_add, add_smul, smul_smul, add_mul]
    rw [e, show h * (z * h ^ (2 * (N + 1))) = z * h ^ (2 * (N + 1) + 1) by ring]
    abel

/-- The phase of half a step. -/
noncomputable def halfTurn (θ : ℝ) : ℂ := Complex.exp (-((θ / 2 : ℝ) : ℂ) * Complex.I)

theorem halfTurn_ne (θ : ℝ) : halfTurn θ ≠ 0 := Complex.exp_ne_zero _

theorem halfTurn_inv (θ : ℝ) : (halfTurn θ)⁻¹ = Complex.exp (((θ / 2 : ℝ) : ℂ) * Complex.I) := by
  rw [halfTurn, ← Complex.exp_neg, neg_mul, neg_neg]

theorem halfTurn_diff (θ : ℝ) : (halfTurn θ)⁻¹ - halfTurn θ = turn θ := by
  rw [halfTurn_inv, halfTurn, turn]
  push_cast
  rw [Complex.sin]
  have := Complex.I_mul_I
  push_cast
  linear_combination (Complex.exp (-(θ / 2 : ℂ) * Complex.I) - Complex.exp ((θ / 2 : ℂ) * Complex.I)) * -this

theorem halfTurn_mean (θ : ℝ) : (halfTurn θ)⁻¹ + halfTurn θ = ((2 * Real.cos (θ / 2) : ℝ) : ℂ) := by
  rw [halfTurn_inv, halfTurn]
  push_cast
  rw [Complex.cos]
  ring

theorem norm_halfTurn (θ : ℝ) : ‖halfTurn θ‖ = 1 := by
  rw [halfTurn, ← Complex.ofReal_neg, Complex.norm_exp_ofReal_mul_I]

/-- The Fourier sum over `N + 1` steps of quantities at the times of the voltages. -/
noncomputable def fourier (z h : ℂ) (x : ℕ → Col n) (N : ℕ) : Fin n → ℂ :=
  ∑ j ∈ Finset.range (N + 1), (z * h ^ (2 * j)) • cvec (x j)

/-- The Fourier sums of driven steps obey the equations of the circuit for alternating current, except for what is left in the last
step. -/
structure MTL.AlmostAC (s : MTL n p) (τ θ : ℝ) (E0 E1 : Fin n → ℂ) (V I u y : ℕ → Fin n → ℂ) : Prop where
  cell : ∀ k < s.m, s.dun k • ((1 / s.dt) • (cx (s.l k + s.conn.e k) *ᵥ (turn θ • I k + halfTurn θ • y k)) +
    (1 / 2 : ℝ) • (cx (s.r k + s.conn.d k) *ᵥ ((2 * Real.cos (θ / 2)) • I k - halfTurn θ • y k))) = -(V (k + 1) - V k)
  node : ∀ k, 0 < k → k < s.m → ((s.dun (k - 1) + s.dun k) / 2) • ((1 / s.dt) • (cx (s.c k) *ᵥ (turn θ • V k + u k)) +
    (1 / 2 : ℝ) • (cx (s.g k) *ᵥ ((2 * Real.cos (θ / 2)) • V k - u k))) = -((I k - y k) - (I (k - 1) - y (k - 1)))
  first : (2 * Real.cos (θ / 2)) • V 0 - u 0 = (2 * Real.cos (θ / 2)) • E0 - cx s.zs *ᵥ ((2 : ℝ) • (I 0 - y 0) +
    (s.dun 0 / τ) • (cx (s.c 0) *ᵥ (turn θ • V 0 + u 0)) + (s.dun 0 / 2) • (cx (s.g 0) *ᵥ ((2 * Real.cos (θ / 2)) • V 0 - u 0)))
  last : (2 * Real.cos (θ / 2)) • V s.m - u s.m = (2 * Real.cos (θ / 2)) • E1 - cx s.zl *ᵥ (-((2 : ℝ) • (I (s.m - 1) - y (s.m - 1))) +
    (s.dun (s.m - 1) / τ) • (cx (s.c s.m) *ᵥ (turn θ • V s.m + u s.m)) +
    (s.dun (s.m - 1) / 2) • (cx (s.g s.m) *ᵥ ((2 * Real.cos (θ / 2)) • V s.m - u s.m)))

theorem almost_ac {s : MTL n p} {τ θ : ℝ} (z : ℂ) {S0 S1 : ℕ → Col n} {v i : ℕ → Grid n} {N : ℕ} (hv : ∀ k ≤ s.m, v 0 k = 0)
    (hi : ∀ k < s.m, i 0 k = 0) (h00 : S0 0 = 0) (h10 : S1 0 = 0) (h0N : S0 N = 0) (h1N : S1 N = 0) (hm : 0 < s.m)
    (h : ∀ j, s.ForcedStep τ (S0 (j + 1) + S0 j) (S1 (j + 1) + S1 j) 0 0 0 (v j) (i j) (v (j + 1)) (i (j + 1))) :
    s.AlmostAC τ θ (fourier z (halfTurn θ) S0 N) (fourier z (halfTurn θ) S1 N)
      (fun k => fourier z (halfTurn θ) (fun j => v j k) N)
      (fun k => fourier (z * halfTurn θ) (halfTurn θ) (fun j => i j k) N)
      (fun k => (z * halfTurn θ ^ (2 * N + 1)) • cvec (v N k)) (fun k => (z * halfTurn θ ^ (2 * N + 1)) • cvec (i N k)) := by
  obtain ⟨q, hq⟩ : ∃ q, q = halfTurn θ := ⟨_, rfl⟩
  have hq0 : q ≠ 0 := hq ▸ halfTurn_ne θ
  have hd : turn θ = q⁻¹ - q := by rw [hq, halfTurn_diff]
  have ha : ∀ X : Fin n → ℂ, (2 * Real.cos (θ / 2)) • X = (q⁻¹ + q) • X := by
    intro X
    rw [hq, halfTurn_mean]
    funext a
    simp
  rw [← hq]
  -- the sums of the terms of the equations
  have D : ∀ (z : ℂ) (x : ℕ → Col n), x 0 = 0 → turn θ • fourier z q x N + (z * q ^ (2 * N + 1)) • cvec (x N) =
      ∑ j ∈ Finset.range N, (z * q ^ (2 * j + 1)) • (cvec (x (j + 1) - x j)) := by
    intro z x hx
    have := fourier_diff (x := fun j => cvec (x j)) (by rw [hx, map_zero]) (z := z) hq0 N
    simp only [map_sub]
    rw [this, hd, fourier]
  have M : ∀ (z : ℂ) (x : ℕ → Col n), x 0 = 0 → (2 * Real.cos (θ / 2)) • fourier z q x N - (z * q ^ (2 * N + 1)) • cvec (x N) =
      ∑ j ∈ Finset.range N, (z * q ^ (2 * j + 1)) • (cvec (x (j + 1) + x j)) := by
    intro z x hx
    have := fourier_mean (x := fun j => cvec (x j)) (by rw [hx, map_zero]) (z := z) hq0 N
    simp only [map_add]
    rw [this, ha, fourier]
  have L : ∀ x : ℕ → Col n, fourier (z * q) q x N - (z * q ^ (2 * N + 1)) • cvec (x N) =
      ∑ j ∈ Finset.range N, (z * q ^ (2 * j + 1)) • cvec (x j) := by
    intro x
    rw [fourier, Finset.sum_range_succ, mul_assoc, ← pow_succ', add_sub_cancel_right]
    refine Finset.sum_congr rfl fun j _ => ?_
    rw [mul_assoc, ← pow_succ']
  have U : ∀ x : ℕ → Col n, x 0 = 0 → fourier z q x N = ∑ j ∈ Finset.range N, (z * q * q ^ (2 * j + 1)) • cvec (x (j + 1)) := by
    intro x hx
    rw [fourier, Finset.sum_range_succ', hx, map_zero, smul_zero, add_zero]
    refine Finset.sum_congr rfl fun j _ => ?_
    congr 1
    ring
  have mv : ∀ (A : Mat n) (w : ℕ → ℂ) (x : ℕ → Fin n → ℂ), cx A *ᵥ ∑ j ∈ Finset.range N, w j • x j =
      ∑ j ∈ Finset.range N, w j • (cx A *ᵥ x j) := by
    intro A w x
    rw [Matrix.mulVec_sum]
    exact Finset.sum_congr rfl fun j _ => mulVec_smul _ _ _
  have sm : ∀ (r : ℝ) (w : ℕ → ℂ) (x : ℕ → Fin n → ℂ), r • ∑ j ∈ Finset.range N, w j • x j = ∑ j ∈ Finset.range N, w j • (r • x j) := by
    intro r w x
    rw [Finset.smul_sum]
    exact Finset.sum_congr rfl fun j _ => smul_comm _ _ _
  have hmm : s.m ≤ s.m := le_rfl
  refine ⟨fun k hk => ?_, fun k hk0 hk => ?_, ?_, ?_⟩
  · have e1 : q • (z * q ^ (2 * N + 1)) • cvec (i N k) = (z * q * q ^ (2 * N + 1)) • cvec (i N k) := by rw [smul_smul]; congr 1; ring
    rw [← hq, e1, D (z * q) (fun j => i j k) (hi k hk), M (z * q) (fun j => i j k) (hi k hk), U (fun j => v j (k + 1)) (hv _ hk),
      U (fun j => v j k) (hv _ hk.le), mv, mv, sm, sm, ← Finset.sum_add_distrib, ← Finset.sum_sub_distrib, ← Finset.sum_neg_distrib,
      Finset.smul_sum]
    refine Finset.sum_congr rfl fun j _ => ?_
    have e := congrArg cvec ((h j).cell k hk)
    simp only [Pi.zero_apply, sub_zero, smul_zero, add_zero, map_add, map_smul, map_neg, map_sub, cvec_mulVec, mulVec_add, mulVec_sub] at e ⊢
    have := congrArg (fun x => (z * q * q ^ (2 * j + 1)) • x) e
    simp only [smul_add, smul_neg, smul_sub] at this ⊢
    simp only [smul_comm (_ : ℝ) (_ : ℂ) (_ : Fin n → ℂ)] at this ⊢
    linear_combination (norm := module) this
  · rw [D z (fun j => v j k) (hv k hk.le), M z (fun j => v j k) (hv k hk.le), L, L, mv, mv, sm, sm, ← Finset.sum_add_distrib,
      ← Finset.sum_sub_distrib, ← Finset.sum_neg_distrib, Finset.smul_sum]
    refine Finset.sum_congr rfl fun j _ => ?_
    have e := congrArg cvec ((h j).node k hk0 hk)
    simp only [Pi.zero_apply, sub_zero, smul_zero, mulVec_zero, add_zero, map_add, map_smul, map_neg, map_sub, cvec_mulVec, mulVec_add,
      mulVec_sub] at e ⊢
    have := congrArg (fun x => (z * q ^ (2 * j + 1)) • x) e
    simp only [smul_add, smul_neg, smul_sub] at this ⊢
    simp only [smul_comm (_ : ℝ) (_ : ℂ) (_ : Fin n → ℂ)] at this ⊢
    linear_combination (norm := module) this
  · have hS := M z S0 h00
    rw [h0N, map_zero, smul_zero, sub_zero] at hS
    rw [hS, D z (fun j => v j 0) (hv 0 (Nat.zero_le _)), M z (fun j => v j 0) (hv 0 (Nat.zero_le _)), L, mv, mv, sm, sm, sm,
      ← Finset.sum_add_distrib, ← Finset.sum_add_distrib, mulVec_sum, ← Finset.sum_sub_distrib]
    refine Finset.sum_congr rfl fun j _ => ?_
    have e := congrArg cvec (h j).first
    simp only [Pi.zero_apply, sub_zero, smul_zero, mulVec_zero, add_zero, map_add, map_smul, map_neg, map_sub, cvec_mulVec, mulVec_add,
      mulVec_sub, mulVec_smul] at e ⊢
    have := congrArg (fun x => (z * q ^ (2 * j + 1)) • x) e
    simp only [smul_add, smul_neg, smul_sub] at this ⊢
    linear_combination (norm := module) this
  · have hS := M z S1 h10
    rw [h1N, map_zero, smul_zero, sub_zero] at hS
    rw [hS, D z (fun j => v j s.m) (hv _ hmm), M z (fun j => v j s.m) (hv _ hmm), L, mv, mv, sm, sm, sm,
      ← Finset.sum_neg_distrib, ← Finset.sum_add_distrib, ← Finset.sum_add_distrib, mulVec_sum, ← Finset.sum_sub_distrib]
    refine Finset.sum_congr rfl fun j _ => ?_
    have e := congrArg cvec (h j).last
    simp only [Pi.zero_apply, sub_zero, smul_zero, mulVec_zero, add_zero, map_add, map_smul, map_neg, map_sub, cvec_mulVec, mulVec_add,
      mulVec_sub, mulVec_smul, mulVec_neg] at e ⊢
    have := congrArg (fun x => (z * q ^ (2 * j + 1)) • x) e
    simp only [smul_add, smul_neg, smul_sub] at this ⊢
    linear_combination (norm := module) this

end Mtln
