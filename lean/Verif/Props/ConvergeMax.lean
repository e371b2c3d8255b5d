import Verif.Props.Converge
import Verif.Lemmas.Courant
import Mathlib.Algebra.Order.Chebyshev

/-! # Convergence at the largest time step, the one the constructor chooses -/

namespace Mtln

open Matrix

variable {n p : ℕ}

section

variable {s s' : MTL n p} {T : ℝ} {N : ℕ} {tr : ℕ → MTL n p} {D : ℝ} {L C R G Zs Zl : Mat n} {Vs Vl : ℝ → Col n}
  {t0 : ℝ} {V I : ℝ → ℝ → Col n}

/-- The Courant condition in half a cell. -/
theorem MTL.Uniform.halfCell_nonneg (hU : s.Uniform D L C R G Zs Zl Vs Vl) (hD : 0 < D) (hL : LineData L C R G Zs Zl) {τ' : ℝ}
    (hτ' : maxTimestep s.m s.dun s.l s.c = .ok τ') (hτ : s.dt ≤ τ') (x i : Col n) : 0 ≤ halfCell (D / s.m) s.dt C L x i := by
  have hm : (0 : ℝ) < s.m := by exact_mod_cast hU.cells
  have hd0 : 0 < D / s.m := by positivity
  have hdt := hU.dt_pos
  have heig := maxTimestep_eig hτ' (fun k hk => by rw [hU.dun k hk]; exact hd0.le) 0 hU.cells (by rw [hU.dun 0 hU.cells]; exact hd0.ne')
  rw [hU.dun 0 hU.cells, hU.l 0 hU.cells, hU.c 1 hU.cells] at heig
  have h := cell_cross (E := 0) (du := D / s.m) (dt := s.dt) (μ := (τ' / (D / s.m)) ^ 2) (θ := 1) (ρ := 1) (wa := 1) (wb := 1)
    hL.l.symm hL.c (fun x => by simp) hd0.le zero_le_one heig one_pos le_rfl le_rfl (by
      have : (1 : ℝ) ^ 2 * 1 * (D / s.m) ^ 2 * (τ' / (D / s.m)) ^ 2 = τ' ^ 2 := by field_simp
      rw [this]
      exact pow_le_pow_left₀ hdt.le hτ 2) i (-x) x
  unfold halfCell
  rw [dotProduct_comm x i]
  simp only [sub_neg_eq_add, dotProduct_add, neg_dotProduct, mulVec_neg, dotProduct_neg, neg_neg, add_zero] at h
  linarith

theorem MTL.ErrorStep.uniform (hU : s.Uniform D L C R G Zs Zl Vs Vl) {e ε e' ε' ρ η : Grid n} {σ σ' : Col n}
    (h : s.ErrorStep s.dt e ε e' ε' ρ η σ σ') {M : ℕ} (hM : s.m = M + 1) :
    UniformStep M (D / s.m) s.dt L C R G Zs Zl e ε e' ε' ρ η σ σ' := by
  refine ⟨?_, ?_, ?_, ?_⟩
  · intro k hk
    have hk : k < s.m := by omega
    have := h.cell k hk
    rwa [hU.dun k hk, hU.l k hk, hU.r k hk] at this
  · intro k hk
    have hk : k + 1 < s.m := by omega
    have := h.node (k + 1) (by omega) hk
    rw [Nat.add_sub_cancel, hU.dun k (by omega), hU.dun _ hk, hU.c _ hk.le, hU.g _ hk.le] at this
    have e : (D / s.m + D / s.m) / 2 = D / s.m := by ring
    rwa [e] at this
  · have := h.first
    rwa [hU.dun 0 hU.cells, hU.c 0 (by omega), hU.g 0 (by omega), hU.zs] at this
  · have := h.last
    have e : s.m - 1 = M := by omega
    rw [hU.dun _ (by omega), hU.c _ le_rfl, hU.g _ le_rfl, hU.zl, e] at this
    rw [hM] at this ⊢
    rwa [smul_neg]

theorem alternating_norm {q j : ℕ} {d Q : ℝ} (hd : 0 ≤ d) {z : ℕ → Grid n} (h0 : ∀ k < q, z 0 k = 0)
    (hQ : ∀ i < j, ∑ k ∈ Finset.range q, d * ∑ a, (z (i + 1) k a + z i k a) ^ 2 ≤ Q) :
    ∑ k ∈ Finset.range q, d * ∑ a, z j k a ^ 2 ≤ (j : ℝ) ^ 2 * Q := by
  have h1 : ∀ k < q, ∀ a, ∀ j, |z j k a| ≤ ∑ i ∈ Finset.range j, |z (i + 1) k a + z i k a| := by
    intro k hk a j
    induction j with
    | zero => rw [h0 k hk]; simp
    | succ j ih =>
      rw [Finset.sum_range_succ]
      have : |z (j + 1) k a| ≤ |z (j + 1) k a + z j k a| + |z j k a| := by
        have := abs_sub (z (j + 1) k a + z j k a) (z j k a)
        rwa [add_sub_cancel_right] at this
      linarith
  have h2 : ∀ k < q, ∀ a, z j k a ^ 2 ≤ j * ∑ i ∈ Finset.range j, (z (i + 1) k a + z i k a) ^ 2 := by
    intro k hk a
    have h3 := pow_le_pow_left₀ (abs_nonneg _) (h1 k hk a j) 2
    rw [sq_abs] at h3
    have h4 := sq_sum_le_card_mul_sum_sq (s := Finset.range j) (f := fun i => |z (i + 1) k a + z i k a|)
    simp only [sq_abs, Finset.card_range] at h4
    exact h3.trans h4
  calc ∑ k ∈ Finset.range q, d * ∑ a, z j k a ^ 2
      ≤ ∑ k ∈ Finset.range q, d * ∑ a, (j : ℝ) * ∑ i ∈ Finset.range j, (z (i + 1) k a + z i k a) ^ 2 :=
        Finset.sum_le_sum fun k hk => mul_le_mul_of_nonneg_left (Finset.sum_le_sum fun a _ => h2 k (Finset.mem_range.1 hk) a) hd
    _ = (j : ℝ) * ∑ i ∈ Finset.range j, ∑ k ∈ Finset.range q, d * ∑ a, (z (i + 1) k a + z i k a) ^ 2 := by
        rw [Finset.sum_comm, Finset.mul_sum]
        refine Finset.sum_congr rfl fun k _ => ?_
        simp only [← Finset.mul_sum]
        rw [Finset.sum_comm]
        ring
    _ ≤ (j : ℝ) * ∑ _i ∈ Finset.range j, Q :=
        mul_le_mul_of_nonneg_left (Finset.sum_le_sum fun i hi => hQ i (Finset.mem_range.1 hi)) (by positivity)
    _ = (j : ℝ) ^ 2 * Q := by simp; ring

theorem errors_start (hU : s.Uniform D L C R G Zs Zl Vs Vl) (hD : 0 < D) (hS : SmoothSolution D L C R G Zs Zl Vs Vl t0 V I)
    (hrest : s.AtRest) (ht0 : s.time = t0) (hR : RunTrace s T s' N tr) :
    (∀ k ≤ s.m, errorV s D V tr 0 k = 0) ∧ ∀ k < s.m, errorI s D I tr 0 k = 0 := by
  have hdt0 := hU.dt_pos
  have hm : (0 : ℝ) < s.m := by exact_mod_cast hU.cells
  have hd0 : 0 < D / s.m := by positivity
  have hmd : (s.m : ℝ) * (D / s.m) = D := by field_simp
  obtain ⟨lr, cg, -, -, h0⟩ := hR.start
  constructor
  · intro k hk
    have hk1 : (k : ℝ) ≤ s.m := by exact_mod_cast hk
    have h3 := mul_le_mul_of_nonneg_right hk1 hd0.le
    rw [hmd] at h3
    unfold errorV
    rw [h0]
    show s.v k - _ = 0
    rw [hrest.v, (hS.rest _ _ (by positivity) h3 (by rw [ht0]; push_cast; linarith)).1, sub_zero]
  · intro k hk
    have hk1 : ((k + 1 : ℕ) : ℝ) ≤ s.m := by exact_mod_cast hk
    push_cast at hk1
    have h3 := mul_le_mul_of_nonneg_right hk1 hd0.le
    rw [hmd] at h3
    unfold errorI
    rw [h0]
    show s.i k - _ = 0
    rw [hrest.i, (hS.rest _ _ (by positivity) (by linarith) (by rw [ht0]; push_cast; linarith)).2, sub_zero]

/-- Residuals of a step: all at most `r`, with the works of the ends at most `B`. -/
theorem exists_step_bound (hD : 0 < D) (hS : SmoothSolution D L C R G Zs Zl Vs Vl t0 V I) (T0 : ℝ) :
    ∃ κ ν : ℝ, 0 ≤ κ ∧ 0 ≤ ν ∧ ∀ (p : ℕ) (s s' : MTL n p) (T : ℝ) (N : ℕ) (tr : ℕ → MTL n p), s.Uniform D L C R G Zs Zl Vs Vl →
      s.time = t0 → s.TermFor s.dt → T ≤ T0 → RunTrace s T s' N tr → ∀ M : ℕ, s.m = M + 1 → ∀ j < N, ∃ ρ η : Grid n, ∃ σ σ' : Col n,
      UniformStep M (D / s.m) s.dt L C R G Zs Zl (errorV s D V tr j) (errorI s D I tr j) (errorV s D V tr (j + 1))
        (errorI s D I tr (j + 1)) ρ η σ σ' ∧
      (∀ k ≤ M, ∀ a, |ρ k a| ≤ κ * (s.dt ^ 2 + (D / s.m) ^ 2)) ∧ (∀ k < M, ∀ a, |η (k + 1) a| ≤ κ * (s.dt ^ 2 + (D / s.m) ^ 2)) ∧
      σ ⬝ᵥ (Zs *ᵥ σ) ≤ ν * (κ * (s.dt ^ 2 + (D / s.m) ^ 2)) ^ 2 ∧ σ' ⬝ᵥ (Zl *ᵥ σ') ≤ ν * (κ * (s.dt ^ 2 + (D / s.m) ^ 2)) ^ 2 := by
  obtain ⟨μ1, m1, b1⟩ := exists_entry_bound Zs
  obtain ⟨μ2, m2, b2⟩ := exists_entry_bound Zl
  obtain ⟨κ, hκ, hres⟩ := exists_residual_bound hS hD (t0 - T0) (t0 + T0)
  refine ⟨κ, n ^ 2 * (μ1 + μ2), hκ, by positivity, ?_⟩
  intro p s s' T N tr hU ht0 hterm hT hR M hM j hj
  have hdt0 := hU.dt_pos
  have hm : (0 : ℝ) < s.m := by exact_mod_cast hU.cells
  have hm1 : (1 : ℝ) ≤ s.m := by exact_mod_cast hU.cells
  have hd0 : 0 < D / s.m := by positivity
  have hdD : D / s.m ≤ D := div_le_self hD.le hm1
  have hmd : (s.m : ℝ) * (D / s.m) = D := by field_simp
  have hw : s.dt ^ 2 + (D / s.m) ^ 2 + (1 - s.dt / s.dt) * (D / s.m) = s.dt ^ 2 + (D / s.m) ^ 2 := by
    rw [div_self hdt0.ne']; ring
  have d1 : ((j + 1 : ℕ) : ℝ) * s.dt ≤ T := hR.duration hdt0 hj (by omega)
  push_cast at d1
  have d0 : 0 ≤ (j : ℝ) * s.dt := by positivity
  have r1 := hres s.dt s.dt (D / s.m) (s.time + j * s.dt) hdt0 le_rfl hd0 hdD (by rw [ht0]; linarith) (by rw [ht0]; linarith)
  have r2 := hres s.dt s.dt (D / s.m) (s.time + j * s.dt - s.dt / 2) hdt0 le_rfl hd0 hdD (by rw [ht0]; linarith) (by rw [ht0]; linarith)
  rw [hw] at r1 r2
  refine ⟨_, _, _, _, (error_step hU hD hS hterm hR hj).uniform hU hM, ?_, ?_, ?_, ?_⟩
  · intro k hk a
    rw [Pi.neg_apply, abs_neg]
    refine r1.1 _ (by have : 0 ≤ (k : ℝ) * (D / s.m) := by positivity
                      linarith) ?_ a
    have hk1 : ((k + 1 : ℕ) : ℝ) ≤ s.m := by exact_mod_cast (by omega : k + 1 ≤ s.m)
    push_cast at hk1
    have := mul_le_mul_of_nonneg_right hk1 hd0.le
    rw [hmd] at this
    linarith
  · intro k hk a
    rw [Pi.neg_apply, abs_neg]
    have hk1 : ((k + 2 : ℕ) : ℝ) ≤ s.m := by exact_mod_cast (by omega : k + 2 ≤ s.m)
    push_cast at hk1
    have h3 := mul_le_mul_of_nonneg_right hk1 hd0.le
    rw [hmd] at h3
    refine r2.2.1 _ ?_ ?_ a
    · push_cast
      have : 0 ≤ (k : ℝ) * (D / s.m) := by positivity
      linarith
    · push_cast
      linarith
  · refine (quadratic_bound (q := κ * (s.dt ^ 2 + (D / s.m) ^ 2)) (add_nonneg m1 m2) (fun a b => (b1 a b).trans (by linarith)) (by positivity) fun a => ?_)
    rw [Pi.neg_apply, abs_neg, Pi.smul_apply, smul_eq_mul, abs_mul, abs_of_pos (by norm_num : (0 : ℝ) < 1 / 2)]
    have := r2.2.2.1 a
    have : 0 ≤ κ * (s.dt ^ 2 + (D / s.m) ^ 2) := by positivity
    linarith
  · refine (quadratic_bound (q := κ * (s.dt ^ 2 + (D / s.m) ^ 2)) (add_nonneg m1 m2) (fun a b => (b2 a b).trans (by linarith)) (by positivity) fun a => ?_)
    rw [Pi.neg_apply, abs_neg, Pi.smul_apply, smul_eq_mul, abs_mul, abs_of_pos (by norm_num : (0 : ℝ) < 1 / 2)]
    have := r2.2.2.2 a
    have : 0 ≤ κ * (s.dt ^ 2 + (D / s.m) ^ 2) := by positivity
    linarith

end

/-- Bounds of the square roots that grow in two halves. -/
theorem halves_bound {x y : ℕ → ℝ} {N : ℕ} {h c q w ν T0 A B : ℝ} (hh : 0 < h) (hc : 0 ≤ c) (hq : 0 ≤ q) (hw : 0 ≤ w) (hν : 0 ≤ ν)
    (hT : N * h ≤ T0) (hA : A = T0 * c) (hB : B = Real.sqrt (T0 * ν) * q) (h0 : x 0 = 0) (hx : ∀ j, 0 ≤ x j)
    (hy : ∀ j < N, y j ≤ Real.sqrt ((x j + h * c * w) ^ 2 + h * (ν * (q * w) ^ 2)))
    (hs : ∀ j < N, x (j + 1) ≤ Real.sqrt ((x j + h * c * w) ^ 2 + h * (ν * (q * w) ^ 2)) + h * c * w) :
    ∀ j < N, x j ≤ (2 * B + 3 * A) * w ∧ y j ≤ (2 * B + 3 * A) * w ∧ h * c * w ≤ A * w ∧ h * (ν * (q * w) ^ 2) ≤ B ^ 2 * w ^ 2 := by
  intro j hj
  have hα0 : 0 ≤ h * c * w := by positivity
  have hb0 : 0 ≤ h * (ν * (q * w) ^ 2) := by positivity
  have hall := two_step_growth hα0 hb0 h0 hx hs j hj.le
  have hjN : ((j + 1 : ℕ) : ℝ) ≤ N := by exact_mod_cast hj
  push_cast at hjN
  have d1 := mul_le_mul_of_nonneg_right hjN hh.le
  have d0 : 0 ≤ (j : ℝ) * h := by positivity
  have hjT : j * h ≤ T0 := by linarith
  have hdT : h ≤ T0 := by linarith
  have hT0 : 0 ≤ T0 := hh.le.trans hdT
  have hA0 : 0 ≤ A * w := by rw [hA]; positivity
  have hB0 : 0 ≤ B * w := by rw [hB]; positivity
  have a1 : j * (h * c * w) ≤ A * w := by
    rw [hA]
    have := mul_le_mul_of_nonneg_right hjT (by positivity : 0 ≤ c * w)
    linarith
  have a2 : h * c * w ≤ A * w := by
    rw [hA]
    have := mul_le_mul_of_nonneg_right hdT (by positivity : 0 ≤ c * w)
    linarith
  have rt : ∀ z : ℝ, 0 ≤ z → z ≤ T0 → Real.sqrt (z * (ν * (q * w) ^ 2)) ≤ B * w := by
    intro z z0 hz
    have h1 : z * (ν * (q * w) ^ 2) ≤ T0 * ν * (q * w) ^ 2 := by
      rw [mul_assoc]
      exact mul_le_mul_of_nonneg_right hz (by positivity)
    refine (Real.sqrt_le_sqrt h1).trans ?_
    rw [Real.sqrt_mul (by positivity), Real.sqrt_sq (by positivity), hB, mul_assoc]
  have a3 : Real.sqrt (j * (h * (ν * (q * w) ^ 2))) ≤ B * w := by
    rw [← mul_assoc]
    exact rt _ (by positivity) hjT
  have a4 : Real.sqrt (h * (ν * (q * w) ^ 2)) ≤ B * w := rt _ hh.le hdT
  have e : (2 * B + 3 * A) * w = 2 * (B * w) + 3 * (A * w) := by ring
  rw [e]
  refine ⟨by linarith, ?_, a2, ?_⟩
  · refine (hy j hj).trans ?_
    have hbr := Real.sq_sqrt hb0
    have h6 : Real.sqrt ((x j + h * c * w) ^ 2 + h * (ν * (q * w) ^ 2)) ≤ x j + h * c * w + Real.sqrt (h * (ν * (q * w) ^ 2)) := by
      have := hx j
      refine Real.sqrt_le_iff.2 ⟨by positivity, ?_⟩
      have : 0 ≤ (x j + h * c * w) * Real.sqrt (h * (ν * (q * w) ^ 2)) := by positivity
      nlinarith
    linarith
  · have h4 := pow_le_pow_left₀ (Real.sqrt_nonneg _) a4 2
    rw [Real.sq_sqrt hb0] at h4
    rw [← mul_pow]
    exact h4

theorem le_of_sqrt_le_mul {x M w : ℝ} (hx : 0 ≤ x) (h : Real.sqrt x ≤ M * w) : x ≤ M ^ 2 * w ^ 2 := by
  have := pow_le_pow_left₀ (Real.sqrt_nonneg _) h 2
  rwa [Real.sq_sqrt hx, mul_pow] at this

/-- Sums of two consecutive errors in one run. -/
theorem sum_bound {s s' : MTL n p} {T : ℝ} {N : ℕ} {tr : ℕ → MTL n p} {D : ℝ} {L C R G Zs Zl : Mat n} {Vs Vl : ℝ → Col n}
    {V I : ℝ → ℝ → Col n} {T0 KA κ ν w : ℝ} {M : ℕ} (hU : s.Uniform D L C R G Zs Zl Vs Vl) (hD : 0 < D)
    (hL : LineData L C R G Zs Zl) (hM : s.m = M + 1)
    (hH : ∀ x i : Col n, 0 ≤ halfCell (D / s.m) s.dt C L x i) (hR : RunTrace s T s' N tr) (hT : T ≤ T0) (hKA0 : 0 ≤ KA) (hκ : 0 ≤ κ)
    (hν : 0 ≤ ν) (hw : 0 ≤ w) (z1 : ∀ k ≤ s.m, errorV s D V tr 0 k = 0) (z2 : ∀ k < s.m, errorI s D I tr 0 k = 0)
    (hAC : ∀ (x : Col n) (a : Fin n), |x a| ≤ KA * Real.sqrt (x ⬝ᵥ (C *ᵥ x)))
    (hAL : ∀ (x : Col n) (a : Fin n), |x a| ≤ KA * Real.sqrt (x ⬝ᵥ (L *ᵥ x)))
    (st : ∀ j < N, ∃ ρ η : Grid n, ∃ σ σ' : Col n,
      UniformStep M (D / s.m) s.dt L C R G Zs Zl (errorV s D V tr j) (errorI s D I tr j) (errorV s D V tr (j + 1))
        (errorI s D I tr (j + 1)) ρ η σ σ' ∧
      (∀ k ≤ M, ∀ a, |ρ k a| ≤ κ * w) ∧ (∀ k < M, ∀ a, |η (k + 1) a| ≤ κ * w) ∧
      σ ⬝ᵥ (Zs *ᵥ σ) ≤ ν * (κ * w) ^ 2 ∧ σ' ⬝ᵥ (Zl *ᵥ σ') ≤ ν * (κ * w) ^ 2) {A B : ℝ}
    (hA : A = |T0| * (Real.sqrt 2 * (n * KA * κ * Real.sqrt D))) (hB : B = Real.sqrt (|T0| * ν) * κ) {j : ℕ} (hj : j < N) :
    ∑ k ∈ Finset.range (M + 2), D / s.m * ((errorV s D V tr (j + 1) k + errorV s D V tr j k) ⬝ᵥ
        (C *ᵥ (errorV s D V tr (j + 1) k + errorV s D V tr j k))) ≤ (8 * (2 * B + 3 * A) ^ 2 + 4 * A ^ 2 + 4 * B ^ 2) * w ^ 2 ∧
    ∑ k ∈ Finset.range (M + 1), D / s.m * ((errorI s D I tr (j + 1) k + errorI s D I tr j k) ⬝ᵥ
        (L *ᵥ (errorI s D I tr (j + 1) k + errorI s D I tr j k))) ≤ (8 * (2 * B + 3 * A) ^ 2 + 4 * A ^ 2 + 4 * B ^ 2) * w ^ 2 := by
  have hdt0 := hU.dt_pos
  have hm : (0 : ℝ) < s.m := by exact_mod_cast hU.cells
  have hd0 : 0 < D / s.m := by positivity
  have hmd : (s.m : ℝ) * (D / s.m) = D := by field_simp
  have hMd : ((M + 1 : ℕ) : ℝ) * (D / s.m) = D := by rw [← hM]; exact hmd
  have hE0 : cellEnergy M (D / s.m) s.dt C L 1 (errorV s D V tr 0) (errorI s D I tr 0) = 0 := by
    unfold cellEnergy halfCell
    refine Finset.sum_eq_zero fun k hk => ?_
    have hk := Finset.mem_range.1 hk
    rw [z1 k (by omega), z1 (k + 1) (by omega), z2 k (by omega)]
    simp
  have hNT : N * s.dt ≤ |T0| := ((hR.duration hdt0 le_rfl (by omega)).trans hT).trans (le_abs_self _)
  have eα : Real.sqrt 2 * (s.dt * (n * KA * (κ * w) * Real.sqrt D)) = s.dt * (Real.sqrt 2 * (n * KA * κ * Real.sqrt D)) * w := by ring
  have gr : ∀ j < N,
      Real.sqrt (cellEnergy M (D / s.m) s.dt C L (-1) (errorV s D V tr (j + 1)) (errorI s D I tr j)) ≤
        Real.sqrt ((Real.sqrt (cellEnergy M (D / s.m) s.dt C L 1 (errorV s D V tr j) (errorI s D I tr j)) +
          s.dt * (Real.sqrt 2 * (n * KA * κ * Real.sqrt D)) * w) ^ 2 + s.dt * (ν * (κ * w) ^ 2)) ∧
      Real.sqrt (cellEnergy M (D / s.m) s.dt C L 1 (errorV s D V tr (j + 1)) (errorI s D I tr (j + 1))) ≤
        Real.sqrt ((Real.sqrt (cellEnergy M (D / s.m) s.dt C L 1 (errorV s D V tr j) (errorI s D I tr j)) +
          s.dt * (Real.sqrt 2 * (n * KA * κ * Real.sqrt D)) * w) ^ 2 + s.dt * (ν * (κ * w) ^ 2)) +
          s.dt * (Real.sqrt 2 * (n * KA * κ * Real.sqrt D)) * w := fun j hj => by
    obtain ⟨ρ, η, σ, σ', h1, h2, h3, h4, h5⟩ := st j hj
    have := h1.growth hL hH hd0 hdt0 hKA0 (by positivity) hAC hAL h2 h3 h4 h5
    rw [hMd, eα] at this
    exact this
  obtain ⟨f1, f2, f3, f4⟩ := halves_bound
    (x := fun j => Real.sqrt (cellEnergy M (D / s.m) s.dt C L 1 (errorV s D V tr j) (errorI s D I tr j)))
    (y := fun j => Real.sqrt (cellEnergy M (D / s.m) s.dt C L (-1) (errorV s D V tr (j + 1)) (errorI s D I tr j)))
    hdt0 (by positivity) hκ hw hν hNT hA hB (by simp only [hE0, Real.sqrt_zero]) (fun _ => Real.sqrt_nonneg _)
    (fun j hj => (gr j hj).1) (fun j hj => (gr j hj).2) j hj
  have f1 := le_of_sqrt_le_mul (cellEnergy_nonneg hH _ _ _) f1
  have f2 := le_of_sqrt_le_mul (cellEnergy_nonneg hH _ _ _) f2
  have f5 : 4 * D * (s.dt * (n * KA * (κ * w))) ^ 2 ≤ 4 * A ^ 2 * w ^ 2 := by
    have h2 := Real.sq_sqrt (by norm_num : (0 : ℝ) ≤ 2)
    have h3 := Real.sq_sqrt hD.le
    have h4 := pow_le_pow_left₀ (by positivity) f3 2
    have h5 : (s.dt * (Real.sqrt 2 * (n * KA * κ * Real.sqrt D)) * w) ^ 2 = 2 * D * (s.dt * (n * KA * (κ * w))) ^ 2 := by
      have e : (s.dt * (Real.sqrt 2 * (n * KA * κ * Real.sqrt D)) * w) ^ 2 =
        (Real.sqrt 2) ^ 2 * (Real.sqrt D) ^ 2 * (s.dt * (n * KA * (κ * w))) ^ 2 := by ring
      rw [e, h2, h3]
    have h6 : 0 ≤ D * (s.dt * (n * KA * (κ * w))) ^ 2 := by positivity
    rw [h5, mul_pow] at h4
    linarith
  obtain ⟨ρ, η, σ, σ', h1, h2, h3, h4, h5⟩ := st j hj
  have g1 := h1.all_nodes hL hH hd0 hdt0 hKA0 hAC h3 h4 h5
  have g2 := h1.cell_average hH hL.l hL.r hd0 hdt0 hKA0 hAL h2
  rw [hMd] at g1 g2
  have : 0 ≤ B ^ 2 * w ^ 2 := by positivity
  constructor
  · refine g1.trans ?_
    linarith
  · refine g2.trans ?_
    linarith

/-- Sums of two consecutive errors. -/
theorem exists_sum_bound {D : ℝ} {L C R G Zs Zl : Mat n} {Vs Vl : ℝ → Col n} {t0 : ℝ} {V I : ℝ → ℝ → Col n} (hD : 0 < D)
    (hL : LineData L C R G Zs Zl) (hS : SmoothSolution D L C R G Zs Zl Vs Vl t0 V I) (T0 : ℝ) :
    ∃ K : ℝ, 0 ≤ K ∧ ∀ (p : ℕ) (s s' : MTL n p) (T τ' : ℝ) (N : ℕ) (tr : ℕ → MTL n p), s.Uniform D L C R G Zs Zl Vs Vl →
      s.AtRest → s.time = t0 → maxTimestep s.m s.dun s.l s.c = .ok τ' → s.TermFor s.dt → s.dt ≤ τ' → T ≤ T0 →
      RunTrace s T s' N tr → ∀ j < N,
        ∑ k ∈ Finset.range (s.m + 1), D / s.m * ∑ a, (errorV s D V tr (j + 1) k a + errorV s D V tr j k a) ^ 2
          ≤ (K * (s.dt ^ 2 + (D / s.m) ^ 2)) ^ 2 ∧
        ∑ k ∈ Finset.range s.m, D / s.m * ∑ a, (errorI s D I tr (j + 1) k a + errorI s D I tr j k a) ^ 2
          ≤ (K * (s.dt ^ 2 + (D / s.m) ^ 2)) ^ 2 := by
  obtain ⟨KC, hKC, hC⟩ := hL.c.component_bound
  obtain ⟨KL, hKL, hI⟩ := hL.l.component_bound
  obtain ⟨κ, ν, hκ, hν, hstep⟩ := exists_step_bound hD hS T0
  set KA := KC + KL with hKA
  have hKA0 : 0 ≤ KA := by positivity
  have hAC : ∀ (x : Col n) (a : Fin n), |x a| ≤ KA * Real.sqrt (x ⬝ᵥ (C *ᵥ x)) := fun x a =>
    (hC x a).trans (mul_le_mul_of_nonneg_right (by linarith) (Real.sqrt_nonneg _))
  have hAL : ∀ (x : Col n) (a : Fin n), |x a| ≤ KA * Real.sqrt (x ⬝ᵥ (L *ᵥ x)) := fun x a =>
    (hI x a).trans (mul_le_mul_of_nonneg_right (by linarith) (Real.sqrt_nonneg _))
  obtain ⟨A, hA⟩ : ∃ A, A = |T0| * (Real.sqrt 2 * (n * KA * κ * Real.sqrt D)) := ⟨_, rfl⟩
  obtain ⟨B, hB⟩ : ∃ B, B = Real.sqrt (|T0| * ν) * κ := ⟨_, rfl⟩
  obtain ⟨F, hF⟩ : ∃ F, F = n * KA ^ 2 * (8 * (2 * B + 3 * A) ^ 2 + 4 * A ^ 2 + 4 * B ^ 2) := ⟨_, rfl⟩
  have hF0 : 0 ≤ F := by rw [hF]; positivity
  refine ⟨Real.sqrt F, Real.sqrt_nonneg _, ?_⟩
  intro p s s' T τ' N tr hU hrest ht0 hτ' hterm hτ hT hR j hj
  have hm : (0 : ℝ) < s.m := by exact_mod_cast hU.cells
  have hd0 : 0 < D / s.m := by positivity
  obtain ⟨M, hM⟩ : ∃ M, s.m = M + 1 := ⟨s.m - 1, by have := hU.cells; omega⟩
  obtain ⟨z1, z2⟩ := errors_start hU hD hS hrest ht0 hR
  have hw : 0 ≤ s.dt ^ 2 + (D / s.m) ^ 2 := by positivity
  obtain ⟨g1, g2⟩ := sum_bound hU hD hL hM (hU.halfCell_nonneg hD hL hτ' hτ) hR hT hKA0 hκ hν hw z1 z2 hAC hAL
    (hstep p s s' T N tr hU ht0 hterm hT hR M hM) hA hB hj
  rw [mul_pow, Real.sq_sqrt hF0, hF, mul_assoc (n * KA ^ 2)]
  have c1 := cell_norm_le (m := M + 2) hL.c hd0.le hAC (fun k => errorV s D V tr (j + 1) k + errorV s D V tr j k)
  have c2 := cell_norm_le (m := M + 1) hL.l hd0.le hAL (fun k => errorI s D I tr (j + 1) k + errorI s D I tr j k)
  simp only [Pi.add_apply] at c1 c2
  have hk0 : 0 ≤ n * KA ^ 2 := by positivity
  have e1 : Finset.range (s.m + 1) = Finset.range (M + 2) := by rw [hM]
  have e2 : Finset.range s.m = Finset.range (M + 1) := by rw [hM]
  rw [e1, e2]
  exact ⟨c1.trans (mul_le_mul_of_nonneg_left g1 hk0), c2.trans (mul_le_mul_of_nonneg_left g2 hk0)⟩

/-- **C137.** Convergence at the time step the constructor chooses, or any smaller one for which the coefficients of the ends
were computed.  Let `V`, `I` be a three times continuously differentiable solution of the telegrapher's equations of a uniform
line of any number of conductors, at rest until `t0`.  There is one constant `K` for all meshes and all time steps up to the
limit of `get_max_timestep`, the limit included: in every run from rest of at most `T0` seconds the averages of the voltages,
and of the currents, over two consecutive steps differ from the averages of the samples of `V` and `I` by at most
`K (dt² + dx²)` in the mean square; the voltages and currents themselves by at most `K (dt² + dx²) / dt`. -/
theorem C137_converges_at_limit {D : ℝ} {L C R G Zs Zl : Mat n} {Vs Vl : ℝ → Col n} {t0 : ℝ} {V I : ℝ → ℝ → Col n} (hD : 0 < D)
    (hL : LineData L C R G Zs Zl) (hS : SmoothSolution D L C R G Zs Zl Vs Vl t0 V I) (T0 : ℝ) :
    ∃ K : ℝ, 0 ≤ K ∧ ∀ (p : ℕ) (s s' : MTL n p) (T τ' : ℝ) (N : ℕ) (tr : ℕ → MTL n p), s.Uniform D L C R G Zs Zl Vs Vl →
      s.AtRest → s.time = t0 → maxTimestep s.m s.dun s.l s.c = .ok τ' → s.TermFor s.dt → s.dt ≤ τ' → T ≤ T0 →
      RunTrace s T s' N tr →
      (∀ j < N,
        ∑ k ∈ Finset.range (s.m + 1), D / s.m * ∑ a, (((tr (j + 1)).v k a + (tr j).v k a) / 2 -
            (V (k * (D / s.m)) (t0 + j * s.dt) a + V (k * (D / s.m)) (t0 + j * s.dt - s.dt) a) / 2) ^ 2
          ≤ (K * (s.dt ^ 2 + (D / s.m) ^ 2)) ^ 2 ∧
        ∑ k ∈ Finset.range s.m, D / s.m * ∑ a, (((tr (j + 1)).i k a + (tr j).i k a) / 2 -
            (I (k * (D / s.m) + D / s.m / 2) (t0 + j * s.dt + s.dt / 2) a +
              I (k * (D / s.m) + D / s.m / 2) (t0 + j * s.dt - s.dt / 2) a) / 2) ^ 2
          ≤ (K * (s.dt ^ 2 + (D / s.m) ^ 2)) ^ 2) ∧
      ∀ j ≤ N,
        ∑ k ∈ Finset.range (s.m + 1), D / s.m * ∑ a, ((tr j).v k a - V (k * (D / s.m)) (t0 + j * s.dt - s.dt) a) ^ 2
          ≤ (K * (s.dt ^ 2 + (D / s.m) ^ 2) / s.dt) ^ 2 ∧
        ∑ k ∈ Finset.range s.m, D / s.m *
            ∑ a, ((tr j).i k a - I (k * (D / s.m) + D / s.m / 2) (t0 + j * s.dt - s.dt / 2) a) ^ 2
          ≤ (K * (s.dt ^ 2 + (D / s.m) ^ 2) / s.dt) ^ 2 := by
  obtain ⟨K0, hK0, h0⟩ := exists_sum_bound hD hL hS T0
  refine ⟨K0 + |T0| * K0, by positivity, ?_⟩
  intro p s s' T τ' N tr hU hrest ht0 hτ' hterm hτ hT hR
  have h1 := h0 p s s' T τ' N tr hU hrest ht0 hτ' hterm hτ hT hR
  have hdt0 := hU.dt_pos
  have hm : (0 : ℝ) < s.m := by exact_mod_cast hU.cells
  have hd0 : 0 < D / s.m := by positivity
  set w := s.dt ^ 2 + (D / s.m) ^ 2 with hw
  have hw0 : 0 ≤ w := by positivity
  have hle : K0 * w ≤ (K0 + |T0| * K0) * w := by
    have : 0 ≤ |T0| * K0 * w := by positivity
    linarith
  have half : ∀ (q : ℕ) (x y : ℕ → Fin n → ℝ), (∀ k a, x k a = y k a / 2) → ∑ k ∈ Finset.range q, D / s.m * ∑ a, y k a ^ 2 ≤ (K0 * w) ^ 2 →
      ∑ k ∈ Finset.range q, D / s.m * ∑ a, x k a ^ 2 ≤ ((K0 + |T0| * K0) * w) ^ 2 := by
    intro q x y hxy h
    have e : ∑ k ∈ Finset.range q, D / s.m * ∑ a, x k a ^ 2 = 1 / 4 * ∑ k ∈ Finset.range q, D / s.m * ∑ a, y k a ^ 2 := by
      simp only [Finset.mul_sum]
      refine Finset.sum_congr rfl fun k _ => Finset.sum_congr rfl fun a _ => ?_
      rw [hxy]; ring
    rw [e]
    have : 0 ≤ ∑ k ∈ Finset.range q, D / s.m * ∑ a, y k a ^ 2 :=
      Finset.sum_nonneg fun k _ => mul_nonneg hd0.le (Finset.sum_nonneg fun a _ => sq_nonneg _)
    have := pow_le_pow_left₀ (by positivity) hle 2
    linarith
  obtain ⟨z1, z2⟩ := errors_start hU hD hS hrest ht0 hR
  have single : ∀ j ≤ N, ∀ q : ℕ, ∀ z : ℕ → Grid n, (∀ k < q, z 0 k = 0) →
      (∀ i < N, ∑ k ∈ Finset.range q, D / s.m * ∑ a, (z (i + 1) k a + z i k a) ^ 2 ≤ (K0 * w) ^ 2) →
      ∑ k ∈ Finset.range q, D / s.m * ∑ a, z j k a ^ 2 ≤ ((K0 + |T0| * K0) * w / s.dt) ^ 2 := by
    intro j hj q z hz hQ
    have h2 := alternating_norm hd0.le hz (fun i hi => hQ i (by omega)) (j := j)
    refine h2.trans ?_
    rw [← mul_pow]
    refine pow_le_pow_left₀ (by positivity) ?_ 2
    rw [le_div_iff₀ hdt0]
    have hjT : j * s.dt ≤ |T0| := by
      rcases Nat.eq_zero_or_pos j with h0 | h0
      · rw [h0]; simp
      · exact ((hR.duration hdt0 hj h0).trans hT).trans (le_abs_self _)
    have := mul_le_mul_of_nonneg_right hjT (by positivity : 0 ≤ K0 * w)
    have : 0 ≤ K0 * w := by positivity
    linarith
  have t1 : ∀ j : ℕ, t0 + ((j + 1 : ℕ) : ℝ) * s.dt - s.dt = t0 + j * s.dt := fun j => by push_cast; ring
  have t2 : ∀ j : ℕ, t0 + ((j + 1 : ℕ) : ℝ) * s.dt - s.dt / 2 = t0 + j * s.dt + s.dt / 2 := fun j => by push_cast; ring
  constructor
  · intro j hj
    obtain ⟨g1, g2⟩ := h1 j hj
    refine ⟨half _ _ _ (fun k a => ?_) g1, half _ _ _ (fun k a => ?_) g2⟩
    · simp only [errorV, ht0, t1, Pi.sub_apply]
      ring
    · simp only [errorI, ht0, t2, Pi.sub_apply]
      ring
  · intro j hj
    have g1 := single j hj (s.m + 1) (errorV s D V tr) (fun k hk => z1 k (by omega)) (fun i hi => (h1 i hi).1)
    have g2 := single j hj s.m (errorI s D I tr) z2 (fun i hi => (h1 i hi).2)
    simp only [errorV, errorI, ht0, Pi.sub_apply] at g1 g2
    exact ⟨g1, g2⟩

end Mtln
