import Verif.Lemmas.Converge
import Verif.Spec.Converge

/-! # Errors at the largest time step allowed

At the limit of the Courant condition the energy of the scheme no longer controls voltages and currents themselves, but it still
controls their averages over two steps. -/

namespace Mtln

open Matrix

variable {n p : ℕ}

/-- Energy of half a cell. -/
noncomputable def halfCell (d h : ℝ) (C L : Mat n) (x i : Col n) : ℝ :=
  d / 2 * (x ⬝ᵥ (C *ᵥ x)) + d / 2 * (i ⬝ᵥ (L *ᵥ i)) + h * (x ⬝ᵥ i)

theorem average_bound {A B : Mat n} {d h c : ℝ} (hd : 0 < d) (hh : 0 < h) (hA : Aᵀ = A) (hB : Dissipative B) {x x' δ ρ : Col n}
    (hq : ∀ z : Col n, 0 ≤ d * (z ⬝ᵥ (A *ᵥ z)) - h * (z ⬝ᵥ δ) + c)
    (heq : d • ((1 / h) • (A *ᵥ (x' - x)) + (1 / 2 : ℝ) • (B *ᵥ (x' + x))) = -δ + d • ρ) :
    d * ((x' + x) ⬝ᵥ (A *ᵥ (x' + x))) ≤ 4 * (d * (x ⬝ᵥ (A *ᵥ x)) - h * (x ⬝ᵥ δ) + c) + 2 * d * h * ((x' + x) ⬝ᵥ ρ) := by
  set w := x' + x with hw
  have hx' : x' - x = w - (2 : ℝ) • x := by rw [hw, two_smul]; abel
  have hsym : w ⬝ᵥ (A *ᵥ x) = x ⬝ᵥ (A *ᵥ w) := by
    rw [dotProduct_mulVec, ← mulVec_transpose, hA, dotProduct_comm]
  have h1 := congrArg (fun z => h * (w ⬝ᵥ z)) heq
  simp only [hx', dotProduct_smul, dotProduct_add, dotProduct_neg, smul_eq_mul, mulVec_sub, mulVec_smul, dotProduct_sub] at h1
  have h2 : h * (d * (1 / h * (w ⬝ᵥ A *ᵥ w - 2 * (w ⬝ᵥ A *ᵥ x)) + 1 / 2 * (w ⬝ᵥ B *ᵥ w))) =
      d * (w ⬝ᵥ A *ᵥ w) - 2 * d * (w ⬝ᵥ A *ᵥ x) + d * h / 2 * (w ⬝ᵥ B *ᵥ w) := by field_simp
  rw [h2] at h1
  have h3 := mul_nonneg (by positivity : 0 ≤ d * h / 2) (hB w)
  have h4 := hq (x - (1 / 2 : ℝ) • w)
  simp only [mulVec_sub, mulVec_smul, dotProduct_sub, sub_dotProduct, smul_dotProduct, dotProduct_smul, smul_eq_mul] at h4
  rw [hsym] at h4 h1
  linarith

theorem end_average_bound {Z C G L : Mat n} {d h : ℝ} (hd : 0 < d) (hh : 0 < h) (hC : Cᵀ = C) (hG : Dissipative G) (hZs : Zᵀ = Z)
    (hZ : Dissipative Z) {x v I σ : Col n} (hq : ∀ z : Col n, 0 ≤ halfCell d h C L z (-I))
    (e : x + v = -(Z *ᵥ ((2 : ℝ) • I + (d / h) • (C *ᵥ (x - v)) + (d / 2) • (G *ᵥ (x + v)) + (2 : ℝ) • σ))) :
    d * ((x + v) ⬝ᵥ (C *ᵥ (x + v))) ≤ 8 * halfCell d h C L v (-I) + 2 * h * (σ ⬝ᵥ (Z *ᵥ σ)) := by
  set J : Col n := (2 : ℝ) • I + (d / h) • (C *ᵥ (x - v)) + (d / 2) • (G *ᵥ (x + v)) with hJ
  have h1 : J ⬝ᵥ (x + v) ≤ σ ⬝ᵥ (Z *ᵥ σ) := by
    rw [e]
    have h0 := hZ (J + σ)
    have hs : σ ⬝ᵥ (Z *ᵥ J) = J ⬝ᵥ (Z *ᵥ σ) := by
      rw [dotProduct_mulVec, ← mulVec_transpose, hZs, dotProduct_comm]
    simp only [mulVec_add, dotProduct_add, add_dotProduct, hs] at h0
    simp only [mulVec_add, dotProduct_neg, dotProduct_add, mulVec_smul, dotProduct_smul, smul_eq_mul]
    linarith
  set w := x + v with hw
  have hx' : x - v = w - (2 : ℝ) • v := by rw [hw, two_smul]; abel
  have hsym : w ⬝ᵥ (C *ᵥ v) = v ⬝ᵥ (C *ᵥ w) := by
    rw [dotProduct_mulVec, ← mulVec_transpose, hC, dotProduct_comm]
  rw [dotProduct_comm, hJ, hx'] at h1
  simp only [dotProduct_smul, dotProduct_add, smul_eq_mul, mulVec_sub, mulVec_smul, dotProduct_sub] at h1
  have h2 : h * (d / h * (w ⬝ᵥ C *ᵥ w - 2 * (w ⬝ᵥ C *ᵥ v))) = d * (w ⬝ᵥ C *ᵥ w) - 2 * d * (w ⬝ᵥ C *ᵥ v) := by field_simp
  have h3 := mul_nonneg (by positivity : 0 ≤ h * (d / 2)) (hG w)
  have h5 := mul_le_mul_of_nonneg_left h1 hh.le
  have h4 := hq (v - (1 / 2 : ℝ) • w)
  unfold halfCell at h4 ⊢
  simp only [mulVec_sub, mulVec_smul, dotProduct_sub, sub_dotProduct, smul_dotProduct, dotProduct_smul, smul_eq_mul,
    dotProduct_neg, neg_dotProduct, mulVec_neg, neg_neg] at h4 ⊢
  rw [hsym] at h4 h2
  rw [mul_add, mul_add, hsym, h2] at h5
  linarith

/-- Grouping by nodes. -/
theorem sum_regroup (f g : ℕ → ℝ) (M : ℕ) :
    ∑ k ∈ Finset.range (M + 1), (f k + g k) = f 0 + ∑ k ∈ Finset.range M, (f (k + 1) + g k) + g M := by
  rw [Finset.sum_add_distrib, Finset.sum_range_succ', Finset.sum_range_succ g, Finset.sum_add_distrib]
  ring

/-- Work of residuals against averages that are bounded by the energy. -/
theorem work_absorb {E S W α : ℝ} (hE : 0 ≤ E) (hα : 0 ≤ α) (hS : S ≤ 8 * E + 4 * α ^ 2) (hW : W ≤ α * Real.sqrt S) :
    E + W ≤ (Real.sqrt E + Real.sqrt 2 * α) ^ 2 := by
  have h3 := Real.sq_sqrt hE
  have h4 := Real.sq_sqrt (by norm_num : (0 : ℝ) ≤ 2)
  have h1 : Real.sqrt S ≤ 2 * Real.sqrt 2 * Real.sqrt E + 2 * α := by
    refine (Real.sqrt_le_sqrt hS).trans (Real.sqrt_le_iff.2 ⟨by positivity, ?_⟩)
    have : 0 ≤ 8 * Real.sqrt 2 * Real.sqrt E * α := by positivity
    nlinarith
  have h2 := hW.trans (mul_le_mul_of_nonneg_left h1 hα)
  nlinarith

/-- Growth in two halves. -/
theorem two_step_growth {x : ℕ → ℝ} {α b : ℝ} {N : ℕ} (hα : 0 ≤ α) (hb : 0 ≤ b) (h0 : x 0 = 0) (hx : ∀ j, 0 ≤ x j)
    (h : ∀ j < N, x (j + 1) ≤ Real.sqrt ((x j + α) ^ 2 + b) + α) : ∀ j ≤ N, x j ≤ Real.sqrt (j * b) + 2 * j * α := by
  intro j
  induction j with
  | zero => intro _; rw [h0]; simp
  | succ j ih =>
    intro hj
    have h1 := ih (by omega)
    refine (h j (by omega)).trans ?_
    set y := Real.sqrt (j * b) with hy
    have hy2 : y ^ 2 = j * b := Real.sq_sqrt (by positivity)
    set z := Real.sqrt (((j + 1 : ℕ) : ℝ) * b) with hz
    have hz2 : z ^ 2 = ((j + 1 : ℕ) : ℝ) * b := Real.sq_sqrt (by positivity)
    have hyz : y ≤ z := Real.sqrt_le_sqrt (by push_cast; nlinarith)
    have hy0 : 0 ≤ y := Real.sqrt_nonneg _
    have key : Real.sqrt ((x j + α) ^ 2 + b) ≤ z + (2 * j + 1) * α := by
      apply Real.sqrt_le_iff.2
      refine ⟨by positivity, ?_⟩
      have h2 : (x j + α) ^ 2 ≤ (y + (2 * j + 1) * α) ^ 2 := pow_le_pow_left₀ (add_nonneg (hx j) hα) (by linarith) 2
      push_cast at hz2
      have h3 : 0 ≤ (2 * j + 1) * α := by positivity
      nlinarith [mul_le_mul_of_nonneg_right hyz h3]
    push_cast
    linarith

/-! ## One step -/

/-- Equations of one step up to residuals, on a uniform mesh. -/
structure UniformStep (M : ℕ) (d h : ℝ) (L C R G Zs Zl : Mat n) (e ε e' ε' ρ η : Grid n) (σ σ' : Col n) : Prop where
  cell : ∀ k ≤ M, d • ((1 / h) • (L *ᵥ (ε' k - ε k)) + (1 / 2 : ℝ) • (R *ᵥ (ε' k + ε k))) = -(e' (k + 1) - e' k) + d • ρ k
  node : ∀ k < M, d • ((1 / h) • (C *ᵥ (e' (k + 1) - e (k + 1))) + (1 / 2 : ℝ) • (G *ᵥ (e' (k + 1) + e (k + 1)))) =
    -(ε (k + 1) - ε k) + d • η (k + 1)
  first : e' 0 + e 0 = -(Zs *ᵥ ((2 : ℝ) • ε 0 + (d / h) • (C *ᵥ (e' 0 - e 0)) + (d / 2) • (G *ᵥ (e' 0 + e 0)) + (2 : ℝ) • σ))
  last : e' (M + 1) + e (M + 1) = -(Zl *ᵥ ((2 : ℝ) • (-ε M) + (d / h) • (C *ᵥ (e' (M + 1) - e (M + 1))) +
    (d / 2) • (G *ᵥ (e' (M + 1) + e (M + 1))) + (2 : ℝ) • σ'))

/-- Energy of the scheme on a uniform mesh with `M + 1` cells, after a whole step (`a = 1`) and between the two halves of a step
(`a = -1`). -/
noncomputable def cellEnergy (M : ℕ) (d h : ℝ) (C L : Mat n) (a : ℝ) (e ε : Grid n) : ℝ :=
  ∑ k ∈ Finset.range (M + 1), (halfCell d h C L (e k) (-(a • ε k)) + halfCell d h C L (e (k + 1)) (a • ε k))

section

variable {M : ℕ} {d h KA r B : ℝ} {L C R G Zs Zl : Mat n} {e ε e' ε' ρ η : Grid n} {σ σ' : Col n}

theorem cellEnergy_nonneg (hH : ∀ x i : Col n, 0 ≤ halfCell d h C L x i) (a : ℝ) (e ε : Grid n) :
    0 ≤ cellEnergy M d h C L a e ε := Finset.sum_nonneg fun _ _ => add_nonneg (hH _ _) (hH _ _)

theorem cellEnergy_nodes (a : ℝ) (e ε : Grid n) :
    cellEnergy M d h C L a e ε = halfCell d h C L (e 0) (-(a • ε 0)) +
      ∑ k ∈ Finset.range M, (halfCell d h C L (e (k + 1)) (-(a • ε (k + 1))) + halfCell d h C L (e (k + 1)) (a • ε k)) +
      halfCell d h C L (e (M + 1)) (a • ε M) :=
  sum_regroup (fun k => halfCell d h C L (e k) (-(a • ε k))) (fun k => halfCell d h C L (e (k + 1)) (a • ε k)) M

/-- Averages against residuals. -/
theorem young_average {A : Mat n} (hAs : SPD A) (hd : 0 < d) (hKA : 0 ≤ KA)
    (hA : ∀ (x : Col n) (a : Fin n), |x a| ≤ KA * Real.sqrt (x ⬝ᵥ (A *ᵥ x))) {w ρ : Col n} (hρ : ∀ a, |ρ a| ≤ r) {q : ℝ}
    (hh : 0 < h) (hw : d * (w ⬝ᵥ (A *ᵥ w)) ≤ 4 * q + 2 * d * h * (w ⬝ᵥ ρ)) :
    d * (w ⬝ᵥ (A *ᵥ w)) ≤ 8 * q + 4 * d * (h * (n * KA * r)) ^ 2 := by
  have h1 := dot_work hKA hA (x := w) hρ
  set y := Real.sqrt (w ⬝ᵥ (A *ᵥ w)) with hy
  have hy2 : y ^ 2 = w ⬝ᵥ (A *ᵥ w) := Real.sq_sqrt (hAs.nonneg _)
  rw [← hy2] at hw ⊢
  have h2 := mul_le_mul_of_nonneg_left h1 (by positivity : 0 ≤ 2 * d * h)
  nlinarith [mul_nonneg hd.le (sq_nonneg (y - 2 * (h * (n * KA * r))))]

theorem UniformStep.cell_average (hs : UniformStep M d h L C R G Zs Zl e ε e' ε' ρ η σ σ')
    (hH : ∀ x i : Col n, 0 ≤ halfCell d h C L x i) (hL : SPD L) (hR : Dissipative R) (hd : 0 < d) (hh : 0 < h) (hKA : 0 ≤ KA)
    (hA : ∀ (x : Col n) (a : Fin n), |x a| ≤ KA * Real.sqrt (x ⬝ᵥ (L *ᵥ x))) (hρ : ∀ k ≤ M, ∀ a, |ρ k a| ≤ r) :
    ∑ k ∈ Finset.range (M + 1), d * ((ε' k + ε k) ⬝ᵥ (L *ᵥ (ε' k + ε k))) ≤
      8 * cellEnergy M d h C L (-1) e' ε + 4 * ((M + 1 : ℕ) * d) * (h * (n * KA * r)) ^ 2 := by
  have one : ∀ k ∈ Finset.range (M + 1), d * ((ε' k + ε k) ⬝ᵥ (L *ᵥ (ε' k + ε k))) ≤
      8 * (halfCell d h C L (e' k) (-((-1 : ℝ) • ε k)) + halfCell d h C L (e' (k + 1)) ((-1 : ℝ) • ε k)) +
        4 * d * (h * (n * KA * r)) ^ 2 := by
    intro k hk
    have hk := Nat.lt_succ_iff.1 (Finset.mem_range.1 hk)
    refine young_average hL hd hKA hA (hρ k hk) hh ?_
    have key : ∀ z : Col n, halfCell d h C L (e' k) z + halfCell d h C L (e' (k + 1)) (-z) =
        d * (z ⬝ᵥ (L *ᵥ z)) - h * (z ⬝ᵥ (e' (k + 1) - e' k)) +
          (d / 2 * (e' k ⬝ᵥ (C *ᵥ e' k)) + d / 2 * (e' (k + 1) ⬝ᵥ (C *ᵥ e' (k + 1)))) := by
      intro z
      unfold halfCell
      simp only [dotProduct_neg, neg_dotProduct, mulVec_neg, neg_neg, sub_dotProduct, dotProduct_comm z]
      ring
    have h1 := average_bound (x := ε k) (x' := ε' k) hd hh hL.symm hR (fun z => by rw [← key]; exact add_nonneg (hH _ _) (hH _ _)) (hs.cell k hk)
    rw [← key] at h1
    simpa using h1
  refine (Finset.sum_le_sum one).trans (le_of_eq ?_)
  rw [Finset.sum_add_distrib, ← Finset.mul_sum]
  unfold cellEnergy
  simp
  ring

theorem UniformStep.node_average (hs : UniformStep M d h L C R G Zs Zl e ε e' ε' ρ η σ σ')
    (hH : ∀ x i : Col n, 0 ≤ halfCell d h C L x i) (hC : SPD C) (hG : Dissipative G) (hd : 0 < d) (hh : 0 < h) (hKA : 0 ≤ KA)
    (hA : ∀ (x : Col n) (a : Fin n), |x a| ≤ KA * Real.sqrt (x ⬝ᵥ (C *ᵥ x))) (hη : ∀ k < M, ∀ a, |η (k + 1) a| ≤ r) :
    ∑ k ∈ Finset.range M, d * ((e' (k + 1) + e (k + 1)) ⬝ᵥ (C *ᵥ (e' (k + 1) + e (k + 1)))) ≤
      8 * ∑ k ∈ Finset.range M, (halfCell d h C L (e (k + 1)) (-ε (k + 1)) + halfCell d h C L (e (k + 1)) (ε k)) +
        4 * (M * d) * (h * (n * KA * r)) ^ 2 := by
  have one : ∀ k ∈ Finset.range M, d * ((e' (k + 1) + e (k + 1)) ⬝ᵥ (C *ᵥ (e' (k + 1) + e (k + 1)))) ≤
      8 * (halfCell d h C L (e (k + 1)) (-ε (k + 1)) + halfCell d h C L (e (k + 1)) (ε k)) + 4 * d * (h * (n * KA * r)) ^ 2 := by
    intro k hk
    have hk := Finset.mem_range.1 hk
    refine young_average hC hd hKA hA (hη k hk) hh ?_
    have key : ∀ z : Col n, halfCell d h C L z (-ε (k + 1)) + halfCell d h C L z (ε k) =
        d * (z ⬝ᵥ (C *ᵥ z)) - h * (z ⬝ᵥ (ε (k + 1) - ε k)) +
          (d / 2 * (ε (k + 1) ⬝ᵥ (L *ᵥ ε (k + 1))) + d / 2 * (ε k ⬝ᵥ (L *ᵥ ε k))) := by
      intro z
      unfold halfCell
      simp only [dotProduct_neg, neg_dotProduct, mulVec_neg, neg_neg, dotProduct_sub]
      ring
    have h1 := average_bound (x := e (k + 1)) (x' := e' (k + 1)) hd hh hC.symm hG (fun z => by rw [← key]; exact add_nonneg (hH _ _) (hH _ _)) (hs.node k hk)
    rw [← key] at h1
    exact h1
  refine (Finset.sum_le_sum one).trans (le_of_eq ?_)
  rw [Finset.sum_add_distrib, ← Finset.mul_sum]
  simp
  ring

theorem UniformStep.half_nodes (hs : UniformStep M d h L C R G Zs Zl e ε e' ε' ρ η σ σ') (hC : SPD C) (hG : Dissipative G)
    (hZs : Dissipative Zs) (hZsT : Zsᵀ = Zs) (hZl : Dissipative Zl) (hZlT : Zlᵀ = Zl) (hd : 0 < d) (hh : 0 < h) :
    cellEnergy M d h C L (-1) e' ε ≤ cellEnergy M d h C L 1 e ε +
      h * ∑ k ∈ Finset.range M, d * ((e' (k + 1) + e (k + 1)) ⬝ᵥ η (k + 1)) + h / 2 * (σ ⬝ᵥ (Zs *ᵥ σ)) + h / 2 * (σ' ⬝ᵥ (Zl *ᵥ σ')) := by
  rw [cellEnergy_nodes, cellEnergy_nodes]
  have h1 := terminal_error (dt := h) hh hh hd.le hC.symm hG hZsT hZs hs.first
  have h2 := terminal_error (dt := h) (I := -ε M) (σ := σ') (x := e' (M + 1)) (v := e (M + 1)) hh hh hd.le hC.symm hG hZlT hZl hs.last
  rw [div_self hh.ne', one_mul] at h1 h2
  have a1 : halfCell d h C L (e' 0) (-((-1 : ℝ) • ε 0)) ≤ halfCell d h C L (e 0) (-((1 : ℝ) • ε 0)) + h / 2 * (σ ⬝ᵥ (Zs *ᵥ σ)) := by
    unfold halfCell
    simp only [neg_smul, one_smul, neg_neg, dotProduct_neg, neg_dotProduct, mulVec_neg, add_dotProduct] at h1 ⊢
    linarith
  have a2 : halfCell d h C L (e' (M + 1)) ((-1 : ℝ) • ε M) ≤ halfCell d h C L (e (M + 1)) ((1 : ℝ) • ε M) + h / 2 * (σ' ⬝ᵥ (Zl *ᵥ σ')) := by
    unfold halfCell
    simp only [neg_smul, one_smul, neg_neg, dotProduct_neg, neg_dotProduct, mulVec_neg, add_dotProduct] at h2 ⊢
    linarith
  have a3 : ∑ k ∈ Finset.range M, (halfCell d h C L (e' (k + 1)) (-((-1 : ℝ) • ε (k + 1))) + halfCell d h C L (e' (k + 1)) ((-1 : ℝ) • ε k)) ≤
      ∑ k ∈ Finset.range M, (halfCell d h C L (e (k + 1)) (-((1 : ℝ) • ε (k + 1))) + halfCell d h C L (e (k + 1)) ((1 : ℝ) • ε k)) +
      h * ∑ k ∈ Finset.range M, d * ((e' (k + 1) + e (k + 1)) ⬝ᵥ η (k + 1)) := by
    rw [Finset.mul_sum, ← Finset.sum_add_distrib]
    refine Finset.sum_le_sum fun k hk => ?_
    have h3 := current_error hh hd.le hC.symm hG (hs.node k (Finset.mem_range.1 hk))
    unfold halfCell
    simp only [neg_smul, one_smul, neg_neg, dotProduct_neg, neg_dotProduct, mulVec_neg, add_dotProduct, dotProduct_sub] at h3 ⊢
    linarith
  linarith

theorem UniformStep.half_cells (hs : UniformStep M d h L C R G Zs Zl e ε e' ε' ρ η σ σ') (hL : SPD L) (hR : Dissipative R)
    (hd : 0 < d) (hh : 0 < h) :
    cellEnergy M d h C L 1 e' ε' ≤ cellEnergy M d h C L (-1) e' ε +
      h * ∑ k ∈ Finset.range (M + 1), d * ((ε' k + ε k) ⬝ᵥ ρ k) := by
  unfold cellEnergy
  rw [Finset.mul_sum, ← Finset.sum_add_distrib]
  refine Finset.sum_le_sum fun k hk => ?_
  have h3 := current_error hh hd.le hL.symm hR (hs.cell k (Nat.lt_succ_iff.1 (Finset.mem_range.1 hk)))
  unfold halfCell
  simp only [neg_smul, one_smul, neg_neg, dotProduct_neg, neg_dotProduct, mulVec_neg, add_dotProduct, dotProduct_sub,
    dotProduct_comm (ε' k) (e' _), dotProduct_comm (ε k) (e' _)] at h3 ⊢
  linarith

/-- One field against a residual. -/
theorem single_work {m : ℕ} {A : Mat n} (hAs : SPD A) (hd : 0 ≤ d) (hKA : 0 ≤ KA) (hr : 0 ≤ r)
    (hA : ∀ (x : Col n) (a : Fin n), |x a| ≤ KA * Real.sqrt (x ⬝ᵥ (A *ᵥ x))) {x ρ : Grid n} (hρ : ∀ k < m, ∀ a, |ρ k a| ≤ r) :
    ∑ k ∈ Finset.range m, d * (x k ⬝ᵥ ρ k) ≤ n * KA * r * Real.sqrt (m * d) * Real.sqrt (∑ k ∈ Finset.range m, d * (x k ⬝ᵥ (A *ᵥ x k))) := by
  have := cell_work (x := x) (y := fun _ => 0) hAs hd hKA hr hA hρ
  simpa using this

/-- Growth of the square root of the energy in one step, at any time step the Courant condition allows. -/
theorem UniformStep.growth (hs : UniformStep M d h L C R G Zs Zl e ε e' ε' ρ η σ σ') (hl : LineData L C R G Zs Zl)
    (hH : ∀ x i : Col n, 0 ≤ halfCell d h C L x i) (hd : 0 < d) (hh : 0 < h) (hKA : 0 ≤ KA) (hr : 0 ≤ r) 
    (hAC : ∀ (x : Col n) (a : Fin n), |x a| ≤ KA * Real.sqrt (x ⬝ᵥ (C *ᵥ x)))
    (hAL : ∀ (x : Col n) (a : Fin n), |x a| ≤ KA * Real.sqrt (x ⬝ᵥ (L *ᵥ x))) (hρ : ∀ k ≤ M, ∀ a, |ρ k a| ≤ r)
    (hη : ∀ k < M, ∀ a, |η (k + 1) a| ≤ r) (hσ : σ ⬝ᵥ (Zs *ᵥ σ) ≤ B) (hσ' : σ' ⬝ᵥ (Zl *ᵥ σ') ≤ B) :
    Real.sqrt (cellEnergy M d h C L (-1) e' ε) ≤ Real.sqrt ((Real.sqrt (cellEnergy M d h C L 1 e ε) +
        Real.sqrt 2 * (h * (n * KA * r * Real.sqrt ((M + 1 : ℕ) * d)))) ^ 2 + h * B) ∧
    Real.sqrt (cellEnergy M d h C L 1 e' ε') ≤ Real.sqrt ((Real.sqrt (cellEnergy M d h C L 1 e ε) +
        Real.sqrt 2 * (h * (n * KA * r * Real.sqrt ((M + 1 : ℕ) * d)))) ^ 2 + h * B) +
      Real.sqrt 2 * (h * (n * KA * r * Real.sqrt ((M + 1 : ℕ) * d))) := by
  set α := h * (n * KA * r * Real.sqrt ((M + 1 : ℕ) * d)) with hα
  have hα0 : 0 ≤ α := by positivity
  have hα2 : α ^ 2 = ((M + 1 : ℕ) * d) * (h * (n * KA * r)) ^ 2 := by
    have := Real.sq_sqrt (by positivity : 0 ≤ ((M + 1 : ℕ) : ℝ) * d)
    rw [hα]
    linear_combination (h * (n * KA * r)) ^ 2 * this
  set E := cellEnergy M d h C L 1 e ε with hE
  set F := cellEnergy M d h C L (-1) e' ε with hF
  have hE0 : 0 ≤ E := cellEnergy_nonneg hH _ _ _
  have hF0 : 0 ≤ F := cellEnergy_nonneg hH _ _ _
  have n1 := hs.node_average hH hl.c hl.g hd hh hKA hAC hη
  have n2 := hs.half_nodes (L := L) hl.c hl.g hl.zs hl.zsT hl.zl hl.zlT hd hh
  have c1 := hs.cell_average hH hl.l hl.r hd hh hKA hAL hρ
  have c2 := hs.half_cells hl.l hl.r hd hh (C := C)
  have hsub : ∑ k ∈ Finset.range M, (halfCell d h C L (e (k + 1)) (-ε (k + 1)) + halfCell d h C L (e (k + 1)) (ε k)) ≤ E := by
    rw [hE, cellEnergy_nodes]
    simp only [one_smul]
    have := hH (e 0) (-ε 0)
    have := hH (e (M + 1)) (ε M)
    linarith
  have w1 := single_work (m := M) (x := fun k => e' (k + 1) + e (k + 1)) (ρ := fun k => η (k + 1)) hl.c hd.le hKA hr hAC hη
  have w2 := single_work (m := M + 1) (x := fun k => ε' k + ε k) hl.l hd.le hKA hr hAL (fun k hk => hρ k (Nat.lt_succ_iff.1 hk))
  have hroot : Real.sqrt (M * d) ≤ Real.sqrt ((M + 1 : ℕ) * d) := Real.sqrt_le_sqrt (by push_cast; nlinarith)
  have first : F ≤ (Real.sqrt E + Real.sqrt 2 * α) ^ 2 + h * B := by
    have s1 : ∑ k ∈ Finset.range M, d * ((e' (k + 1) + e (k + 1)) ⬝ᵥ (C *ᵥ (e' (k + 1) + e (k + 1)))) ≤ 8 * E + 4 * α ^ 2 := by
      rw [hα2]
      refine n1.trans ?_
      have : 4 * (M * d) * (h * (n * KA * r)) ^ 2 ≤ 4 * (((M + 1 : ℕ) * d) * (h * (n * KA * r)) ^ 2) := by
        push_cast
        nlinarith [mul_nonneg hd.le (sq_nonneg (h * (n * KA * r)))]
      linarith
    have s2 : h * ∑ k ∈ Finset.range M, d * ((e' (k + 1) + e (k + 1)) ⬝ᵥ η (k + 1)) ≤
        α * Real.sqrt (∑ k ∈ Finset.range M, d * ((e' (k + 1) + e (k + 1)) ⬝ᵥ (C *ᵥ (e' (k + 1) + e (k + 1))))) := by
      rw [hα, mul_assoc h]
      refine mul_le_mul_of_nonneg_left (w1.trans ?_) hh.le
      refine mul_le_mul_of_nonneg_right (mul_le_mul_of_nonneg_left hroot (by positivity)) (Real.sqrt_nonneg _)
    have := work_absorb hE0 hα0 s1 s2
    have b1 := mul_le_mul_of_nonneg_left hσ hh.le
    have b2 := mul_le_mul_of_nonneg_left hσ' hh.le
    linarith
  have second : cellEnergy M d h C L 1 e' ε' ≤ (Real.sqrt F + Real.sqrt 2 * α) ^ 2 := by
    have s2 : h * ∑ k ∈ Finset.range (M + 1), d * ((ε' k + ε k) ⬝ᵥ ρ k) ≤
        α * Real.sqrt (∑ k ∈ Finset.range (M + 1), d * ((ε' k + ε k) ⬝ᵥ (L *ᵥ (ε' k + ε k)))) := by
      rw [hα, mul_assoc h]
      exact mul_le_mul_of_nonneg_left w2 hh.le
    exact c2.trans (work_absorb hF0 hα0 (by rw [hα2]; linarith) s2)
  have r1 := Real.sqrt_le_sqrt first
  refine ⟨r1, ?_⟩
  have r2 := Real.sqrt_le_sqrt second
  rw [Real.sqrt_sq (by positivity)] at r2
  linarith

/-- All nodes. -/
theorem UniformStep.all_nodes (hs : UniformStep M d h L C R G Zs Zl e ε e' ε' ρ η σ σ') (hl : LineData L C R G Zs Zl)
    (hH : ∀ x i : Col n, 0 ≤ halfCell d h C L x i) (hd : 0 < d) (hh : 0 < h) (hKA : 0 ≤ KA) 
    (hAC : ∀ (x : Col n) (a : Fin n), |x a| ≤ KA * Real.sqrt (x ⬝ᵥ (C *ᵥ x)))
    (hη : ∀ k < M, ∀ a, |η (k + 1) a| ≤ r) (hσ : σ ⬝ᵥ (Zs *ᵥ σ) ≤ B) (hσ' : σ' ⬝ᵥ (Zl *ᵥ σ') ≤ B) :
    ∑ k ∈ Finset.range (M + 2), d * ((e' k + e k) ⬝ᵥ (C *ᵥ (e' k + e k))) ≤
      8 * cellEnergy M d h C L 1 e ε + 4 * ((M + 1 : ℕ) * d) * (h * (n * KA * r)) ^ 2 + 4 * h * B := by
  have n1 := hs.node_average hH hl.c hl.g hd hh hKA hAC hη
  have h1 := end_average_bound (L := L) hd hh hl.c.symm hl.g hl.zsT hl.zs (fun z => hH _ _) hs.first
  have h2 := end_average_bound (L := L) (I := -ε M) hd hh hl.c.symm hl.g hl.zlT hl.zl (fun z => hH _ _) hs.last
  rw [cellEnergy_nodes, Finset.sum_range_succ, Finset.sum_range_succ']
  simp only [one_smul]
  rw [neg_neg] at h2
  have : 4 * (M * d) * (h * (n * KA * r)) ^ 2 ≤ 4 * ((M + 1 : ℕ) * d) * (h * (n * KA * r)) ^ 2 := by
    push_cast
    nlinarith [mul_nonneg hd.le (sq_nonneg (h * (n * KA * r)))]
  have b1 := mul_le_mul_of_nonneg_left hσ hh.le
  have b2 := mul_le_mul_of_nonneg_left hσ' hh.le
  linarith

end

end Mtln
