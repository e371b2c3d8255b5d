import Mathlib.Analysis.Matrix.Order
import Mathlib.Analysis.Complex.Polynomial.Basic
import Verif.Lemmas.Energy
import Verif.Model.Construct

/-! # Eigenvalues of `L C` bound the cross term of the energy -/

namespace Mtln

open Matrix

variable {n p : ℕ}

theorem SPD.posDef {A : Mat n} (h : SPD A) : A.PosDef :=
  Matrix.PosDef.of_dotProduct_mulVec_pos (by
    rw [Matrix.IsHermitian, conjTranspose_eq_transpose_of_trivial]; exact h.symm)
    (fun x hx => by simpa using h.pos x hx)

open scoped MatrixOrder in
theorem SPD.factor {A : Mat n} (h : SPD A) : ∃ B : Mat n, A = Bᵀ * B ∧ B.det ≠ 0 := by
  obtain ⟨B, hB⟩ := CStarAlgebra.nonneg_iff_eq_star_mul_self.mp h.posDef.posSemidef.nonneg
  have hB' : A = Bᵀ * B := by
    rw [hB, star_eq_conjTranspose, conjTranspose_eq_transpose_of_trivial]
  refine ⟨B, hB', fun h0 => ?_⟩
  have := h.posDef.isUnit
  rw [isUnit_iff_isUnit_det, hB', det_mul, h0, mul_zero] at this
  simp at this

/-- Real eigenvalues (roots of the characteristic polynomial) are among `eigRe`. -/
theorem mem_eigRe_of_isRoot {A : Mat n} {x : ℝ} (h : A.charpoly.IsRoot x) : x ∈ eigRe A := by
  refine ⟨(x : ℂ), ?_, by simp⟩
  rw [charpoly_map]
  rw [Polynomial.mem_roots ((Matrix.charpoly_monic A).map _).ne_zero]
  have := Polynomial.IsRoot.map (f := algebraMap ℝ ℂ) h
  simpa using this

/-- If no eigenvalue of the symmetric `A` is below `μ`, then `x·Ax ≥ μ x·x`. -/
theorem quad_ge_of_eig {A : Mat n} (hs : Aᵀ = A) {μ : ℝ} (h : ∀ x ∈ eigRe A, μ ≤ x) (x : Col n) :
    μ * (x ⬝ᵥ x) ≤ x ⬝ᵥ (A *ᵥ x) := by
  have hA : A.IsHermitian := by
    rw [Matrix.IsHermitian, conjTranspose_eq_transpose_of_trivial]; exact hs
  have hB : (A - μ • (1 : Mat n)).IsHermitian := by
    rw [Matrix.IsHermitian, conjTranspose_eq_transpose_of_trivial]
    simp [hs]
  have hpsd : (A - μ • (1 : Mat n)).PosSemidef := by
    rw [hB.posSemidef_iff_eigenvalues_nonneg]
    intro i
    have hmem := hB.eigenvalues_mem_spectrum_real i
    have h1 : hB.eigenvalues i + μ ∈ spectrum ℝ A := by
      rw [spectrum.mem_iff] at hmem ⊢
      convert hmem using 2
      rw [map_add, Algebra.algebraMap_eq_smul_one, Algebra.algebraMap_eq_smul_one]
      abel
    rw [mem_spectrum_iff_isRoot_charpoly] at h1
    have := h _ (mem_eigRe_of_isRoot h1)
    simp only [Pi.zero_apply]
    linarith
  have := hpsd.dotProduct_mulVec_nonneg x
  simp only [star_trivial, sub_mulVec, smul_mulVec, one_mulVec, dotProduct_sub, dotProduct_smul,
    smul_eq_mul] at this
  linarith

theorem eigRe_mul_comm (A B : Mat n) : eigRe (A * B) = eigRe (B * A) := by
  unfold eigRe
  rw [charpoly_map, charpoly_map, charpoly_mul_comm]

/-- The Courant estimate in one cell: the cross term is at most the fraction `θ` of the stored energy.
`wa`, `wb` are the weights of the two nodes, both at least `ρ`. -/
theorem cell_cross {L E C : Mat n} (hL : Lᵀ = L) (hC : SPD C) (hE : Dissipative E)
    {du dt μ θ ρ wa wb : ℝ} (hdu : 0 ≤ du) (hθ : 0 ≤ θ) (hμ : ∀ x ∈ eigRe (L * C), μ ≤ x)
    (hρ0 : 0 < ρ) (ha : ρ ≤ wa) (hb : ρ ≤ wb) (hcfl : dt ^ 2 ≤ θ ^ 2 * ρ * du ^ 2 * μ)
    (i a b : Col n) :
    -(dt * (i ⬝ᵥ (b - a))) ≤ θ * (du / 2 * (wa * (a ⬝ᵥ (C *ᵥ a)) + wb * (b ⬝ᵥ (C *ᵥ b)))
      + du * (i ⬝ᵥ ((L + E) *ᵥ i))) := by
  have hρ := hρ0.le
  obtain ⟨B, hB, hdet⟩ := hC.factor
  have hu : IsUnit B.det := isUnit_iff_ne_zero.2 hdet
  have hq : ∀ x : Col n, x ⬝ᵥ (C *ᵥ x) = (B *ᵥ x) ⬝ᵥ (B *ᵥ x) := by
    intro x
    rw [hB, ← mulVec_mulVec, dotProduct_mulVec, vecMul_transpose]
  -- `i = Bᵀ y`
  have hut : IsUnit (Bᵀ).det := by rw [det_transpose]; exact hu
  set y : Col n := (Bᵀ)⁻¹ *ᵥ i with hy
  have hi : i = Bᵀ *ᵥ y := by
    rw [hy, mulVec_mulVec, mul_nonsing_inv _ hut, one_mulVec]
  have hLq : μ * (y ⬝ᵥ y) ≤ i ⬝ᵥ (L *ᵥ i) := by
    have hs : (B * L * Bᵀ)ᵀ = B * L * Bᵀ := by
      simp only [transpose_mul, transpose_transpose, hL, Matrix.mul_assoc]
    have he : eigRe (B * L * Bᵀ) = eigRe (L * C) := by
      rw [Matrix.mul_assoc, eigRe_mul_comm, Matrix.mul_assoc, hB]
    have := quad_ge_of_eig hs (μ := μ) (by rw [he]; exact hμ) y
    refine this.trans (le_of_eq ?_)
    rw [hi, ← mulVec_mulVec, ← mulVec_mulVec, dotProduct_mulVec, ← mulVec_transpose]
  have hid : i ⬝ᵥ (b - a) = y ⬝ᵥ (B *ᵥ b) - y ⬝ᵥ (B *ᵥ a) := by
    rw [hi, mulVec_transpose, ← dotProduct_mulVec, mulVec_sub, dotProduct_sub]
  rw [hid, hq, hq, add_mulVec, dotProduct_add]
  have hEq := hE i
  -- componentwise estimate
  have hsum : 0 ≤ dt * (y ⬝ᵥ (B *ᵥ b) - y ⬝ᵥ (B *ᵥ a)) + θ * (du / 2 *
      (wa * ((B *ᵥ a) ⬝ᵥ (B *ᵥ a)) + wb * ((B *ᵥ b) ⬝ᵥ (B *ᵥ b)))) + θ * du * (μ * (y ⬝ᵥ y)) := by
    have : dt * (y ⬝ᵥ (B *ᵥ b) - y ⬝ᵥ (B *ᵥ a)) + θ * (du / 2 *
        (wa * ((B *ᵥ a) ⬝ᵥ (B *ᵥ a)) + wb * ((B *ᵥ b) ⬝ᵥ (B *ᵥ b)))) + θ * du * (μ * (y ⬝ᵥ y))
        = ∑ x, (dt * (y x * ((B *ᵥ b) x - (B *ᵥ a) x)) + θ * (du / 2 *
          (wa * ((B *ᵥ a) x * (B *ᵥ a) x) + wb * ((B *ᵥ b) x * (B *ᵥ b) x)))
          + θ * du * (μ * (y x * y x))) := by
      simp only [dotProduct, Finset.mul_sum, ← Finset.sum_add_distrib, ← Finset.sum_sub_distrib]
      refine Finset.sum_congr rfl fun x _ => ?_
      ring
    rw [this]
    refine Finset.sum_nonneg fun x _ => ?_
    generalize y x = Y
    generalize (B *ᵥ b) x = p
    generalize (B *ᵥ a) x = q
    -- reduce to the difference `w = p - q`
    have h1 : θ * (ρ * du / 4 * ((p - q) * (p - q))) ≤ θ * (du / 2 * (wa * (q * q) + wb * (p * p))) := by
      apply mul_le_mul_of_nonneg_left _ hθ
      have e1 : ρ * du / 4 * ((p - q) * (p - q)) ≤ du / 2 * (ρ * (q * q) + ρ * (p * p)) := by
        nlinarith [mul_nonneg (mul_nonneg hρ hdu) (mul_self_nonneg (p + q))]
      refine e1.trans (mul_le_mul_of_nonneg_left ?_ (by linarith))
      exact add_le_add (mul_le_mul_of_nonneg_right ha (mul_self_nonneg _))
        (mul_le_mul_of_nonneg_right hb (mul_self_nonneg _))
    have h2 : 0 ≤ dt * (Y * (p - q)) + θ * (ρ * du / 4 * ((p - q) * (p - q)))
        + θ * du * (μ * (Y * Y)) := by
      generalize p - q = w
      rcases (mul_nonneg hθ hdu).eq_or_lt with h0 | h0
      · have : dt = 0 := by
          have : dt ^ 2 ≤ 0 := by
            refine hcfl.trans (le_of_eq ?_)
            have : θ ^ 2 * ρ * du ^ 2 * μ = (θ * du) ^ 2 * (ρ * μ) := by ring
            rw [this, ← h0]; ring
          exact pow_eq_zero_iff (two_ne_zero) |>.1 (le_antisymm this (sq_nonneg _))
        rw [this]
        have e1 : θ * (ρ * du / 4 * (w * w)) = θ * du * (ρ * (w * w) / 4) := by ring
        rw [e1, ← h0]; simp
      · have h3 : 0 ≤ (θ * ρ * du / 2 * w + dt * Y) ^ 2
            + (θ ^ 2 * ρ * du ^ 2 * μ - dt ^ 2) * Y ^ 2 :=
          add_nonneg (sq_nonneg _) (mul_nonneg (by linarith) (sq_nonneg _))
        have h4 : (θ * du * ρ) * (dt * (Y * w) + θ * (ρ * du / 4 * (w * w)) + θ * du * (μ * (Y * Y)))
            = (θ * ρ * du / 2 * w + dt * Y) ^ 2 + (θ ^ 2 * ρ * du ^ 2 * μ - dt ^ 2) * Y ^ 2 := by ring
        rw [← h4] at h3
        exact nonneg_of_mul_nonneg_right h3 (mul_pos h0 hρ0)
    linarith
  have h5 : θ * du * (μ * (y ⬝ᵥ y)) ≤ θ * du * (i ⬝ᵥ (L *ᵥ i) + i ⬝ᵥ (E *ᵥ i)) :=
    mul_le_mul_of_nonneg_left (by linarith) (mul_nonneg hθ hdu)
  linarith

/-- A bound on `x·Ax` bounds every component of `x`. -/
theorem SPD.component_bound {A : Mat n} (h : SPD A) :
    ∃ K : ℝ, 0 ≤ K ∧ ∀ (x : Col n) (a : Fin n), |x a| ≤ K * Real.sqrt (x ⬝ᵥ (A *ᵥ x)) := by
  obtain ⟨B, hB, hdet⟩ := h.factor
  have hu : IsUnit B.det := isUnit_iff_ne_zero.2 hdet
  refine ⟨∑ a, ∑ y, |B⁻¹ a y|, Finset.sum_nonneg fun _ _ => Finset.sum_nonneg fun _ _ => abs_nonneg _, ?_⟩
  intro x a
  have hq : x ⬝ᵥ (A *ᵥ x) = (B *ᵥ x) ⬝ᵥ (B *ᵥ x) := by
    rw [hB, ← mulVec_mulVec, dotProduct_mulVec, vecMul_transpose]
  have hx : x = B⁻¹ *ᵥ (B *ᵥ x) := by
    rw [mulVec_mulVec, nonsing_inv_mul _ hu, one_mulVec]
  have hw : ∀ y, |(B *ᵥ x) y| ≤ Real.sqrt (x ⬝ᵥ (A *ᵥ x)) := by
    intro y
    apply Real.abs_le_sqrt
    rw [hq, dotProduct, sq]
    exact Finset.single_le_sum (f := fun y => (B *ᵥ x) y * (B *ᵥ x) y)
      (fun z _ => mul_self_nonneg _) (Finset.mem_univ y)
  have h1 : |x a| ≤ ∑ y, |B⁻¹ a y| * |(B *ᵥ x) y| := by
    conv_lhs => rw [hx]
    have h0 := Finset.abs_sum_le_sum_abs (fun y => B⁻¹ a y * (B *ᵥ x) y) Finset.univ
    simp only [abs_mul] at h0
    exact h0
  refine h1.trans ?_
  have h2 : ∑ y, |B⁻¹ a y| * |(B *ᵥ x) y| ≤ ∑ y, |B⁻¹ a y| * Real.sqrt (x ⬝ᵥ (A *ᵥ x)) :=
    Finset.sum_le_sum fun y _ => mul_le_mul_of_nonneg_left (hw y) (abs_nonneg _)
  refine h2.trans ?_
  rw [← Finset.sum_mul]
  refine mul_le_mul_of_nonneg_right ?_ (Real.sqrt_nonneg _)
  exact Finset.single_le_sum (f := fun a => ∑ y, |B⁻¹ a y|)
    (fun z _ => Finset.sum_nonneg fun _ _ => abs_nonneg _) (Finset.mem_univ a)

end Mtln
