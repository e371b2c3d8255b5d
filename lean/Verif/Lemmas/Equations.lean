import Verif.Lemmas.Probes
import Verif.Spec.Equations

/-! # Solving the update equations -/

namespace Mtln

open Matrix

variable {n p : ℕ}

theorem inv_mulVec_eq_iff {A : Mat n} (h : A.det ≠ 0) (x w : Col n) : x = A⁻¹ *ᵥ w ↔ A *ᵥ x = w := by
  have hu : IsUnit A.det := isUnit_iff_ne_zero.2 h
  constructor
  · rintro rfl
    rw [mulVec_mulVec, mul_nonsing_inv _ hu, one_mulVec]
  · rintro rfl
    rw [mulVec_mulVec, nonsing_inv_mul _ hu, one_mulVec]

theorem updateLr_ok_iff {m : ℕ} {dt : ℝ} {dun : ℕ → ℝ} {l r : ℕ → Mat n} {D : Disp n p} {lr : LR n} :
    updateLr m dt dun l r D = .ok lr ↔ dt ≠ 0 ∧ (∀ k < m, (lrF1 dt dun l r D k).det ≠ 0) ∧
      lr = ⟨fun k => (lrF1 dt dun l r D k)⁻¹ * lrF2 dt dun l r D k, fun k => (lrF1 dt dun l r D k)⁻¹⟩ := by
  unfold updateLr
  split
  · simp_all
  split
  · rename_i h
    obtain ⟨k, hk, h0⟩ := h
    simp only [reduceCtorEq, false_iff, not_and]
    intro _ h
    exact absurd h0 (h k hk)
  · rename_i h0 h
    constructor
    · intro e
      injection e with e
      exact ⟨h0, fun k hk h1 => h ⟨k, hk, h1⟩, e.symm⟩
    · rintro ⟨-, -, rfl⟩
      rfl

theorem updateCg_ok_iff {m : ℕ} {dt : ℝ} {dun : ℕ → ℝ} {c g : ℕ → Mat n} {cg : CG n} :
    updateCg m dt dun c g = .ok cg ↔ dt ≠ 0 ∧ (∀ k ≤ m, (cgF1 m dt dun c g k).det ≠ 0) ∧
      cg = ⟨fun k => (cgF1 m dt dun c g k)⁻¹ * cgF2 m dt dun c g k, fun k => (cgF1 m dt dun c g k)⁻¹⟩ := by
  unfold updateCg
  split
  · simp_all
  split
  · rename_i h
    obtain ⟨k, hk, h0⟩ := h
    simp only [reduceCtorEq, false_iff, not_and]
    intro _ h
    exact absurd h0 (h k hk)
  · rename_i h0 h
    constructor
    · intro e
      injection e with e
      exact ⟨h0, fun k hk h1 => h ⟨k, hk, h1⟩, e.symm⟩
    · rintro ⟨-, -, rfl⟩
      rfl

/-- The current update is the unique solution of the current equation. -/
theorem current_update_iff {du dt : ℝ} {L R D E Q1 Q2 F1 F2 : Mat n}
    (h1 : F1 = du • ((1 / dt) • L + (0.5 : ℝ) • D + (1 / dt) • E + (0.5 : ℝ) • R + Q1))
    (h2 : F2 = du • ((1 / dt) • L - (0.5 : ℝ) • D + (1 / dt) • E - (0.5 : ℝ) • R - Q2))
    (hdet : F1.det ≠ 0) (x i hist dV dET a b : Col n) :
    x = (F1⁻¹ * F2) *ᵥ i - F1⁻¹ *ᵥ (dV + dET - (du / 2) • (a + b)) - F1⁻¹ *ᵥ (du • hist) ↔
      CurrentEq du dt L R D E Q1 Q2 x i hist dV dET a b := by
  rw [← mulVec_mulVec, ← mulVec_sub, ← mulVec_sub, inv_mulVec_eq_iff hdet]
  unfold CurrentEq
  have key : du • ((1 / dt) • ((L + E) *ᵥ (x - i)) + (1 / 2 : ℝ) • ((R + D) *ᵥ (x + i))
      + Q1 *ᵥ x + Q2 *ᵥ i + hist) = F1 *ᵥ x - F2 *ᵥ i + du • hist := by
    rw [h1, h2]
    simp only [smul_mulVec, add_mulVec, sub_mulVec, mulVec_add, mulVec_sub]
    module
  rw [key]
  constructor
  · intro h
    rw [h]
    module
  · intro h
    have : F1 *ᵥ x = (F1 *ᵥ x - F2 *ᵥ i + du • hist) + F2 *ᵥ i - du • hist := by module
    rw [this, h]
    module

/-- The voltage update is the unique solution of the voltage equation. -/
theorem voltage_update_iff {h dt : ℝ} {C G F1 F2 : Mat n}
    (h1 : F1 = h • ((1 / dt) • C + (1 / 2 : ℝ) • G)) (h2 : F2 = h • ((1 / dt) • C - (1 / 2 : ℝ) • G))
    (hdet : F1.det ≠ 0) (x v dI dET : Col n) :
    x = (F1⁻¹ * F2) *ᵥ v - F1⁻¹ *ᵥ dI - dET ↔ VoltageEq h dt C G x v dI dET := by
  rw [← mulVec_mulVec, ← mulVec_sub, eq_sub_iff_add_eq, inv_mulVec_eq_iff hdet]
  unfold VoltageEq
  have key : h • ((1 / dt) • (C *ᵥ (x - v)) + (1 / 2 : ℝ) • (G *ᵥ (x + v))) = F1 *ᵥ x - F2 *ᵥ v := by
    rw [h1, h2]
    simp only [smul_mulVec, add_mulVec, sub_mulVec, mulVec_add, mulVec_sub]
    module
  have key2 : h • ((1 / dt) • (C *ᵥ dET) + (1 / 2 : ℝ) • (G *ᵥ dET)) = F1 *ᵥ dET := by
    rw [h1]
    simp only [smul_mulVec, add_mulVec]
  rw [key, key2, mulVec_add]
  constructor
  · intro h
    have : F1 *ᵥ x = (F1 *ᵥ x + F1 *ᵥ dET) - F1 *ᵥ dET := by module
    rw [this, h]
    module
  · intro h
    have : F1 *ᵥ x = (F1 *ᵥ x - F2 *ᵥ v) + F2 *ᵥ v := by module
    rw [this, h]
    module

/-- The terminal update is the unique solution of the terminal equation. -/
theorem terminal_update_iff {du dt : ℝ} {Z C G : Mat n} (hdet : (termF1 dt du Z C G).det ≠ 0)
    (x v I w dET : Col n) :
    x = ((termF1 dt du Z C G)⁻¹ * termF2 dt du Z C G) *ᵥ v
        + (termF1 dt du Z C G)⁻¹ *ᵥ (-((2 : ℝ) • Z *ᵥ I) + w - (du / dt) • (Z * C) *ᵥ dET) ↔
      x + v = w - Z *ᵥ ((2 : ℝ) • I + (du / dt) • (C *ᵥ (x - v)) + (du / 2) • (G *ᵥ (x + v))
        + (du / dt) • (C *ᵥ dET)) := by
  rw [← mulVec_mulVec, ← mulVec_add, inv_mulVec_eq_iff hdet]
  have e1 : termF1 dt du Z C G *ᵥ x = (du / dt) • (Z *ᵥ (C *ᵥ x)) + (du / 2) • (Z *ᵥ (G *ᵥ x)) + x := by
    unfold termF1
    simp only [smul_mulVec, add_mulVec, one_mulVec, mulVec_mulVec]
  have e2 : termF2 dt du Z C G *ᵥ v = (du / dt) • (Z *ᵥ (C *ᵥ v)) - (du / 2) • (Z *ᵥ (G *ᵥ v)) - v := by
    unfold termF2
    simp only [smul_mulVec, sub_mulVec, one_mulVec, mulVec_mulVec]
  rw [e1, e2, ← mulVec_mulVec]
  simp only [mulVec_add, mulVec_sub, mulVec_smul]
  constructor
  · intro h
    have : x + v = ((du / dt) • (Z *ᵥ (C *ᵥ x)) + (du / 2) • (Z *ᵥ (G *ᵥ x)) + x) + v
        - (du / dt) • (Z *ᵥ (C *ᵥ x)) - (du / 2) • (Z *ᵥ (G *ᵥ x)) := by module
    rw [this, h]
    module
  · intro h
    have : (du / dt) • (Z *ᵥ (C *ᵥ x)) + (du / 2) • (Z *ᵥ (G *ᵥ x)) + x
        = (du / dt) • (Z *ᵥ (C *ᵥ x)) + (du / 2) • (Z *ᵥ (G *ᵥ x)) + (x + v) - v := by module
    rw [this, h]
    module

end Mtln
