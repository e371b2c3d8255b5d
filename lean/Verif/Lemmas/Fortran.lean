import Verif.Model.Fortran
import Verif.Spec.Converge
import Verif.Spec.Relations
import Verif.Lemmas.Fields
import Verif.Lemmas.Relational
import Verif.Lemmas.Energy

/-!
# Lemmas about the Fortran solvers
-/

namespace Mtln

namespace Fortran

open Matrix

variable {n p : ℕ}

theorem failIf_ok_iff {c : Prop} {e : FErr} {u : Unit} : failIf c e = .ok u ↔ ¬ c := by
  unfold failIf
  split <;> simp_all

theorem failIf_neg {c : Prop} {e : FErr} (h : ¬ c) : failIf c e = .ok () := failIf_ok_iff.2 h

theorem inv_eq {A : Mat n} (h : A.det ≠ 0) : inv A = .ok A⁻¹ := by
  unfold inv
  rw [if_neg h]

theorem deltaZ_pos : 0 < deltaZ := by unfold deltaZ; norm_num

/-- The velocity of a conductor by itself. -/
noncomputable def velocity (l c : Mat n) (i : Fin n) : ℝ := 1 / Real.sqrt (l i i * c i i)

theorem foldl_max (f : Fin n → ℝ) (L : List (Fin n)) (a : ℝ) :
    a ≤ L.foldl (fun m i => if f i > m then f i else m) a ∧
    (∀ i ∈ L, f i ≤ L.foldl (fun m i => if f i > m then f i else m) a) ∧
    (L.foldl (fun m i => if f i > m then f i else m) a = a ∨ ∃ i ∈ L, L.foldl (fun m i => if f i > m then f i else m) a = f i) := by
  induction L generalizing a with
  | nil => simp
  | cons x L ih =>
    simp only [List.foldl_cons]
    by_cases h : f x > a
    · rw [if_pos h]
      obtain ⟨h1, h2, h3⟩ := ih (f x)
      refine ⟨h.le.trans h1, ?_, ?_⟩
      · intro i hi
        rcases List.mem_cons.1 hi with rfl | hi
        · exact h1
        · exact h2 i hi
      · rcases h3 with h3 | ⟨i, hi, h3⟩
        · exact Or.inr ⟨x, by simp, h3⟩
        · exact Or.inr ⟨i, by simp [hi], h3⟩
    · rw [if_neg h]
      push Not at h
      obtain ⟨h1, h2, h3⟩ := ih a
      refine ⟨h1, ?_, ?_⟩
      · intro i hi
        rcases List.mem_cons.1 hi with rfl | hi
        · exact h.trans h1
        · exact h2 i hi
      · rcases h3 with h3 | ⟨i, hi, h3⟩
        · exact Or.inl h3
        · exact Or.inr ⟨i, by simp [hi], h3⟩

/-- The largest velocity seen so far. -/
theorem maxVelocity_greatest (l c : Mat n) (w : ℝ) :
    IsGreatest (insert w (Set.range (velocity l c))) (maxVelocity l c w) := by
  obtain ⟨h1, h2, h3⟩ := foldl_max (velocity l c) (List.finRange n) w
  constructor
  · rcases h3 with h3 | ⟨i, -, h3⟩
    · exact Or.inl h3
    · exact Or.inr ⟨i, h3.symm⟩
  · rintro x (rfl | ⟨i, rfl⟩)
    · exact h1
    · exact h2 i (List.mem_finRange i)

theorem maxVelocity_eq {l c : Mat n} {w W : ℝ} (h : IsGreatest (insert w (Set.range (velocity l c))) W) : maxVelocity l c w = W :=
  (maxVelocity_greatest l c w).unique h

theorem velocity_pos {l c : Mat n} {i : Fin n} (h : 0 < l i i * c i i) : 0 < velocity l c i :=
  one_div_pos.2 (Real.sqrt_pos.2 h)

theorem maxVelocity_pos {l c : Mat n} {w : ℝ} (hn : 0 < n) (h : ∀ i, 0 < l i i * c i i) : 0 < maxVelocity l c w :=
  lt_of_lt_of_le (velocity_pos (h ⟨0, hn⟩)) ((maxVelocity_greatest l c w).2 (Or.inr ⟨_, rfl⟩))

/-- The coefficients of the loop over time. -/
noncomputable def Loop.of (dT : ℝ) (l c r g R : Mat n) : Loop n where
  S1 := (termF1 dT deltaZ R c g)⁻¹
  S2 := termF2 dT deltaZ R c g
  L1 := (termF1 dT deltaZ R c g)⁻¹
  L2 := termF2 dT deltaZ R c g
  CG1 := ((deltaZ / dT) • c + (deltaZ / 2) • g)⁻¹
  CG2 := ((deltaZ / dT) • c + (deltaZ / 2) • g)⁻¹ * ((deltaZ / dT) • c - (deltaZ / 2) • g)
  LR1 := ((deltaZ / dT) • l + (deltaZ / 2) • r)⁻¹
  LR2 := ((deltaZ / dT) • l + (deltaZ / 2) • r)⁻¹ * ((deltaZ / dT) • l - (deltaZ / 2) • r)

/-- The solver with losses for data without singular matrices. -/
theorem losses_eq {zSteps tSteps : ℕ} {l c r g : Mat n} {saved : Saved} {W : ℝ} (hlc : ∀ i, 0 < l i i * c i i)
    (hW : IsGreatest (insert saved.maxVLosses (Set.range (velocity l c))) W) (hW0 : W ≠ 0) (hz : ¬ (0 < tSteps ∧ zSteps = 0))
    (h1 : (termF1 (0.95 * deltaZ / W) deltaZ (terminals l c) c g).det ≠ 0)
    (h2 : ((deltaZ / (0.95 * deltaZ / W)) • c + (deltaZ / 2) • g).det ≠ 0)
    (h3 : ((deltaZ / (0.95 * deltaZ / W)) • l + (deltaZ / 2) • r).det ≠ 0) :
    nConductorsLosses zSteps tSteps l c r g saved =
      .ok ((stepN zSteps (Loop.of (0.95 * deltaZ / W) l c r g (terminals l c)) (terminals l c))^[tSteps] .zero,
        { saved with maxVLosses := W }) := by
  have hdz := deltaZ_pos
  have hdt : (0.95 * deltaZ / W : ℝ) ≠ 0 := by
    have : (0.95 * deltaZ : ℝ) ≠ 0 := by positivity
    exact div_ne_zero this hW0
  unfold nConductorsLosses checkN
  rw [maxVelocity_eq hW, failIf_neg (by push Not; exact hlc), failIf_neg hW0, failIf_neg hz]
  unfold getTerminalMatrices getUpdateMatrices
  unfold termF1 at h1
  simp only [bind, Except.bind, failIf_neg hdt, inv_eq h1, inv_eq h2, inv_eq h3]
  rfl

theorem lossless_eq {zSteps tSteps : ℕ} {l c : Mat n} {saved : Saved} {W : ℝ} (hlc : ∀ i, 0 < l i i * c i i)
    (hW : IsGreatest (insert saved.maxV (Set.range (velocity l c))) W) (hW0 : W ≠ 0) (hz : ¬ (0 < tSteps ∧ zSteps = 0))
    (h1 : ((deltaZ / (0.95 * deltaZ / W)) • (terminals l c * c) + 1).det ≠ 0) (h2 : c.det ≠ 0) (h3 : l.det ≠ 0) :
    nConductors zSteps tSteps l c saved =
      .ok ((stepLossless zSteps (0.95 * deltaZ / W) ((deltaZ / (0.95 * deltaZ / W)) • (terminals l c * c) - 1)
        ((deltaZ / (0.95 * deltaZ / W)) • (terminals l c * c) - 1) ((deltaZ / (0.95 * deltaZ / W)) • (terminals l c * c) + 1)⁻¹
        ((deltaZ / (0.95 * deltaZ / W)) • (terminals l c * c) + 1)⁻¹ l⁻¹ c⁻¹ (terminals l c))^[tSteps] .zero,
        { saved with maxV := W }) := by
  unfold nConductors checkN
  rw [maxVelocity_eq hW, failIf_neg (by push Not; exact hlc), failIf_neg hW0, failIf_neg hz]
  simp only [bind, Except.bind, inv_eq h1, inv_eq h2, inv_eq h3]

/-- The loop without losses is the loop with losses of size zero. -/
theorem stepLossless_eq {zSteps : ℕ} {dT : ℝ} {l c R : Mat n} (hdt : dT ≠ 0) (hc : c.det ≠ 0) (hl : l.det ≠ 0) :
    stepLossless zSteps dT ((deltaZ / dT) • (R * c) - 1) ((deltaZ / dT) • (R * c) - 1) ((deltaZ / dT) • (R * c) + 1)⁻¹
      ((deltaZ / dT) • (R * c) + 1)⁻¹ l⁻¹ c⁻¹ R = stepN zSteps (Loop.of dT l c 0 0 R) R := by
  have hdz := deltaZ_pos.ne'
  have hq : deltaZ / dT ≠ 0 := div_ne_zero hdz hdt
  have inv' : ∀ A : Mat n, A.det ≠ 0 → ((deltaZ / dT) • A)⁻¹ = (dT / deltaZ) • A⁻¹ := by
    intro A hA
    refine inv_eq_right_inv ?_
    rw [smul_mul_smul_comm, mul_nonsing_inv _ hA.isUnit]
    have : deltaZ / dT * (dT / deltaZ) = 1 := by field_simp
    rw [this, one_smul]
  have one' : ∀ A : Mat n, A.det ≠ 0 → (dT / deltaZ) • A⁻¹ * (deltaZ / dT) • A = 1 := by
    intro A hA
    rw [smul_mul_smul_comm, nonsing_inv_mul _ hA.isUnit]
    have : dT / deltaZ * (deltaZ / dT) = 1 := by field_simp
    rw [this, one_smul]
  unfold stepLossless stepN Loop.of termF1 termF2
  simp only [smul_zero, mul_zero, add_zero, sub_zero, inv' c hc, inv' l hl, one' c hc, one' l hl, one_mulVec, smul_mulVec]

end Fortran

end Mtln
