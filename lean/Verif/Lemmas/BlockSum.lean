import Verif.Lemmas.Bundle
import Verif.Lemmas.Timestep
import Mathlib.LinearAlgebra.Matrix.Charpoly.Basic
import Mathlib.LinearAlgebra.Matrix.SchurComplement

/-! # Block-diagonal matrices of lists of blocks -/

namespace Mtln

open Matrix

variable {α : Type} {s : α → ℕ} {f g : ∀ a, Fin (s a) → Fin (s a) → ℝ}

/-- The block-diagonal matrix with one block for every element of a list. -/
def blockOf (s : α → ℕ) (f : ∀ a, Fin (s a) → Fin (s a) → ℝ) (l : List α) : Mat (l.map s).sum :=
  Matrix.of fun i j => blockEntry 0 (l.map fun a => ⟨s a, f a⟩) i j

/-- The indices of a first block and of the others. -/
def blockSplit (s : α → ℕ) (a : α) (l : List α) : Fin (s a) ⊕ Fin (l.map s).sum ≃ Fin ((a :: l).map s).sum :=
  finSumFinEquiv

theorem blockOf_cons (a : α) (l : List α) : blockOf s f (a :: l) =
    (fromBlocks (of (f a)) 0 0 (blockOf s f l)).submatrix (blockSplit s a l).symm (blockSplit s a l).symm := by
  ext i j
  obtain ⟨i, rfl⟩ := (blockSplit s a l).surjective i
  obtain ⟨j, rfl⟩ := (blockSplit s a l).surjective j
  rw [submatrix_apply, Equiv.symm_apply_apply, Equiv.symm_apply_apply]
  unfold blockOf blockSplit
  rw [of_apply, List.map_cons, blockEntry]
  rcases i with i | i <;> rcases j with j | j
  · have h1 : ((finSumFinEquiv (Sum.inl i : Fin (s a) ⊕ Fin (l.map s).sum)) : ℕ) = i := rfl
    have h2 : ((finSumFinEquiv (Sum.inl j : Fin (s a) ⊕ Fin (l.map s).sum)) : ℕ) = j := rfl
    rw [dif_pos (h1 ▸ i.2), dif_pos (h2 ▸ j.2)]
    rfl
  · have h1 : ((finSumFinEquiv (Sum.inl i : Fin (s a) ⊕ Fin (l.map s).sum)) : ℕ) = i := rfl
    have h2 : ((finSumFinEquiv (Sum.inr j : Fin (s a) ⊕ Fin (l.map s).sum)) : ℕ) = s a + j := rfl
    rw [dif_pos (h1 ▸ i.2), dif_neg (by omega)]
    rfl
  · have h1 : ((finSumFinEquiv (Sum.inr i : Fin (s a) ⊕ Fin (l.map s).sum)) : ℕ) = s a + i := rfl
    have h2 : ((finSumFinEquiv (Sum.inl j : Fin (s a) ⊕ Fin (l.map s).sum)) : ℕ) = j := rfl
    rw [dif_neg (by omega), if_pos (h2 ▸ j.2)]
    rfl
  · have h1 : ((finSumFinEquiv (Sum.inr i : Fin (s a) ⊕ Fin (l.map s).sum)) : ℕ) = s a + i := rfl
    have h2 : ((finSumFinEquiv (Sum.inr j : Fin (s a) ⊕ Fin (l.map s).sum)) : ℕ) = s a + j := rfl
    rw [dif_neg (by omega), if_neg (by omega)]
    show blockEntry 0 (l.map fun a => ⟨s a, f a⟩) (s a + i - s a) (s a + j - s a) = _
    rw [Nat.add_sub_cancel_left, Nat.add_sub_cancel_left]
    rfl

/-- The quadratic form is the sum of that of the first block and that of the others. -/
theorem blockOf_form (a : α) (l : List α) (x : Fin ((a :: l).map s).sum → ℝ) :
    x ⬝ᵥ (blockOf s f (a :: l) *ᵥ x) =
      (fun i => x (blockSplit s a l (.inl i))) ⬝ᵥ (of (f a) *ᵥ fun i => x (blockSplit s a l (.inl i))) +
      (fun i => x (blockSplit s a l (.inr i))) ⬝ᵥ (blockOf s f l *ᵥ fun i => x (blockSplit s a l (.inr i))) := by
  rw [blockOf_cons, submatrix_mulVec_equiv, Equiv.symm_symm]
  have e1 : x ⬝ᵥ ((fromBlocks (of (f a)) 0 0 (blockOf s f l) *ᵥ (x ∘ blockSplit s a l)) ∘ (blockSplit s a l).symm) =
      (x ∘ blockSplit s a l) ⬝ᵥ (fromBlocks (of (f a)) 0 0 (blockOf s f l) *ᵥ (x ∘ blockSplit s a l)) := by
    unfold dotProduct
    rw [← (blockSplit s a l).sum_comp]
    simp
  rw [e1, fromBlocks_mulVec]
  have e2 : x ∘ blockSplit s a l = Sum.elim (fun i => x (blockSplit s a l (.inl i))) fun i => x (blockSplit s a l (.inr i)) := by
    funext i; rcases i with i | i <;> rfl
  rw [e2, sumElim_dotProduct_sumElim]
  simp only [zero_mulVec, add_zero, zero_add]
  rfl

theorem blockOf_dissipative {l : List α} (h : ∀ a ∈ l, Dissipative (of (f a))) : Dissipative (blockOf s f l) := by
  induction l with
  | nil => intro x; exact Finset.sum_nonneg fun i _ => i.elim0
  | cons a l ih =>
    intro x
    rw [blockOf_form]
    exact add_nonneg (h a List.mem_cons_self _) (ih (fun b hb => h b (List.mem_cons_of_mem _ hb)) _)

theorem blockOf_transpose (l : List α) : (blockOf s f l)ᵀ = blockOf s (fun a i j => f a j i) l := by
  induction l with
  | nil => ext i; exact i.elim0
  | cons a l ih =>
    rw [blockOf_cons, blockOf_cons, transpose_submatrix, fromBlocks_transpose, ih]
    simp only [transpose_zero]
    rfl

theorem blockOf_congr {l : List α} (h : ∀ a ∈ l, f a = g a) : blockOf s f l = blockOf s g l := by
  unfold blockOf
  congr 3
  funext i j
  congr 1
  exact List.map_congr_left fun a ha => by rw [h a ha]

theorem blockOf_spd {l : List α} (h : ∀ a ∈ l, SPD (of (f a))) : SPD (blockOf s f l) := by
  refine ⟨?_, ?_⟩
  · rw [blockOf_transpose]
    refine blockOf_congr fun a ha => ?_
    funext i j
    exact congrFun (congrFun (h a ha).symm i) j
  · induction l with
    | nil => intro x hx; exact absurd (funext fun i => i.elim0) hx
    | cons a l ih =>
      intro x hx
      rw [blockOf_form]
      have ih' := ih fun b hb => h b (List.mem_cons_of_mem _ hb)
      by_cases h1 : (fun i => x (blockSplit s a l (.inl i))) = 0
      · have h2 : (fun i => x (blockSplit s a l (.inr i))) ≠ 0 := by
          intro h2
          apply hx
          funext i
          obtain ⟨i, rfl⟩ := (blockSplit s a l).surjective i
          rcases i with i | i
          exacts [congrFun h1 i, congrFun h2 i]
        rw [h1]
        simpa using ih' _ h2
      · have q1 := (h a List.mem_cons_self).pos _ h1
        by_cases h2 : (fun i => x (blockSplit s a l (.inr i))) = 0
        · rw [h2]; simpa using q1
        · exact add_pos q1 (ih' _ h2)

theorem blockOf_mul (l : List α) : blockOf s f l * blockOf s g l =
    blockOf s (fun a i j => (of (f a) * of (g a) : Mat (s a)) i j) l := by
  induction l with
  | nil => ext i; exact i.elim0
  | cons a l ih =>
    rw [blockOf_cons, blockOf_cons, blockOf_cons, submatrix_mul_equiv, fromBlocks_multiply, ih]
    simp only [Matrix.mul_zero, Matrix.zero_mul, add_zero, zero_add]
    rfl

theorem blockOf_add (l : List α) : blockOf s f l + blockOf s g l = blockOf s (fun a i j => f a i j + g a i j) l := by
  induction l with
  | nil => ext i; exact i.elim0
  | cons a l ih =>
    rw [blockOf_cons, blockOf_cons, blockOf_cons, ← ih]
    ext i j
    obtain ⟨i, rfl⟩ := (blockSplit s a l).surjective i
    obtain ⟨j, rfl⟩ := (blockSplit s a l).surjective j
    rw [Matrix.add_apply, submatrix_apply, submatrix_apply, submatrix_apply, Equiv.symm_apply_apply, Equiv.symm_apply_apply]
    rcases i with i | i <;> rcases j with j | j <;> simp

/-- The eigenvalues are those of the blocks. -/
theorem eigRe_blockOf (l : List α) : eigRe (blockOf s f l) = {x | ∃ a ∈ l, x ∈ eigRe (of (f a))} := by
  induction l with
  | nil =>
    ext x
    simp only [eigRe, Set.mem_ofPred_eq, List.not_mem_nil, false_and, exists_false, iff_false]
    rintro ⟨z, hz, -⟩
    have : ((blockOf s f []).map (algebraMap ℝ ℂ)).charpoly = 1 := by
      unfold charpoly
      exact det_isEmpty (n := Fin 0)
    rw [this] at hz
    simp at hz
  | cons a l ih =>
    have hc : ((blockOf s f (a :: l)).map (algebraMap ℝ ℂ)).charpoly =
        ((of (f a)).map (algebraMap ℝ ℂ)).charpoly * ((blockOf s f l).map (algebraMap ℝ ℂ)).charpoly := by
      rw [blockOf_cons, ← reindex_apply, charpoly_map, charpoly_reindex, charpoly_fromBlocks_zero₁₂, Polynomial.map_mul,
        ← charpoly_map, ← charpoly_map]
    ext x
    simp only [eigRe, Set.mem_ofPred_eq] at ih ⊢
    rw [hc, Polynomial.roots_mul (mul_ne_zero (charpoly_monic _).ne_zero (charpoly_monic _).ne_zero)]
    have ih' := fun x => Set.ext_iff.1 ih x
    simp only [Set.mem_ofPred_eq] at ih'
    constructor
    · rintro ⟨z, hz, rfl⟩
      rcases Multiset.mem_add.1 hz with hz | hz
      · exact ⟨a, List.mem_cons_self, z, hz, rfl⟩
      · obtain ⟨b, hb, w⟩ := (ih' z.re).1 ⟨z, hz, rfl⟩
        exact ⟨b, List.mem_cons_of_mem _ hb, w⟩
    · rintro ⟨b, hb, w⟩
      rcases List.mem_cons.1 hb with rfl | hb
      · obtain ⟨z, hz, rfl⟩ := w
        exact ⟨z, Multiset.mem_add.2 (.inl hz), rfl⟩
      · obtain ⟨z, hz, e⟩ := (ih' x).2 ⟨b, hb, w⟩
        exact ⟨z, Multiset.mem_add.2 (.inr hz), e⟩

end Mtln
