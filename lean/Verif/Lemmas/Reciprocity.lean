import Verif.Lemmas.Relax
import Mathlib.RingTheory.PowerSeries.Basic
import Mathlib.RingTheory.PowerSeries.NoZeroDivisors

/-!
# Reciprocity of ladders of symmetric matrices

The sequences of voltages and currents become power series in the shift by one time step; the recurrences of the scheme become
linear equations over the ring of power series, and reciprocity the symmetry of their matrices.
-/

namespace Mtln

open Matrix PowerSeries

variable {n p : ℕ}

/-- The power series of a sequence of columns, conductor by conductor. -/
noncomputable def gen (x : ℕ → Col n) : Fin n → ℝ⟦X⟧ := fun a => PowerSeries.mk fun j => x j a

/-- A matrix of numbers as a matrix of power series. -/
noncomputable def lift (A : Mat n) : Matrix (Fin n) (Fin n) ℝ⟦X⟧ := A.map (PowerSeries.C (R := ℝ))

theorem gen_add (x y : ℕ → Col n) : gen (fun j => x j + y j) = gen x + gen y := by
  funext a; ext j; simp [gen]

theorem gen_sub (x y : ℕ → Col n) : gen (fun j => x j - y j) = gen x - gen y := by
  funext a; ext j; simp [gen]

theorem gen_neg (x : ℕ → Col n) : gen (fun j => -x j) = -gen x := by
  funext a; ext j; simp [gen]

theorem gen_smul (c : ℝ) (x : ℕ → Col n) : gen (fun j => c • x j) = (PowerSeries.C c : ℝ⟦X⟧) • gen x := by
  funext a; ext j; simp [gen]

theorem gen_zero : gen (fun _ => (0 : Col n)) = 0 := by
  funext a; ext j; simp [gen]

theorem gen_mulVec (A : Mat n) (x : ℕ → Col n) : gen (fun j => A *ᵥ x j) = lift A *ᵥ gen x := by
  funext a
  ext j
  simp only [gen, lift, mulVec, dotProduct, Matrix.map_apply, PowerSeries.coeff_mk, map_sum, PowerSeries.coeff_C_mul]

theorem gen_shift {x : ℕ → Col n} (h : x 0 = 0) : (X : ℝ⟦X⟧) • gen (fun j => x (j + 1)) = gen x := by
  funext a
  ext j
  simp only [gen, Pi.smul_apply, smul_eq_mul]
  cases j with
  | zero => simp [h]
  | succ j => rw [PowerSeries.coeff_succ_X_mul]; simp

theorem lift_symm {A : Mat n} (h : Aᵀ = A) : (lift A)ᵀ = lift A := by
  unfold lift
  rw [← Matrix.transpose_map, h]

theorem dot_symm {A : Matrix (Fin n) (Fin n) ℝ⟦X⟧} (h : Aᵀ = A) (x y : Fin n → ℝ⟦X⟧) :
    x ⬝ᵥ (A *ᵥ y) = y ⬝ᵥ (A *ᵥ x) := by
  rw [dotProduct_mulVec, ← mulVec_transpose, h, dotProduct_comm]

theorem coeff_gen_dot (x y : ℕ → Col n) (N : ℕ) :
    PowerSeries.coeff N (gen x ⬝ᵥ gen y) = ∑ j ∈ Finset.range (N + 1), x j ⬝ᵥ y (N - j) := by
  simp only [dotProduct, map_sum, PowerSeries.coeff_mul, gen, PowerSeries.coeff_mk]
  rw [Finset.sum_comm]
  rw [Finset.Nat.sum_antidiagonal_eq_sum_range_succ (fun i j => ∑ a, x i a * y j a)]

/-- A ladder at rest at first, with currents `J` put into its nodes and voltages `F` put into its cells. -/
structure Ladder (m : ℕ) (A G L R : ℕ → Mat n) (V I J F : ℕ → ℕ → Col n) : Prop where
  v0 : ∀ k, V 0 k = 0
  i0 : ∀ k, I 0 k = 0
  node : ∀ j, ∀ k ≤ m, A k *ᵥ (V (j + 1) k - V j k) + G k *ᵥ (V (j + 1) k + V j k) =
    J j k - (if k < m then I j k else 0) + (if 0 < k then I j (k - 1) else 0)
  cell : ∀ j, ∀ k < m, L k *ᵥ (I (j + 1) k - I j k) + R k *ᵥ (I (j + 1) k + I j k) =
    -(V (j + 1) (k + 1) - V (j + 1) k) + F j k

section

variable {m : ℕ} {A G L R : ℕ → Mat n} {V I J F W K H E : ℕ → ℕ → Col n}

theorem gen_ext {x y : ℕ → Col n} (h : ∀ j, x j = y j) : gen x = gen y := by rw [funext h]

theorem Ladder.node_gen (h : Ladder m A G L R V I J F) (k : ℕ) (hk : k ≤ m) :
    (1 - X : ℝ⟦X⟧) • (lift (A k) *ᵥ gen fun j => V j k) + (1 + X : ℝ⟦X⟧) • (lift (G k) *ᵥ gen fun j => V j k) =
      (X : ℝ⟦X⟧) • ((gen fun j => J j k) - (if k < m then gen fun j => I j k else 0) +
        (if 0 < k then gen fun j => I j (k - 1) else 0)) := by
  have e := gen_ext fun j => h.node j k hk
  rw [gen_add, gen_add, gen_mulVec, gen_mulVec, gen_sub, gen_add] at e
  have s := gen_shift (x := fun j => V j k) (h.v0 k)
  have e1 : gen (fun j => J j k - if k < m then I j k else 0) = (gen fun j => J j k) - (if k < m then gen fun j => I j k else 0) := by
    rw [gen_sub]
    split_ifs
    · rfl
    · rw [gen_zero]
  have e2 : gen (fun j => if 0 < k then I j (k - 1) else 0) = (if 0 < k then gen fun j => I j (k - 1) else 0) := by
    split_ifs
    · rfl
    · rw [gen_zero]
  rw [e1, e2] at e
  rw [← e, ← s]
  simp only [mulVec_add, mulVec_sub, mulVec_smul]
  funext a
  simp only [Pi.add_apply, Pi.sub_apply, Pi.smul_apply, Pi.neg_apply, smul_eq_mul]
  ring

theorem Ladder.cell_gen (h : Ladder m A G L R V I J F) (k : ℕ) (hk : k < m) :
    (1 - X : ℝ⟦X⟧) • (lift (L k) *ᵥ gen fun j => I j k) + (1 + X : ℝ⟦X⟧) • (lift (R k) *ᵥ gen fun j => I j k) =
      -((gen fun j => V j (k + 1)) - gen fun j => V j k) + (X : ℝ⟦X⟧) • gen fun j => F j k := by
  have e := gen_ext fun j => h.cell j k hk
  rw [gen_add, gen_add, gen_mulVec, gen_mulVec, gen_sub, gen_add, gen_neg, gen_sub] at e
  have s := gen_shift (x := fun j => I j k) (h.i0 k)
  have s1 := gen_shift (x := fun j => V j k) (h.v0 k)
  have s2 := gen_shift (x := fun j => V j (k + 1)) (h.v0 (k + 1))
  rw [← s1, ← s2]
  have e' := congrArg (fun x => (X : ℝ⟦X⟧) • x) e
  simp only [smul_add, smul_neg, smul_sub] at e' ⊢
  rw [← e', ← s]
  simp only [mulVec_add, mulVec_sub, mulVec_smul]
  funext a
  simp only [Pi.add_apply, Pi.sub_apply, Pi.smul_apply, Pi.neg_apply, smul_eq_mul]
  ring

/-- Summation by parts over the nodes and cells of a ladder. -/
theorem ladder_sum (m : ℕ) (w c : ℕ → Fin n → ℝ⟦X⟧) :
    ∑ k ∈ Finset.range (m + 1), w k ⬝ᵥ (-(if k < m then c k else 0) + (if 0 < k then c (k - 1) else 0)) =
      ∑ k ∈ Finset.range m, (w (k + 1) - w k) ⬝ᵥ c k := by
  simp only [dotProduct_add, dotProduct_neg, Finset.sum_add_distrib, sub_dotProduct, Finset.sum_sub_distrib, Finset.sum_neg_distrib]
  rw [Finset.sum_range_succ, Finset.sum_range_succ' (fun k => w k ⬝ᵥ (if 0 < k then c (k - 1) else 0))]
  simp only [lt_irrefl, if_false, dotProduct_zero, add_zero, Nat.succ_pos, if_true, Nat.add_sub_cancel]
  have : ∑ k ∈ Finset.range m, w k ⬝ᵥ (if k < m then c k else 0) = ∑ k ∈ Finset.range m, w k ⬝ᵥ c k :=
    Finset.sum_congr rfl fun k hk => by rw [if_pos (Finset.mem_range.1 hk)]
  rw [this]
  ring

/-- Reciprocity: what the currents of one ladder are worth at the voltages of another one with the same symmetric matrices is
what the currents of the other one are worth at its voltages. -/
theorem Ladder.reciprocal (h1 : Ladder m A G L R V I J F) (h2 : Ladder m A G L R W K H E)
    (hA : ∀ k ≤ m, (A k)ᵀ = A k) (hG : ∀ k ≤ m, (G k)ᵀ = G k) (hL : ∀ k < m, (L k)ᵀ = L k) (hR : ∀ k < m, (R k)ᵀ = R k) :
    ∑ k ∈ Finset.range (m + 1), (gen fun j => W j k) ⬝ᵥ (gen fun j => J j k) +
        X * ∑ k ∈ Finset.range m, (gen fun j => I j k) ⬝ᵥ (gen fun j => E j k) =
      ∑ k ∈ Finset.range (m + 1), (gen fun j => V j k) ⬝ᵥ (gen fun j => H j k) +
        X * ∑ k ∈ Finset.range m, (gen fun j => K j k) ⬝ᵥ (gen fun j => F j k) := by
  obtain ⟨v, hv⟩ : ∃ v : ℕ → Fin n → ℝ⟦X⟧, v = fun k => gen fun j => V j k := ⟨_, rfl⟩
  obtain ⟨w, hw⟩ : ∃ v : ℕ → Fin n → ℝ⟦X⟧, v = fun k => gen fun j => W j k := ⟨_, rfl⟩
  obtain ⟨i, hi⟩ : ∃ v : ℕ → Fin n → ℝ⟦X⟧, v = fun k => gen fun j => I j k := ⟨_, rfl⟩
  obtain ⟨c, hc⟩ : ∃ v : ℕ → Fin n → ℝ⟦X⟧, v = fun k => gen fun j => K j k := ⟨_, rfl⟩
  obtain ⟨y, hy⟩ : ∃ v : ℕ → Fin n → ℝ⟦X⟧, v = fun k => gen fun j => J j k := ⟨_, rfl⟩
  obtain ⟨z, hz⟩ : ∃ v : ℕ → Fin n → ℝ⟦X⟧, v = fun k => gen fun j => H j k := ⟨_, rfl⟩
  obtain ⟨f, hf⟩ : ∃ v : ℕ → Fin n → ℝ⟦X⟧, v = fun k => gen fun j => F j k := ⟨_, rfl⟩
  obtain ⟨e, he⟩ : ∃ v : ℕ → Fin n → ℝ⟦X⟧, v = fun k => gen fun j => E j k := ⟨_, rfl⟩
  have hn : ∀ k ≤ m, w k ⬝ᵥ (y k + (-(if k < m then i k else 0) + (if 0 < k then i (k - 1) else 0))) =
      v k ⬝ᵥ (z k + (-(if k < m then c k else 0) + (if 0 < k then c (k - 1) else 0))) := by
    intro k hk
    have a1 := h1.node_gen k hk
    have a2 := h2.node_gen k hk
    have b1 := congrArg (fun x => (gen fun j => W j k) ⬝ᵥ x) a1
    have b2 := congrArg (fun x => (gen fun j => V j k) ⬝ᵥ x) a2
    simp only [dotProduct_add, dotProduct_smul] at b1 b2
    rw [dot_symm (lift_symm (hA k hk)), dot_symm (lift_symm (hG k hk))] at b1
    rw [b2] at b1
    have b3 := mul_left_cancel₀ X_ne_zero (by simpa only [smul_eq_mul] using b1)
    subst hv hw hi hc hy hz
    simp only [dotProduct_add, dotProduct_neg, sub_eq_add_neg] at b3 ⊢
    rw [← add_assoc, ← add_assoc]
    exact b3.symm
  have hsum := Finset.sum_congr (rfl : Finset.range (m + 1) = _) fun k hk => hn k (Nat.lt_succ_iff.1 (Finset.mem_range.1 hk))
  simp only [dotProduct_add (_ : Fin n → ℝ⟦X⟧) (y _), dotProduct_add (_ : Fin n → ℝ⟦X⟧) (z _), Finset.sum_add_distrib, ladder_sum] at hsum
  have hcell : ∑ k ∈ Finset.range m, (w (k + 1) - w k) ⬝ᵥ i k - X * ∑ k ∈ Finset.range m, i k ⬝ᵥ e k =
      ∑ k ∈ Finset.range m, (v (k + 1) - v k) ⬝ᵥ c k - X * ∑ k ∈ Finset.range m, c k ⬝ᵥ f k := by
    rw [Finset.mul_sum, Finset.mul_sum, ← Finset.sum_sub_distrib, ← Finset.sum_sub_distrib]
    refine Finset.sum_congr rfl fun k hk => ?_
    have hk := Finset.mem_range.1 hk
    have a1 := h1.cell_gen k hk
    have a2 := h2.cell_gen k hk
    have b1 := congrArg (fun x => (gen fun j => K j k) ⬝ᵥ x) a1
    have b2 := congrArg (fun x => (gen fun j => I j k) ⬝ᵥ x) a2
    simp only [dotProduct_add, dotProduct_smul] at b1 b2
    rw [dot_symm (lift_symm (hL k hk)), dot_symm (lift_symm (hR k hk)), b2] at b1
    subst hv hw hi hc he hf
    simp only [dotProduct_neg, smul_eq_mul] at b1 ⊢
    rw [dotProduct_comm _ (gen fun j => I j k), dotProduct_comm _ (gen fun j => K j k)]
    linear_combination -b1
  subst hv hw hi hc hy hz he hf
  linear_combination hsum - hcell

end

end Mtln
