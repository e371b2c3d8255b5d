import Mathlib.Order.Filter.Ultrafilter.Basic
import Mathlib.Topology.Compactness.Compact
import Mathlib.Topology.MetricSpace.ProperSpace.Real
import Mathlib.Topology.Algebra.Order.Field
import Mathlib.Topology.Algebra.Monoid
import Mathlib.Analysis.SpecificLimits.Basic
import Mathlib.Algebra.BigOperators.Field
import Mathlib.Data.Matrix.Mul

/-! # Long time means of bounded sequences -/

namespace Mtln

open Filter Topology

/-- The mean of the values of a sequence, along a fixed ultrafilter. -/
def IsMean (x : ℕ → ℝ) (l : ℝ) : Prop :=
  Tendsto (fun N : ℕ => (∑ n ∈ Finset.range N, x n) / N) (hyperfilter ℕ : Filter ℕ) (𝓝 l)

theorem hyper_atTop : (hyperfilter ℕ : Filter ℕ) ≤ atTop := Nat.hyperfilter_le_atTop

theorem IsMean.unique {x : ℕ → ℝ} {l l' : ℝ} (h : IsMean x l) (h' : IsMean x l') : l = l' := tendsto_nhds_unique h h'

theorem IsMean.const (c : ℝ) : IsMean (fun _ => c) c := by
  refine (tendsto_const_nhds (x := c)).congr' ?_
  refine hyper_atTop ((eventually_ne_atTop 0).mono fun N hN => ?_)
  have : (N : ℝ) ≠ 0 := by exact_mod_cast hN
  show c = (∑ n ∈ Finset.range N, c) / N
  rw [Finset.sum_const, Finset.card_range, nsmul_eq_mul]
  field_simp

theorem IsMean.add {x y : ℕ → ℝ} {l k : ℝ} (h : IsMean x l) (h' : IsMean y k) : IsMean (fun n => x n + y n) (l + k) := by
  refine (Tendsto.add h h').congr fun N => ?_
  rw [Finset.sum_add_distrib, add_div]

theorem IsMean.mul (c : ℝ) {x : ℕ → ℝ} {l : ℝ} (h : IsMean x l) : IsMean (fun n => c * x n) (c * l) := by
  refine (Tendsto.const_mul c h).congr fun N => ?_
  rw [← Finset.mul_sum, mul_div_assoc]

theorem IsMean.neg {x : ℕ → ℝ} {l : ℝ} (h : IsMean x l) : IsMean (fun n => -x n) (-l) := by
  simpa using h.mul (-1)

theorem IsMean.sub {x y : ℕ → ℝ} {l k : ℝ} (h : IsMean x l) (h' : IsMean y k) : IsMean (fun n => x n - y n) (l - k) := by
  simpa [sub_eq_add_neg] using h.add h'.neg

theorem IsMean.sum {ι : Type} (s : Finset ι) {x : ι → ℕ → ℝ} {l : ι → ℝ} (h : ∀ i ∈ s, IsMean (x i) (l i)) :
    IsMean (fun n => ∑ i ∈ s, x i n) (∑ i ∈ s, l i) := by
  refine (tendsto_finsetSum s h).congr fun N => ?_
  rw [Finset.sum_comm, Finset.sum_div]

/-- Bounded sequences have a mean. -/
theorem IsMean.exists {x : ℕ → ℝ} {K : ℝ} (h : ∀ n, |x n| ≤ K) : ∃ l, IsMean x l := by
  have hK : 0 ≤ K := (abs_nonneg _).trans (h 0)
  have hb : ∀ N : ℕ, (∑ n ∈ Finset.range N, x n) / N ∈ Set.Icc (-K) K := by
    intro N
    rw [Set.mem_Icc, ← abs_le, abs_div, Nat.abs_cast]
    refine div_le_of_le_mul₀ (Nat.cast_nonneg _) hK ?_
    refine (Finset.abs_sum_le_sum_abs _ _).trans ((Finset.sum_le_sum fun n _ => h n).trans (le_of_eq ?_))
    rw [Finset.sum_const, Finset.card_range, nsmul_eq_mul, mul_comm]
  obtain ⟨l, -, hl⟩ := isCompact_iff_ultrafilter_le_nhds.1 (isCompact_Icc (a := -K) (b := K))
    ((hyperfilter ℕ).map fun N : ℕ => (∑ n ∈ Finset.range N, x n) / N) (by
      rw [Ultrafilter.coe_map, le_principal_iff, mem_map]
      exact univ_mem' hb)
  exact ⟨l, hl⟩

/-- The mean does not change with the beginning of the sequence. -/
theorem IsMean.shift {x : ℕ → ℝ} {l K : ℝ} (h : IsMean x l) (hK : ∀ n, |x n| ≤ K) : IsMean (fun n => x (n + 1)) l := by
  have hd : Tendsto (fun N : ℕ => (x N - x 0) / N) (hyperfilter ℕ : Filter ℕ) (𝓝 0) := by
    refine Tendsto.mono_left ?_ hyper_atTop
    refine (tendsto_zero_iff_abs_tendsto_zero _).2 ?_
    refine squeeze_zero (g := fun N : ℕ => 2 * K / N) (fun N => abs_nonneg _) (fun N => ?_)
      (tendsto_const_div_atTop_nhds_zero_nat _)
    rw [Function.comp_apply, abs_div, Nat.abs_cast]
    refine div_le_div_of_nonneg_right ?_ (Nat.cast_nonneg _)
    refine (abs_sub _ _).trans ?_
    linarith [hK N, hK 0]
  have := Tendsto.add h hd
  rw [add_zero] at this
  refine this.congr fun N => ?_
  rw [← add_div]
  congr 1
  have := Finset.sum_range_succ' x N
  rw [Finset.sum_range_succ] at this
  linarith

theorem IsMean.shifts {x : ℕ → ℝ} {l K : ℝ} (h : IsMean x l) (hK : ∀ n, |x n| ≤ K) (q : ℕ) : IsMean (fun n => x (n + q)) l := by
  induction q with
  | zero => exact h
  | succ q ih =>
    have := ih.shift (K := K) fun n => hK _
    refine this.congr fun N => ?_
    simp only [Nat.add_right_comm _ 1 q, Nat.add_assoc]

/-! ## Columns -/

/-- The mean of a sequence of columns. -/
def IsMeanCol {n : ℕ} (x : ℕ → Fin n → ℝ) (l : Fin n → ℝ) : Prop := ∀ a, IsMean (fun k => x k a) (l a)

variable {n m : ℕ}

theorem IsMeanCol.unique {x : ℕ → Fin n → ℝ} {l l' : Fin n → ℝ} (h : IsMeanCol x l) (h' : IsMeanCol x l') : l = l' :=
  funext fun a => (h a).unique (h' a)

theorem IsMeanCol.const (c : Fin n → ℝ) : IsMeanCol (fun _ => c) c := fun a => .const (c a)

theorem IsMeanCol.add {x y : ℕ → Fin n → ℝ} {l k : Fin n → ℝ} (h : IsMeanCol x l) (h' : IsMeanCol y k) :
    IsMeanCol (fun n => x n + y n) (l + k) := fun a => (h a).add (h' a)

theorem IsMeanCol.sub {x y : ℕ → Fin n → ℝ} {l k : Fin n → ℝ} (h : IsMeanCol x l) (h' : IsMeanCol y k) :
    IsMeanCol (fun n => x n - y n) (l - k) := fun a => (h a).sub (h' a)

theorem IsMeanCol.neg {x : ℕ → Fin n → ℝ} {l : Fin n → ℝ} (h : IsMeanCol x l) : IsMeanCol (fun n => -x n) (-l) :=
  fun a => (h a).neg

theorem IsMeanCol.smul (c : ℝ) {x : ℕ → Fin n → ℝ} {l : Fin n → ℝ} (h : IsMeanCol x l) : IsMeanCol (fun n => c • x n) (c • l) :=
  fun a => (h a).mul c

theorem IsMeanCol.mulVec (A : Matrix (Fin m) (Fin n) ℝ) {x : ℕ → Fin n → ℝ} {l : Fin n → ℝ} (h : IsMeanCol x l) :
    IsMeanCol (fun k => A.mulVec (x k)) (A.mulVec l) :=
  fun a => IsMean.sum Finset.univ fun b _ => (h b).mul (A a b)

theorem IsMeanCol.shift {x : ℕ → Fin n → ℝ} {l : Fin n → ℝ} {K : ℝ} (h : IsMeanCol x l) (hK : ∀ k a, |x k a| ≤ K) (q : ℕ) :
    IsMeanCol (fun k => x (k + q)) l := fun a => (h a).shifts (fun k => hK k a) q

end Mtln
