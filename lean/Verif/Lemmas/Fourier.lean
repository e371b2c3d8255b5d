import Mathlib.RingTheory.RootsOfUnity.Complex
import Mathlib.Algebra.Field.GeomSum
import Mathlib.Algebra.BigOperators.Field
import Verif.Model.Port

/-! # The discrete Fourier transform and the shift of its entries -/

namespace Mtln

open Complex

/-! ## Shifts -/

theorem length_fftshift {α : Type} (x : List α) : (fftshift x).length = x.length := by
  simp [fftshift]

theorem fftshift_perm {α : Type} (x : List α) : (fftshift x).Perm x := by
  unfold fftshift
  exact (List.perm_append_comm).trans (by rw [List.take_append_drop])

theorem fftshift_map {α β : Type} (f : α → β) (x : List α) : fftshift (x.map f) = (fftshift x).map f := by
  simp [fftshift]

theorem fftshift_zip {α β : Type} (x : List α) (y : List β) (h : x.length = y.length) :
    (fftshift x).zip (fftshift y) = fftshift (x.zip y) := by
  unfold fftshift
  rw [List.zip_append (by simp [h])]
  have hl : (List.zipWith Prod.mk x y).length = y.length := by simp [h]
  simp only [List.zip, List.drop_zipWith, List.take_zipWith, hl, h]

/-- Where an entry comes from. -/
theorem fftshift_getElem? {α : Type} (x : List α) (k : ℕ) (hk : k < x.length) :
    (fftshift x)[k]? = x[(k + (x.length - x.length / 2)) % x.length]? := by
  unfold fftshift
  by_cases h : k < x.length / 2
  · rw [List.getElem?_append_left (by rw [List.length_drop]; omega), List.getElem?_drop, Nat.mod_eq_of_lt (by omega),
      add_comm]
  · rw [List.getElem?_append_right (by rw [List.length_drop]; omega), List.length_drop, List.getElem?_take,
      if_pos (by omega)]
    congr 1
    rw [Nat.mod_eq_sub_mod (by omega), Nat.mod_eq_of_lt (by omega)]
    omega

/-! ## The transform -/

theorem length_dft (x : List ℂ) : (dft x).length = x.length := by simp [dft]

theorem dft_getElem? (x : List ℂ) (k : ℕ) (hk : k < x.length) :
    (dft x)[k]? = some (∑ j ∈ Finset.range x.length, x.getD j 0 * exp (-(2 * Real.pi * I * j * k / x.length))) := by
  simp [dft, List.getElem?_range hk]

/-- The sum of the powers of a root of unity. -/
theorem sum_root {N a b : ℕ} (ha : a < N) (hb : b < N) :
    ∑ k ∈ Finset.range N, exp (-(2 * Real.pi * I * a * k / N)) *
      (starRingEnd ℂ) (exp (-(2 * Real.pi * I * b * k / N))) = if a = b then (N : ℂ) else 0 := by
  have hN : (N : ℂ) ≠ 0 := by exact_mod_cast (by omega : N ≠ 0)
  set ζ : ℂ := exp (2 * Real.pi * I / N) with hζ
  have hprim : IsPrimitiveRoot ζ N := isPrimitiveRoot_exp N (by omega)
  have hterm : ∀ k : ℕ, exp (-(2 * Real.pi * I * a * k / N)) *
      (starRingEnd ℂ) (exp (-(2 * Real.pi * I * b * k / N))) = (ζ ^ ((b : ℤ) - a)) ^ k := by
    intro k
    rw [← exp_conj, ← exp_add, hζ, ← exp_int_mul, ← exp_nat_mul]
    congr 1
    simp only [map_neg, map_div₀, map_mul, conj_ofReal, conj_I, map_natCast, map_ofNat]
    push_cast
    field_simp
    ring
  rw [Finset.sum_congr rfl fun k _ => hterm k]
  split_ifs with h
  · subst h
    simp
  · have hne : ζ ^ ((b : ℤ) - a) ≠ 1 := by
      intro h1
      rw [hprim.zpow_eq_one_iff_dvd] at h1
      obtain ⟨c, hc⟩ := h1
      rcases lt_trichotomy c 0 with hc' | hc' | hc'
      · nlinarith
      · subst hc'; omega
      · nlinarith
    rw [geom_sum_eq hne]
    have : (ζ ^ ((b : ℤ) - a)) ^ N = 1 := by
      rw [← zpow_natCast, ← zpow_mul, mul_comm, zpow_mul, zpow_natCast, hprim.pow_eq_one, one_zpow]
    rw [this, sub_self, zero_div]

/-- **Parseval's equation** for two lists of the same length. -/
theorem dft_parseval (x y : List ℂ) (h : x.length = y.length) :
    (((dft x).zip (dft y)).map fun ab => ab.1 * (starRingEnd ℂ) ab.2).sum =
      x.length * ((x.zip y).map fun ab => ab.1 * (starRingEnd ℂ) ab.2).sum := by
  have key : ∀ (N : ℕ) (f g : ℕ → ℂ), ∑ k ∈ Finset.range N,
      (∑ j ∈ Finset.range N, f j * exp (-(2 * Real.pi * I * j * k / N))) *
        (starRingEnd ℂ) (∑ j ∈ Finset.range N, g j * exp (-(2 * Real.pi * I * j * k / N))) =
      N * ∑ j ∈ Finset.range N, f j * (starRingEnd ℂ) (g j) := by
    intro N f g
    calc _ = ∑ k ∈ Finset.range N, ∑ a ∈ Finset.range N, ∑ b ∈ Finset.range N,
          (f a * (starRingEnd ℂ) (g b)) * (exp (-(2 * Real.pi * I * a * k / N)) *
            (starRingEnd ℂ) (exp (-(2 * Real.pi * I * b * k / N)))) := by
          refine Finset.sum_congr rfl fun k _ => ?_
          rw [map_sum, Finset.sum_mul_sum]
          refine Finset.sum_congr rfl fun a _ => Finset.sum_congr rfl fun b _ => ?_
          rw [map_mul]; ring
      _ = ∑ a ∈ Finset.range N, ∑ b ∈ Finset.range N, ∑ k ∈ Finset.range N,
          (f a * (starRingEnd ℂ) (g b)) * (exp (-(2 * Real.pi * I * a * k / N)) *
            (starRingEnd ℂ) (exp (-(2 * Real.pi * I * b * k / N)))) := by
          rw [Finset.sum_comm]
          refine Finset.sum_congr rfl fun a _ => ?_
          rw [Finset.sum_comm]
      _ = ∑ a ∈ Finset.range N, N * (f a * (starRingEnd ℂ) (g a)) := by
          refine Finset.sum_congr rfl fun a ha => ?_
          rw [Finset.sum_eq_single a]
          · rw [← Finset.mul_sum, sum_root (Finset.mem_range.1 ha) (Finset.mem_range.1 ha), if_pos rfl]; ring
          · intro b hb hne
            rw [← Finset.mul_sum, sum_root (Finset.mem_range.1 ha) (Finset.mem_range.1 hb), if_neg hne.symm, mul_zero]
          · intro h; exact absurd ha h
      _ = _ := by rw [Finset.mul_sum]
  have hz : (dft x).zip (dft y) = (List.range x.length).map fun k : ℕ =>
      (∑ j ∈ Finset.range x.length, x.getD j 0 * exp (-(2 * Real.pi * I * j * k / x.length)),
       ∑ j ∈ Finset.range x.length, y.getD j 0 * exp (-(2 * Real.pi * I * j * k / x.length))) := by
    unfold dft
    rw [← h]
    rw [List.zip_map']
  have hs : ∀ (x y : List ℂ), x.length = y.length → ((x.zip y).map fun ab => ab.1 * (starRingEnd ℂ) ab.2).sum =
      ∑ j ∈ Finset.range x.length, x.getD j 0 * (starRingEnd ℂ) (y.getD j 0) := by
    intro x
    induction x with
    | nil => intro y _; simp
    | cons a x ih =>
      intro y hy
      cases y with
      | nil => simp at hy
      | cons b y =>
        simp only [List.zip_cons_cons, List.map_cons, List.sum_cons, List.length_cons]
        rw [ih y (by simpa using hy), Finset.sum_range_succ']
        simp only [List.getD_cons_succ, List.getD_cons_zero]
        ring
  rw [hz, hs x y h, List.map_map, ← key, Finset.sum_range, ← List.sum_ofFn]
  congr 1
  rw [List.ofFn_eq_map]
  rw [← List.map_coe_finRange_eq_range, List.map_map]
  rfl

/-- The transform of a mean. -/
theorem dft_mean (x y : List ℂ) (h : x.length = y.length) : meanOf (dft x) (dft y) = dft (meanOf x y) := by
  have hl : (meanOf x y).length = x.length := by simp [meanOf, h]
  have hg : ∀ j < x.length, (meanOf x y).getD j 0 = (x.getD j 0 + y.getD j 0) / 2 := by
    intro j hj
    have hj' : j < y.length := h ▸ hj
    have hz : (x.zip y)[j]? = some (x[j], y[j]) := by
      rw [List.getElem?_zip_eq_some]
      exact ⟨List.getElem?_eq_getElem hj, List.getElem?_eq_getElem hj'⟩
    simp [meanOf, List.getD, List.getElem?_eq_getElem hj, List.getElem?_eq_getElem hj', hz]
  unfold meanOf
  unfold dft
  rw [← h, List.zip_map', List.map_map]
  have : ((x.zip y).map fun ab => (ab.1 + ab.2) / 2).length = x.length := hl
  rw [this]
  refine List.map_congr_left fun k _ => ?_
  simp only [Function.comp]
  rw [← Finset.sum_add_distrib, Finset.sum_div]
  refine Finset.sum_congr rfl fun j hj => ?_
  have := hg j (Finset.mem_range.1 hj)
  unfold meanOf at this
  rw [this]
  ring

end Mtln
