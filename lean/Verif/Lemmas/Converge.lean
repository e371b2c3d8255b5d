import Verif.Spec.Converge
import Verif.Lemmas.ErrorEnergy
import Verif.Lemmas.Taylor

/-! # Residuals of smooth solutions, and the work they do -/

namespace Mtln

open Matrix

variable {n p : ℕ}

theorem mulVec_bound {A : Mat n} {w : Col n} {μ c : ℝ} (hA : ∀ a b, |A a b| ≤ μ) (hw : ∀ b, |w b| ≤ c) (hμ : 0 ≤ μ) (a : Fin n) :
    |(A *ᵥ w) a| ≤ n * μ * c := by
  unfold mulVec dotProduct
  calc |∑ b, A a b * w b| ≤ ∑ b, |A a b * w b| := Finset.abs_sum_le_sum_abs _ _
    _ ≤ ∑ _b : Fin n, μ * c := Finset.sum_le_sum fun b _ => by
        rw [abs_mul]
        exact mul_le_mul (hA a b) (hw b) (abs_nonneg _) hμ
    _ = n * μ * c := by simp; ring

section

variable {P Q : ℝ → ℝ → Col n} {A B : Mat n} {μ K x t h d D t1 t2 : ℝ}

/-- The time differences of a smooth function. -/
theorem time_residual (hμ : 0 ≤ μ) (hA : ∀ a b, |A a b| ≤ μ) (hB : ∀ a b, |B a b| ≤ μ) (hh : 0 < h)
    (hP : ∀ b, C3 (fun t => P x t b) (fun t => deriv (fun t => P x t b) t) K t1 t2)
    (ht1 : t1 ≤ t - h / 2) (ht2 : t + h / 2 ≤ t2) (a : Fin n) :
    |((1 / h) • (A *ᵥ (P x (t + h / 2) - P x (t - h / 2))) + (1 / 2 : ℝ) • (B *ᵥ (P x (t + h / 2) + P x (t - h / 2)))) a -
      ((A *ᵥ fun b => deriv (fun t => P x t b) t) a + (B *ᵥ P x t) a)| ≤ n * μ * (K * h ^ 2) := by
  have e : ((1 / h) • (A *ᵥ (P x (t + h / 2) - P x (t - h / 2))) +
      (1 / 2 : ℝ) • (B *ᵥ (P x (t + h / 2) + P x (t - h / 2)))) a -
      ((A *ᵥ fun b => deriv (fun t => P x t b) t) a + (B *ᵥ P x t) a) =
      (A *ᵥ fun b => (1 / h) * (P x (t + h / 2) b - P x (t - h / 2) b - 2 * (h / 2) * deriv (fun t => P x t b) t)) a +
      (B *ᵥ fun b => (1 / 2) * (P x (t + h / 2) b + P x (t - h / 2) b - 2 * P x t b)) a := by
    simp only [Pi.add_apply, Pi.smul_apply, smul_eq_mul, mulVec, dotProduct, Pi.sub_apply]
    rw [Finset.mul_sum, Finset.mul_sum]
    simp only [← Finset.sum_add_distrib, ← Finset.sum_sub_distrib]
    refine Finset.sum_congr rfl fun b _ => ?_
    field_simp
    ring
  rw [e]
  have hK0 : ∀ b, |(1 / h) * (P x (t + h / 2) b - P x (t - h / 2) b - 2 * (h / 2) * deriv (fun t => P x t b) t)| ≤
      K / 24 * h ^ 2 := by
    intro b
    have := (hP b).central (x := t) (h := h / 2) (by positivity) ht1 ht2
    rw [abs_mul, abs_of_pos (by positivity : 0 < 1 / h)]
    calc 1 / h * _ ≤ 1 / h * (K / 3 * (h / 2) ^ 3) := mul_le_mul_of_nonneg_left this (by positivity)
      _ = K / 24 * h ^ 2 := by field_simp; ring
  have hK1 : ∀ b, |(1 / 2) * (P x (t + h / 2) b + P x (t - h / 2) b - 2 * P x t b)| ≤ K / 8 * h ^ 2 := by
    intro b
    have := (hP b).average (x := t) (h := h / 2) (by positivity) ht1 ht2
    rw [abs_mul, abs_of_pos (by positivity : (0 : ℝ) < 1 / 2)]
    calc 1 / 2 * _ ≤ 1 / 2 * (K * (h / 2) ^ 2) := mul_le_mul_of_nonneg_left this (by positivity)
      _ = K / 8 * h ^ 2 := by ring
  have hn : 0 ≤ n * μ := by positivity
  have hKh : 0 ≤ K * h ^ 2 := by
    have := (abs_nonneg _).trans (hK1 a)
    linarith
  calc _ ≤ |_| + |_| := abs_add_le _ _
    _ ≤ n * μ * (K / 24 * h ^ 2) + n * μ * (K / 8 * h ^ 2) := add_le_add (mulVec_bound hA hK0 hμ a) (mulVec_bound hB hK1 hμ a)
    _ ≤ n * μ * (K * h ^ 2) := by nlinarith

/-- The residual of a smooth solution in a cell or at an inner node. -/
theorem residual_bound (hμ : 0 ≤ μ) (hK : 0 ≤ K) (hA : ∀ a b, |A a b| ≤ μ) (hB : ∀ a b, |B a b| ≤ μ) (hh : 0 < h)
    (hd : 0 < d) (hP : ∀ b, C3 (fun t => P x t b) (fun t => deriv (fun t => P x t b) t) K t1 t2)
    (hQ : ∀ b, C3 (fun x => Q x t b) (fun x => deriv (fun x => Q x t b) x) K 0 D)
    (ht1 : t1 ≤ t - h / 2) (ht2 : t + h / 2 ≤ t2) (hx1 : 0 ≤ x - d / 2) (hx2 : x + d / 2 ≤ D)
    (pde : ∀ a, deriv (fun x => Q x t a) x + (A *ᵥ fun b => deriv (fun t => P x t b) t) a + (B *ᵥ P x t) a = 0)
    (a : Fin n) :
    |((1 / h) • (A *ᵥ (P x (t + h / 2) - P x (t - h / 2))) + (1 / 2 : ℝ) • (B *ᵥ (P x (t + h / 2) + P x (t - h / 2))) +
      (1 / d) • (Q (x + d / 2) t - Q (x - d / 2) t)) a| ≤ K * (1 + n * μ) * (h ^ 2 + d ^ 2) := by
  have h1 := time_residual (B := B) hμ hA hB hh hP ht1 ht2 a
  have h2 := (hQ a).central (x := x) (h := d / 2) (by positivity) hx1 hx2
  have h3 : |1 / d * (Q (x + d / 2) t a - Q (x - d / 2) t a - 2 * (d / 2) * deriv (fun x => Q x t a) x)| ≤ K * d ^ 2 := by
    rw [abs_mul, abs_of_pos (by positivity : 0 < 1 / d)]
    calc 1 / d * _ ≤ 1 / d * (K / 3 * (d / 2) ^ 3) := mul_le_mul_of_nonneg_left h2 (by positivity)
      _ = K / 24 * d ^ 2 := by field_simp; ring
      _ ≤ K * d ^ 2 := by nlinarith [mul_nonneg hK (sq_nonneg d)]
  have e : ((1 / h) • (A *ᵥ (P x (t + h / 2) - P x (t - h / 2))) + (1 / 2 : ℝ) • (B *ᵥ (P x (t + h / 2) + P x (t - h / 2))) +
      (1 / d) • (Q (x + d / 2) t - Q (x - d / 2) t)) a =
      (((1 / h) • (A *ᵥ (P x (t + h / 2) - P x (t - h / 2))) +
        (1 / 2 : ℝ) • (B *ᵥ (P x (t + h / 2) + P x (t - h / 2)))) a -
        ((A *ᵥ fun b => deriv (fun t => P x t b) t) a + (B *ᵥ P x t) a)) +
      1 / d * (Q (x + d / 2) t a - Q (x - d / 2) t a - 2 * (d / 2) * deriv (fun x => Q x t a) x) := by
    have := pde a
    have q : 1 / d * (Q (x + d / 2) t a - Q (x - d / 2) t a - 2 * (d / 2) * deriv (fun x => Q x t a) x) =
      1 / d * (Q (x + d / 2) t a - Q (x - d / 2) t a) - deriv (fun x => Q x t a) x := by field_simp
    rw [q]
    simp only [Pi.add_apply, Pi.smul_apply, smul_eq_mul, Pi.sub_apply]
    linear_combination this
  rw [e]
  refine (abs_add_le _ _).trans ((add_le_add h1 h3).trans ?_)
  have : 0 ≤ n * μ := by positivity
  have a1 : 0 ≤ n * μ * K * d ^ 2 := by positivity
  have a2 : 0 ≤ K * h ^ 2 := by positivity
  nlinarith

/-- The residual of a smooth solution at the beginning of the line, in the current. -/
theorem first_bound (hμ : 0 ≤ μ) (hK : 0 ≤ K) (hA : ∀ a b, |A a b| ≤ μ) (hB : ∀ a b, |B a b| ≤ μ) (hh : 0 < h)
    (hd : 0 < d) (hdD : d ≤ D) (hP : ∀ b, C3 (fun t => P 0 t b) (fun t => deriv (fun t => P 0 t b) t) K t1 t2)
    (hQt : ∀ b, C3 (fun t => Q 0 t b) (fun t => deriv (fun t => Q 0 t b) t) K t1 t2)
    (hQ : ∀ b, C3 (fun x => Q x t b) (fun x => deriv (fun x => Q x t b) x) K 0 D)
    (ht1 : t1 ≤ t - h / 2) (ht2 : t + h / 2 ≤ t2)
    (pde : ∀ a, deriv (fun x => Q x t a) 0 + (A *ᵥ fun b => deriv (fun t => P 0 t b) t) a + (B *ᵥ P 0 t) a = 0)
    (a : Fin n) :
    |(Q 0 (t + h / 2) + Q 0 (t - h / 2) - ((2 : ℝ) • Q (d / 2) t + (d / h) • (A *ᵥ (P 0 (t + h / 2) - P 0 (t - h / 2))) +
      (d / 2) • (B *ᵥ (P 0 (t + h / 2) + P 0 (t - h / 2))))) a| ≤ K * (1 + n * μ * D) * (h ^ 2 + d ^ 2) := by
  have h1 := time_residual (B := B) hμ hA hB hh hP ht1 ht2 a
  have h2 := (hQt a).average (x := t) (h := h / 2) (by positivity) ht1 ht2
  have h3 := (hQ a).forward (x := 0) (h := d / 2) (by positivity) le_rfl (by linarith)
  rw [zero_add] at h3
  set y := ((1 / h) • (A *ᵥ (P 0 (t + h / 2) - P 0 (t - h / 2))) +
        (1 / 2 : ℝ) • (B *ᵥ (P 0 (t + h / 2) + P 0 (t - h / 2)))) a -
        ((A *ᵥ fun b => deriv (fun t => P 0 t b) t) a + (B *ᵥ P 0 t) a) with hy
  have e : (Q 0 (t + h / 2) + Q 0 (t - h / 2) - ((2 : ℝ) • Q (d / 2) t +
      (d / h) • (A *ᵥ (P 0 (t + h / 2) - P 0 (t - h / 2))) + (d / 2) • (B *ᵥ (P 0 (t + h / 2) + P 0 (t - h / 2))))) a =
      (Q 0 (t + h / 2) a + Q 0 (t - h / 2) a - 2 * Q 0 t a) +
      -2 * (Q (d / 2) t a - Q 0 t a - d / 2 * deriv (fun x => Q x t a) 0) + -d * y := by
    have := pde a
    rw [hy]
    simp only [Pi.add_apply, Pi.smul_apply, smul_eq_mul, Pi.sub_apply]
    have q : d / h = d * (1 / h) := by ring
    rw [q]
    linear_combination -d * this
  rw [e]
  have b2 : |-2 * (Q (d / 2) t a - Q 0 t a - d / 2 * deriv (fun x => Q x t a) 0)| ≤ 2 * (K / 2 * (d / 2) ^ 2) := by
    rw [abs_mul, abs_neg, abs_of_pos (by norm_num : (0 : ℝ) < 2)]
    exact mul_le_mul_of_nonneg_left h3 (by norm_num)
  have b3 : |-d * y| ≤ D * (n * μ * (K * h ^ 2)) := by
    rw [abs_mul, abs_neg, abs_of_pos hd]
    exact mul_le_mul hdD h1 (abs_nonneg _) (by linarith)
  refine (abs_add_le _ _).trans ((add_le_add ((abs_add_le _ _).trans (add_le_add h2 b2)) b3).trans ?_)
  have hD : 0 ≤ D := by linarith
  have : 0 ≤ n * μ * D := by positivity
  have a1 : 0 ≤ n * μ * D * (K * d ^ 2) := by positivity
  have a2 : 0 ≤ K * h ^ 2 := by positivity
  have a3 : 0 ≤ K * d ^ 2 := by positivity
  nlinarith

/-- The same at its end. -/
theorem last_bound (hμ : 0 ≤ μ) (hK : 0 ≤ K) (hA : ∀ a b, |A a b| ≤ μ) (hB : ∀ a b, |B a b| ≤ μ) (hh : 0 < h)
    (hd : 0 < d) (hdD : d ≤ D) (hP : ∀ b, C3 (fun t => P D t b) (fun t => deriv (fun t => P D t b) t) K t1 t2)
    (hQt : ∀ b, C3 (fun t => Q D t b) (fun t => deriv (fun t => Q D t b) t) K t1 t2)
    (hQ : ∀ b, C3 (fun x => Q x t b) (fun x => deriv (fun x => Q x t b) x) K 0 D)
    (ht1 : t1 ≤ t - h / 2) (ht2 : t + h / 2 ≤ t2)
    (pde : ∀ a, deriv (fun x => Q x t a) D + (A *ᵥ fun b => deriv (fun t => P D t b) t) a + (B *ᵥ P D t) a = 0)
    (a : Fin n) :
    |(-(Q D (t + h / 2) + Q D (t - h / 2)) - (-((2 : ℝ) • Q (D - d / 2) t) +
      (d / h) • (A *ᵥ (P D (t + h / 2) - P D (t - h / 2))) +
      (d / 2) • (B *ᵥ (P D (t + h / 2) + P D (t - h / 2))))) a| ≤ K * (1 + n * μ * D) * (h ^ 2 + d ^ 2) := by
  have h1 := time_residual (B := B) hμ hA hB hh hP ht1 ht2 a
  have h2 := (hQt a).average (x := t) (h := h / 2) (by positivity) ht1 ht2
  have h3 := (hQ a).backward (x := D) (h := d / 2) (by positivity) (by linarith) le_rfl
  set y := ((1 / h) • (A *ᵥ (P D (t + h / 2) - P D (t - h / 2))) +
        (1 / 2 : ℝ) • (B *ᵥ (P D (t + h / 2) + P D (t - h / 2)))) a -
        ((A *ᵥ fun b => deriv (fun t => P D t b) t) a + (B *ᵥ P D t) a) with hy
  have e : (-(Q D (t + h / 2) + Q D (t - h / 2)) - (-((2 : ℝ) • Q (D - d / 2) t) +
      (d / h) • (A *ᵥ (P D (t + h / 2) - P D (t - h / 2))) + (d / 2) • (B *ᵥ (P D (t + h / 2) + P D (t - h / 2))))) a =
      -(Q D (t + h / 2) a + Q D (t - h / 2) a - 2 * Q D t a) +
      2 * (Q (D - d / 2) t a - Q D t a + d / 2 * deriv (fun x => Q x t a) D) + -d * y := by
    have := pde a
    rw [hy]
    simp only [Pi.add_apply, Pi.smul_apply, smul_eq_mul, Pi.sub_apply, Pi.neg_apply]
    have q : d / h = d * (1 / h) := by ring
    rw [q]
    linear_combination -d * this
  rw [e]
  have b2 : |2 * (Q (D - d / 2) t a - Q D t a + d / 2 * deriv (fun x => Q x t a) D)| ≤ 2 * (K / 2 * (d / 2) ^ 2) := by
    rw [abs_mul, abs_of_pos (by norm_num : (0 : ℝ) < 2)]
    exact mul_le_mul_of_nonneg_left h3 (by norm_num)
  have b3 : |-d * y| ≤ D * (n * μ * (K * h ^ 2)) := by
    rw [abs_mul, abs_neg, abs_of_pos hd]
    exact mul_le_mul hdD h1 (abs_nonneg _) (by linarith)
  rw [← abs_neg] at h2
  refine (abs_add_le _ _).trans ((add_le_add ((abs_add_le _ _).trans (add_le_add h2 b2)) b3).trans ?_)
  have hD : 0 ≤ D := by linarith
  have : 0 ≤ n * μ * D := by positivity
  have a1 : 0 ≤ n * μ * D * (K * d ^ 2) := by positivity
  have a2 : 0 ≤ K * h ^ 2 := by positivity
  have a3 : 0 ≤ K * d ^ 2 := by positivity
  nlinarith

end

/-! ## Work -/

theorem SPD.nonneg {A : Mat n} (h : SPD A) (x : Col n) : 0 ≤ x ⬝ᵥ (A *ᵥ x) := by
  by_cases hx : x = 0
  · simp [hx]
  · exact (h.pos x hx).le

/-- Work of residuals that are at most `r` against fields measured by their energy. -/
theorem dot_work {A : Mat n} {KA r : ℝ} (hKA : 0 ≤ KA)
    (hA : ∀ (x : Col n) (a : Fin n), |x a| ≤ KA * Real.sqrt (x ⬝ᵥ (A *ᵥ x))) {x ρ : Col n} (hρ : ∀ a, |ρ a| ≤ r) :
    x ⬝ᵥ ρ ≤ n * KA * r * Real.sqrt (x ⬝ᵥ (A *ᵥ x)) := by
  refine (dot_le_components (hA x) hρ (by positivity)).trans (le_of_eq (by ring))

theorem cell_work {m : ℕ} {d KA r : ℝ} {A : Mat n} (hAs : SPD A) (hd : 0 ≤ d) (hKA : 0 ≤ KA) (hr : 0 ≤ r)
    (hA : ∀ (x : Col n) (a : Fin n), |x a| ≤ KA * Real.sqrt (x ⬝ᵥ (A *ᵥ x))) {x y ρ : Grid n}
    (hρ : ∀ k < m, ∀ a, |ρ k a| ≤ r) :
    ∑ k ∈ Finset.range m, d * ((x k + y k) ⬝ᵥ ρ k) ≤ n * KA * r * Real.sqrt (m * d) *
      (Real.sqrt (∑ k ∈ Finset.range m, d * (x k ⬝ᵥ (A *ᵥ x k))) + Real.sqrt (∑ k ∈ Finset.range m, d * (y k ⬝ᵥ (A *ᵥ y k)))) := by
  have one : ∀ z : Grid n, ∑ k ∈ Finset.range m, d * (z k ⬝ᵥ ρ k) ≤ n * KA * r * Real.sqrt (m * d) *
      Real.sqrt (∑ k ∈ Finset.range m, d * (z k ⬝ᵥ (A *ᵥ z k))) := by
    intro z
    have h1 := weighted_sum_le (m := m) hd (fun k => Real.sqrt (z k ⬝ᵥ (A *ᵥ z k)))
    have e : ∑ k ∈ Finset.range m, d * Real.sqrt (z k ⬝ᵥ (A *ᵥ z k)) ^ 2 = ∑ k ∈ Finset.range m, d * (z k ⬝ᵥ (A *ᵥ z k)) :=
      Finset.sum_congr rfl fun k _ => by rw [Real.sq_sqrt (hAs.nonneg _)]
    rw [e] at h1
    calc ∑ k ∈ Finset.range m, d * (z k ⬝ᵥ ρ k)
        ≤ ∑ k ∈ Finset.range m, n * KA * r * (d * Real.sqrt (z k ⬝ᵥ (A *ᵥ z k))) := Finset.sum_le_sum fun k hk => by
          have := mul_le_mul_of_nonneg_left (dot_work hKA hA (x := z k) (hρ k (Finset.mem_range.1 hk))) hd
          linarith
      _ = n * KA * r * ∑ k ∈ Finset.range m, d * Real.sqrt (z k ⬝ᵥ (A *ᵥ z k)) := by rw [Finset.mul_sum]
      _ ≤ n * KA * r * (Real.sqrt (m * d) * Real.sqrt (∑ k ∈ Finset.range m, d * (z k ⬝ᵥ (A *ᵥ z k)))) :=
          mul_le_mul_of_nonneg_left h1 (by positivity)
      _ = _ := by ring
  have e : ∑ k ∈ Finset.range m, d * ((x k + y k) ⬝ᵥ ρ k) =
      ∑ k ∈ Finset.range m, d * (x k ⬝ᵥ ρ k) + ∑ k ∈ Finset.range m, d * (y k ⬝ᵥ ρ k) := by
    rw [← Finset.sum_add_distrib]
    refine Finset.sum_congr rfl fun k _ => ?_
    rw [add_dotProduct]
    ring
  rw [e, mul_add]
  exact add_le_add (one x) (one y)

/-- Sums over the half cells at the nodes. -/
theorem half_cells_le {m : ℕ} {d KA r : ℝ} {A : Mat n} (hAs : SPD A) (hd : 0 ≤ d) (hKA : 0 ≤ KA) (hr : 0 ≤ r) {w : ℕ → ℝ}
    (hw : ∀ k, 0 ≤ w k) (z : Grid n) :
    ∑ k ∈ Finset.range m, d / 2 * (n * KA * r * Real.sqrt (w k * (z k ⬝ᵥ (A *ᵥ z k))) +
      n * KA * r * Real.sqrt (w (k + 1) * (z (k + 1) ⬝ᵥ (A *ᵥ z (k + 1))))) ≤ n * KA * r * Real.sqrt (m * d) *
      Real.sqrt (∑ k ∈ Finset.range m, d / 2 * (w k * (z k ⬝ᵥ (A *ᵥ z k)) + w (k + 1) * (z (k + 1) ⬝ᵥ (A *ᵥ z (k + 1))))) := by
  set q : ℕ → ℝ := fun k => Real.sqrt (w k * (z k ⬝ᵥ (A *ᵥ z k))) with hq
  have hq2 : ∀ k, q k ^ 2 = w k * (z k ⬝ᵥ (A *ᵥ z k)) := fun k => Real.sq_sqrt (mul_nonneg (hw k) (hAs.nonneg _))
  have h1 := weighted_sum_le (m := m) hd (fun k => (q k + q (k + 1)) / 2)
  have h2 : ∑ k ∈ Finset.range m, d * ((q k + q (k + 1)) / 2) ^ 2 ≤
      ∑ k ∈ Finset.range m, d / 2 * (w k * (z k ⬝ᵥ (A *ᵥ z k)) + w (k + 1) * (z (k + 1) ⬝ᵥ (A *ᵥ z (k + 1)))) := by
    refine Finset.sum_le_sum fun k _ => ?_
    rw [← hq2, ← hq2]
    nlinarith [mul_nonneg hd (sq_nonneg (q k - q (k + 1)))]
  have h3 := h1.trans (mul_le_mul_of_nonneg_left (Real.sqrt_le_sqrt h2) (Real.sqrt_nonneg _))
  calc _ = n * KA * r * ∑ k ∈ Finset.range m, d * ((q k + q (k + 1)) / 2) := by
        rw [Finset.mul_sum]
        refine Finset.sum_congr rfl fun k _ => ?_
        ring
    _ ≤ n * KA * r * (Real.sqrt (m * d) *
        Real.sqrt (∑ k ∈ Finset.range m, d / 2 * (w k * (z k ⬝ᵥ (A *ᵥ z k)) + w (k + 1) * (z (k + 1) ⬝ᵥ (A *ᵥ z (k + 1)))))) :=
        mul_le_mul_of_nonneg_left h3 (by positivity)
    _ = _ := by ring

theorem node_work {s : MTL n p} {d KA r B τ : ℝ} {A : Mat n} (hAs : SPD A) (hm : 0 < s.m) (hd : 0 < d) (hKA : 0 ≤ KA)
    (hr : 0 ≤ r) (hB : 0 ≤ B) (hτ : 0 < τ) (hdt : 0 < s.dt) (hdun : ∀ k < s.m, s.dun k = d)
    (hA : ∀ (x : Col n) (a : Fin n), |x a| ≤ KA * Real.sqrt (x ⬝ᵥ (A *ᵥ x))) {e e' η : Grid n} {σ σ' : Col n}
    (hη : ∀ k, 0 < k → k < s.m → ∀ a, |η k a| ≤ r) (hσ : σ ⬝ᵥ (s.zs *ᵥ σ) ≤ B) (hσ' : σ' ⬝ᵥ (s.zl *ᵥ σ') ≤ B) :
    ∑ k ∈ Finset.range s.m, d / 2 * (s.nodeWork e e' η σ σ' k + s.nodeWork e e' η σ σ' (k + 1)) ≤
      n * KA * r * Real.sqrt (s.m * d) *
      (Real.sqrt (∑ k ∈ Finset.range s.m, d / 2 * (s.endWeight τ k * (e' k ⬝ᵥ (A *ᵥ e' k)) + s.endWeight τ (k + 1) * (e' (k + 1) ⬝ᵥ (A *ᵥ e' (k + 1))))) +
        Real.sqrt (∑ k ∈ Finset.range s.m, d / 2 * (s.endWeight τ k * (e k ⬝ᵥ (A *ᵥ e k)) + s.endWeight τ (k + 1) * (e (k + 1) ⬝ᵥ (A *ᵥ e (k + 1)))))) + B := by
  have hw : ∀ k, 0 ≤ s.endWeight τ k := fun k => by
    unfold MTL.endWeight
    split
    · positivity
    · exact zero_le_one
  have hwin : ∀ k, 0 < k → k < s.m → s.endWeight τ k = 1 := fun k h h' => by
    unfold MTL.endWeight; rw [if_neg (by omega)]
  set q : Grid n → ℕ → ℝ := fun z k => n * KA * r * Real.sqrt (s.endWeight τ k * (z k ⬝ᵥ (A *ᵥ z k))) with hq
  have hq0 : ∀ z k, 0 ≤ q z k := fun z k => by simp only [hq]; positivity
  have hβ : ∀ k ≤ s.m, s.nodeWork e e' η σ σ' k ≤ q e' k + q e k + ((if k = 0 then B / d else 0) + if k = s.m then B / d else 0) := by
    intro k hk
    have hBd : 0 ≤ B / d := by positivity
    unfold MTL.nodeWork
    split_ifs with h0 h1 h1
    · omega
    · rw [hdun 0 hm]
      have := div_le_div_of_nonneg_right hσ hd.le
      have := hq0 e' k
      have := hq0 e k
      linarith
    · rw [hdun (s.m - 1) (by omega)]
      have := div_le_div_of_nonneg_right hσ' hd.le
      have := hq0 e' k
      have := hq0 e k
      linarith
    · rw [add_dotProduct]
      have h2 := dot_work hKA hA (x := e' k) (hη k (by omega) (by omega))
      have h3 := dot_work hKA hA (x := e k) (hη k (by omega) (by omega))
      simp only [hq]
      rw [hwin k (by omega) (by omega), one_mul, one_mul]
      linarith
  have ends : ∑ k ∈ Finset.range s.m, d / 2 * (((if k = 0 then B / d else 0) + if k = s.m then B / d else 0) +
      ((if k + 1 = 0 then B / d else 0) + if k + 1 = s.m then B / d else 0)) = B := by
    have : ∀ k ∈ Finset.range s.m, d / 2 * (((if k = 0 then B / d else 0) + if k = s.m then B / d else 0) +
      ((if k + 1 = 0 then B / d else 0) + if k + 1 = s.m then B / d else 0)) =
      (if k = 0 then B / 2 else 0) + if k = s.m - 1 then B / 2 else 0 := by
      intro k hk
      have hk := Finset.mem_range.1 hk
      have e1 : ¬ k = s.m := by omega
      have e2 : k + 1 = s.m ↔ k = s.m - 1 := by omega
      simp only [e1, e2, if_false, add_zero, Nat.add_eq_zero_iff, one_ne_zero, and_false, zero_add]
      have hdne := hd.ne'
      split_ifs <;> field_simp <;> ring
    rw [Finset.sum_congr rfl this, Finset.sum_add_distrib, Finset.sum_ite_eq', Finset.sum_ite_eq',
      if_pos (Finset.mem_range.2 hm), if_pos (Finset.mem_range.2 (by omega))]
    ring
  calc _ ≤ ∑ k ∈ Finset.range s.m, (d / 2 * (q e' k + q e' (k + 1)) + d / 2 * (q e k + q e (k + 1)) +
        d / 2 * (((if k = 0 then B / d else 0) + if k = s.m then B / d else 0) +
      ((if k + 1 = 0 then B / d else 0) + if k + 1 = s.m then B / d else 0))) := Finset.sum_le_sum fun k hk => by
        have hk := Finset.mem_range.1 hk
        have h1 := hβ k hk.le
        have h2 := hβ (k + 1) hk
        have := mul_le_mul_of_nonneg_left (add_le_add h1 h2) (by positivity : 0 ≤ d / 2)
        linarith
    _ = ∑ k ∈ Finset.range s.m, d / 2 * (q e' k + q e' (k + 1)) + ∑ k ∈ Finset.range s.m, d / 2 * (q e k + q e (k + 1)) + B := by
        rw [Finset.sum_add_distrib, Finset.sum_add_distrib, ends]
    _ ≤ _ := by
        rw [mul_add]
        exact add_le_add (add_le_add (half_cells_le hAs hd.le hKA hr hw e') (half_cells_le hAs hd.le hKA hr hw e)) le_rfl

end Mtln
