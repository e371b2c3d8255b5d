import Mathlib.Analysis.Calculus.MeanValue
import Mathlib.Analysis.Calculus.Deriv.Pow
import Mathlib.Analysis.Calculus.Deriv.Shift
import Mathlib.Analysis.Calculus.Deriv.Add
import Mathlib.Analysis.Calculus.Deriv.Mul
import Mathlib.Analysis.Calculus.ContDiff.Operations

/-! # Errors of central differences and averages -/

namespace Mtln

open Set

/-- A function that starts at zero and whose derivative is bounded by that of `c sᵏ⁺¹`. -/
theorem abs_le_pow {F F' : ℝ → ℝ} {h c : ℝ} (k : ℕ) (hh : 0 ≤ h) (hF : ∀ s, HasDerivAt F (F' s) s) (h0 : F 0 = 0)
    (hb : ∀ s, 0 ≤ s → s ≤ h → |F' s| ≤ c * ((k + 1 : ℕ) * s ^ k)) : |F h| ≤ c * h ^ (k + 1) := by
  have := image_norm_le_of_norm_deriv_right_le_deriv_boundary (f := F) (f' := F') (a := 0) (b := h)
    (B := fun s => c * s ^ (k + 1)) (B' := fun s => c * ((k + 1 : ℕ) * s ^ k))
    (fun s _ => (hF s).continuousAt.continuousWithinAt) (fun s _ => (hF s).hasDerivWithinAt)
    (by rw [h0]; simp) (fun s => by
      have := (hasDerivAt_pow (k + 1) s).const_mul c
      simpa using this)
    (fun s hs => by rw [Real.norm_eq_abs]; exact hb s hs.1 hs.2.le) (right_mem_Icc.2 hh)
  simpa [Real.norm_eq_abs] using this

theorem hasDerivAt_right {f f' : ℝ → ℝ} (hf : ∀ x, HasDerivAt f (f' x) x) (x s : ℝ) :
    HasDerivAt (fun s => f (x + s)) (f' (x + s)) s := by
  have := (hf (x + s)).comp_const_add x s
  exact this

theorem hasDerivAt_left {f f' : ℝ → ℝ} (hf : ∀ x, HasDerivAt f (f' x) x) (x s : ℝ) :
    HasDerivAt (fun s => f (x - s)) (-f' (x - s)) s := by
  exact (hf (x - s)).comp_const_sub x s

/-- A function with three derivatives, the second and third of which are bounded by `K` between `a` and `b`. -/
structure C3 (f f' : ℝ → ℝ) (K a b : ℝ) : Prop where
  d1 : ∀ x, HasDerivAt f (f' x) x
  d2 : ∃ f'' f''' : ℝ → ℝ, (∀ x, HasDerivAt f' (f'' x) x) ∧ (∀ x, HasDerivAt f'' (f''' x) x) ∧
    (∀ x, a ≤ x → x ≤ b → |f'' x| ≤ K) ∧ ∀ x, a ≤ x → x ≤ b → |f''' x| ≤ K

variable {f f' : ℝ → ℝ} {K a b : ℝ}

/-- The average of two values and the value between. -/
theorem C3.average (hf : C3 f f' K a b) {x h : ℝ} (hh : 0 ≤ h) (ha : a ≤ x - h) (hb : x + h ≤ b) :
    |f (x + h) + f (x - h) - 2 * f x| ≤ K * h ^ 2 := by
  obtain ⟨f'', f''', h2, h3, hK, -⟩ := hf.d2
  have := abs_le_pow (F := fun s => f (x + s) + f (x - s) - 2 * f x) (F' := fun s => f' (x + s) + -f' (x - s)) (c := K) 1 hh
    (fun s => ((hasDerivAt_right hf.d1 x s).add (hasDerivAt_left hf.d1 x s)).sub_const _) (by simp; ring) ?_
  · exact this
  intro s s0 s1
  have := abs_le_pow (F := fun s => f' (x + s) + -f' (x - s)) (F' := fun s => f'' (x + s) + f'' (x - s)) (c := 2 * K) 0 s0
    (fun s => by
      have := (hasDerivAt_right h2 x s).add (hasDerivAt_left h2 x s).neg
      rwa [neg_neg] at this) (by simp) ?_
  · refine this.trans (le_of_eq ?_)
    push_cast
    ring
  intro r r0 r1
  have e1 := hK (x + r) (by linarith) (by linarith)
  have e2 := hK (x - r) (by linarith) (by linarith)
  have := abs_add_le (f'' (x + r)) (f'' (x - r))
  simp
  linarith

/-- The central difference and the derivative. -/
theorem C3.central (hf : C3 f f' K a b) {x h : ℝ} (hh : 0 ≤ h) (ha : a ≤ x - h) (hb : x + h ≤ b) :
    |f (x + h) - f (x - h) - 2 * h * f' x| ≤ K / 3 * h ^ 3 := by
  obtain ⟨f'', f''', h2, h3, -, hK⟩ := hf.d2
  have := abs_le_pow (F := fun s => f (x + s) - f (x - s) - 2 * s * f' x)
    (F' := fun s => f' (x + s) - -f' (x - s) - 2 * f' x) (c := K / 3) 2 hh
    (fun s => ((hasDerivAt_right hf.d1 x s).sub (hasDerivAt_left hf.d1 x s)).sub (by
      have := ((hasDerivAt_id s).const_mul 2).mul_const (f' x)
      simpa using this)) (by simp) ?_
  · exact this
  intro s s0 s1
  have := abs_le_pow (F := fun s => f' (x + s) - -f' (x - s) - 2 * f' x) (F' := fun s => f'' (x + s) - f'' (x - s))
    (c := K) 1 s0
    (fun s => by
      have := ((hasDerivAt_right h2 x s).sub (hasDerivAt_left h2 x s).neg).sub_const (2 * f' x)
      rwa [neg_neg] at this) (by simp; ring) ?_
  · refine this.trans (le_of_eq ?_)
    push_cast
    ring
  intro r r0 r1
  have := abs_le_pow (F := fun s => f'' (x + s) - f'' (x - s)) (F' := fun s => f''' (x + s) - -f''' (x - s))
    (c := 2 * K) 0 r0
    (fun s => (hasDerivAt_right h3 x s).sub (hasDerivAt_left h3 x s)) (by simp) ?_
  · refine this.trans (le_of_eq ?_)
    push_cast
    ring
  intro q q0 q1
  have e1 := hK (x + q) (by linarith) (by linarith)
  have e2 := hK (x - q) (by linarith) (by linarith)
  have := abs_add_le (f''' (x + q)) (f''' (x - q))
  simp
  linarith

/-- The linear approximation to the right. -/
theorem C3.forward (hf : C3 f f' K a b) {x h : ℝ} (hh : 0 ≤ h) (ha : a ≤ x) (hb : x + h ≤ b) :
    |f (x + h) - f x - h * f' x| ≤ K / 2 * h ^ 2 := by
  obtain ⟨f'', f''', h2, h3, hK, -⟩ := hf.d2
  have := abs_le_pow (F := fun s => f (x + s) - f x - s * f' x) (F' := fun s => f' (x + s) - f' x) (c := K / 2) 1 hh
    (fun s => ((hasDerivAt_right hf.d1 x s).sub_const _).sub (by
      have := (hasDerivAt_id s).mul_const (f' x)
      simpa using this)) (by simp) ?_
  · exact this
  intro s s0 s1
  have := abs_le_pow (F := fun s => f' (x + s) - f' x) (F' := fun s => f'' (x + s)) (c := K) 0 s0
    (fun s => (hasDerivAt_right h2 x s).sub_const _) (by simp) ?_
  · refine this.trans (le_of_eq ?_)
    push_cast
    ring
  intro r r0 r1
  have := hK (x + r) (by linarith) (by linarith)
  simpa using this

/-- The linear approximation to the left. -/
theorem C3.backward (hf : C3 f f' K a b) {x h : ℝ} (hh : 0 ≤ h) (ha : a ≤ x - h) (hb : x ≤ b) :
    |f (x - h) - f x + h * f' x| ≤ K / 2 * h ^ 2 := by
  obtain ⟨f'', f''', h2, h3, hK, -⟩ := hf.d2
  have := abs_le_pow (F := fun s => f (x - s) - f x + s * f' x) (F' := fun s => -f' (x - s) + f' x) (c := K / 2) 1 hh
    (fun s => ((hasDerivAt_left hf.d1 x s).sub_const _).add (by
      have := (hasDerivAt_id s).mul_const (f' x)
      simpa using this)) (by simp) ?_
  · exact this
  intro s s0 s1
  have := abs_le_pow (F := fun s => -f' (x - s) + f' x) (F' := fun s => f'' (x - s)) (c := K) 0 s0
    (fun s => by
      have := (hasDerivAt_left h2 x s).neg.add_const (f' x)
      rwa [neg_neg] at this) (by simp) ?_
  · refine this.trans (le_of_eq ?_)
    push_cast
    ring
  intro r r0 r1
  have := hK (x - r) (by linarith) (by linarith)
  simpa using this

/-! ## Partial derivatives of smooth functions of two variables -/

/-- Smooth functions of two variables have bounded partial derivatives on rectangles. -/
theorem exists_bound_rectangle {F : ℝ × ℝ → ℝ} (hF : ContDiff ℝ 3 F) (w : ℝ × ℝ) (a b c d : ℝ) :
    ∃ (D1 : ℝ × ℝ → ℝ) (K : ℝ), ContDiff ℝ 2 D1 ∧ (∀ q, D1 q = fderiv ℝ F q w) ∧ 0 ≤ K ∧
      ∀ q : ℝ × ℝ, ∃ D2 D3 : ℝ → ℝ, (∀ s : ℝ, HasDerivAt (fun s : ℝ => F (q + s • w)) (D1 (q + s • w)) s) ∧
        (∀ s : ℝ, HasDerivAt (fun s : ℝ => D1 (q + s • w)) (D2 s) s) ∧ (∀ s, HasDerivAt D2 (D3 s) s) ∧
        (∀ s : ℝ, q + s • w ∈ Icc a b ×ˢ Icc c d → |D2 s| ≤ K ∧ |D3 s| ≤ K) := by
  have step : ∀ {m : ℕ} {H : ℝ × ℝ → ℝ}, ContDiff ℝ (m + 1 : ℕ) H → ContDiff ℝ m (fun q => fderiv ℝ H q w) ∧
      ∀ q : ℝ × ℝ, ∀ s : ℝ, HasDerivAt (fun s : ℝ => H (q + s • w)) (fderiv ℝ H (q + s • w) w) s := by
    intro m H hH
    refine ⟨(hH.fderiv_right (by norm_cast)).clm_apply contDiff_const, fun q s => ?_⟩
    have h1 : HasFDerivAt H (fderiv ℝ H (q + s • w)) (q + s • w) :=
      (hH.differentiable (by simp)).differentiableAt.hasFDerivAt
    have h2 : HasDerivAt (fun s : ℝ => q + s • w) w s := by
      have := ((hasDerivAt_id s).smul_const w).const_add q
      simpa using this
    exact h1.comp_hasDerivAt s h2
  obtain ⟨c1, e1⟩ := step (m := 2) hF
  obtain ⟨c2, e2⟩ := step (m := 1) c1
  obtain ⟨c3, e3⟩ := step (m := 0) c2
  have hcomp : IsCompact (Icc a b ×ˢ Icc c d : Set (ℝ × ℝ)) := isCompact_Icc.prod isCompact_Icc
  obtain ⟨K2, hK2⟩ := hcomp.exists_bound_of_continuousOn c2.continuous.continuousOn
  obtain ⟨K3, hK3⟩ := hcomp.exists_bound_of_continuousOn c3.continuous.continuousOn
  refine ⟨_, max 0 (max K2 K3), c1, fun _ => rfl, le_max_left _ _, fun q => ⟨_, _, e1 q, e2 q, e3 q, fun s hs => ⟨?_, ?_⟩⟩⟩
  · exact (hK2 _ hs).trans ((le_max_left _ _).trans (le_max_right _ _))
  · exact (hK3 _ hs).trans ((le_max_right _ _).trans (le_max_right _ _))

theorem smooth_first {F : ℝ → ℝ → ℝ} (hF : ContDiff ℝ 3 fun q : ℝ × ℝ => F q.1 q.2) (a b c d : ℝ) :
    ∃ K, 0 ≤ K ∧ ∀ y, c ≤ y → y ≤ d → C3 (fun x => F x y) (fun x => deriv (fun x => F x y) x) K a b := by
  obtain ⟨D1, K, -, -, hK, h⟩ := exists_bound_rectangle hF (1, 0) a b c d
  refine ⟨K, hK, fun y h1 h2 => ?_⟩
  obtain ⟨D2, D3, e1, e2, e3, e4⟩ := h (0, y)
  simp only [Prod.smul_mk, smul_eq_mul, mul_one, mul_zero, Prod.mk_add_mk, zero_add, add_zero] at e1 e2 e4
  have e : (fun x => deriv (fun x => F x y) x) = fun x => D1 (x, y) := funext fun x => (e1 x).deriv
  refine ⟨fun x => (e1 x).differentiableAt.hasDerivAt, D2, D3, ?_, e3, fun x hx hx' => (e4 x ⟨⟨hx, hx'⟩, h1, h2⟩).1,
    fun x hx hx' => (e4 x ⟨⟨hx, hx'⟩, h1, h2⟩).2⟩
  rw [e]
  exact e2

theorem smooth_second {F : ℝ → ℝ → ℝ} (hF : ContDiff ℝ 3 fun q : ℝ × ℝ => F q.1 q.2) (a b c d : ℝ) :
    ∃ K, 0 ≤ K ∧ ∀ x, a ≤ x → x ≤ b → C3 (fun y => F x y) (fun y => deriv (fun y => F x y) y) K c d := by
  obtain ⟨D1, K, -, -, hK, h⟩ := exists_bound_rectangle hF (0, 1) a b c d
  refine ⟨K, hK, fun x h1 h2 => ?_⟩
  obtain ⟨D2, D3, e1, e2, e3, e4⟩ := h (x, 0)
  simp only [Prod.smul_mk, smul_eq_mul, mul_one, mul_zero, Prod.mk_add_mk, zero_add, add_zero] at e1 e2 e4
  have e : (fun y => deriv (fun y => F x y) y) = fun y => D1 (x, y) := funext fun y => (e1 y).deriv
  refine ⟨fun y => (e1 y).differentiableAt.hasDerivAt, D2, D3, ?_, e3, fun y hy hy' => (e4 y ⟨⟨h1, h2⟩, hy, hy'⟩).1,
    fun y hy hy' => (e4 y ⟨⟨h1, h2⟩, hy, hy'⟩).2⟩
  rw [e]
  exact e2

/-- Smooth functions of two variables change by at most a multiple of the change of the second variable. -/
theorem smooth_change {F : ℝ → ℝ → ℝ} (hF : ContDiff ℝ 3 fun q : ℝ × ℝ => F q.1 q.2) (a b c d : ℝ) :
    ∃ K, 0 ≤ K ∧ ∀ x, a ≤ x → x ≤ b → ∀ y y', c ≤ y → y ≤ d → c ≤ y' → y' ≤ d → |F x y - F x y'| ≤ K * |y - y'| := by
  have hcomp : IsCompact (Icc a b ×ˢ Icc c d : Set (ℝ × ℝ)) := isCompact_Icc.prod isCompact_Icc
  have c1 : Continuous fun q : ℝ × ℝ => fderiv ℝ (fun q : ℝ × ℝ => F q.1 q.2) q (0, 1) :=
    ((hF.continuous_fderiv (by norm_num)).clm_apply continuous_const)
  obtain ⟨K, hK⟩ := hcomp.exists_bound_of_continuousOn c1.continuousOn
  refine ⟨max 0 K, le_max_left _ _, fun x x1 x2 y y' y1 y2 y3 y4 => ?_⟩
  have hd : ∀ y : ℝ, HasDerivAt (fun y => F x y) (fderiv ℝ (fun q : ℝ × ℝ => F q.1 q.2) (x, y) (0, 1)) y := by
    intro y
    have h1 : HasFDerivAt (fun q : ℝ × ℝ => F q.1 q.2) (fderiv ℝ (fun q : ℝ × ℝ => F q.1 q.2) (x, y)) (x, y) :=
      (hF.differentiable (by norm_num)).differentiableAt.hasFDerivAt
    have h2 : HasDerivAt (fun y : ℝ => ((x, y) : ℝ × ℝ)) (0, 1) y := (hasDerivAt_const y x).prodMk (hasDerivAt_id y)
    exact h1.comp_hasDerivAt y h2
  have := (convex_Icc c d).norm_image_sub_le_of_norm_hasDerivWithin_le (C := max 0 K) (f := fun y => F x y)
    (fun z _ => (hd z).hasDerivWithinAt) (fun z hz => (hK (x, z) ⟨⟨x1, x2⟩, hz⟩).trans (le_max_right _ _)) ⟨y3, y4⟩ ⟨y1, y2⟩
  exact this

end Mtln
