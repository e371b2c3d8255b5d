import Mathlib.Analysis.SpecialFunctions.Complex.LogBounds
import Mathlib.Analysis.SpecialFunctions.Trigonometric.Sinc
import Verif.Props.Reflection

/-! # Limits of the waves of a line with more and more cells -/

namespace Mtln

open Filter Topology

section

variable {x w : ℕ → ℂ} {g : ℂ}

/-- The factor of a cell: `m (1 - x)` tends to the propagation constant of the whole line. -/
theorem factor_limit (hw : Tendsto (fun m : ℕ => (m : ℂ) ^ 2 * w m) atTop (𝓝 (g ^ 2))) (hg : 0 < g.re)
    (hx : ∀ᶠ m in atTop, ‖x m‖ < 1 ∧ (x m - 1) ^ 2 = w m * x m) :
    Tendsto (fun m : ℕ => (m : ℂ) * (1 - x m)) atTop (𝓝 g) ∧ Tendsto x atTop (𝓝 1) := by
  have inv : Tendsto (fun m : ℕ => ((m : ℂ) ^ 2)⁻¹) atTop (𝓝 0) := by
    have h1 : Tendsto (fun m : ℕ => ((m : ℂ))⁻¹) atTop (𝓝 0) := tendsto_inv_atTop_nhds_zero_nat
    have h2 := h1.pow 2
    simpa using h2
  have w0 : Tendsto w atTop (𝓝 0) := by
    have h1 := hw.mul inv
    rw [mul_zero] at h1
    refine h1.congr' ?_
    filter_upwards [eventually_gt_atTop 0] with m hm
    have : (m : ℂ) ≠ 0 := by exact_mod_cast hm.ne'
    field_simp
  have hd : Tendsto (fun m => 1 - x m) atTop (𝓝 0) := by
    have hn : Tendsto (fun m => Real.sqrt ‖w m‖) atTop (𝓝 0) := by
      have := (Real.continuous_sqrt.tendsto 0).comp (tendsto_zero_iff_norm_tendsto_zero.1 w0)
      rw [Real.sqrt_zero] at this
      exact this
    refine squeeze_zero_norm' ?_ hn
    filter_upwards [hx] with m hm
    refine Real.le_sqrt_of_sq_le ?_
    have e := congrArg norm hm.2
    rw [norm_pow, norm_mul, norm_sub_rev] at e
    rw [e]
    exact mul_le_of_le_one_right (norm_nonneg _) hm.1.le
  have hx1 : Tendsto x atTop (𝓝 1) := by
    have := (tendsto_const_nhds (x := (1 : ℂ))).sub hd
    simpa using this
  refine ⟨?_, hx1⟩
  have hsq : Tendsto (fun m : ℕ => ((m : ℂ) * (1 - x m)) ^ 2 - g ^ 2) atTop (𝓝 0) := by
    have h1 := (hw.mul hx1).sub_const (g ^ 2)
    rw [mul_one, sub_self] at h1
    refine h1.congr' ?_
    filter_upwards [hx] with m hm
    linear_combination -(m : ℂ) ^ 2 * hm.2
  rw [tendsto_iff_norm_sub_tendsto_zero]
  have hb : Tendsto (fun m : ℕ => ‖((m : ℂ) * (1 - x m)) ^ 2 - g ^ 2‖ / g.re) atTop (𝓝 0) := by
    have := (tendsto_zero_iff_norm_tendsto_zero.1 hsq).div_const g.re
    simpa using this
  refine squeeze_zero' (Eventually.of_forall fun _ => norm_nonneg _) ?_ hb
  filter_upwards [hx] with m hm
  rw [le_div_iff₀ hg, sq_sub_sq, norm_mul, mul_comm]
  refine mul_le_mul_of_nonneg_right ?_ (norm_nonneg _)
  refine le_trans ?_ (Complex.re_le_norm _)
  rw [Complex.add_re, ← Complex.ofReal_natCast, Complex.re_ofReal_mul, Complex.sub_re, Complex.one_re]
  have h1 : (x m).re ≤ 1 := (Complex.re_le_norm _).trans hm.1.le
  have := mul_nonneg (Nat.cast_nonneg (α := ℝ) m) (sub_nonneg.2 h1)
  linarith

/-- The waves at all points of the line. -/
theorem wave_limit (hd : Tendsto (fun m : ℕ => (m : ℂ) * (1 - x m)) atTop (𝓝 g)) (hg : 0 ≤ g.re) (h0 : ∀ᶠ m in atTop, x m ≠ 0)
    {k : ℕ → ℕ} (hk : ∀ᶠ m in atTop, k m ≤ 2 * m) :
    Tendsto (fun m => x m ^ k m - Complex.exp (-(g * ((k m : ℝ) / m : ℝ)))) atTop (𝓝 0) := by
  have hl : Tendsto (fun m : ℕ => (m : ℂ) * Complex.log (x m)) atTop (𝓝 (-g)) := by
    have h1 : Tendsto (fun m : ℕ => (m : ℂ) * (x m - 1)) atTop (𝓝 (-g)) := by
      refine hd.neg.congr fun m => ?_
      ring
    have := Complex.tendsto_nat_mul_log_one_add_of_tendsto h1
    simpa using this
  have hl0 : Tendsto (fun m : ℕ => 2 * ‖(m : ℂ) * Complex.log (x m) + g‖) atTop (𝓝 0) := by
    have h1 := hl.add_const g
    rw [neg_add_cancel] at h1
    have h2 := (tendsto_zero_iff_norm_tendsto_zero.1 h1).const_mul 2
    rwa [mul_zero] at h2
  have hb : Tendsto (fun m : ℕ => 2 * (2 * ‖(m : ℂ) * Complex.log (x m) + g‖)) atTop (𝓝 0) := by
    have := hl0.const_mul 2
    rwa [mul_zero] at this
  refine squeeze_zero_norm' ?_ hb
  filter_upwards [h0, hk, eventually_gt_atTop 0, hl0.eventually (gt_mem_nhds one_pos)] with m hm hkm hm0 hsmall
  have hmc : (m : ℂ) ≠ 0 := by exact_mod_cast hm0.ne'
  have hmr : (0 : ℝ) < m := by exact_mod_cast hm0
  obtain ⟨t, ht⟩ : ∃ t : ℝ, t = (k m : ℝ) / m := ⟨_, rfl⟩
  have t0 : 0 ≤ t := by rw [ht]; positivity
  have t2 : t ≤ 2 := by
    rw [ht, div_le_iff₀ hmr]
    exact_mod_cast hkm
  obtain ⟨y, hy⟩ : ∃ y, y = (m : ℂ) * Complex.log (x m) + g := ⟨_, rfl⟩
  have e1 : x m ^ k m = Complex.exp (-(g * t)) * Complex.exp (t * y) := by
    rw [← Complex.exp_add, show -(g * (t : ℂ)) + t * y = (k m : ℂ) * Complex.log (x m) by
      rw [hy, ht]
      push_cast
      field_simp
      ring, Complex.exp_nat_mul, Complex.exp_log hm]
  rw [← ht, ← hy, e1]
  rw [← hy] at hsmall
  have nty : ‖(t : ℂ) * y‖ ≤ 2 * ‖y‖ := by
    rw [norm_mul, Complex.norm_real, Real.norm_of_nonneg t0]
    exact mul_le_mul_of_nonneg_right t2 (norm_nonneg _)
  have ne : ‖Complex.exp (-(g * t))‖ ≤ 1 := by
    rw [Complex.norm_exp, Real.exp_le_one_iff, Complex.neg_re, Complex.re_mul_ofReal]
    have := mul_nonneg hg t0
    linarith
  rw [show Complex.exp (-(g * t)) * Complex.exp (t * y) - Complex.exp (-(g * t)) =
    Complex.exp (-(g * t)) * (Complex.exp (t * y) - 1) by ring, norm_mul]
  calc _ ≤ 1 * ‖Complex.exp (t * y) - 1‖ := mul_le_mul_of_nonneg_right ne (norm_nonneg _)
    _ = ‖Complex.exp (t * y) - 1‖ := one_mul _
    _ ≤ 2 * ‖(t : ℂ) * y‖ := Complex.norm_exp_sub_one_le (nty.trans hsmall.le)
    _ ≤ 2 * (2 * ‖y‖) := by linarith

end

section

variable {dt τ : ℕ → ℝ} {D ω : ℝ}

theorem sine_limit (hdt : Tendsto dt atTop (𝓝 0)) (h0 : ∀ᶠ m in atTop, 0 < dt m) :
    Tendsto (fun m => 2 * Real.sin (ω * dt m / 2) / dt m) atTop (𝓝 ω) := by
  have h1 : Tendsto (fun m => ω * Real.sinc (ω * dt m / 2)) atTop (𝓝 ω) := by
    have h2 : Tendsto (fun m => ω * dt m / 2) atTop (𝓝 0) := by
      have := (hdt.const_mul ω).div_const 2
      simpa using this
    have h3 := ((Real.continuous_sinc.tendsto 0).comp h2).const_mul ω
    rwa [Real.sinc_zero, mul_one] at h3
  refine h1.congr' ?_
  filter_upwards [h0] with m hm
  by_cases hω : ω = 0
  · simp [hω]
  · rw [Real.sinc_of_ne_zero (by positivity)]
    field_simp

theorem cosine_limit (hdt : Tendsto dt atTop (𝓝 0)) : Tendsto (fun m => Real.cos (ω * dt m / 2)) atTop (𝓝 1) := by
  have h2 : Tendsto (fun m => ω * dt m / 2) atTop (𝓝 0) := by
    have := (hdt.const_mul ω).div_const 2
    simpa using this
  have := (Real.continuous_cos.tendsto 0).comp h2
  rwa [Real.cos_zero] at this

/-- All cells together have the impedance of the line. -/
theorem cell_limit (L R : ℝ) (hdt : Tendsto dt atTop (𝓝 0)) (h0 : ∀ᶠ m in atTop, 0 < dt m) :
    Tendsto (fun m : ℕ => (m : ℂ) * cellImpedance (D / m) (dt m) (ω * dt m) L R) atTop (𝓝 (D * (R + ω * L * Complex.I))) := by
  have h1 : Tendsto (fun m => (D : ℂ) * (((L * (2 * Real.sin (ω * dt m / 2) / dt m) : ℝ) : ℂ) * Complex.I +
      ((R * Real.cos (ω * dt m / 2) : ℝ) : ℂ))) atTop (𝓝 (D * (((L * ω : ℝ) : ℂ) * Complex.I + ((R * 1 : ℝ) : ℂ)))) := by
    refine Tendsto.const_mul _ (Tendsto.add (Tendsto.mul_const _ ?_) ?_)
    · exact (Complex.continuous_ofReal.tendsto _).comp ((sine_limit hdt h0).const_mul L)
    · exact (Complex.continuous_ofReal.tendsto _).comp ((cosine_limit hdt).const_mul R)
  rw [show (D : ℂ) * (R + ω * L * Complex.I) = D * (((L * ω : ℝ) : ℂ) * Complex.I + ((R * 1 : ℝ) : ℂ)) by push_cast; ring]
  refine h1.congr' ?_
  filter_upwards [h0, eventually_gt_atTop 0] with m hm hm0
  have : (m : ℂ) ≠ 0 := by exact_mod_cast hm0.ne'
  have : (dt m : ℂ) ≠ 0 := by exact_mod_cast hm.ne'
  unfold cellImpedance
  push_cast
  field_simp

/-- The half cells at the ends no longer matter. -/
theorem load_limit (C ζ : ℝ) (hdt : Tendsto dt atTop (𝓝 0)) (h0 : ∀ᶠ m in atTop, 0 < dt m ∧ dt m ≤ τ m) :
    Tendsto (fun m : ℕ => loadFactor (D / m) (dt m) (τ m) (ω * dt m) C ζ) atTop (𝓝 1) := by
  have h1 : Tendsto (fun m => ((Real.cos (ω * dt m / 2) : ℝ) : ℂ)) atTop (𝓝 1) := by
    have := (Complex.continuous_ofReal.tendsto _).comp (cosine_limit (ω := ω) hdt)
    rw [Complex.ofReal_one] at this
    exact this
  have h2 : Tendsto (fun m : ℕ => (((ζ * (D / 2 * C) * (dt m / τ m - 1) * (2 * Real.sin (ω * dt m / 2) / dt m) / m : ℝ)) : ℂ) * Complex.I)
      atTop (𝓝 0) := by
    have h3 : Tendsto (fun m : ℕ => ζ * (D / 2 * C) * (dt m / τ m - 1) * (2 * Real.sin (ω * dt m / 2) / dt m) / m) atTop (𝓝 0) := by
      have hb : Tendsto (fun m : ℕ => |ζ * (D / 2 * C)| * |2 * Real.sin (ω * dt m / 2) / dt m| * (m : ℝ)⁻¹) atTop (𝓝 0) := by
        have a := ((sine_limit (ω := ω) hdt (h0.mono fun _ h => h.1)).abs.const_mul |ζ * (D / 2 * C)|).mul
          (tendsto_inv_atTop_nhds_zero_nat (𝕜 := ℝ))
        rwa [mul_zero] at a
      refine squeeze_zero_norm' ?_ hb
      filter_upwards [h0, eventually_gt_atTop 0] with m hm hm0
      have hq : |dt m / τ m - 1| ≤ 1 := by
        have hτ : 0 < τ m := hm.1.trans_le hm.2
        have a : 0 < dt m / τ m := div_pos hm.1 hτ
        have b : dt m / τ m ≤ 1 := (div_le_one hτ).2 hm.2
        rw [abs_le]
        constructor <;> linarith
      have hm' : (0 : ℝ) < m := by exact_mod_cast hm0
      rw [Real.norm_eq_abs, abs_div, abs_mul, abs_mul (ζ * (D / 2 * C)), abs_of_pos hm', div_eq_mul_inv]
      refine mul_le_mul_of_nonneg_right ?_ (inv_nonneg.2 hm'.le)
      refine mul_le_mul_of_nonneg_right ?_ (abs_nonneg _)
      exact mul_le_of_le_one_right (abs_nonneg _) hq
    have a := ((Complex.continuous_ofReal.tendsto _).comp h3).mul_const Complex.I
    rw [Complex.ofReal_zero, zero_mul] at a
    exact a
  have := h1.add h2
  rw [add_zero] at this
  refine this.congr' ?_
  filter_upwards [h0, eventually_gt_atTop 0] with m hm hm0
  have : (m : ℂ) ≠ 0 := by exact_mod_cast hm0.ne'
  have : (dt m : ℂ) ≠ 0 := by exact_mod_cast hm.1.ne'
  have : (τ m : ℂ) ≠ 0 := by exact_mod_cast (hm.1.trans_le hm.2).ne'
  unfold loadFactor turn
  push_cast
  field_simp

end

/-- The factor of a cell without losses. -/
theorem lossless_factor {u : ℕ → ℝ} {c : ℝ} (hu : Tendsto (fun m : ℕ => (m : ℝ) * u m) atTop (𝓝 c)) :
    ∃ x : ℕ → ℂ, (∀ᶠ m in atTop, x m ≠ 0 ∧ (x m - 1) ^ 2 = -4 * (u m : ℂ) ^ 2 * x m) ∧
      Tendsto (fun m : ℕ => (m : ℂ) * (1 - x m)) atTop (𝓝 (2 * c * Complex.I)) ∧ Tendsto x atTop (𝓝 1) := by
  have u0 : Tendsto u atTop (𝓝 0) := by
    have h1 := hu.mul (tendsto_inv_atTop_nhds_zero_nat (𝕜 := ℝ))
    rw [mul_zero] at h1
    refine h1.congr' ?_
    filter_upwards [eventually_gt_atTop 0] with m hm
    have : (m : ℝ) ≠ 0 := by exact_mod_cast hm.ne'
    field_simp
  obtain ⟨q, hq⟩ : ∃ q : ℕ → ℝ, ∀ m, q m = Real.sqrt (1 - u m ^ 2) := ⟨_, fun _ => rfl⟩
  have q1 : Tendsto q atTop (𝓝 1) := by
    have h1 := (Real.continuous_sqrt.tendsto _).comp ((u0.pow 2).const_sub 1)
    rw [show Real.sqrt (1 - 0 ^ 2) = 1 by norm_num] at h1
    exact h1.congr fun m => (hq m).symm
  have sq : ∀ᶠ m in atTop, (q m : ℂ) ^ 2 = 1 - (u m : ℂ) ^ 2 := by
    have h1 := (u0.pow 2).eventually (gt_mem_nhds (show (0 : ℝ) ^ 2 < 1 by norm_num))
    filter_upwards [h1] with m hm
    have : q m ^ 2 = 1 - u m ^ 2 := by rw [hq, Real.sq_sqrt (by linarith)]
    exact_mod_cast this
  have cu : Tendsto (fun m => (u m : ℂ)) atTop (𝓝 0) := by
    have := (Complex.continuous_ofReal.tendsto _).comp u0
    rw [Complex.ofReal_zero] at this
    exact this
  have cq : Tendsto (fun m => (q m : ℂ)) atTop (𝓝 1) := by
    have := (Complex.continuous_ofReal.tendsto _).comp q1
    rw [Complex.ofReal_one] at this
    exact this
  refine ⟨fun m => ((q m : ℂ) - u m * Complex.I) ^ 2, ?_, ?_, ?_⟩
  · filter_upwards [sq] with m hm
    have hI := Complex.I_sq
    constructor
    · intro e
      have e' : (q m : ℂ) - u m * Complex.I = 0 := by simpa using e
      have : (1 : ℂ) = 0 := by linear_combination ((q m : ℂ) + u m * Complex.I) * e' - hm + (u m : ℂ) ^ 2 * hI
      exact one_ne_zero this
    · obtain ⟨Q, hQ⟩ : ∃ Q : ℂ, Q = q m := ⟨_, rfl⟩
      obtain ⟨U, hU⟩ : ∃ U : ℂ, U = u m := ⟨_, rfl⟩
      rw [← hQ, ← hU] at hm ⊢
      have e : (Q - U * Complex.I) ^ 2 - 1 = -2 * Complex.I * U * (Q - U * Complex.I) := by
        linear_combination hm - U ^ 2 * hI
      rw [e]
      linear_combination 4 * U ^ 2 * (Q - U * Complex.I) ^ 2 * hI
  · have h1 : Tendsto (fun m : ℕ => 2 * (((m : ℝ) * u m : ℝ) : ℂ) * ((u m : ℂ) + q m * Complex.I)) atTop
        (𝓝 (2 * c * (0 + 1 * Complex.I))) :=
      (((Complex.continuous_ofReal.tendsto _).comp hu).const_mul 2).mul (cu.add (cq.mul_const _))
    rw [zero_add, one_mul] at h1
    refine h1.congr' ?_
    filter_upwards [sq] with m hm
    push_cast
    linear_combination (m : ℂ) * hm + (m : ℂ) * (u m : ℂ) ^ 2 * Complex.I_sq
  · have h1 := (cq.sub (cu.mul_const Complex.I)).pow 2
    rw [zero_mul, sub_zero, one_pow] at h1
    exact h1

/-- The impedance of the waves tends to that of the line. -/
theorem impedance_limit {x Z : ℕ → ℂ} {g z : ℂ} (hd : Tendsto (fun m : ℕ => (m : ℂ) * (1 - x m)) atTop (𝓝 g)) (hx : Tendsto x atTop (𝓝 1))
    (hg : g ≠ 0) (hZ : Tendsto (fun m : ℕ => (m : ℂ) * Z m) atTop (𝓝 z)) (hx2 : ∀ᶠ m in atTop, x m ^ 2 ≠ 1) :
    Tendsto (fun m => waveImpedance (Z m) (x m)) atTop (𝓝 (z / g)) := by
  have h1 : Tendsto (fun m : ℕ => 2 * x m * ((m : ℂ) * Z m) / ((m : ℂ) * (1 - x m) * (1 + x m))) atTop (𝓝 (2 * 1 * z / (g * (1 + 1)))) := by
    refine Tendsto.div ((hx.const_mul 2).mul hZ) (hd.mul (hx.const_add 1)) ?_
    have : (1 + 1 : ℂ) ≠ 0 := by norm_num
    exact mul_ne_zero hg this
  rw [show z / g = 2 * 1 * z / (g * (1 + 1)) by field_simp; ring]
  refine h1.congr' ?_
  filter_upwards [hx2, eventually_gt_atTop 0] with m hm hm0
  have h2 : (m : ℂ) ≠ 0 := by exact_mod_cast hm0.ne'
  have h3 : 1 - x m ^ 2 ≠ 0 := fun e => hm (by linear_combination -e)
  have h4 : (1 - x m) * (1 + x m) ≠ 0 := by
    intro e
    exact h3 (by linear_combination e)
  unfold waveImpedance
  rw [div_eq_div_iff (by rw [mul_assoc]; exact mul_ne_zero h2 h4) h3]
  ring

end Mtln
