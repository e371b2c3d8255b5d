import Mathlib.Analysis.Calculus.MeanValue
import Mathlib.Analysis.SpecialFunctions.ExpDeriv
import Verif.Lemmas.TelegraphLimit
import Verif.Props.Construct

/-! # With more cells the sinusoidal response of a line tends to the solution of the telegrapher's equations: C186 -/

namespace Mtln

open Filter Topology

variable {p : ℕ}

/-- The telegrapher's equations of a line of the length `D` for alternating current, with the series impedance `a` and the shunt
admittance `b` per unit length, a source `E` with the resistance `Zs` at its beginning and the resistance `Zl` at its end. -/
structure Telegraph (a b E : ℂ) (D Zs Zl : ℝ) (v i : ℝ → ℂ) : Prop where
  voltage : ∀ z ∈ Set.Icc 0 D, HasDerivWithinAt v (-(a * i z)) (Set.Icc 0 D) z
  current : ∀ z ∈ Set.Icc 0 D, HasDerivWithinAt i (-(b * v z)) (Set.Icc 0 D) z
  first : v 0 = E - Zs * i 0
  last : v D = Zl * i D

/-- A propagation constant and an impedance of the line. -/
theorem propagation {a b : ℂ} (ha : 0 ≤ a.re) (hb : 0 ≤ b.re) (hab : 0 < a.re ∨ 0 < b.re) (ha' : 0 < a.im) (hb' : 0 < b.im) :
    ∃ γ W : ℂ, 0 < γ.re ∧ 0 < W.re ∧ γ ^ 2 = a * b ∧ γ * W = a ∧ b * W = γ := by
  obtain ⟨d, hd⟩ := IsAlgClosed.exists_pow_nat_eq (a * b) (n := 2) two_pos
  have him : 0 < (a * b).im := by
    rw [Complex.mul_im]
    rcases hab with h | h
    · have := mul_pos h hb'
      have := mul_nonneg ha'.le hb
      linarith
    · have := mul_nonneg ha hb'.le
      have := mul_pos ha' h
      linarith
  have hre : d.re ≠ 0 := by
    intro e
    rw [← hd, sq, Complex.mul_im, e] at him
    simp at him
  obtain ⟨γ, hγ, hγ2⟩ : ∃ γ : ℂ, 0 < γ.re ∧ γ ^ 2 = a * b := by
    rcases lt_or_gt_of_ne hre with h | h
    · exact ⟨-d, by rw [Complex.neg_re]; linarith, by rw [neg_sq, hd]⟩
    · exact ⟨d, h, hd⟩
  have hb0 : b ≠ 0 := fun e => by simp [e] at hb'
  have ha0 : a ≠ 0 := fun e => by simp [e] at ha'
  obtain ⟨W, hW⟩ : ∃ W, W = γ / b := ⟨_, rfl⟩
  have h1 : b * W = γ := by rw [hW]; field_simp
  have h2 : γ * W = a := by
    rw [hW]
    field_simp
    linear_combination hγ2
  have hW0 : W ≠ 0 := fun e => ha0 (by rw [← h2, e, mul_zero])
  refine ⟨γ, W, hγ, ?_, hγ2, h2, h1⟩
  have key : 2 * γ.re * W.re = a.re + b.re * Complex.normSq W := by
    have e1 : (γ * W).re + (γ * (starRingEnd ℂ) W).re = 2 * γ.re * W.re := by
      simp only [Complex.mul_re, Complex.conj_re, Complex.conj_im]
      ring
    have e2 : γ * (starRingEnd ℂ) W = b * (Complex.normSq W : ℝ) := by
      rw [← h1, ← Complex.mul_conj]
      ring
    rw [← e1, h2, e2, Complex.re_mul_ofReal]
  have hpos : 0 < a.re + b.re * Complex.normSq W := by
    have hn := Complex.normSq_pos.2 hW0
    rcases hab with h | h
    · have := mul_nonneg hb hn.le
      linarith
    · have := mul_pos h hn
      linarith
  rw [← key] at hpos
  exact (mul_pos_iff_of_pos_left (by linarith)).1 hpos

/-- The response of a line with the propagation constant `γ` and the impedance `W` at the point `z`. -/
noncomputable def lineResponse (γ W E : ℂ) (D Zs Zl : ℝ) (z : ℝ) : ℂ :=
  W / (Zs + W) * E * (Complex.exp (-(γ * z)) + reflectionFactor 1 W Zl * Complex.exp (-(γ * (2 * D - z)))) /
    (1 - reflectionFactor 1 W Zs * reflectionFactor 1 W Zl * Complex.exp (-(γ * (2 * D))))

section

variable {a b E γ W : ℂ} {D Zs Zl : ℝ} {v i : ℝ → ℂ}

theorem sum_ne_zero_re {W : ℂ} {ζ : ℝ} (hζ : 0 ≤ ζ) (hW : 0 < W.re) : (ζ + W : ℂ) ≠ 0 := by
  intro e
  have := congrArg Complex.re e
  rw [Complex.add_re, Complex.ofReal_re, Complex.zero_re] at this
  linarith

theorem reflection_lt {r : ℝ} {z : ℂ} (hr : 0 < r) (hz : 0 < z.re) : ‖(r - z) / (r + z)‖ < 1 := by
  rw [norm_div, div_lt_one (norm_pos_iff.2 (sum_ne_zero_re hr.le hz))]
  refine (pow_lt_pow_iff_left₀ (norm_nonneg _) (norm_nonneg _) two_ne_zero).1 ?_
  rw [Complex.sq_norm, Complex.sq_norm, Complex.normSq_apply, Complex.normSq_apply]
  simp only [Complex.add_re, Complex.add_im, Complex.sub_re, Complex.sub_im, Complex.ofReal_re, Complex.ofReal_im]
  nlinarith [mul_pos hr hz]

/-- The echoes of a line that loses power, along its way or at an end, fade. -/
theorem response_den (hD : 0 < D) (hγ : 0 ≤ γ.re) (hW : 0 < W.re) (hzs : 0 ≤ Zs) (hzl : 0 ≤ Zl) (hloss : 0 < γ.re ∨ 0 < Zs ∨ 0 < Zl) :
    1 - reflectionFactor 1 W Zs * reflectionFactor 1 W Zl * Complex.exp (-(γ * (2 * D))) ≠ 0 := by
  intro e
  have hs : ‖reflectionFactor 1 W Zs‖ ≤ 1 := by
    rw [reflectionFactor, one_mul]
    exact reflection_le hzs hW
  have hl : ‖reflectionFactor 1 W Zl‖ ≤ 1 := by
    rw [reflectionFactor, one_mul]
    exact reflection_le hzl hW
  have hre : (-(γ * (2 * D))).re = -(γ.re * (2 * D)) := by
    rw [Complex.neg_re, show (2 * D : ℂ) = ((2 * D : ℝ) : ℂ) by push_cast; ring, Complex.re_mul_ofReal]
  have he : ‖Complex.exp (-(γ * (2 * D)))‖ ≤ 1 := by
    rw [Complex.norm_exp, Real.exp_le_one_iff, hre]
    have : 0 ≤ γ.re * (2 * D) := by positivity
    linarith
  have hn := congrArg norm (show reflectionFactor 1 W Zs * reflectionFactor 1 W Zl * Complex.exp (-(γ * (2 * D))) = 1 by
    linear_combination -e)
  rw [norm_mul, norm_mul, norm_one] at hn
  have s0 := norm_nonneg (reflectionFactor 1 W Zs)
  have l0 := norm_nonneg (reflectionFactor 1 W Zl)
  have e0 := norm_nonneg (Complex.exp (-(γ * (2 * D))))
  have h1 : ‖reflectionFactor 1 W Zs‖ * ‖reflectionFactor 1 W Zl‖ ≤ 1 := mul_le_one₀ hs l0 hl
  rcases hloss with h | h | h
  · have he' : ‖Complex.exp (-(γ * (2 * D)))‖ < 1 := by
      rw [Complex.norm_exp, Real.exp_lt_one_iff, hre]
      have : 0 < γ.re * (2 * D) := by positivity
      linarith
    have h2 := mul_le_mul_of_nonneg_right h1 e0
    linarith
  · have hs' : ‖reflectionFactor 1 W Zs‖ < 1 := by
      rw [reflectionFactor, one_mul]
      exact reflection_lt h hW
    have h2 := mul_le_mul_of_nonneg_left he (mul_nonneg s0 l0)
    have h3 := mul_le_mul_of_nonneg_left hl s0
    linarith
  · have hl' : ‖reflectionFactor 1 W Zl‖ < 1 := by
      rw [reflectionFactor, one_mul]
      exact reflection_lt h hW
    have h2 := mul_le_mul_of_nonneg_left he (mul_nonneg s0 l0)
    have h3 := mul_le_mul_of_nonneg_right hs l0
    linarith

/-- Every solution of the telegrapher's equations is the response. -/
theorem Telegraph.response (h : Telegraph a b E D Zs Zl v i) (hD : 0 < D) (hγ : 0 ≤ γ.re) (hW : 0 < W.re) (h1 : γ * W = a)
    (h2 : b * W = γ) (hzs : 0 ≤ Zs) (hzl : 0 ≤ Zl) (hloss : 0 < γ.re ∨ 0 < Zs ∨ 0 < Zl) : ∀ z ∈ Set.Icc 0 D, v z = lineResponse γ W E D Zs Zl z := by
  -- the two waves
  have wave : ∀ σ : ℂ, σ ^ 2 = 1 → ∀ z ∈ Set.Icc 0 D, (v z + σ * W * i z) * Complex.exp (σ * γ * z) = v 0 + σ * W * i 0 := by
    intro σ hσ z hz
    have hder : ∀ z ∈ Set.Icc 0 D, HasDerivWithinAt (fun z : ℝ => (v z + σ * W * i z) * Complex.exp (σ * γ * z)) 0 (Set.Icc 0 D) z := by
      intro z hz
      have e1 : HasDerivWithinAt (fun z : ℝ => Complex.exp (σ * γ * z)) (Complex.exp (σ * γ * z) * (σ * γ * 1)) (Set.Icc 0 D) z := by
        have : HasDerivAt (fun z : ℝ => σ * γ * (z : ℂ)) (σ * γ * 1) z := (Complex.ofRealCLM.hasDerivAt (x := z)).const_mul (σ * γ)
        exact this.cexp.hasDerivWithinAt
      have e2 := ((h.voltage z hz).add ((h.current z hz).const_mul (σ * W))).mul e1
      refine e2.congr_deriv ?_
      simp only [Pi.add_apply]
      linear_combination (Complex.exp (σ * γ * z) * i z) * h1 - (Complex.exp (σ * γ * z) * σ * v z) * h2 +
        Complex.exp (σ * γ * z) * (γ * W * i z) * hσ
    have := constant_of_derivWithin_zero (fun z hz => (hder z hz).differentiableWithinAt)
      (fun z hz => (hder z (Set.Ico_subset_Icc_self hz)).derivWithin (uniqueDiffOn_Icc hD z (Set.Ico_subset_Icc_self hz))) z hz
    simpa using this
  intro z hz
  have fz := wave 1 (one_pow 2) z hz
  have bz := wave (-1) (by norm_num) z hz
  have fD := wave 1 (one_pow 2) D ⟨hD.le, le_rfl⟩
  have bD := wave (-1) (by norm_num) D ⟨hD.le, le_rfl⟩
  have ns := sum_ne_zero_re hzs hW
  have nl := sum_ne_zero_re hzl hW
  have hden := response_den hD hγ hW hzs hzl hloss
  simp only [one_mul, neg_one_mul, neg_mul, ← sub_eq_add_neg] at fz bz fD bD
  obtain ⟨f, hf⟩ : ∃ f, f = v 0 + W * i 0 := ⟨_, rfl⟩
  obtain ⟨q, hq⟩ : ∃ q, q = v 0 - W * i 0 := ⟨_, rfl⟩
  rw [← hf] at fz fD
  rw [← hq] at bz bD
  have inv : ∀ z : ℝ, Complex.exp (γ * z) * Complex.exp (-(γ * z)) = 1 := fun z => by
    rw [← Complex.exp_add, add_neg_cancel, Complex.exp_zero]
  have e2 : Complex.exp (-(γ * (2 * D))) = Complex.exp (-(γ * D)) * Complex.exp (-(γ * D)) := by
    rw [← Complex.exp_add]
    congr 1
    ring
  have e3 : Complex.exp (-(γ * (2 * D - z))) = Complex.exp (-(γ * D)) * Complex.exp (-(γ * D)) * Complex.exp (γ * z) := by
    rw [← Complex.exp_add, ← Complex.exp_add]
    congr 1
    ring
  unfold lineResponse
  rw [eq_div_iff hden, e2, e3]
  obtain ⟨P, hP⟩ : ∃ P, P = Complex.exp (-(γ * D)) := ⟨_, rfl⟩
  have invD := inv D
  have invz := inv z
  rw [← hP] at bD invD ⊢
  have ef : (Zl + W) * i D = f * P := by
    have := h.last
    linear_combination (-(v D + W * i D)) * invD + P * fD - this
  have eq : (Zl + W) * q = (Zl - W) * f * P ^ 2 := by
    have := h.last
    linear_combination (-(Zl + W)) * bD + (Zl - W) * P * ef + (Zl + W) * P * this
  have es : (Zs + W) * f = 2 * W * E + (Zs - W) * q := by
    have := h.first
    rw [hf, hq]
    linear_combination 2 * W * this
  obtain ⟨Γl, hΓl⟩ : ∃ Γ, Γ = reflectionFactor 1 W Zl := ⟨_, rfl⟩
  obtain ⟨Γs, hΓs⟩ : ∃ Γ, Γ = reflectionFactor 1 W Zs := ⟨_, rfl⟩
  have hq' : q = Γl * P ^ 2 * f := by
    rw [hΓl, reflectionFactor, one_mul]
    field_simp
    linear_combination eq
  have hf' : f = 2 * (W / (Zs + W) * E) + Γs * q := by
    rw [hΓs, reflectionFactor, one_mul]
    field_simp
    linear_combination es
  rw [← hΓl, ← hΓs]
  have hv : 2 * v z = f * Complex.exp (-(γ * z)) + q * Complex.exp (γ * z) := by
    linear_combination (-2 * v z) * invz + Complex.exp (-(γ * z)) * fz + Complex.exp (γ * z) * bz
  linear_combination ((1 - Γs * Γl * (P * P)) / 2) * hv + (Complex.exp (γ * z) * (1 - Γs * Γl * (P * P)) / 2) * hq' +
    ((Complex.exp (-(γ * z)) + Γl * P ^ 2 * Complex.exp (γ * z)) / 2) * (hf' + Γs * hq')

/-- The current of the response. -/
noncomputable def lineCurrent (γ W E : ℂ) (D Zs Zl : ℝ) (z : ℝ) : ℂ :=
  1 / (Zs + W) * E * (Complex.exp (-(γ * z)) - reflectionFactor 1 W Zl * Complex.exp (-(γ * (2 * D - z)))) /
    (1 - reflectionFactor 1 W Zs * reflectionFactor 1 W Zl * Complex.exp (-(γ * (2 * D))))

/-- The response solves the telegrapher's equations. -/
theorem response_telegraph (hD : 0 < D) (hγ : 0 ≤ γ.re) (hW : 0 < W.re) (h1 : γ * W = a) (h2 : b * W = γ) (hzs : 0 ≤ Zs)
    (hzl : 0 ≤ Zl) (hloss : 0 < γ.re ∨ 0 < Zs ∨ 0 < Zl) : Telegraph a b E D Zs Zl (lineResponse γ W E D Zs Zl) (lineCurrent γ W E D Zs Zl) := by
  have ns := sum_ne_zero_re hzs hW
  have nl := sum_ne_zero_re hzl hW
  have hden := response_den hD hγ hW hzs hzl hloss
  have d1 : ∀ z : ℝ, HasDerivAt (fun z : ℝ => Complex.exp (-(γ * z))) (Complex.exp (-(γ * z)) * -(γ * 1)) z := fun z =>
    ((Complex.ofRealCLM.hasDerivAt (x := z)).const_mul γ).neg.cexp
  have d2 : ∀ z : ℝ, HasDerivAt (fun z : ℝ => Complex.exp (-(γ * (2 * D - z)))) (Complex.exp (-(γ * (2 * D - z))) * -(γ * -1)) z := fun z =>
    (((Complex.ofRealCLM.hasDerivAt (x := z)).const_sub (2 * (D : ℂ))).const_mul γ).neg.cexp
  obtain ⟨den, hd⟩ : ∃ d, d = 1 - reflectionFactor 1 W Zs * reflectionFactor 1 W Zl * Complex.exp (-(γ * (2 * D))) := ⟨_, rfl⟩
  have hW0 : W ≠ 0 := fun e => by simp [e] at hW
  constructor
  · intro z _
    refine HasDerivAt.hasDerivWithinAt ?_
    have := ((((d1 z).add ((d2 z).const_mul (reflectionFactor 1 W Zl))).const_mul (W / (Zs + W) * E)).div_const den)
    rw [hd] at this
    refine this.congr_deriv ?_
    rw [← h1, lineCurrent, ← hd]
    field_simp
    ring
  · intro z _
    refine HasDerivAt.hasDerivWithinAt ?_
    have := ((((d1 z).sub ((d2 z).const_mul (reflectionFactor 1 W Zl))).const_mul (1 / (Zs + W) * E)).div_const den)
    rw [hd] at this
    refine this.congr_deriv ?_
    rw [lineResponse, ← hd]
    field_simp
    rw [← h2]
    ring
  · rw [lineResponse, lineCurrent]
    rw [Complex.ofReal_zero, mul_zero, neg_zero, Complex.exp_zero, sub_zero]
    have hs : (Zs + W) * reflectionFactor 1 W Zs = Zs - W := by rw [reflectionFactor, one_mul]; field_simp
    obtain ⟨Γs, hΓs⟩ : ∃ Γ, Γ = reflectionFactor 1 W Zs := ⟨_, rfl⟩
    obtain ⟨Γl, hΓl⟩ : ∃ Γ, Γ = reflectionFactor 1 W Zl := ⟨_, rfl⟩
    obtain ⟨e, he⟩ : ∃ e, e = Complex.exp (-(γ * (2 * D))) := ⟨_, rfl⟩
    rw [← hΓs, ← hΓl, ← he] at hd hden
    rw [← hΓs] at hs
    rw [← hd] at hden
    rw [← hΓs, ← hΓl, ← he, ← hd]
    field_simp
    rw [hd]
    linear_combination E * Γl * e * hs
  · rw [lineResponse, lineCurrent]
    rw [show (2 * D - D : ℂ) = D by ring]
    have hl : (Zl + W) * reflectionFactor 1 W Zl = Zl - W := by rw [reflectionFactor, one_mul]; field_simp
    obtain ⟨Γl, hΓl⟩ : ∃ Γ, Γ = reflectionFactor 1 W Zl := ⟨_, rfl⟩
    rw [← hd] at hden ⊢
    rw [← hΓl] at hl ⊢
    obtain ⟨e, he⟩ : ∃ e, e = Complex.exp (-(γ * D)) := ⟨_, rfl⟩
    rw [← he]
    field_simp
    linear_combination E * e * hl

/-- The current of every solution is that of the response. -/
theorem Telegraph.lineCurrent (h : Telegraph a b E D Zs Zl v i) (hD : 0 < D) (hγ0 : γ ≠ 0) (hγ : 0 ≤ γ.re) (hW : 0 < W.re) (h1 : γ * W = a)
    (h2 : b * W = γ) (hzs : 0 ≤ Zs) (hzl : 0 ≤ Zl) (hloss : 0 < γ.re ∨ 0 < Zs ∨ 0 < Zl) : ∀ z ∈ Set.Icc 0 D, i z = Mtln.lineCurrent γ W E D Zs Zl z := by
  intro z hz
  have hv := h.response hD hγ hW h1 h2 hzs hzl hloss
  have hT := response_telegraph (E := E) hD hγ hW h1 h2 hzs hzl hloss
  have ha : a ≠ 0 := by
    rw [← h1]
    exact mul_ne_zero hγ0 fun e => by simp [e] at hW
  have hd := (uniqueDiffOn_Icc hD z hz).eq_deriv _ ((h.voltage z hz).congr (fun y hy => (hv y hy).symm) (hv z hz).symm) (hT.voltage z hz)
  exact mul_left_cancel₀ ha (neg_injective hd)

/-- A line with or without losses. -/
theorem line_constants {R G L C ω : ℝ} (hL : 0 < L) (hC : 0 < C) (hR : 0 ≤ R) (hG : 0 ≤ G) (hω : 0 < ω)
    (hloss : 0 < R ∨ 0 < G ∨ 0 < Zs ∨ 0 < Zl) : ∃ γ W : ℂ, γ ≠ 0 ∧ 0 ≤ γ.re ∧ 0 < W.re ∧
      γ ^ 2 = (R + ω * L * Complex.I) * (G + ω * C * Complex.I) ∧ γ * W = R + ω * L * Complex.I ∧ (G + ω * C * Complex.I) * W = γ ∧
      (0 < γ.re ∨ 0 < Zs ∨ 0 < Zl) ∧ ((0 < R ∨ 0 < G) → 0 < γ.re) ∧
      (R = 0 → G = 0 → γ = ω * Real.sqrt (L * C) * Complex.I) := by
  have are : ∀ r l : ℝ, (r + ω * l * Complex.I : ℂ).re = r ∧ (r + ω * l * Complex.I : ℂ).im = ω * l := by
    intro r l
    rw [show (r + ω * l * Complex.I : ℂ) = (r : ℂ) + ((ω * l : ℝ) : ℂ) * Complex.I by push_cast; ring]
    simp
  by_cases hRG : 0 < R ∨ 0 < G
  · obtain ⟨γ, W, hγ, hW, hγ2, h1, h2⟩ := propagation (a := R + ω * L * Complex.I) (b := G + ω * C * Complex.I)
      (by rw [(are R L).1]; exact hR) (by rw [(are G C).1]; exact hG) (by rw [(are R L).1, (are G C).1]; exact hRG)
      (by rw [(are R L).2]; positivity) (by rw [(are G C).2]; positivity)
    refine ⟨γ, W, fun e => by simp [e] at hγ, hγ.le, hW, hγ2, h1, h2, Or.inl hγ, fun _ => hγ, fun e1 e2 => ?_⟩
    rw [e1, e2] at hRG
    simp at hRG
  · push Not at hRG
    have e1 : R = 0 := le_antisymm hRG.1 hR
    have e2 : G = 0 := le_antisymm hRG.2 hG
    have hs : 0 < Real.sqrt (L * C) := Real.sqrt_pos.2 (mul_pos hL hC)
    have hw : 0 < Real.sqrt (L / C) := Real.sqrt_pos.2 (div_pos hL hC)
    have p0 : (Real.sqrt (L * C) : ℂ) ^ 2 = L * C := by exact_mod_cast Real.sq_sqrt (mul_pos hL hC).le
    have p1 : (Real.sqrt (L * C) : ℂ) * Real.sqrt (L / C) = L := by
      rw [← Complex.ofReal_mul, ← Real.sqrt_mul (mul_pos hL hC).le, show L * C * (L / C) = L ^ 2 by field_simp, Real.sqrt_sq hL.le]
    have p2 : (C : ℂ) * Real.sqrt (L / C) = Real.sqrt (L * C) := by
      rw [← Complex.ofReal_mul, show L * C = C ^ 2 * (L / C) by field_simp, Real.sqrt_mul (by positivity), Real.sqrt_sq hC.le]
    refine ⟨ω * Real.sqrt (L * C) * Complex.I, Real.sqrt (L / C), ?_, ?_, ?_, ?_, ?_, ?_, ?_, ?_, fun _ _ => rfl⟩
    · have h1 : (ω : ℂ) ≠ 0 := by exact_mod_cast hω.ne'
      have h2 : (Real.sqrt (L * C) : ℂ) ≠ 0 := by exact_mod_cast hs.ne'
      exact mul_ne_zero (mul_ne_zero h1 h2) Complex.I_ne_zero
    · rw [← Complex.ofReal_mul, Complex.re_ofReal_mul, Complex.I_re, mul_zero]
    · rw [Complex.ofReal_re]; exact hw
    · rw [e1, e2, Complex.ofReal_zero]
      linear_combination (ω : ℂ) ^ 2 * Complex.I ^ 2 * p0
    · rw [e1, Complex.ofReal_zero]
      linear_combination (ω : ℂ) * Complex.I * p1
    · rw [e2, Complex.ofReal_zero]
      linear_combination (ω : ℂ) * Complex.I * p2
    · rcases hloss with h | h | h
      · exact absurd h (by rw [e1]; exact lt_irrefl _)
      · exact absurd h (by rw [e2]; exact lt_irrefl _)
      · exact Or.inr h
    · rintro (h | h)
      · exact absurd h (by rw [e1]; exact lt_irrefl _)
      · exact absurd h (by rw [e2]; exact lt_irrefl _)

end

section

variable {L C R G D Zs Zl : ℝ} {name : String} {s : ℕ → MTL 1 p} {dt : ℕ → ℝ} {ω : ℝ} {S : ℕ → Src 1} {E : ℂ} {V I : ℕ → ℕ → Fin 1 → ℂ}

/-- The automatic time step of the lines tends to zero. -/
theorem courant_even {m : ℕ} {t : MTL 1 p} (hD : 0 < D) (hm : 0 < m)
    (h : MTL.new p (.scalar L) (.scalar C) (.scalar R) (.scalar G) D [] [m] (.scalar Zs) (.scalar Zl) name = .ok ⟨1, t⟩) :
    t.dt = D / m * Real.sqrt (L * C) := by
  obtain ⟨k, hk, -, -, e⟩ := C21_one_conductor h
  have he := (constructed_even hD hm h 1 0).2.2.dun k hk
  rw [e]
  congr 1

/-- The limit for any lines of one conductor with equal cells. -/
theorem even_limit {t : ℕ → MTL 1 p} {τ : ℕ → ℝ} {F : ℕ → ℂ} (hF : Tendsto F atTop (𝓝 E)) (hD : 0 < D)
    (hm : ∀ m > 0, (t m).m = m) (ht : ∀ m > 0, (t m).dt = dt m)
    (he : ∀ m > 0, (t m).EvenLine (D / m) L C R G) (hends : ∀ m > 0, (t m).EvenEnds C G Zs Zl) (hL : 0 < L) (hC : 0 < C) (hR : 0 ≤ R)
    (hG : 0 ≤ G) (hzs : 0 ≤ Zs) (hzl : 0 ≤ Zl) (hloss : 0 < R ∨ 0 < G ∨ 0 < Zs ∨ 0 < Zl) (hω : 0 < ω)
    (hdt : ∀ m > 0, 0 < dt m ∧ dt m ≤ τ m) (hdt0 : Tendsto dt atTop (𝓝 0))
    (hac : ∀ m > 0, ω * dt m < Real.pi → (t m).AC (τ m) (ω * dt m) (fun _ => F m) 0 0 0 (V m) (I m)) {v i : ℝ → ℂ}
    (hv : Telegraph (R + ω * L * Complex.I) (G + ω * C * Complex.I) E D Zs Zl v i) :
    ∀ ε > 0, ∃ M, ∀ m ≥ M, ω * dt m < Real.pi ∧ (∀ k ≤ m, ‖V m k 0 - v (k * D / m)‖ ≤ ε) ∧
      ∀ k < m, ‖I m k 0 - i ((k + 1 / 2) * D / m)‖ ≤ ε := by
  obtain ⟨γ, W, hγ0, hγ, hW, hγ2, h1, h2, hloss', hlossy, hlossless⟩ := line_constants (Zs := Zs) (Zl := Zl) hL hC hR hG hω hloss
  have hD0 : (D : ℂ) ≠ 0 := by exact_mod_cast hD.ne'
  have hresp := hv.response hD hγ hW h1 h2 hzs hzl hloss'
  have hcur := hv.lineCurrent hD hγ0 hγ hW h1 h2 hzs hzl hloss'
  have hpos : ∀ᶠ m in atTop, 0 < dt m ∧ dt m ≤ τ m := (eventually_gt_atTop 0).mono fun m hm => hdt m hm
  have hnyq : ∀ᶠ m in atTop, ω * dt m < Real.pi := by
    have := hdt0.const_mul ω
    rw [mul_zero] at this
    exact this.eventually (gt_mem_nhds Real.pi_pos)
  have good : ∀ᶠ m in atTop, 0 < m ∧ ω * dt m < Real.pi := (eventually_gt_atTop 0).and hnyq
  have hgre : 0 ≤ (γ * D).re := by rw [Complex.re_mul_ofReal]; positivity
  have hpos' := hpos.mono fun m hm => hm.1
  have lZ := cell_limit (D := D) (ω := ω) L R hdt0 hpos'
  have lY := cell_limit (D := D) (ω := ω) C G hdt0 hpos'
  -- the waves of the lines
  obtain ⟨x, hx, ld, lx⟩ : ∃ x : ℕ → ℂ, (∀ᶠ m in atTop, x m ≠ 0 ∧ (x m - 1) ^ 2 = cellImpedance (D / m) (dt m) (ω * dt m) L R *
      cellImpedance (D / m) (dt m) (ω * dt m) C G * x m) ∧ Tendsto (fun m : ℕ => (m : ℂ) * (1 - x m)) atTop (𝓝 (γ * D)) ∧
      Tendsto x atTop (𝓝 1) := by
    by_cases hRG : 0 < R ∨ 0 < G
    · have hex : ∀ m, ∃ x : ℂ, 0 < m → ω * dt m < Real.pi → x ≠ 0 ∧ ‖x‖ < 1 ∧
          (x - 1) ^ 2 = cellImpedance (D / m) (dt m) (ω * dt m) L R * cellImpedance (D / m) (dt m) (ω * dt m) C G * x := by
        intro m
        by_cases hm : 0 < m ∧ ω * dt m < Real.pi
        · have hm' : (0 : ℝ) < m := by exact_mod_cast hm.1
          obtain ⟨x, x0, x1, -, hroot, -⟩ := C181_attenuation (h := D / m) (by positivity) (hdt m hm.1).1 (mul_pos hω (hdt m hm.1).1) hm.2
            hL hC hR hG hRG
          exact ⟨x, fun _ _ => ⟨x0, x1, hroot⟩⟩
        · exact ⟨0, fun a b => absurd ⟨a, b⟩ hm⟩
      choose x hx using hex
      obtain ⟨ld, lx⟩ := factor_limit (x := x) (g := γ * D) (w := fun m => cellImpedance (D / m) (dt m) (ω * dt m) L R *
          cellImpedance (D / m) (dt m) (ω * dt m) C G) (by
        have := lZ.mul lY
        rw [show (D : ℂ) * (R + ω * L * Complex.I) * (D * (G + ω * C * Complex.I)) = (γ * D) ^ 2 by
          linear_combination -(D : ℂ) ^ 2 * hγ2] at this
        refine this.congr fun m => ?_
        ring) (by rw [Complex.re_mul_ofReal]; exact mul_pos (hlossy hRG) hD)
        (good.mono fun m hm => ⟨(hx m hm.1 hm.2).2.1, (hx m hm.1 hm.2).2.2⟩)
      exact ⟨x, good.mono fun m hm => ⟨(hx m hm.1 hm.2).1, (hx m hm.1 hm.2).2.2⟩, ld, lx⟩
    · push Not at hRG
      have e1 : R = 0 := le_antisymm hRG.1 hR
      have e2 : G = 0 := le_antisymm hRG.2 hG
      have hu : Tendsto (fun m : ℕ => (m : ℝ) * (D / m * Real.sqrt (L * C) * (Real.sin (ω * dt m / 2) / dt m))) atTop
          (𝓝 (D * Real.sqrt (L * C) / 2 * ω)) := by
        refine ((sine_limit (ω := ω) hdt0 hpos').const_mul (D * Real.sqrt (L * C) / 2)).congr' ?_
        filter_upwards [eventually_gt_atTop 0] with m hm
        have : (m : ℝ) ≠ 0 := by exact_mod_cast hm.ne'
        field_simp
      obtain ⟨x, hx, ld, lx⟩ := lossless_factor hu
      refine ⟨x, ?_, ?_, lx⟩
      · filter_upwards [hx] with m hm
        refine ⟨hm.1, hm.2.trans ?_⟩
        have p0 : (Real.sqrt (L * C) : ℂ) ^ 2 = L * C := by exact_mod_cast Real.sq_sqrt (mul_pos hL hC).le
        rw [e1, e2]
        unfold cellImpedance
        push_cast
        have hI := Complex.I_sq
        linear_combination (-4 * (D / m : ℂ) ^ 2 * (Complex.sin (ω * dt m / 2) / dt m) ^ 2 * x m) * p0 -
          4 * (D / m : ℂ) ^ 2 * (Complex.sin (ω * dt m / 2) / dt m) ^ 2 * L * C * x m * hI
      · rw [hlossless e1 e2]
        have e : (2 * ((D * Real.sqrt (L * C) / 2 * ω : ℝ) : ℂ) * Complex.I) = ω * Real.sqrt (L * C) * Complex.I * D := by
          push_cast
          ring
        rw [← e]
        exact ld
  have lx0 : ∀ᶠ m in atTop, x m ≠ 0 := hx.mono fun m hm => hm.1
  have lx2 : ∀ᶠ m in atTop, x m ^ 2 ≠ 1 := by
    have h3 := (ld.mul (lx.const_add 1)).eventually_ne (mul_ne_zero (mul_ne_zero hγ0 hD0) (by norm_num : (1 + 1 : ℂ) ≠ 0))
    filter_upwards [h3] with m hm e
    exact hm (by linear_combination (-(m : ℂ)) * e)
  obtain ⟨w, hw⟩ : ∃ w : ℕ → ℂ, ∀ m, w m = waveImpedance (cellImpedance (D / m) (dt m) (ω * dt m) L R) (x m) := ⟨_, fun _ => rfl⟩
  obtain ⟨κs, hκs⟩ : ∃ κ : ℕ → ℂ, ∀ m, κ m = loadFactor (D / m) (dt m) (τ m) (ω * dt m) C Zs := ⟨_, fun _ => rfl⟩
  obtain ⟨κl, hκl⟩ : ∃ κ : ℕ → ℂ, ∀ m, κ m = loadFactor (D / m) (dt m) (τ m) (ω * dt m) C Zl := ⟨_, fun _ => rfl⟩
  have lW : Tendsto w atTop (𝓝 W) := by
    have := impedance_limit ld lx (mul_ne_zero hγ0 hD0) lZ lx2
    rw [← h1, show (D : ℂ) * (γ * W) / (γ * D) = W by field_simp] at this
    exact this.congr fun m => (hw m).symm
  have lκs : Tendsto κs atTop (𝓝 1) := (load_limit C Zs hdt0 hpos).congr fun m => (hκs m).symm
  have lκl : Tendsto κl atTop (𝓝 1) := (load_limit C Zl hdt0 hpos).congr fun m => (hκl m).symm
  have lΓ : ∀ {κ : ℕ → ℂ} {ζ : ℝ}, Tendsto κ atTop (𝓝 1) → 0 ≤ ζ →
      Tendsto (fun m => reflectionFactor (κ m) (w m) ζ) atTop (𝓝 (reflectionFactor 1 W ζ)) := by
    intro κ ζ hκ hζ
    unfold reflectionFactor
    exact (tendsto_const_nhds.sub (hκ.mul lW)).div (tendsto_const_nhds.add (hκ.mul lW)) (by rw [one_mul]; exact sum_ne_zero_re hζ hW)
  have lcos : Tendsto (fun m => ((Real.cos (ω * dt m / 2) : ℝ) : ℂ)) atTop (𝓝 1) := by
    have := (Complex.continuous_ofReal.tendsto _).comp (cosine_limit (ω := ω) hdt0)
    rw [Complex.ofReal_one] at this
    exact this
  have lp : Tendsto (fun m => x m ^ (2 * m)) atTop (𝓝 (Complex.exp (-(γ * (2 * D))))) := by
    have h1 := wave_limit ld hgre lx0 (k := fun m => 2 * m) (Eventually.of_forall fun m => le_rfl)
    have h2 := h1.add_const (Complex.exp (-(γ * (2 * D))))
    rw [zero_add] at h2
    refine h2.congr' ?_
    filter_upwards [eventually_gt_atTop 0] with m hm
    have : (m : ℂ) ≠ 0 := by exact_mod_cast hm.ne'
    rw [show (γ * D * (((2 * m : ℕ) : ℝ) / m : ℝ) : ℂ) = γ * (2 * D) by push_cast; field_simp]
    ring
  obtain ⟨A, hA⟩ : ∃ A, A = W / (Zs + W) * E / (1 - reflectionFactor 1 W Zs * reflectionFactor 1 W Zl * Complex.exp (-(γ * (2 * D)))) :=
    ⟨_, rfl⟩
  obtain ⟨a, ha⟩ : ∃ a : ℕ → ℂ, ∀ m, a m = Real.cos (ω * dt m / 2) * w m / (Zs + κs m * w m) * F m /
      (1 - reflectionFactor (κs m) (w m) Zs * reflectionFactor (κl m) (w m) Zl * x m ^ (2 * m)) := ⟨_, fun _ => rfl⟩
  have lA : Tendsto a atTop (𝓝 A) := by
    have e : a = fun m => (Real.cos (ω * dt m / 2) * w m / (Zs + κs m * w m) * F m /
      (1 - reflectionFactor (κs m) (w m) Zs * reflectionFactor (κl m) (w m) Zl * x m ^ (2 * m)) : ℂ) := funext ha
    rw [e, hA]
    refine Tendsto.div (Tendsto.mul ?_ hF) (tendsto_const_nhds.sub (((lΓ lκs hzs).mul (lΓ lκl hzl)).mul lp))
      (response_den hD hγ hW hzs hzl hloss')
    have := (lcos.mul lW).div (tendsto_const_nhds (x := (Zs : ℂ)).add (lκs.mul lW)) (by rw [one_mul]; exact sum_ne_zero_re hzs hW)
    rw [one_mul] at this
    exact this
  obtain ⟨Γ, hΓ⟩ : ∃ Γ : ℕ → ℂ, ∀ m, Γ m = reflectionFactor (κl m) (w m) Zl := ⟨_, fun _ => rfl⟩
  obtain ⟨Γ₁, hΓ₁⟩ : ∃ Γ, Γ = reflectionFactor 1 W Zl := ⟨_, rfl⟩
  have lΓl : Tendsto Γ atTop (𝓝 Γ₁) := by
    rw [hΓ₁, show Γ = fun m => reflectionFactor (κl m) (w m) Zl from funext hΓ]
    exact lΓ lκl hzl
  have lZ0 : (D : ℂ) * (R + ω * L * Complex.I) ≠ 0 := by
    rw [← h1]
    exact mul_ne_zero hD0 (mul_ne_zero hγ0 fun e => by simp [e] at hW)
  have lS : ∀ᶠ m in atTop, (Zs + κs m * w m : ℂ) ≠ 0 :=
    (tendsto_const_nhds.add (lκs.mul lW)).eventually_ne (by rw [one_mul]; exact sum_ne_zero_re hzs hW)
  have lL : ∀ᶠ m in atTop, (Zl + κl m * w m : ℂ) ≠ 0 :=
    (tendsto_const_nhds.add (lκl.mul lW)).eventually_ne (by rw [one_mul]; exact sum_ne_zero_re hzl hW)
  have lden : ∀ᶠ m in atTop, 1 - reflectionFactor (κs m) (w m) Zs * Γ m * x m ^ (2 * m) ≠ 0 :=
    (tendsto_const_nhds.sub (((lΓ lκs hzs).mul lΓl).mul lp)).eventually_ne (by rw [hΓ₁]; exact response_den hD hγ hW hzs hzl hloss')
  have hVa : ∀ᶠ m in atTop, (∀ k ≤ m, V m k 0 = a m * (x m ^ k + Γ m * x m ^ (2 * m - k))) ∧
      ∀ k < m, cellImpedance (D / m) (dt m) (ω * dt m) L R * I m k 0 = V m k 0 - V m (k + 1) 0 := by
    filter_upwards [good, hx, lx2, lZ.eventually_ne lZ0, lS, lL, lden] with m hm' hxm hx2 hZ hS hLm hden
    have em := hm m hm'.1
    have hac' := hac m hm'.1 hm'.2
    have hex := he m hm'.1
    have hxm' := hxm.2
    rw [← ht m hm'.1] at hxm'
    obtain ⟨A', B', hV, -, hA', hB'⟩ := C185_ends hex (hends m hm'.1) (by omega) hac' hxm.1 hx2 (fun e => hZ (by
        rw [ht m hm'.1] at e
        rw [e, mul_zero])) (by rw [ht m hm'.1] at hxm' ⊢; exact hxm')
    rw [ht m hm'.1] at hA' hB'
    replace hV : ∀ k ≤ m, V m k 0 = A' * x m ^ k + B' * (x m)⁻¹ ^ k := fun k hk => hV k (by omega)
    rw [← hw, ← hκs] at hA'
    rw [← hw, ← hκl, em, Pi.zero_apply, mul_zero, add_zero] at hB'
    refine ⟨fun k hk => ?_, fun k hk => ?_⟩
    swap
    · have := hex.cell hac' (k := k) (by omega)
      rwa [ht m hm'.1] at this
    have pm : (x m)⁻¹ ^ m * x m ^ m = 1 := by rw [← mul_pow, inv_mul_cancel₀ hxm.1, one_pow]
    have pk : (x m)⁻¹ ^ k * x m ^ k = 1 := by rw [← mul_pow, inv_mul_cancel₀ hxm.1, one_pow]
    have hΓs : (Zs + κs m * w m) * reflectionFactor (κs m) (w m) Zs = Zs - κs m * w m := by
      unfold reflectionFactor
      field_simp
    have hΓl : (Zl + κl m * w m) * Γ m = Zl - κl m * w m := by
      rw [hΓ]
      unfold reflectionFactor
      field_simp
    have eB : B' = Γ m * x m ^ (2 * m) * A' := by
      refine mul_left_cancel₀ hLm ?_
      rw [two_mul, pow_add]
      linear_combination (-(Zl + κl m * w m) * B') * pm + x m ^ m * hB' - x m ^ m * x m ^ m * A' * hΓl
    have eA : a m = A' := by
      rw [ha, ← hΓ, div_eq_iff hden, div_mul_eq_mul_div, div_eq_iff hS]
      rw [eB] at hA'
      linear_combination -hA' + Γ m * x m ^ (2 * m) * A' * hΓs
    rw [hV k hk, eA, eB, show 2 * m = (2 * m - k) + k by omega, pow_add, show 2 * m - k + k - k = 2 * m - k by omega]
    linear_combination Γ m * x m ^ (2 * m - k) * A' * pk
  -- the currents
  obtain ⟨b, hb⟩ : ∃ b : ℕ → ℂ, ∀ m, b m = a m * ((m * (1 - x m)) / (m * cellImpedance (D / m) (dt m) (ω * dt m) L R)) := ⟨_, fun _ => rfl⟩
  have lb : Tendsto b atTop (𝓝 (A / W)) := by
    have hW0 : W ≠ 0 := fun e => by simp [e] at hW
    have := lA.mul (ld.div lZ lZ0)
    rw [← h1, show A * (γ * D / (D * (γ * W))) = A / W by field_simp] at this
    exact this.congr fun m => (hb m).symm
  have hIb : ∀ᶠ m in atTop, ∀ k < m, I m k 0 = b m * (x m ^ k + -Γ m * x m ^ (2 * m - (k + 1))) := by
    filter_upwards [good, lZ.eventually_ne lZ0, hVa] with m hm hZ hV k hk
    have hZ0 : cellImpedance (D / m) (dt m) (ω * dt m) L R ≠ 0 := fun e => hZ (by rw [e, mul_zero])
    have hmc : (m : ℂ) ≠ 0 := by exact_mod_cast hm.1.ne'
    have e := hV.2 k hk
    rw [hV.1 k hk.le, hV.1 (k + 1) hk, show 2 * m - k = (2 * m - (k + 1)) + 1 by omega] at e
    refine mul_left_cancel₀ hZ0 ?_
    rw [e, hb]
    field_simp
    ring
  have small : ∀ t : ℝ, 0 ≤ t → ‖Complex.exp (-(γ * D * t))‖ ≤ 1 := by
    intro t ht
    rw [Complex.norm_exp, Real.exp_le_one_iff, Complex.neg_re, Complex.re_mul_ofReal]
    have := mul_nonneg hgre ht
    linarith
  have bounded : ∀ {b : ℕ → ℂ} {B : ℂ} {e : ℕ → ℂ}, Tendsto b atTop (𝓝 B) → (∀ m, ‖e m‖ ≤ 1) →
      Tendsto (fun m => (b m - B) * e m) atTop (𝓝 0) := by
    intro b B e hb he
    have h0 : Tendsto (fun m => ‖b m - B‖) atTop (𝓝 0) := tendsto_iff_norm_sub_tendsto_zero.1 hb
    refine squeeze_zero_norm (fun m => ?_) h0
    rw [norm_mul]
    exact mul_le_of_le_one_right (norm_nonneg _) (he m)
  -- sums of two waves
  have two : ∀ {c Δ : ℕ → ℂ} {c₁ Δ₁ : ℂ} {k k' : ℕ → ℕ}, Tendsto c atTop (𝓝 c₁) → Tendsto Δ atTop (𝓝 Δ₁) → (∀ m, k m ≤ 2 * m) →
      (∀ m, k' m ≤ 2 * m) → Tendsto (fun m => c m * (x m ^ k m + Δ m * x m ^ k' m) -
        c₁ * (Complex.exp (-(γ * D * ((k m : ℝ) / m : ℝ))) + Δ₁ * Complex.exp (-(γ * D * ((k' m : ℝ) / m : ℝ))))) atTop (𝓝 0) := by
    intro c Δ c₁ Δ₁ k k' lc lΔ hk hk'
    obtain ⟨e1, he1⟩ : ∃ e : ℕ → ℂ, ∀ m, e m = Complex.exp (-(γ * D * ((k m : ℝ) / m : ℝ))) := ⟨_, fun _ => rfl⟩
    obtain ⟨e2, he2⟩ : ∃ e : ℕ → ℂ, ∀ m, e m = Complex.exp (-(γ * D * ((k' m : ℝ) / m : ℝ))) := ⟨_, fun _ => rfl⟩
    have w1 := wave_limit ld hgre lx0 (Eventually.of_forall hk)
    have w2 := wave_limit ld hgre lx0 (Eventually.of_forall hk')
    simp only [← he1] at w1
    simp only [← he2] at w2
    simp only [← he1, ← he2]
    have lcΔ := lc.mul lΔ
    have tot := (((lc.mul w1).add (lcΔ.mul w2)).add (bounded lc (e := e1) fun m => by rw [he1]; exact small _ (by positivity))).add
      (bounded lcΔ (e := e2) fun m => by rw [he2]; exact small _ (by positivity))
    rw [mul_zero, mul_zero, add_zero, add_zero, add_zero] at tot
    refine tot.congr fun m => ?_
    ring
  -- the error at any node
  have err : ∀ k : ℕ → ℕ, (∀ m, k m ≤ m) → Tendsto (fun m => V m (k m) 0 - v (k m * D / m)) atTop (𝓝 0) := by
    intro k hk
    have tot := two (k := k) (k' := fun m => 2 * m - k m) lA lΓl (fun m => by have := hk m; omega) fun m => Nat.sub_le _ _
    refine tot.congr' ?_
    filter_upwards [good, hVa] with m hm hVm
    have hm0 : (0 : ℝ) < m := by exact_mod_cast hm.1
    have hkm : (k m : ℝ) ≤ m := by exact_mod_cast hk m
    have hmc : (m : ℂ) ≠ 0 := by exact_mod_cast hm.1.ne'
    rw [hVm.1 (k m) (hk m), hresp (k m * D / m) ⟨by positivity, by
      rw [div_le_iff₀ hm0]
      nlinarith⟩, lineResponse, ← hΓ₁]
    congr 1
    rw [show (γ * ((k m * D / m : ℝ) : ℂ)) = γ * D * ((k m : ℝ) / m : ℝ) by push_cast; ring,
      show (γ * (2 * D - ((k m * D / m : ℝ) : ℂ))) = γ * D * (((2 * m - k m : ℕ) : ℝ) / m : ℝ) by
        rw [Nat.cast_sub (by have := hk m; omega)]
        push_cast
        field_simp, hA, hΓ₁]
    ring
  -- and in any cell
  have errI : ∀ k : ℕ → ℕ, (∀ m > 0, k m < m) → Tendsto (fun m => I m (k m) 0 - i ((k m + 1 / 2) * D / m)) atTop (𝓝 0) := by
    intro k hk
    obtain ⟨η, hη⟩ : ∃ η : ℕ → ℂ, ∀ m, η m = Complex.exp (-(γ * D * (((1 : ℝ) / 2) * (m : ℝ)⁻¹ : ℝ))) := ⟨_, fun _ => rfl⟩
    have lη : Tendsto η atTop (𝓝 1) := by
      have h1 := (tendsto_inv_atTop_nhds_zero_nat (𝕜 := ℝ)).const_mul ((1 : ℝ) / 2)
      rw [mul_zero] at h1
      have h2 := (((Complex.continuous_ofReal.tendsto _).comp h1).const_mul (γ * D)).neg.cexp
      rw [Complex.ofReal_zero, mul_zero, neg_zero, Complex.exp_zero] at h2
      exact h2.congr fun m => (hη m).symm
    have t1 := two (k := fun m => min (k m) m) (k' := fun m => 2 * m - (k m + 1)) lb lΓl.neg (fun m => by have := min_le_right (k m) m; omega)
      fun m => Nat.sub_le _ _
    have t2 := ((bounded lη (e := fun m => Complex.exp (-(γ * D * (((min (k m) m : ℕ) : ℝ) / m : ℝ))))
      fun m => small _ (by positivity)).const_mul (A / W))
    have t3 := ((bounded lη (e := fun m => Complex.exp (-(γ * D * (((2 * m - (k m + 1) : ℕ) : ℝ) / m : ℝ))))
      fun m => small _ (by positivity)).const_mul (A / W * Γ₁))
    have tot := (t1.sub t2).add t3
    rw [mul_zero, mul_zero, sub_zero, add_zero] at tot
    refine tot.congr' ?_
    filter_upwards [good, hIb] with m hm hI
    have hkm := hk m hm.1
    have hm0 : (0 : ℝ) < m := by exact_mod_cast hm.1
    have hkr : (k m : ℝ) + 1 ≤ m := by exact_mod_cast hkm
    have hmc : (m : ℂ) ≠ 0 := by exact_mod_cast hm.1.ne'
    have hW0 : W ≠ 0 := fun e => by simp [e] at hW
    rw [min_eq_left hkm.le, hI (k m) hkm, hcur ((k m + 1 / 2) * D / m) ⟨by positivity, by
      rw [div_le_iff₀ hm0]
      nlinarith⟩, lineCurrent, ← hΓ₁]
    have x1 : Complex.exp (-(γ * (((k m + 1 / 2) * D / m : ℝ) : ℂ))) = η m * Complex.exp (-(γ * D * ((k m : ℝ) / m : ℝ))) := by
      rw [hη, ← Complex.exp_add]
      congr 1
      push_cast
      field_simp
      ring
    have x2 : Complex.exp (-(γ * (2 * D - (((k m + 1 / 2) * D / m : ℝ) : ℂ)))) =
        η m * Complex.exp (-(γ * D * (((2 * m - (k m + 1) : ℕ) : ℝ) / m : ℝ))) := by
      rw [hη, ← Complex.exp_add]
      congr 1
      rw [Nat.cast_sub (by omega)]
      push_cast
      field_simp
      ring
    rw [x1, x2, show (1 / (Zs + W) * E * (η m * Complex.exp (-(γ * D * ((k m : ℝ) / m : ℝ))) -
        Γ₁ * (η m * Complex.exp (-(γ * D * (((2 * m - (k m + 1) : ℕ) : ℝ) / m : ℝ))))) /
        (1 - reflectionFactor 1 W Zs * Γ₁ * Complex.exp (-(γ * (2 * D)))) : ℂ) =
      A / W * (η m * Complex.exp (-(γ * D * ((k m : ℝ) / m : ℝ))) -
        Γ₁ * (η m * Complex.exp (-(γ * D * (((2 * m - (k m + 1) : ℕ) : ℝ) / m : ℝ))))) by
      rw [hA, ← hΓ₁]
      field_simp]
    ring
  -- the worst node and the worst cell
  intro ε hε
  have hworst : ∀ m, ∃ k, k ≤ m ∧ ((∃ k' ≤ m, ε < ‖V m k' 0 - v (k' * D / m)‖) → ε < ‖V m k 0 - v (k * D / m)‖) := by
    intro m
    by_cases hb : ∃ k' ≤ m, ε < ‖V m k' 0 - v (k' * D / m)‖
    · obtain ⟨k, hk, hb'⟩ := hb
      exact ⟨k, hk, fun _ => hb'⟩
    · exact ⟨0, Nat.zero_le _, fun h => absurd h hb⟩
  have hworstI : ∀ m, ∃ k, (0 < m → k < m) ∧ ((∃ k' < m, ε < ‖I m k' 0 - i ((k' + 1 / 2) * D / m)‖) →
      ε < ‖I m k 0 - i ((k + 1 / 2) * D / m)‖) := by
    intro m
    by_cases hb : ∃ k' < m, ε < ‖I m k' 0 - i ((k' + 1 / 2) * D / m)‖
    · obtain ⟨k, hk, hb'⟩ := hb
      exact ⟨k, fun _ => hk, fun _ => hb'⟩
    · exact ⟨0, fun h => h, fun h => absurd h hb⟩
  choose k hk hkw using hworst
  choose q hq hqw using hworstI
  have lim := tendsto_zero_iff_norm_tendsto_zero.1 (err k hk)
  have limI := tendsto_zero_iff_norm_tendsto_zero.1 (errI q fun m hm => hq m hm)
  obtain ⟨M, hM⟩ := eventually_atTop.1 (((lim.eventually (gt_mem_nhds hε)).and (limI.eventually (gt_mem_nhds hε))).and hnyq)
  refine ⟨M, fun m hm => ⟨(hM m hm).2, fun k' hk' => ?_, fun k' hk' => ?_⟩⟩
  · by_contra hn
    exact absurd (hM m hm).1.1 (not_lt.2 (hkw m ⟨k', hk', not_le.1 hn⟩).le)
  · by_contra hn
    exact absurd (hM m hm).1.2 (not_lt.2 (hqw m ⟨k', hk', not_le.1 hn⟩).le)

/-- **C186.**  For more and more cells, and any time steps up to the automatic ones, the complex amplitudes of the voltages of a line
of one conductor at its nodes, and those of the currents in the middle of its cells, tend to the solution of the telegrapher's equations,
uniformly over the line, if the line or one of its ends takes power. -/
theorem C186_limit (hD : 0 < D)
    (h : ∀ m > 0, MTL.new p (.scalar L) (.scalar C) (.scalar R) (.scalar G) D [] [m] (.scalar Zs) (.scalar Zl) name = .ok ⟨1, s m⟩)
    (hL : 0 < L) (hC : 0 < C) (hR : 0 ≤ R) (hG : 0 ≤ G) (hzs : 0 ≤ Zs) (hzl : 0 ≤ Zl) (hloss : 0 < R ∨ 0 < G ∨ 0 < Zs ∨ 0 < Zl)
    (hω : 0 < ω) (hdt : ∀ m > 0, 0 < dt m ∧ dt m ≤ (s m).dt)
    (hac : ∀ m > 0, ω * dt m < Real.pi → ({ s m with dt := dt m, vSources := S m } : MTL 1 p).AC (s m).dt (ω * dt m) (fun _ => E) 0 0 0
      (V m) (I m)) {v i : ℝ → ℂ} (hv : Telegraph (R + ω * L * Complex.I) (G + ω * C * Complex.I) E D Zs Zl v i) :
    ∀ ε > 0, ∃ M, ∀ m ≥ M, ω * dt m < Real.pi ∧ (∀ k ≤ m, ‖V m k 0 - v (k * D / m)‖ ≤ ε) ∧
      ∀ k < m, ‖I m k 0 - i ((k + 1 / 2) * D / m)‖ ≤ ε := by
  have hτ : Tendsto (fun m : ℕ => D / m * Real.sqrt (L * C)) atTop (𝓝 0) := by
    have := ((tendsto_inv_atTop_nhds_zero_nat (𝕜 := ℝ)).const_mul D).mul_const (Real.sqrt (L * C))
    simpa [div_eq_mul_inv] using this
  have hdt0 : Tendsto dt atTop (𝓝 0) := by
    refine squeeze_zero' ((eventually_gt_atTop 0).mono fun m hm => (hdt m hm).1.le) ?_ hτ
    filter_upwards [eventually_gt_atTop 0] with m hm
    rw [← courant_even hD hm (h m hm)]
    exact (hdt m hm).2
  exact even_limit tendsto_const_nhds (t := fun m => { s m with dt := dt m, vSources := S m }) hD
    (fun m hm => (constructed_even hD hm (h m hm) (dt m) (S m)).1)
    (fun _ _ => rfl) (fun m hm => (constructed_even hD hm (h m hm) (dt m) (S m)).2.2) (fun m hm => constructed_ends (h m hm) (dt m) (S m))
    hL hC hR hG hzs hzl hloss hω hdt hdt0 hac hv

/-- The telegrapher's equations of a line that takes power, along its way or at an end, have exactly one solution. -/
theorem C186_solution (hD : 0 < D) (hL : 0 < L) (hC : 0 < C) (hR : 0 ≤ R) (hG : 0 ≤ G) (hzs : 0 ≤ Zs) (hzl : 0 ≤ Zl)
    (hloss : 0 < R ∨ 0 < G ∨ 0 < Zs ∨ 0 < Zl) (hω : 0 < ω) (E : ℂ) :
    ∃ v i, Telegraph (R + ω * L * Complex.I) (G + ω * C * Complex.I) E D Zs Zl v i ∧
      ∀ v' i', Telegraph (R + ω * L * Complex.I) (G + ω * C * Complex.I) E D Zs Zl v' i' →
        ∀ z ∈ Set.Icc 0 D, v' z = v z ∧ i' z = i z := by
  obtain ⟨γ, W, hγ0, hγ, hW, -, h1, h2, hloss', -⟩ := line_constants (Zs := Zs) (Zl := Zl) hL hC hR hG hω hloss
  exact ⟨_, _, response_telegraph hD hγ hW h1 h2 hzs hzl hloss', fun v' i' h z hz =>
    ⟨h.response hD hγ hW h1 h2 hzs hzl hloss' z hz, h.lineCurrent hD hγ0 hγ hW h1 h2 hzs hzl hloss' z hz⟩⟩

/-- **C186** for programs: the runs of lines of enough cells settle, at every node and in every cell, within `ε` of the sinusoids
whose amplitudes and phases the telegrapher's equations give for the place of the node and the middle of the cell. -/
theorem C186_program (hD : 0 < D)
    (h : ∀ m > 0, MTL.new p (.scalar L) (.scalar C) (.scalar R) (.scalar G) D [] [m] (.scalar Zs) (.scalar Zl) name = .ok ⟨1, s m⟩)
    (hL : 0 < L) (hC : 0 < C) (hR : 0 ≤ R) (hG : 0 ≤ G) (hzs : 0 ≤ Zs) (hzl : 0 ≤ Zl) (hz : 0 < Zs ∨ 0 < Zl)
    (hω : 0 < ω) (hdt : ∀ m > 0, 0 < dt m ∧ dt m < (s m).dt) (hS : ∀ m k x, ∀ u < 0, S m k x u = 0)
    (hS0 : ∀ m, ∀ u ≥ 0, S m 0 0 u = (E * Complex.exp (ω * u * Complex.I)).re) (hS1 : ∀ m > 0, ∀ u, S m m 0 u = 0) {v i : ℝ → ℂ}
    (hv : Telegraph (R + ω * L * Complex.I) (G + ω * C * Complex.I) E D Zs Zl v i) :
    ∀ ε > 0, ∃ M, ∀ m ≥ M, ∃ J, ∀ (T : ℝ) (t' : MTL 1 p) (N : ℕ) (tr : ℕ → MTL 1 p),
      RunTrace { s m with dt := dt m, vSources := S m } T t' N tr → ∀ j ≥ J, j ≤ N → ∀ k ≤ m,
        |(tr j).v k 0 - (v (k * D / m) * Complex.exp (ω * (j * dt m - dt m) * Complex.I)).re| ≤ ε ∧ (k < m →
          |(tr j).i k 0 - (i ((k + 1 / 2) * D / m) * Complex.exp (ω * (j * dt m - dt m / 2) * Complex.I)).re| ≤ ε) := by
  have vec : ∀ X : Fin 1, X = 0 := fun X => Subsingleton.elim _ _
  have hex : ∀ m, ∃ V I : ℕ → Fin 1 → ℂ, 0 < m → ω * dt m < Real.pi →
      ({ s m with dt := dt m, vSources := S m } : MTL 1 p).AC (s m).dt (ω * dt m) (fun _ => E) 0 0 0 V I ∧
      ({ s m with dt := dt m, vSources := S m } : MTL 1 p).Approaches
        (fun j k x => (V k x * Complex.exp (ω * (j * dt m - dt m) * Complex.I)).re)
        (fun j k x => (I k x * Complex.exp (ω * (j * dt m - dt m / 2) * Complex.I)).re) := by
    intro m
    by_cases hm : 0 < m ∧ ω * dt m < Real.pi
    · obtain ⟨em, hdu, -⟩ := constructed_even hD hm.1 (h m hm.1) (dt m) (S m)
      obtain ⟨V, I, hac, -, happ⟩ := C178_program (E0 := fun _ => E) (E1 := 0) (ω := ω) (h m hm.1) (spd_one hL) (spd_one hC)
        (dissipative_scalar hR) (dissipative_scalar hG) (fun _ _ => hzs) (fun _ _ => hzl) (hz.imp (fun h _ _ => h) fun h _ _ => h) hdu
        (hdt m hm.1).1 (hdt m hm.1).2 hω.le hm.2 (hS m) (fun x u hu => by rw [vec x]; exact hS0 m u hu)
        (fun x u hu => by rw [vec x, em, hS1 m hm.1]; simp)
      exact ⟨V, I, fun _ _ => ⟨hac, happ⟩⟩
    · exact ⟨0, 0, fun a b => absurd ⟨a, b⟩ hm⟩
  choose V I hVI using hex
  intro ε hε
  obtain ⟨M, hM⟩ := C186_limit (V := V) (I := I) hD h hL hC hR hG hzs hzl (Or.inr (Or.inr hz)) hω (fun m hm => ⟨(hdt m hm).1, (hdt m hm).2.le⟩)
    (fun m hm hn => (hVI m hm hn).1) hv (ε / 2) (by linarith)
  refine ⟨M + 1, fun m hm => ?_⟩
  obtain ⟨hn, hk, hkI⟩ := hM m (by omega)
  have hm0 : 0 < m := by omega
  obtain ⟨em, -, -⟩ := constructed_even hD hm0 (h m hm0) (dt m) (S m)
  obtain ⟨J, hJ⟩ := (hVI m hm0 hn).2 (ε / 2) (by linarith)
  have close : ∀ {r ψ : ℝ} {X Y : ℂ}, |r - (X * Complex.exp (ψ * Complex.I)).re| ≤ ε / 2 → ‖X - Y‖ ≤ ε / 2 →
      |r - (Y * Complex.exp (ψ * Complex.I)).re| ≤ ε := by
    intro r ψ X Y h1 h2
    obtain ⟨e, he⟩ : ∃ e, e = Complex.exp (ψ * Complex.I) := ⟨_, rfl⟩
    have ne : ‖e‖ = 1 := by rw [he, Complex.norm_exp_ofReal_mul_I]
    rw [← he] at h1 ⊢
    have h3 : |(X * e).re - (Y * e).re| ≤ ε / 2 := by
      rw [← Complex.sub_re, ← sub_mul]
      refine (Complex.abs_re_le_norm _).trans ?_
      rw [norm_mul, ne, mul_one]
      exact h2
    calc _ = |(r - (X * e).re) + ((X * e).re - (Y * e).re)| := by congr 1; ring
      _ ≤ _ := (abs_add_le _ _).trans (by linarith)
  refine ⟨J, fun T t' N tr Rn j hj hN k hkm => ⟨?_, fun hkl => ?_⟩⟩
  · have h1 := (hJ T t' N tr Rn j hj hN).1 k (by show k ≤ (s m).m; omega) 0
    beta_reduce at h1
    rw [show (ω * (j * dt m - dt m) : ℂ) = ((ω * (j * dt m - dt m) : ℝ) : ℂ) by push_cast; ring] at h1 ⊢
    exact close h1 (hk k hkm)
  · have h1 := (hJ T t' N tr Rn j hj hN).2 k (by show k < (s m).m; omega) 0
    beta_reduce at h1
    rw [show (ω * (j * dt m - dt m / 2) : ℂ) = ((ω * (j * dt m - dt m / 2) : ℝ) : ℂ) by push_cast; ring] at h1 ⊢
    exact close h1 (hkI k hkl)

end

/-! ## Non-vacuity -/

/-- Lines of all numbers of cells that the constructor accepts, with time steps of half the automatic ones. -/
example : ∃ s : ℕ → MTL 1 0, (∀ m > 0, MTL.new 0 (.scalar 1) (.scalar 1) (.scalar 1) (.scalar 0) 1 [] [m] (.scalar 1) (.scalar 1) "fine" =
    .ok ⟨1, s m⟩) ∧ ∀ m > 0, 0 < (s m).dt / 2 ∧ (s m).dt / 2 < (s m).dt := by
  have hex : ∀ m : ℕ, ∃ s : MTL 1 0, 0 < m → MTL.new 0 (.scalar 1) (.scalar 1) (.scalar 1) (.scalar 0) 1 [] [m] (.scalar 1) (.scalar 1)
      "fine" = .ok ⟨1, s⟩ := by
    intro m
    by_cases hm : 0 < m
    · obtain ⟨s, hs⟩ : ∃ s : MTL 1 0, MTL.new 0 (.scalar 1) (.scalar 1) (.scalar 1) (.scalar 0) 1 [] [m] (.scalar 1) (.scalar 1)
          "fine" = .ok ⟨1, s⟩ := by
        refine C32_physical_accepted (d := m) "fine" one_ne_zero (.floats 1 1) (.one 1 rfl) .zero (.numbers 1 1)
          (spd_one one_pos) (spd_one one_pos) dissipative_zero (fun _ _ => zero_le_one) (fun _ _ => zero_le_one)
          hm (by simp) rfl (by simp) ⟨0, by simp, ?_⟩
        intro h
        have := congrFun h 2
        simp at this
      exact ⟨s, fun _ => hs⟩
    · obtain ⟨s, -⟩ : ∃ s : MTL 1 0, MTL.new 0 (.scalar 1) (.scalar 1) (.scalar 1) (.scalar 0) 1 [] [1] (.scalar 1) (.scalar 1)
          "fine" = .ok ⟨1, s⟩ := by
        refine C32_physical_accepted (d := 1) "fine" one_ne_zero (.floats 1 1) (.one 1 rfl) .zero (.numbers 1 1)
          (spd_one one_pos) (spd_one one_pos) dissipative_zero (fun _ _ => zero_le_one) (fun _ _ => zero_le_one)
          (by norm_num) (by simp) rfl (by simp) ⟨0, by simp, ?_⟩
        intro h
        have := congrFun h 2
        simp at this
      exact ⟨s, fun h => absurd h hm⟩
  choose s hs using hex
  refine ⟨s, hs, fun m hm => ?_⟩
  have := courant_even one_pos hm (hs m hm)
  have hm' : (0 : ℝ) < m := by exact_mod_cast hm
  have hp : 0 < (s m).dt := by
    rw [this, mul_one, Real.sqrt_one, mul_one]
    positivity
  exact ⟨by linarith, by linarith⟩

end Mtln
