import Verif.Props.Attenuation

/-! # What the ends of a line reflect, and the response of a lossy line in closed form: C185 -/

namespace Mtln

open Matrix

variable {p : ℕ}

/-- The ends of a line of one conductor: capacitance, conductance and impedance. -/
structure MTL.EvenEnds (s : MTL 1 p) (C G Zs Zl : ℝ) : Prop where
  c0 : s.c 0 = C • (1 : Mat 1)
  g0 : s.g 0 = G • (1 : Mat 1)
  cm : s.c s.m = C • (1 : Mat 1)
  gm : s.g s.m = G • (1 : Mat 1)
  zs : s.zs = Zs • (1 : Mat 1)
  zl : s.zl = Zl • (1 : Mat 1)

/-- The impedance of a wave with the factor `x` along a ladder of cells with the impedance `Z`: the ratio of the voltage at a node and
the current through it. -/
noncomputable def waveImpedance (Z x : ℂ) : ℂ := 2 * x * Z / (1 - x ^ 2)

/-- How the impedance `ζ` at an end counts: the cosine of half the phase of a step, and the part of the capacitance of the end that is
missing because the end was built for the time step `τ`. -/
noncomputable def loadFactor (h dt τ θ C ζ : ℝ) : ℂ := Real.cos (θ / 2) + ζ * (h / 2 * C * (1 / τ - 1 / dt)) * turn θ

section

variable {s : MTL 1 p} {τ θ h L C R G Zs Zl : ℝ} {E0 E1 : Fin 1 → ℂ} {V I : ℕ → Fin 1 → ℂ}

/-- **C185.**  In the sinusoidal steady state the two waves of a line of one conductor with equal cells are linked by its ends like those
of a transmission line with the impedance `waveImpedance`: the wave that leaves an end is the wave that reaches it times the reflection
factor, and the part of the source that the divider of both impedances lets through. -/
theorem C185_ends (hs : s.EvenLine h L C R G) (he : s.EvenEnds C G Zs Zl) (hm : 0 < s.m) (hac : s.AC τ θ E0 E1 0 0 V I) {x : ℂ}
    (hx : x ≠ 0) (hx2 : x ^ 2 ≠ 1) (hZ : cellImpedance h s.dt θ L R ≠ 0)
    (hroot : (x - 1) ^ 2 = cellImpedance h s.dt θ L R * cellImpedance h s.dt θ C G * x) :
    ∃ A B : ℂ, (∀ k ≤ s.m, V k 0 = A * x ^ k + B * x⁻¹ ^ k) ∧
      (∀ k < s.m, cellImpedance h s.dt θ L R * I k 0 = A * (1 - x) * x ^ k + B * (1 - x⁻¹) * x⁻¹ ^ k) ∧
      (Zs + loadFactor h s.dt τ θ C Zs * waveImpedance (cellImpedance h s.dt θ L R) x) * A =
        (Zs - loadFactor h s.dt τ θ C Zs * waveImpedance (cellImpedance h s.dt θ L R) x) * B +
          Real.cos (θ / 2) * waveImpedance (cellImpedance h s.dt θ L R) x * E0 0 ∧
      (Zl + loadFactor h s.dt τ θ C Zl * waveImpedance (cellImpedance h s.dt θ L R) x) * (B * x⁻¹ ^ s.m) =
        (Zl - loadFactor h s.dt τ θ C Zl * waveImpedance (cellImpedance h s.dt θ L R) x) * (A * x ^ s.m) +
          Real.cos (θ / 2) * waveImpedance (cellImpedance h s.dt θ L R) x * E1 0 := by
  obtain ⟨A, B, hV, hI⟩ := C181_waves hs hac hx hx2 hroot
  have e0 := congrFun hac.first 0
  have e1 := congrFun hac.last 0
  rw [he.c0, he.g0, he.zs, hs.dun 0 hm] at e0
  rw [he.cm, he.gm, he.zl, hs.dun (s.m - 1) (by omega)] at e1
  simp only [Pi.smul_apply, Pi.add_apply, Pi.sub_apply, Pi.neg_apply, Pi.zero_apply, cx_scalar, Complex.real_smul, smul_eq_mul, smul_zero,
    add_zero, mul_zero] at e0 e1
  have v0 := hV 0 (Nat.zero_le _)
  have i0 := hI 0 hm
  have vm := hV s.m le_rfl
  have im := hI (s.m - 1) (by omega)
  obtain ⟨j, hj⟩ : ∃ j, s.m = j + 1 := ⟨s.m - 1, by omega⟩
  obtain ⟨Z, eZ⟩ : ∃ Z, Z = cellImpedance h s.dt θ L R := ⟨_, rfl⟩
  obtain ⟨Y, eY⟩ : ∃ Y, Y = cellImpedance h s.dt θ C G := ⟨_, rfl⟩
  have eY' : Y = h * (C / s.dt * turn θ + G * Real.cos (θ / 2)) := by
    rw [eY, cellImpedance, turn]
    push_cast
    ring
  have hx3 : 1 - x ^ 2 ≠ 0 := fun e => hx2 (by linear_combination -e)
  refine ⟨A, B, hV, hI, ?_, ?_⟩
  all_goals
    rw [← eZ] at hroot hZ i0 im ⊢
    rw [← eY] at hroot
    unfold waveImpedance loadFactor
  · simp only [pow_zero, mul_one] at v0 i0
    -- the current through the end
    have hJ : Z * (I 0 0 + Y / 2 * V 0 0) * (2 * x) = (A - B) * (1 - x ^ 2) := by
      rw [v0]
      have : x * x⁻¹ = 1 := mul_inv_cancel₀ hx
      linear_combination (2 * x) * i0 - (A + B) * hroot - 2 * B * this
    have hend : (Real.cos (θ / 2) + Zs * (h / 2 * C * (1 / τ - 1 / s.dt)) * turn θ) * V 0 0 =
        Real.cos (θ / 2) * E0 0 - Zs * (I 0 0 + Y / 2 * V 0 0) := by
      rw [eY']
      push_cast at e0 ⊢
      linear_combination e0
    rw [v0] at hend
    have hJ' : I 0 0 + Y / 2 * (A + B) = (A - B) * (1 - x ^ 2) / (2 * x * Z) := by
      rw [eq_div_iff (by simp [hx, hZ]), ← v0]
      linear_combination hJ
    rw [hJ'] at hend
    push_cast at hend ⊢
    field_simp at hend ⊢
    linear_combination hend
  · rw [hj, Nat.add_sub_cancel] at im
    rw [hj, Nat.add_sub_cancel] at e1
    rw [hj] at vm ⊢
    obtain ⟨a, ha⟩ : ∃ a, a = A * x ^ (j + 1) := ⟨_, rfl⟩
    obtain ⟨b, hb⟩ : ∃ b, b = B * x⁻¹ ^ (j + 1) := ⟨_, rfl⟩
    rw [← ha, ← hb] at vm ⊢
    have one : x * x⁻¹ = 1 := mul_inv_cancel₀ hx
    have im' : Z * I j 0 * x = (1 - x) * a + (x - 1) * x * b := by
      rw [im, ha, hb, pow_succ, pow_succ]
      linear_combination (-B * x⁻¹ ^ j * x) * one
    have hJ : Z * (I j 0 - Y / 2 * V (j + 1) 0) * (2 * x) = (a - b) * (1 - x ^ 2) := by
      rw [vm]
      linear_combination 2 * im' + (a + b) * hroot
    have hend : (Real.cos (θ / 2) + Zl * (h / 2 * C * (1 / τ - 1 / s.dt)) * turn θ) * V (j + 1) 0 =
        Real.cos (θ / 2) * E1 0 + Zl * (I j 0 - Y / 2 * V (j + 1) 0) := by
      rw [eY']
      push_cast at e1 ⊢
      linear_combination e1
    rw [vm] at hend
    have hJ' : I j 0 - Y / 2 * (a + b) = (a - b) * (1 - x ^ 2) / (2 * x * Z) := by
      rw [eq_div_iff (by simp [hx, hZ]), ← vm]
      linear_combination hJ
    rw [hJ'] at hend
    push_cast at hend ⊢
    field_simp at hend ⊢
    linear_combination hend

/-- Resistances reflect at most what reaches them. -/
theorem reflection_le {r : ℝ} {z : ℂ} (hr : 0 ≤ r) (hz : 0 < z.re) : ‖(r - z) / (r + z)‖ ≤ 1 := by
  have h0 : (r + z : ℂ) ≠ 0 := by
    intro e
    have := congrArg Complex.re e
    simp only [Complex.add_re, Complex.zero_re, Complex.ofReal_re] at this
    linarith
  rw [norm_div, div_le_one (norm_pos_iff.2 h0)]
  refine (pow_le_pow_iff_left₀ (norm_nonneg _) (norm_nonneg _) two_ne_zero).1 ?_
  rw [Complex.sq_norm, Complex.sq_norm, Complex.normSq_apply, Complex.normSq_apply]
  simp only [Complex.add_re, Complex.add_im, Complex.sub_re, Complex.sub_im, Complex.ofReal_re, Complex.ofReal_im]
  nlinarith [mul_nonneg hr hz.le]

end

/-- The power that a decaying wave carries is what the cells behind take, so the real part of its admittance is positive. -/
theorem waveImpedance_re {Z Y x : ℂ} (hx : x ≠ 0) (hx1 : ‖x‖ < 1) (hZ : Z ≠ 0) (hroot : (x - 1) ^ 2 = Z * Y * x) (hR : 0 ≤ Z.re)
    (hG : 0 ≤ Y.re) (hRG : 0 < Z.re ∨ 0 < Y.re) : 0 < (waveImpedance Z x).re := by
  have hx2 : 1 - x ^ 2 ≠ 0 := by
    intro e
    have := congrArg norm (show x ^ 2 = 1 by linear_combination -e)
    rw [norm_pow, norm_one] at this
    nlinarith [norm_nonneg x]
  have hx3 : 1 - x ≠ 0 := fun e => hx2 (by linear_combination (1 + x) * e)
  obtain ⟨W, hW⟩ : ∃ W, W = waveImpedance Z x := ⟨_, rfl⟩
  have hW0 : W ≠ 0 := by
    rw [hW, waveImpedance]
    exact div_ne_zero (by simp [hx, hZ]) hx2
  obtain ⟨J, hJ⟩ : ∃ J, J = (1 - x) / Z := ⟨_, rfl⟩
  have hZJ : Z * J = 1 - x := by rw [hJ]; field_simp
  have h1 : W⁻¹ = J + Y / 2 := by
    rw [hW, waveImpedance, hJ]
    field_simp
    linear_combination hroot
  have h2 : x * W⁻¹ = J - Y / 2 * x := by
    rw [hW, waveImpedance, hJ]
    field_simp
    linear_combination -hroot
  have hp : (1 - Complex.normSq x) * (W⁻¹).re = Z.re * Complex.normSq J + Y.re * ((1 + Complex.normSq x) / 2) := by
    have a : (1 - Complex.normSq x) * (W⁻¹).re = (W⁻¹ - (starRingEnd ℂ) x * (x * W⁻¹)).re := by
      rw [← mul_assoc, ← Complex.normSq_eq_conj_mul_self, Complex.sub_re, Complex.re_ofReal_mul]
      ring
    have b : W⁻¹ - (starRingEnd ℂ) x * (x * W⁻¹) = (starRingEnd ℂ) (Z * J) * J + Y * ((1 + Complex.normSq x) / 2 : ℝ) := by
      rw [h2, h1, hZJ]
      push_cast
      rw [Complex.normSq_eq_conj_mul_self]
      simp only [map_sub, map_one]
      ring
    rw [a, b, map_mul, Complex.add_re, Complex.re_mul_ofReal, mul_assoc, ← Complex.normSq_eq_conj_mul_self, Complex.re_mul_ofReal,
      Complex.conj_re]
  have hlt : 0 < 1 - Complex.normSq x := by
    rw [← Complex.sq_norm]
    nlinarith [norm_nonneg x]
  have hJ0 : 0 < Complex.normSq J := Complex.normSq_pos.2 (by rw [hJ]; exact div_ne_zero hx3 hZ)
  have hpos : 0 < (W⁻¹).re := by
    by_contra hn
    have hle : (1 - Complex.normSq x) * (W⁻¹).re ≤ 0 := mul_nonpos_of_nonneg_of_nonpos hlt.le (not_lt.1 hn)
    rw [hp] at hle
    have hx0 := Complex.normSq_nonneg x
    rcases hRG with h | h
    · have := mul_pos h hJ0
      have := mul_nonneg hG (show 0 ≤ (1 + Complex.normSq x) / 2 by linarith)
      linarith
    · have := mul_nonneg hR hJ0.le
      have := mul_pos h (show 0 < (1 + Complex.normSq x) / 2 by linarith)
      linarith
  rw [Complex.inv_re] at hpos
  rw [← hW]
  by_contra hn
  exact absurd hpos (not_lt.2 (div_nonpos_of_nonpos_of_nonneg (not_lt.1 hn) (Complex.normSq_nonneg _)))

/-- **C185**: the impedance of the waves is the geometric mean of the impedances of cell and node, corrected for the length of a cell. -/
theorem C185_impedance {Z Y x : ℂ} (hx : x ≠ 0) (hx2 : x ^ 2 ≠ 1) (hroot : (x - 1) ^ 2 = Z * Y * x) :
    waveImpedance Z x ^ 2 * (Y * (1 + Z * Y / 4)) = Z := by
  have hx3 : 1 - x ^ 2 ≠ 0 := fun e => hx2 (by linear_combination -e)
  have e : (1 - x ^ 2) ^ 2 = Z * Y * (4 + Z * Y) * x ^ 2 := by
    linear_combination ((x - 1) ^ 2 + 4 * x + Z * Y * x) * hroot
  rw [waveImpedance, div_pow]
  field_simp
  linear_combination -4 * Z * e

/-- The reflection factor of an end with the impedance `ζ` for waves with the impedance `W`. -/
noncomputable def reflectionFactor (κ W : ℂ) (ζ : ℝ) : ℂ := (ζ - κ * W) / (ζ + κ * W)

theorem loadFactor_re (h dt τ θ C ζ : ℝ) : (loadFactor h dt τ θ C ζ).re = Real.cos (θ / 2) := by
  rw [show loadFactor h dt τ θ C ζ = ((Real.cos (θ / 2) : ℝ) : ℂ) +
    ((ζ * (h / 2 * C * (1 / τ - 1 / dt)) * (2 * Real.sin (θ / 2)) : ℝ) : ℂ) * Complex.I by
      unfold loadFactor turn; push_cast; ring]
  simp only [Complex.add_re, Complex.re_ofReal_mul, Complex.I_re, Complex.ofReal_re, mul_zero, add_zero]

/-- **C185**: at ends that are built for the time step of the run passive ends reflect at most what reaches them. -/
theorem C185_passive {h dt θ C ζ : ℝ} {W : ℂ} (hγ : 0 < Real.cos (θ / 2)) (hζ : 0 ≤ ζ) (hW : 0 < W.re) :
    ‖reflectionFactor (loadFactor h dt dt θ C ζ) W ζ‖ ≤ 1 := by
  have e : loadFactor h dt dt θ C ζ = ((Real.cos (θ / 2) : ℝ) : ℂ) := by simp [loadFactor]
  rw [e, reflectionFactor]
  refine reflection_le hζ ?_
  rw [Complex.re_ofReal_mul]
  exact mul_pos hγ hW

/-- What the voltage at an end and the current through it tell about the power. -/
theorem end_power {κ v j : ℂ} {ζ : ℝ} (hκ : 0 < κ.re) (hζ : 0 ≤ ζ) (h : κ * v = ζ * j) : 0 ≤ (v * (starRingEnd ℂ) j).re := by
  have h0 : κ ≠ 0 := fun e => by simp [e] at hκ
  have e : v * (starRingEnd ℂ) j = κ⁻¹ * ((ζ * Complex.normSq j : ℝ) : ℂ) := by
    rw [Complex.ofReal_mul, ← Complex.mul_conj]
    field_simp
    linear_combination (starRingEnd ℂ) j * h
  rw [e, Complex.re_mul_ofReal, Complex.inv_re]
  exact mul_nonneg (div_nonneg hκ.le (Complex.normSq_nonneg _)) (mul_nonneg hζ (Complex.normSq_nonneg _))

theorem load_ne_zero {κ W : ℂ} {ζ : ℝ} (hκ : 0 < κ.re) (hζ : 0 ≤ ζ) (hW : 0 < W.re) : (ζ + κ * W : ℂ) ≠ 0 := by
  have h0 : κ ≠ 0 := fun e => by simp [e] at hκ
  intro e
  have e' : (ζ : ℂ) * κ⁻¹ + W = 0 := by
    field_simp
    linear_combination e
  have := congrArg Complex.re e'
  rw [Complex.add_re, Complex.re_ofReal_mul, Complex.inv_re, Complex.zero_re] at this
  have := mul_nonneg hζ (div_nonneg hκ.le (Complex.normSq_nonneg κ))
  linarith

/-- Two waves that fulfil both ends without sources are zero: the power can only fall along the cells. -/
theorem no_echo {Z Y x W κs κl A B : ℂ} {ζs ζl : ℝ} {m : ℕ} (hm : 0 < m) (hx : x ≠ 0) (hx2 : x ^ 2 ≠ 1) (hZ : Z ≠ 0)
    (hroot : (x - 1) ^ 2 = Z * Y * x) (hR : 0 ≤ Z.re) (hG : 0 ≤ Y.re) (hRG : 0 < Z.re ∨ 0 < Y.re) (hW : W = waveImpedance Z x)
    (hκs : 0 < κs.re) (hκl : 0 < κl.re) (hζs : 0 ≤ ζs) (hζl : 0 ≤ ζl) (hA : (ζs + κs * W) * A = (ζs - κs * W) * B)
    (hB : (ζl + κl * W) * (B * x⁻¹ ^ m) = (ζl - κl * W) * (A * x ^ m)) : A = 0 ∧ B = 0 := by
  have hx3 : 1 - x ^ 2 ≠ 0 := fun e => hx2 (by linear_combination -e)
  have hW0 : W ≠ 0 := by
    rw [hW, waveImpedance]
    exact div_ne_zero (by simp [hx, hZ]) hx3
  obtain ⟨V, hV⟩ : ∃ V : ℕ → ℂ, ∀ k, V k = A * x ^ k + B * x⁻¹ ^ k := ⟨_, fun _ => rfl⟩
  obtain ⟨J, hJ⟩ : ∃ J : ℕ → ℂ, ∀ k, J k = (A * x ^ k - B * x⁻¹ ^ k) / W := ⟨_, fun _ => rfl⟩
  obtain ⟨I, hI⟩ : ∃ I : ℕ → ℂ, ∀ k, I k = (V k - V (k + 1)) / Z := ⟨_, fun _ => rfl⟩
  have hZI : ∀ k, V k - V (k + 1) = Z * I k := fun k => by rw [hI]; field_simp
  have one : x * x⁻¹ = 1 := mul_inv_cancel₀ hx
  have j1 : ∀ k, J k = I k + Y / 2 * V k := by
    intro k
    have e : W * (1 - x ^ 2) = 2 * x * Z := by rw [hW, waveImpedance]; field_simp
    have e2 : x * (V k - V (k + 1)) + x * Z * Y / 2 * V k = (A * x ^ k - B * x⁻¹ ^ k) * (1 - x ^ 2) / 2 := by
      rw [hV, hV, pow_succ, pow_succ]
      linear_combination (-(A * x ^ k + B * x⁻¹ ^ k) / 2) * hroot - B * x⁻¹ ^ k * one
    have e3 : (J k - (I k + Y / 2 * V k)) * (2 * x * Z) = 0 := by
      have a : J k * W = A * x ^ k - B * x⁻¹ ^ k := by rw [hJ]; field_simp
      have b := hZI k
      linear_combination -(J k) * e + (1 - x ^ 2) * a + 2 * x * b - 2 * e2
    have := (mul_eq_zero.1 e3).resolve_right (by simp [hx, hZ])
    linear_combination this
  have j2 : ∀ k, J (k + 1) = I k - Y / 2 * V (k + 1) := by
    intro k
    have e : W * (1 - x ^ 2) = 2 * x * Z := by rw [hW, waveImpedance]; field_simp
    have e2 : x * (V k - V (k + 1)) - x * Z * Y / 2 * V (k + 1) = (A * x ^ (k + 1) - B * x⁻¹ ^ (k + 1)) * (1 - x ^ 2) / 2 := by
      have p : x * x⁻¹ ^ (k + 1) = x⁻¹ ^ k := by rw [pow_succ]; linear_combination x⁻¹ ^ k * one
      have r : V (k + 1) = A * x ^ (k + 1) + B * x⁻¹ ^ (k + 1) := hV _
      have r' : V k = A * x ^ k + B * (x * x⁻¹ ^ (k + 1)) := by rw [p]; exact hV k
      rw [r, r', pow_succ x]
      linear_combination ((A * (x ^ k * x) + B * x⁻¹ ^ (k + 1)) / 2) * hroot
    have e3 : (J (k + 1) - (I k - Y / 2 * V (k + 1))) * (2 * x * Z) = 0 := by
      have a : J (k + 1) * W = A * x ^ (k + 1) - B * x⁻¹ ^ (k + 1) := by rw [hJ]; field_simp
      have b := hZI k
      linear_combination -(J (k + 1)) * e + (1 - x ^ 2) * a + 2 * x * b - 2 * e2
    have := (mul_eq_zero.1 e3).resolve_right (by simp [hx, hZ])
    linear_combination this
  have hp : ∀ k, (V k * (starRingEnd ℂ) (J k)).re - (V (k + 1) * (starRingEnd ℂ) (J (k + 1))).re =
      Z.re * Complex.normSq (I k) + Y.re * ((Complex.normSq (V k) + Complex.normSq (V (k + 1))) / 2) := by
    intro k
    have e : V k * (starRingEnd ℂ) (J k) - V (k + 1) * (starRingEnd ℂ) (J (k + 1)) =
        Z * ((Complex.normSq (I k) : ℝ) : ℂ) +
          (starRingEnd ℂ) Y * (((Complex.normSq (V k) + Complex.normSq (V (k + 1))) / 2 : ℝ) : ℂ) := by
      rw [j1, j2]
      push_cast
      rw [← Complex.mul_conj, ← Complex.mul_conj, ← Complex.mul_conj]
      simp only [map_add, map_sub, map_mul, map_div₀, Complex.conj_ofNat]
      linear_combination (starRingEnd ℂ) (I k) * hZI k
    rw [← Complex.sub_re, e, Complex.add_re, Complex.re_mul_ofReal, Complex.re_mul_ofReal, Complex.conj_re]
  have hnn : ∀ k, 0 ≤ Z.re * Complex.normSq (I k) + Y.re * ((Complex.normSq (V k) + Complex.normSq (V (k + 1))) / 2) := fun k =>
    add_nonneg (mul_nonneg hR (Complex.normSq_nonneg _)) (mul_nonneg hG (by
      have := Complex.normSq_nonneg (V k)
      have := Complex.normSq_nonneg (V (k + 1))
      positivity))
  have hdec : ∀ k, (V (k + 1) * (starRingEnd ℂ) (J (k + 1))).re ≤ (V 1 * (starRingEnd ℂ) (J 1)).re := by
    intro k
    induction k with
    | zero => exact le_rfl
    | succ k ih =>
      have a := hp (k + 1)
      have b := hnn (k + 1)
      linarith
  have end0 : κs * V 0 = ζs * -J 0 := by
    rw [hV, hJ]
    simp only [pow_zero, mul_one]
    field_simp
    linear_combination hA
  have endm : κl * V m = ζl * J m := by
    have a : J m * W = A * x ^ m - B * x⁻¹ ^ m := by rw [hJ]; field_simp
    refine mul_right_cancel₀ hW0 ?_
    rw [hV]
    linear_combination hB - ζl * a
  have p0 := end_power hκs hζs end0
  have pm := end_power hκl hζl endm
  rw [map_neg, mul_neg, Complex.neg_re] at p0
  have hd := hdec (m - 1)
  rw [Nat.sub_add_cancel hm] at hd
  have hz : Z.re * Complex.normSq (I 0) + Y.re * ((Complex.normSq (V 0) + Complex.normSq (V 1)) / 2) ≤ 0 := by
    rw [← hp 0]
    show _ - (V 1 * (starRingEnd ℂ) (J 1)).re ≤ 0
    linarith
  have n1 := mul_nonneg hR (Complex.normSq_nonneg (I 0))
  have nv0 := Complex.normSq_nonneg (V 0)
  have nv1 := Complex.normSq_nonneg (V 1)
  have n2 := mul_nonneg hG (show 0 ≤ (Complex.normSq (V 0) + Complex.normSq (V 1)) / 2 by linarith)
  have hv : V 0 = 0 ∧ V 1 = 0 := by
    rcases hRG with h | h
    · have i0 : I 0 = 0 := by
        by_contra hne
        have := mul_pos h (Complex.normSq_pos.2 hne)
        linarith
      have e01 := hZI 0
      rw [i0, mul_zero] at e01
      have v0 : V 0 = 0 := by
        have e : (κs + ζs * (Y / 2)) * V 0 = 0 := by
          rw [j1, i0, zero_add] at end0
          linear_combination end0
        refine (mul_eq_zero.1 e).resolve_left fun e' => ?_
        have := congrArg Complex.re e'
        rw [Complex.add_re, Complex.re_ofReal_mul, Complex.zero_re, Complex.div_ofNat_re] at this
        have := mul_nonneg hζs (div_nonneg hG (zero_le_two (α := ℝ)))
        linarith
      exact ⟨v0, by rw [v0] at e01; linear_combination -e01⟩
    · constructor
      all_goals
        by_contra hne
        have := Complex.normSq_pos.2 hne
        have := mul_pos h (show 0 < (Complex.normSq (V 0) + Complex.normSq (V 1)) / 2 by linarith)
        linarith
  have v0 := hv.1
  have v1 := hv.2
  rw [hV] at v0 v1
  simp only [pow_zero, pow_one, mul_one] at v0 v1
  have a0 : A * (1 - x ^ 2) = 0 := by linear_combination v0 - x * v1 + B * one
  have a1 : A = 0 := (mul_eq_zero.1 a0).resolve_right hx3
  exact ⟨a1, by rw [a1, zero_add] at v0; exact v0⟩

/-- **C185**, the response of a lossy line of one conductor in closed form: the source divided between its impedance and that of the waves,
the wave of factor `x` and its reflection at the second end, and the sum of all further reflections. -/
theorem C185_response {s : MTL 1 p} {τ θ h L C R G Zs Zl : ℝ} {E0 : Fin 1 → ℂ} {V I : ℕ → Fin 1 → ℂ} (hs : s.EvenLine h L C R G)
    (he : s.EvenEnds C G Zs Zl) (hm : 0 < s.m) (hac : s.AC τ θ E0 0 0 0 V I) (hh : 0 < h) (hdt : 0 < s.dt) (h0 : 0 < θ)
    (hπ : θ < Real.pi) (hL : 0 < L) (hC : 0 < C) (hR : 0 ≤ R) (hG : 0 ≤ G) (hRG : 0 < R ∨ 0 < G) (hzs : 0 ≤ Zs) (hzl : 0 ≤ Zl) :
    ∃ x W κs κl : ℂ, x ≠ 0 ∧ ‖x‖ < 1 ∧ x.im < 0 ∧
      (x - 1) ^ 2 = cellImpedance h s.dt θ L R * cellImpedance h s.dt θ C G * x ∧
      W = waveImpedance (cellImpedance h s.dt θ L R) x ∧ 0 < W.re ∧ κs = loadFactor h s.dt τ θ C Zs ∧ κl = loadFactor h s.dt τ θ C Zl ∧
      1 - reflectionFactor κs W Zs * reflectionFactor κl W Zl * x ^ (2 * s.m) ≠ 0 ∧
      ∀ k ≤ s.m, V k 0 = Real.cos (θ / 2) * W / (Zs + κs * W) * E0 0 * (x ^ k + reflectionFactor κl W Zl * x ^ (2 * s.m - k)) /
        (1 - reflectionFactor κs W Zs * reflectionFactor κl W Zl * x ^ (2 * s.m)) := by
  obtain ⟨x, x0, x1, x2, hroot, -⟩ := C181_attenuation (h := h) (θ := θ) hh hdt h0 hπ hL hC hR hG hRG
  have hx2 : x ^ 2 ≠ 1 := by
    intro e
    have := congrArg norm e
    rw [norm_pow, norm_one] at this
    have := norm_nonneg x
    nlinarith
  have hsin : 0 < Real.sin (θ / 2) := Real.sin_pos_of_pos_of_lt_pi (by linarith) (by linarith)
  have hcos : 0 < Real.cos (θ / 2) := Real.cos_pos_of_mem_Ioo ⟨by linarith, by linarith⟩
  have parts : ∀ a b : ℝ, (cellImpedance h s.dt θ a b).re = h * (b * Real.cos (θ / 2)) ∧
      (cellImpedance h s.dt θ a b).im = h * (a / s.dt * (2 * Real.sin (θ / 2))) := by
    intro a b
    rw [show cellImpedance h s.dt θ a b = ((h * (b * Real.cos (θ / 2)) : ℝ) : ℂ) +
      ((h * (a / s.dt * (2 * Real.sin (θ / 2))) : ℝ) : ℂ) * Complex.I by unfold cellImpedance; push_cast; ring]
    simp only [Complex.add_re, Complex.add_im, Complex.re_ofReal_mul, Complex.im_ofReal_mul, Complex.I_re, Complex.I_im, Complex.ofReal_re,
      Complex.ofReal_im, mul_zero, mul_one, add_zero, zero_add, and_self]
  have hZ : cellImpedance h s.dt θ L R ≠ 0 := by
    intro e
    have := (parts L R).2
    rw [e, Complex.zero_im] at this
    have : 0 < h * (L / s.dt * (2 * Real.sin (θ / 2))) := by positivity
    linarith
  obtain ⟨A, B, hV, -, hA, hB⟩ := C185_ends hs he hm hac x0 hx2 hZ hroot
  obtain ⟨W, hW⟩ : ∃ W, W = waveImpedance (cellImpedance h s.dt θ L R) x := ⟨_, rfl⟩
  have hZre : 0 ≤ (cellImpedance h s.dt θ L R).re := by rw [(parts L R).1]; positivity
  have hYre : 0 ≤ (cellImpedance h s.dt θ C G).re := by rw [(parts C G).1]; positivity
  have hZY : 0 < (cellImpedance h s.dt θ L R).re ∨ 0 < (cellImpedance h s.dt θ C G).re := by
    rw [(parts L R).1, (parts C G).1]
    exact hRG.imp (fun h => by positivity) fun h => by positivity
  have hWre : 0 < W.re := hW ▸ waveImpedance_re x0 x1 hZ hroot hZre hYre hZY
  rw [← hW] at hA hB
  obtain ⟨κs, hκs⟩ : ∃ κ, κ = loadFactor h s.dt τ θ C Zs := ⟨_, rfl⟩
  obtain ⟨κl, hκl⟩ : ∃ κ, κ = loadFactor h s.dt τ θ C Zl := ⟨_, rfl⟩
  rw [← hκs] at hA
  rw [← hκl] at hB
  have ps : 0 < κs.re := by rw [hκs, loadFactor_re]; exact hcos
  have pl : 0 < κl.re := by rw [hκl, loadFactor_re]; exact hcos
  have ns := load_ne_zero ps hzs hWre
  have nl := load_ne_zero pl hzl hWre
  obtain ⟨Γs, hΓs⟩ : ∃ Γ, Γ = reflectionFactor κs W Zs := ⟨_, rfl⟩
  obtain ⟨Γl, hΓl⟩ : ∃ Γ, Γ = reflectionFactor κl W Zl := ⟨_, rfl⟩
  obtain ⟨S, hS⟩ : ∃ S, S = Real.cos (θ / 2) * W / (Zs + κs * W) * E0 0 := ⟨_, rfl⟩
  have eA : A = Γs * B + S := by
    rw [hΓs, hS, reflectionFactor]
    field_simp
    linear_combination hA
  have pw : x ^ s.m * x⁻¹ ^ s.m = 1 := by rw [← mul_pow, mul_inv_cancel₀ x0, one_pow]
  have eB : B = Γl * A * x ^ (2 * s.m) := by
    have : B * x⁻¹ ^ s.m = Γl * (A * x ^ s.m) := by
      rw [hΓl, reflectionFactor]
      simp only [Pi.zero_apply, mul_zero, add_zero] at hB
      field_simp
      linear_combination hB
    rw [two_mul, pow_add]
    linear_combination x ^ s.m * this - B * pw
  have hden : 1 - Γs * Γl * x ^ (2 * s.m) ≠ 0 := by
    intro e
    have e' : Γs * Γl * x ^ (2 * s.m) = 1 := by linear_combination -e
    refine one_ne_zero (no_echo (A := 1) (B := Γl * x ^ (2 * s.m)) hm x0 hx2 hZ hroot hZre hYre hZY hW ps pl hzs hzl ?_ ?_).1
    · rw [hΓs, reflectionFactor] at e'
      field_simp at e'
      linear_combination -e'
    · have e2 : (Zl + κl * W) * Γl = Zl - κl * W := by rw [hΓl, reflectionFactor]; field_simp
      rw [two_mul, pow_add]
      linear_combination x ^ s.m * x ^ s.m * x⁻¹ ^ s.m * e2 + (Zl - κl * W) * x ^ s.m * pw
  refine ⟨x, W, κs, κl, x0, x1, x2, hroot, hW, hWre, hκs, hκl, hΓs ▸ hΓl ▸ hden, fun k hk => ?_⟩
  rw [← hS, ← hΓs, ← hΓl, hV k hk, eq_div_iff hden]
  have pk : x ^ (2 * s.m) * x⁻¹ ^ k = x ^ (2 * s.m - k) := by
    have : x ^ (2 * s.m) = x ^ (2 * s.m - k) * x ^ k := by rw [← pow_add]; congr 1; omega
    rw [this, mul_assoc, ← mul_pow, mul_inv_cancel₀ x0, one_pow, mul_one]
  have eA' : A * (1 - Γs * Γl * x ^ (2 * s.m)) = S := by linear_combination eA + Γs * eB
  rw [← pk]
  linear_combination (x ^ k + Γl * (x ^ (2 * s.m) * x⁻¹ ^ k)) * eA' + x⁻¹ ^ k * (1 - Γs * Γl * x ^ (2 * s.m)) * eB

/-- **C185**: with the largest stable time step and ends built for it, a line without losses whose second end has the resistance
`√(L / C)` is matched at every frequency: there is no wave back, and every cell delays by exactly one time step. -/
theorem C185_matched {s : MTL 1 p} {θ h L C Zs ζ : ℝ} {E0 : Fin 1 → ℂ} {V I : ℕ → Fin 1 → ℂ} (hs : s.EvenLine h L C 0 0)
    (he : s.EvenEnds C 0 Zs ζ) (hm : 0 < s.m) (hac : s.AC s.dt θ E0 0 0 0 V I) (hh : 0 < h) (hdt : 0 < s.dt) (hθ : Real.sin θ ≠ 0)
    (hL : 0 < L) (hC : 0 < C) (hzs : 0 ≤ Zs) (hmax : s.dt = h * Real.sqrt (L * C)) (hζ : ζ = Real.sqrt (L / C)) :
    ∀ k ≤ s.m, V k 0 = ζ / (Zs + ζ) * E0 0 * Complex.exp (-(k * θ) * Complex.I) := by
  have hζ0 : 0 < ζ := hζ ▸ Real.sqrt_pos.2 (div_pos hL hC)
  have hLC : (h * Real.sqrt (L * C)) ^ 2 = h ^ 2 * (L * C) := by rw [mul_pow, Real.sq_sqrt (mul_pos hL hC).le]
  have hd2 : s.dt ^ 2 = h ^ 2 * (L * C) := by rw [hmax, hLC]
  have hζd : ζ * s.dt = h * L := by
    have h1 : (ζ * s.dt) ^ 2 = (h * L) ^ 2 := by
      rw [mul_pow, hd2, hζ, Real.sq_sqrt (div_pos hL hC).le]
      field_simp
    exact (pow_left_inj₀ (by positivity) (by positivity) two_ne_zero).1 h1
  obtain ⟨y, hy⟩ : ∃ y, y = Complex.exp (-(θ / 2 : ℝ) * Complex.I) := ⟨_, rfl⟩
  obtain ⟨γ, hγ⟩ : ∃ γ, γ = Real.cos (θ / 2) := ⟨_, rfl⟩
  obtain ⟨σ, hσ⟩ : ∃ σ, σ = Real.sin (θ / 2) := ⟨_, rfl⟩
  have y0 : y ≠ 0 := hy ▸ Complex.exp_ne_zero _
  have hyγ : y = γ - σ * Complex.I := by
    rw [hy, hγ, hσ, ← Complex.ofReal_neg, Complex.exp_mul_I, ← Complex.ofReal_cos, ← Complex.ofReal_sin,
      Real.cos_neg, Real.sin_neg, Complex.ofReal_neg]
    ring
  have one : ((γ : ℂ)) ^ 2 + σ ^ 2 = 1 := by
    have := Real.cos_sq_add_sin_sq (θ / 2)
    rw [← hγ, ← hσ] at this
    exact_mod_cast this
  have ii := Complex.I_sq
  have hne : σ ≠ 0 ∧ γ ≠ 0 := by
    have : Real.sin θ = 2 * σ * γ := by
      rw [hσ, hγ, ← Real.sin_two_mul]
      congr 1
      ring
    rw [this] at hθ
    constructor
    · rintro rfl
      exact hθ (by ring)
    · rintro rfl
      exact hθ (by ring)
  have hσ0 : (σ : ℂ) ≠ 0 := by exact_mod_cast hne.1
  have hγ0 : (γ : ℂ) ≠ 0 := by exact_mod_cast hne.2
  have hdc : (s.dt : ℂ) ≠ 0 := by exact_mod_cast hdt.ne'
  have hhc : (h : ℂ) ≠ 0 := by exact_mod_cast hh.ne'
  have hζc : (ζ : ℂ) ≠ 0 := by exact_mod_cast hζ0.ne'
  have hζd' : (ζ : ℂ) * s.dt = h * L := by exact_mod_cast hζd
  have hd2' : (s.dt : ℂ) ^ 2 = h ^ 2 * (L * C) := by exact_mod_cast hd2
  have hZ : cellImpedance h s.dt θ L 0 = 2 * ζ * σ * Complex.I := by
    rw [cellImpedance, ← hσ]
    push_cast
    field_simp
    linear_combination -(2 * σ * Complex.I) * hζd'
  have hZY : cellImpedance h s.dt θ L 0 * cellImpedance h s.dt θ C 0 = -4 * σ ^ 2 := by
    rw [cellImpedance, cellImpedance, ← hσ]
    push_cast
    field_simp
    linear_combination 4 * h ^ 2 * L * C * σ ^ 2 * ii + 4 * σ ^ 2 * hd2'
  obtain ⟨x, hx⟩ : ∃ x, x = y ^ 2 := ⟨_, rfl⟩
  have x0 : x ≠ 0 := hx ▸ pow_ne_zero 2 y0
  have hx1 : x - 1 = -2 * σ * Complex.I * y := by
    rw [hx, hyγ]
    linear_combination one - σ ^ 2 * ii
  have hx2' : 1 - x ^ 2 = 4 * σ * γ * Complex.I * x := by
    have hp : x + 1 = 2 * γ * y := by
      rw [hx, hyγ]
      linear_combination (-(1 : ℂ)) * one + σ ^ 2 * ii
    rw [hx]
    rw [hx] at hx1 hp
    linear_combination (-(y ^ 2 + 1)) * hx1 + 2 * σ * Complex.I * y * hp
  have hx2 : x ^ 2 ≠ 1 := by
    intro e
    rw [e, sub_self] at hx2'
    have : (4 * σ * γ * Complex.I * x : ℂ) ≠ 0 := by simp [hσ0, hγ0, x0, Complex.I_ne_zero]
    exact this hx2'.symm
  have hroot : (x - 1) ^ 2 = cellImpedance h s.dt θ L 0 * cellImpedance h s.dt θ C 0 * x := by
    rw [hZY, hx1, hx]
    linear_combination (4 * σ ^ 2 * y ^ 2) * ii
  have hZ0 : cellImpedance h s.dt θ L 0 ≠ 0 := by
    rw [hZ]
    simp [hσ0, hζc, Complex.I_ne_zero]
  have hW : waveImpedance (cellImpedance h s.dt θ L 0) x = ζ / γ := by
    rw [hZ, waveImpedance, hx2']
    have := Complex.I_ne_zero
    field_simp
    ring
  have hκ : ∀ z, loadFactor h s.dt s.dt θ C z = γ := by
    intro z
    rw [hγ]
    simp [loadFactor]
  obtain ⟨A, B, hV, -, hA, hB⟩ := C185_ends hs he hm hac x0 hx2 hZ0 hroot
  rw [hW, hκ, ← hγ] at hA hB
  have eW : (γ : ℂ) * (ζ / γ) = ζ := by field_simp
  rw [eW] at hA hB
  have b0 : B = 0 := by
    simp only [Pi.zero_apply, mul_zero, add_zero, sub_self, zero_mul] at hB
    have h1 : (ζ + ζ : ℂ) ≠ 0 := by
      rw [← two_mul]
      exact mul_ne_zero two_ne_zero hζc
    have h2 := (mul_eq_zero.1 hB).resolve_left h1
    exact (mul_eq_zero.1 h2).resolve_right (pow_ne_zero _ (inv_ne_zero x0))
  have hsum : (Zs + ζ : ℂ) ≠ 0 := by
    have : Zs + ζ ≠ 0 := by positivity
    exact_mod_cast this
  intro k hk
  have ex : x ^ k = Complex.exp (-(k * θ) * Complex.I) := by
    rw [hx, hy, ← Complex.exp_nat_mul, ← Complex.exp_nat_mul]
    congr 1
    push_cast
    ring
  rw [hV k hk, b0, zero_mul, add_zero, ex]
  rw [b0, mul_zero, zero_add] at hA
  have : A = ζ / (Zs + ζ) * E0 0 := by
    field_simp
    linear_combination hA
  rw [this]

/-- The matched line does have a solution. -/
theorem C185_matched_exists {s : MTL 1 p} {θ h L C Zs ζ : ℝ} (E0 : Fin 1 → ℂ) (hs : s.EvenLine h L C 0 0) (he : s.EvenEnds C 0 Zs ζ)
    (hm : 0 < s.m) (hh : 0 < h) (hdt : 0 < s.dt) (hL : 0 < L) (hC : 0 < C) (hzs : 0 ≤ Zs) (hmax : s.dt = h * Real.sqrt (L * C))
    (hζ : ζ = Real.sqrt (L / C)) : ∃ V I, s.AC s.dt θ E0 0 0 0 V I := by
  have hζ0 : 0 < ζ := hζ ▸ Real.sqrt_pos.2 (div_pos hL hC)
  have hd2 : s.dt ^ 2 = h ^ 2 * (L * C) := by rw [hmax, mul_pow, Real.sq_sqrt (mul_pos hL hC).le]
  have hζd : ζ * s.dt = h * L := by
    have h1 : (ζ * s.dt) ^ 2 = (h * L) ^ 2 := by
      rw [mul_pow, hd2, hζ, Real.sq_sqrt (div_pos hL hC).le]
      field_simp
    exact (pow_left_inj₀ (by positivity) (by positivity) two_ne_zero).1 h1
  have hζC : ζ * (h * C) = s.dt := by
    refine mul_right_cancel₀ hdt.ne' ?_
    linear_combination (h * C) * hζd - hd2
  obtain ⟨γ, hγ⟩ : ∃ γ, γ = Real.cos (θ / 2) := ⟨_, rfl⟩
  obtain ⟨σ, hσ⟩ : ∃ σ, σ = Real.sin (θ / 2) := ⟨_, rfl⟩
  have one : ((γ : ℂ)) ^ 2 + σ ^ 2 = 1 := by
    have := Real.cos_sq_add_sin_sq (θ / 2)
    rw [← hγ, ← hσ] at this
    exact_mod_cast this
  have ii := Complex.I_sq
  obtain ⟨y, hy⟩ : ∃ y : ℂ, y = γ - σ * Complex.I := ⟨_, rfl⟩
  have hdc : (s.dt : ℂ) ≠ 0 := by exact_mod_cast hdt.ne'
  have hζc : (ζ : ℂ) ≠ 0 := by exact_mod_cast hζ0.ne'
  have hζd' : (ζ : ℂ) * s.dt = h * L := by exact_mod_cast hζd
  have hζC' : (ζ : ℂ) * (h * C) = s.dt := by exact_mod_cast hζC
  have hsum : (Zs + ζ : ℂ) ≠ 0 := by
    have : Zs + ζ ≠ 0 := by positivity
    exact_mod_cast this
  obtain ⟨A, hA⟩ : ∃ A : ℂ, A = ζ / (Zs + ζ) * E0 0 := ⟨_, rfl⟩
  have hA' : (Zs + ζ) * A = ζ * E0 0 := by rw [hA]; field_simp
  have hyσ : y ^ 2 - 1 = -2 * σ * Complex.I * y := by
    rw [hy]
    linear_combination one - σ ^ 2 * ii
  have hyγ : y ^ 2 + 1 = 2 * γ * y := by
    rw [hy]
    linear_combination (-(1 : ℂ)) * one + σ ^ 2 * ii
  have z : ∀ X : Fin 1, X = 0 := fun X => Subsingleton.elim _ _
  have hCd : (h : ℂ) * C / s.dt = (ζ : ℂ)⁻¹ := by
    field_simp
    linear_combination hζC'
  have hLd : (h : ℂ) * L / s.dt = ζ := by
    field_simp
    linear_combination -hζd'
  refine ⟨fun k _ => A * (y ^ 2) ^ k, fun k _ => A * (y ^ 2) ^ k * y * (ζ : ℂ)⁻¹, ⟨fun k hk => ?_, fun k h0 hk => ?_, ?_, ?_⟩⟩
  · funext a
    rw [z a, hs.dun k hk, hs.l k hk, hs.r k hk]
    simp only [Pi.smul_apply, Pi.add_apply, Pi.sub_apply, Pi.neg_apply, Pi.zero_apply, cx_scalar, Complex.real_smul, smul_eq_mul, turn,
      smul_zero, sub_zero, add_zero, ← hσ, ← hγ, pow_succ (y ^ 2)]
    push_cast
    have e : (ζ : ℂ) * (ζ : ℂ)⁻¹ = 1 := mul_inv_cancel₀ hζc
    linear_combination (2 * σ * Complex.I * A * (y ^ 2) ^ k * y * (ζ : ℂ)⁻¹) * hLd + (2 * σ * Complex.I * A * (y ^ 2) ^ k * y) * e +
      A * (y ^ 2) ^ k * hyσ
  · obtain ⟨j, rfl⟩ : ∃ j, k = j + 1 := ⟨k - 1, by omega⟩
    funext a
    rw [z a, Nat.add_sub_cancel, hs.dun j (by omega), hs.dun (j + 1) hk, hs.c _ h0 hk, hs.g _ h0 hk]
    simp only [Pi.smul_apply, Pi.add_apply, Pi.sub_apply, Pi.neg_apply, Pi.zero_apply, cx_scalar, Complex.real_smul, smul_eq_mul, turn,
      smul_zero, sub_zero, add_zero, mul_zero, ← hσ, ← hγ, pow_succ (y ^ 2)]
    push_cast
    linear_combination (2 * σ * Complex.I * A * (y ^ 2) ^ j * y ^ 2) * hCd + A * (y ^ 2) ^ j * y * (ζ : ℂ)⁻¹ * hyσ
  · funext a
    rw [z a, he.c0, he.g0, he.zs, hs.dun 0 hm]
    simp only [Pi.smul_apply, Pi.add_apply, Pi.sub_apply, Pi.neg_apply, Pi.zero_apply, cx_scalar, Complex.real_smul, smul_eq_mul, turn,
      smul_zero, sub_zero, add_zero, mul_zero, ← hσ, ← hγ, pow_zero, mul_one]
    push_cast
    have e : (ζ : ℂ) * (ζ : ℂ)⁻¹ = 1 := mul_inv_cancel₀ hζc
    linear_combination (Zs * σ * Complex.I * A) * hCd + Zs * A * (ζ : ℂ)⁻¹ * hy + γ * (ζ : ℂ)⁻¹ * hA' + (γ * E0 0 - γ * A) * e
  · obtain ⟨j, hj⟩ : ∃ j, s.m = j + 1 := ⟨s.m - 1, by omega⟩
    funext a
    rw [z a, he.cm, he.gm, he.zl, hs.dun (s.m - 1) (by omega), hj, Nat.add_sub_cancel]
    simp only [Pi.smul_apply, Pi.add_apply, Pi.sub_apply, Pi.neg_apply, Pi.zero_apply, cx_scalar, Complex.real_smul, smul_eq_mul, turn,
      smul_zero, sub_zero, add_zero, zero_sub, mul_zero, ← hσ, ← hγ, pow_succ (y ^ 2)]
    push_cast
    have e : (ζ : ℂ) * (ζ : ℂ)⁻¹ = 1 := mul_inv_cancel₀ hζc
    linear_combination (ζ * σ * Complex.I * A * (y ^ 2) ^ j * y ^ 2) * hCd + (A * (y ^ 2) ^ j * y * (σ * Complex.I * y - 1)) * e +
      (A * (y ^ 2) ^ j * y / 2) * (hyσ - hyγ)

/-- The ends of a line of one conductor from the constructor. -/
theorem constructed_ends {L C R G D Zs Zl : ℝ} {m : ℕ} {name : String} {s : MTL 1 p}
    (h : MTL.new p (.scalar L) (.scalar C) (.scalar R) (.scalar G) D [] [m] (.scalar Zs) (.scalar Zl) name = .ok ⟨1, s⟩) (dt : ℝ)
    (S : Src 1) : ({ s with dt := dt, vSources := S } : MTL 1 p).EvenEnds C G Zs Zl := by
  obtain ⟨-, -, -, -, -, ec, -, eg, ezs, ezl, -⟩ := new_ok_contents h
  have mat : ∀ x : ℝ, (Arg.scalar x).matrix 1 = x • (1 : Mat 1) := by
    intro x
    ext a b
    fin_cases a; fin_cases b
    simp [Arg.matrix]
  refine ⟨?_, ?_, ?_, ?_, ?_, ?_⟩
  · show s.c 0 = _
    rw [ec, mat]
  · show s.g 0 = _
    rw [eg, mat]
  · show s.c s.m = _
    rw [ec, mat]
  · show s.g s.m = _
    rw [eg, mat]
  · show s.zs = _
    rw [ezs]
    ext a b
    fin_cases a; fin_cases b
    simp [ZArg.value]
  · show s.zl = _
    rw [ezl]
    ext a b
    fin_cases a; fin_cases b
    simp [ZArg.value]

/-- **C185** for programs: a straight line of one conductor with losses, resistances at its ends and a sinusoidal source at its first end
approaches the closed form. -/
theorem C185_program {L C R G D Zs Zl : ℝ} {m : ℕ} {name : String} {s : MTL 1 p} (hD : 0 < D) (hm : 0 < m)
    (h : MTL.new p (.scalar L) (.scalar C) (.scalar R) (.scalar G) D [] [m] (.scalar Zs) (.scalar Zl) name = .ok ⟨1, s⟩)
    (hL : 0 < L) (hC : 0 < C) (hR : 0 ≤ R) (hG : 0 ≤ G) (hRG : 0 < R ∨ 0 < G) (hzs : 0 ≤ Zs) (hzl : 0 ≤ Zl) (hz : 0 < Zs ∨ 0 < Zl)
    {dt ω : ℝ} (hdt : 0 < dt) (hlt : dt < s.dt) (hω : 0 < ω) (hπ : ω * dt < Real.pi) {S : Src 1} {E : ℂ}
    (hS : ∀ k x, ∀ u < 0, S k x u = 0) (hS0 : ∀ u ≥ 0, S 0 0 u = (E * Complex.exp (ω * u * Complex.I)).re)
    (hS1 : ∀ u, S m 0 u = 0) :
    ∃ x W κs κl Γs Γl : ℂ, ‖x‖ < 1 ∧ x.im < 0 ∧
      (x - 1) ^ 2 = cellImpedance (D / m) dt (ω * dt) L R * cellImpedance (D / m) dt (ω * dt) C G * x ∧
      W = waveImpedance (cellImpedance (D / m) dt (ω * dt) L R) x ∧ 0 < W.re ∧
      κs = loadFactor (D / m) dt s.dt (ω * dt) C Zs ∧ κl = loadFactor (D / m) dt s.dt (ω * dt) C Zl ∧
      Γs = reflectionFactor κs W Zs ∧ Γl = reflectionFactor κl W Zl ∧ 1 - Γs * Γl * x ^ (2 * m) ≠ 0 ∧
      ∀ ε > 0, ∃ J, ∀ (T : ℝ) (t' : MTL 1 p) (N : ℕ) (tr : ℕ → MTL 1 p), RunTrace { s with dt := dt, vSources := S } T t' N tr →
        ∀ j ≥ J, j ≤ N → ∀ k ≤ m,
          |(tr j).v k 0 - (Real.cos (ω * dt / 2) * W / (Zs + κs * W) * E * (x ^ k + Γl * x ^ (2 * m - k)) /
            (1 - Γs * Γl * x ^ (2 * m)) * Complex.exp (ω * (j * dt - dt) * Complex.I)).re| ≤ ε := by
  obtain ⟨em, hdu, he⟩ := constructed_even hD hm h dt S
  have hm' : (0 : ℝ) < m := by exact_mod_cast hm
  have vec : ∀ X : Fin 1, X = 0 := fun X => Subsingleton.elim _ _
  obtain ⟨V, I, hac, -, happ⟩ := C178_program (E0 := fun _ => E) (E1 := 0) (ω := ω) h (spd_one hL) (spd_one hC)
    (dissipative_scalar hR) (dissipative_scalar hG) (fun _ _ => hzs) (fun _ _ => hzl) (hz.imp (fun h _ _ => h) fun h _ _ => h) hdu hdt hlt
    hω.le hπ hS (fun x u hu => by rw [vec x]; exact hS0 u hu) (fun x u hu => by rw [vec x, em, hS1]; simp)
  have hends := constructed_ends h dt S
  obtain ⟨x, W, κs, κl, -, x1, x2, hroot, hW, hWre, hκs, hκl, hden, hV⟩ := C185_response he hends (by show 0 < s.m; omega) hac
    (by positivity) hdt (mul_pos hω hdt) hπ hL hC hR hG hRG hzs hzl
  replace hden : 1 - reflectionFactor κs W Zs * reflectionFactor κl W Zl * x ^ (2 * s.m) ≠ 0 := hden
  rw [em] at hden
  refine ⟨x, W, κs, κl, _, _, x1, x2, hroot, hW, hWre, hκs, hκl, rfl, rfl, hden, fun ε hε => ?_⟩
  obtain ⟨J, hJ⟩ := happ ε hε
  refine ⟨J, fun T t' N tr Rn j hj hN k hk => ?_⟩
  have h1 := (hJ T t' N tr Rn j hj hN).1 k (by show k ≤ s.m; omega) 0
  have h2 : V k 0 = Real.cos (ω * dt / 2) * W / (Zs + κs * W) * E * (x ^ k + reflectionFactor κl W Zl * x ^ (2 * s.m - k)) /
      (1 - reflectionFactor κs W Zs * reflectionFactor κl W Zl * x ^ (2 * s.m)) := hV k (by show k ≤ s.m; omega)
  rw [em] at h2
  rw [← h2]
  exact h1

/-! ## Non-vacuity -/

/-- The line of `C185_matched`: one cell, built by hand with unit values. -/
example : ∃ (s : MTL 1 0) (V I : ℕ → Fin 1 → ℂ), s.EvenLine 1 1 1 0 0 ∧ s.EvenEnds 1 0 1 1 ∧ s.m = 3 ∧ s.dt = 1 ∧
    s.AC s.dt 1 (fun _ => 1) 0 0 0 V I ∧ V 3 0 = 1 / 2 * Complex.exp (-3 * Complex.I) := by
  obtain ⟨s, hs⟩ : ∃ s : MTL 1 0, MTL.new 0 (.scalar 1) (.scalar 1) (.scalar 0) (.scalar 0) 3 [] [3] (.scalar 1) (.scalar 1) "even" =
      .ok ⟨1, s⟩ := by
    refine C32_physical_accepted (d := 3) "even" one_ne_zero (.floats 1 1) .zero .zero (.numbers 1 1)
      (spd_one one_pos) (spd_one one_pos) dissipative_zero (fun _ _ => zero_le_one) (fun _ _ => zero_le_one)
      (by norm_num) (by simp) rfl (by simp) ⟨0, by simp, ?_⟩
    intro h
    have := congrFun h 2
    simp at this
  obtain ⟨em, -, he⟩ := constructed_even three_pos three_pos hs 1 0
  rw [show (3 : ℝ) / (3 : ℕ) = 1 by norm_num] at he
  have hends := constructed_ends hs 1 0
  have hsin : Real.sin 1 ≠ 0 := (Real.sin_pos_of_pos_of_lt_pi one_pos (by linarith [Real.two_le_pi])).ne'
  have hr1 : (1 : ℝ) = 1 * Real.sqrt (1 * 1) := by simp
  have hr2 : (1 : ℝ) = Real.sqrt (1 / 1) := by simp
  obtain ⟨V, I, hac⟩ := C185_matched_exists (θ := 1) (fun _ => 1) he hends (by show 0 < s.m; omega) one_pos one_pos one_pos one_pos
    zero_le_one hr1 hr2
  refine ⟨_, V, I, he, hends, em, rfl, hac, ?_⟩
  have := C185_matched he hends (by show 0 < s.m; omega) hac one_pos one_pos hsin one_pos one_pos zero_le_one hr1 hr2 3
    (by show 3 ≤ s.m; omega)
  rw [this]
  norm_num

end Mtln
