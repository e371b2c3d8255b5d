import Verif.Lemmas.Run
import Verif.Lemmas.Timestep
import Verif.Lemmas.Physical
import Verif.Model.Field
import Verif.Props.Demo

/-!
# Plane waves and tangential fields (C72–C75)
-/

namespace Mtln

open Matrix

/-- The unit vector with the given angles, measured from the x axis. -/
noncomputable def incidence (polar azimuth : ℝ) : V3 :=
  ![Real.cos polar, Real.sin polar * Real.cos azimuth, Real.sin polar * Real.sin azimuth]

theorem incidence_unit (p z : ℝ) : dot3 (incidence p z) (incidence p z) = 1 := by
  simp only [dot3, incidence, cons_val_zero, cons_val_one, cons_val]
  linear_combination Real.sin_sq_add_cos_sq p + Real.sin p ^ 2 * Real.sin_sq_add_cos_sq z

/-- **C72**: the polarisation vector is a unit vector orthogonal to the direction of incidence. -/
theorem C72_transverse (f : ℝ → ℝ) (p z d : ℝ) :
    let w := PlaneWave.new f p z d
    dot3 ![w.ex, w.ey, w.ez] ![w.ex, w.ey, w.ez] = 1 ∧ dot3 ![w.ex, w.ey, w.ez] (incidence p z) = 0 := by
  have hp := Real.sin_sq_add_cos_sq p
  have hz := Real.sin_sq_add_cos_sq z
  have hd := Real.sin_sq_add_cos_sq d
  constructor
  · simp only [dot3, PlaneWave.new, cons_val_zero, cons_val_one, cons_val]
    linear_combination hd + Real.sin d ^ 2 * hp +
      (Real.sin d ^ 2 * Real.cos p ^ 2 + Real.cos d ^ 2) * hz
  · simp only [dot3, PlaneWave.new, incidence, cons_val_zero, cons_val_one, cons_val]
    linear_combination (-(Real.sin d * Real.cos p * Real.sin p)) * hz

/-- The largest phase velocity of a line exists and is positive if all eigenvalues are positive. -/
theorem greatest_velocity {n : ℕ} (hn : n ≠ 0) {m : ℕ} (hm : m ≠ 0) (l c : ℕ → Mat n)
    (h : ¬ ∃ k < m, ∃ x ∈ eigRe (l k * c (k + 1)), x ≤ 0) :
    IsGreatest {v | ∃ k < m, v ∈ phaseVelocities l c k} (sSup {v | ∃ k < m, v ∈ phaseVelocities l c k}) ∧
      0 < sSup {v | ∃ k < m, v ∈ phaseVelocities l c k} := by
  have hset : {v | ∃ k < m, v ∈ phaseVelocities l c k} =
      ⋃ k ∈ Set.Iio m, (fun x => 1 / Real.sqrt x) '' eigRe (l k * c (k + 1)) := by
    ext v
    simp only [phaseVelocities, Set.mem_setOf_eq, Set.mem_iUnion, Set.mem_image, Set.mem_Iio, exists_prop]
    constructor
    · rintro ⟨k, hk, x, hx, rfl⟩; exact ⟨k, hk, x, hx, rfl⟩
    · rintro ⟨k, hk, x, hx, rfl⟩; exact ⟨k, hk, x, hx, rfl⟩
  have hfin : {v | ∃ k < m, v ∈ phaseVelocities l c k}.Finite := by
    rw [hset]
    exact (Set.finite_Iio m).biUnion fun k _ => (eigRe_finite _).image _
  obtain ⟨x0, hx0⟩ := eigRe_nonempty hn (l 0 * c (0 + 1))
  have hne : {v | ∃ k < m, v ∈ phaseVelocities l c k}.Nonempty :=
    ⟨_, 0, Nat.pos_of_ne_zero hm, x0, hx0, rfl⟩
  have hmem := hne.csSup_mem hfin
  refine ⟨⟨hmem, fun v hv => le_csSup hfin.bddAbove hv⟩, ?_⟩
  obtain ⟨k, hk, x, hx, hv⟩ := hmem
  rw [hv]
  have : 0 < x := by
    by_contra hle
    exact h ⟨k, hk, x, hx, not_lt.1 hle⟩
  positivity

/-- The components of a plane wave as a function of position and time. -/
theorem toField_at (w : PlaneWave) {v : ℝ} (e : Env) :
    (w.toField v).at e =
      fun j => w.field (e.t + dot3 (incidence w.polar w.azimuth) ![e.x, e.y, e.z] / v) * ![w.ex, w.ey, w.ez] j := by
  have harg : e.t - e.x / (w.velocities v 0) - e.y / (w.velocities v 1) - e.z / (w.velocities v 2) =
      e.t + dot3 (incidence w.polar w.azimuth) ![e.x, e.y, e.z] / v := by
    simp only [PlaneWave.velocities, dot3, incidence, cons_val_zero, cons_val_one, cons_val]
    rw [div_div_eq_mul_div, div_div_eq_mul_div, div_div_eq_mul_div]
    ring
  funext j
  simp only [Field.at, PlaneWave.toField, harg]
  fin_cases j <;> rfl

/-- **C73**: what `add_planewave` adds is a field that depends on position and time only through
`t + (F · r) / v`, where `F` is the unit vector of the angles and `v` the largest phase velocity of the line. -/
theorem C73_travelling {n p : ℕ} (s s' : MTL n p) (f : ℝ → ℝ) (polar azimuth polarization : ℝ) (D : Distances)
    (h : s.addPlanewave (PlaneWave.new f polar azimuth polarization) D = .ok s') :
    ∃ (v : ℝ) (E : Field) (pol : V3),
      0 < v ∧ IsGreatest {v | ∃ k < s.m, v ∈ phaseVelocities s.l s.c k} v ∧
      dot3 (incidence polar azimuth) (incidence polar azimuth) = 1 ∧
      dot3 pol pol = 1 ∧ dot3 pol (incidence polar azimuth) = 0 ∧
      (∀ (r : V3) (t v' : ℝ), E.at ⟨r 0, r 1, r 2, t, v'⟩ =
        fun j => f (t + dot3 (incidence polar azimuth) r / v) * pol j) ∧
      s.addExternalField E D none = .ok s' := by
  unfold MTL.addPlanewave at h
  simp only [bind_ok_iff, raiseIf_ok_iff, exists_const] at h
  obtain ⟨h1, h2, h3⟩ := h
  push Not at h1
  obtain ⟨hg, hpos⟩ := greatest_velocity h1.1 h1.2 s.l s.c h2
  have ht := C72_transverse f polar azimuth polarization
  refine ⟨_, _, ![_, _, _], hpos, hg, incidence_unit _ _, ht.1, ht.2, ?_, h3⟩
  intro r t v'
  rw [toField_at]
  have : (![r 0, r 1, r 2] : V3) = r := by funext j; fin_cases j <;> rfl
  simp only [this]
  rfl

/-- **C73**, the exception: the line must have conductors and cells. -/
theorem C73_raises {n p : ℕ} (s : MTL n p) (w : PlaneWave) (D : Distances) (h : n = 0 ∨ s.m = 0) :
    s.addPlanewave w D = .error .ValueError := by
  unfold MTL.addPlanewave
  simp [raiseIf, h, bind, Except.bind]

/-! ## C74 -/

/-- A rotation of space. -/
def IsRotation (R : Matrix (Fin 3) (Fin 3) ℝ) : Prop := Rᵀ * R = 1 ∧ R.det = 1

theorem IsRotation.mul {R S : Matrix (Fin 3) (Fin 3) ℝ} (hR : IsRotation R) (hS : IsRotation S) :
    IsRotation (R * S) := by
  refine ⟨?_, by rw [det_mul, hR.2, hS.2, one_mul]⟩
  rw [transpose_mul, Matrix.mul_assoc, ← Matrix.mul_assoc Rᵀ, hR.1, Matrix.one_mul, hS.1]

theorem rotX_isRotation (θ : ℝ) : IsRotation (rotX θ) := by
  have h := Real.sin_sq_add_cos_sq θ
  constructor
  · ext i j
    fin_cases i <;> fin_cases j <;> simp [rotX, Matrix.mul_apply, Fin.sum_univ_three] <;> linarith
  · simp [rotX, det_fin_three]; linarith

theorem rotY_isRotation (θ : ℝ) : IsRotation (rotY θ) := by
  have h := Real.sin_sq_add_cos_sq θ
  constructor
  · ext i j
    fin_cases i <;> fin_cases j <;> simp [rotY, Matrix.mul_apply, Fin.sum_univ_three] <;> linarith
  · simp [rotY, det_fin_three]; linarith

theorem IsRotation.dot {R : Matrix (Fin 3) (Fin 3) ℝ} (hR : IsRotation R) (x : V3) :
    dot3 (R *ᵥ x) (R *ᵥ x) = dot3 x x := by
  have e : ∀ y : V3, dot3 y y = y ⬝ᵥ y := fun y => by simp [dot3, dotProduct, Fin.sum_univ_three]
  rw [e, e, dotProduct_mulVec, vecMul_mulVec, hR.1, vecMul_one]

/-- The angles computed from a unit vector give back this vector. -/
theorem incidence_of_angles {F : V3} (hF : dot3 F F = 1) (hex : ¬ (F 2 = 0 ∧ F 1 < 0)) :
    incidence (Real.arccos (F 0 / Real.sqrt (F 0 ^ 2 + F 1 ^ 2 + F 2 ^ 2)))
      (if F 1 = 0 ∧ F 2 = 0 then 0
        else SignType.sign (F 2) * Real.arccos (F 1 / Real.sqrt (F 1 ^ 2 + F 2 ^ 2))) = F := by
  have h1 : F 0 ^ 2 + F 1 ^ 2 + F 2 ^ 2 = 1 := by rw [← hF]; simp [dot3]; ring
  have hb : -1 ≤ F 0 ∧ F 0 ≤ 1 := abs_le.1 (by
    rw [← sq_le_one_iff_abs_le_one]; nlinarith [sq_nonneg (F 1), sq_nonneg (F 2)])
  have hs : 1 - F 0 ^ 2 = F 1 ^ 2 + F 2 ^ 2 := by linarith
  rw [h1, Real.sqrt_one, div_one]
  have key : Real.sqrt (F 1 ^ 2 + F 2 ^ 2) * Real.cos (if F 1 = 0 ∧ F 2 = 0 then 0
        else SignType.sign (F 2) * Real.arccos (F 1 / Real.sqrt (F 1 ^ 2 + F 2 ^ 2))) = F 1 ∧
      Real.sqrt (F 1 ^ 2 + F 2 ^ 2) * Real.sin (if F 1 = 0 ∧ F 2 = 0 then 0
        else SignType.sign (F 2) * Real.arccos (F 1 / Real.sqrt (F 1 ^ 2 + F 2 ^ 2))) = F 2 := by
    by_cases h0 : F 1 = 0 ∧ F 2 = 0
    · simp [h0]
    · rw [if_neg h0]
      have hpos : 0 < F 1 ^ 2 + F 2 ^ 2 := by
        rcases not_and_or.1 h0 with h | h
        · have := sq_pos_of_ne_zero h; positivity
        · have := sq_pos_of_ne_zero h; positivity
      obtain ⟨ρ, hρ⟩ : ∃ ρ : ℝ, ρ = Real.sqrt (F 1 ^ 2 + F 2 ^ 2) := ⟨_, rfl⟩
      have hρpos : 0 < ρ := by rw [hρ]; exact Real.sqrt_pos.2 hpos
      have hρsq : ρ ^ 2 = F 1 ^ 2 + F 2 ^ 2 := by rw [hρ, Real.sq_sqrt hpos.le]
      rw [← hρ]
      have hq : -1 ≤ F 1 / ρ ∧ F 1 / ρ ≤ 1 := by
        rw [le_div_iff₀ hρpos, div_le_one hρpos]
        constructor <;> nlinarith [sq_nonneg (F 2)]
      have hcos : Real.cos (Real.arccos (F 1 / ρ)) = F 1 / ρ := Real.cos_arccos hq.1 hq.2
      have hsin : Real.sin (Real.arccos (F 1 / ρ)) = |F 2| / ρ := by
        rw [Real.sin_arccos]
        have : 1 - (F 1 / ρ) ^ 2 = (|F 2| / ρ) ^ 2 := by
          rw [div_pow, div_pow, sq_abs]; field_simp; linarith
        rw [this, Real.sqrt_sq (by positivity)]
      rcases lt_trichotomy (F 2) 0 with hneg | hzero | hpos2
      · rw [sign_neg hneg]
        simp only [SignType.coe_neg_one, neg_mul, one_mul, Real.cos_neg, Real.sin_neg,
          hcos, hsin, abs_of_neg hneg]
        constructor <;> field_simp
      · have h1nn : 0 ≤ F 1 := not_lt.1 fun hlt => hex ⟨hzero, hlt⟩
        have : ρ = F 1 := by rw [hρ, hzero]; simp [Real.sqrt_sq h1nn]
        rw [hzero, sign_zero]
        simp [this]
      · rw [sign_pos hpos2]
        simp only [SignType.coe_one, one_mul, hcos, hsin, abs_of_pos hpos2]
        constructor <;> field_simp
  funext j
  fin_cases j
  · simpa [incidence] using Real.cos_arccos hb.1 hb.2
  · simpa [incidence, Real.sin_arccos, hs] using key.1
  · simpa [incidence, Real.sin_arccos, hs] using key.2

/-- The quotient of `arctan` for segments that are not along the x axis. -/
theorem arctanQuot_angle {y z : ℝ} (h : ¬ (y = 0 ∧ z = 0)) : ∃ a, arctanQuot y z = .ok a ∧
    Real.cos a = |z| / Real.sqrt (y ^ 2 + z ^ 2) ∧
    Real.sin a = (if z < 0 then -y else y) / Real.sqrt (y ^ 2 + z ^ 2) := by
  by_cases hz : z = 0
  · subst hz
    have hy : y ≠ 0 := fun hy => h ⟨hy, rfl⟩
    have e : Real.sqrt (y ^ 2 + 0 ^ 2) = |y| := by rw [zero_pow two_ne_zero, add_zero, Real.sqrt_sq_eq_abs]
    rw [e]
    rcases lt_or_gt_of_ne hy with h0 | h0
    · refine ⟨-(Real.pi / 2), ?_, by simp, ?_⟩
      · rw [arctanQuot, if_neg (by simp), if_neg (by linarith), if_pos h0]
      · rw [Real.sin_neg, Real.sin_pi_div_two, if_neg (lt_irrefl _), abs_of_neg h0, div_neg, div_self hy]
    · refine ⟨Real.pi / 2, ?_, by simp, ?_⟩
      · rw [arctanQuot, if_neg (by simp), if_pos h0]
      · rw [Real.sin_pi_div_two, if_neg (lt_irrefl _), abs_of_pos h0, div_self hy]
  · have hz2 : 0 < |z| := abs_pos.2 hz
    have hpos : 0 < y ^ 2 + z ^ 2 := by positivity
    have hρ := Real.sqrt_pos.2 hpos
    have e1 : Real.sqrt (1 + (y / z) ^ 2) = Real.sqrt (y ^ 2 + z ^ 2) / |z| := by
      have : 1 + (y / z) ^ 2 = (Real.sqrt (y ^ 2 + z ^ 2) / |z|) ^ 2 := by
        rw [div_pow, div_pow, sq_abs, Real.sq_sqrt hpos.le]; field_simp; ring
      rw [this, Real.sqrt_sq (by positivity)]
    refine ⟨Real.arctan (y / z), by rw [arctanQuot, if_pos hz], by rw [Real.cos_arctan, e1, one_div_div], ?_⟩
    rw [Real.sin_arctan, e1, div_div_eq_mul_div]
    congr 1
    split_ifs with h0
    · rw [abs_of_neg h0]; field_simp
    · rw [abs_of_pos (lt_of_le_of_ne (not_lt.1 h0) (Ne.symm hz))]; field_simp

/-- The rotation of `rotate_to_segment` takes a segment that is not along the x axis to the positive z axis, exactly if it
does not point down. -/
theorem rotation_to_axis {u : V3} (hu : ¬ (u 1 = 0 ∧ u 2 = 0)) :
    ∃ a b : ℝ, arctanQuot (u 1) (u 2) = .ok a ∧ arctanQuot (-u 0) (Real.sqrt (u 1 ^ 2 + u 2 ^ 2)) = .ok b ∧
      ((rotY b * rotX a) *ᵥ u = ![0, 0, norm3 u] ↔ 0 ≤ u 2) := by
  have hpos : 0 < u 1 ^ 2 + u 2 ^ 2 := by
    by_contra hle
    have h1 : u 1 ^ 2 = 0 := by nlinarith [sq_nonneg (u 1), sq_nonneg (u 2)]
    have h2 : u 2 ^ 2 = 0 := by nlinarith [sq_nonneg (u 1), sq_nonneg (u 2)]
    exact hu ⟨pow_eq_zero_iff two_ne_zero |>.1 h1, pow_eq_zero_iff two_ne_zero |>.1 h2⟩
  obtain ⟨ρ, hρ⟩ : ∃ ρ : ℝ, ρ = Real.sqrt (u 1 ^ 2 + u 2 ^ 2) := ⟨_, rfl⟩
  have hρpos : 0 < ρ := by rw [hρ]; exact Real.sqrt_pos.2 hpos
  have hρsq : ρ ^ 2 = u 1 ^ 2 + u 2 ^ 2 := by rw [hρ, Real.sq_sqrt hpos.le]
  obtain ⟨r, hr⟩ : ∃ r : ℝ, r = norm3 u := ⟨_, rfl⟩
  have hrsq : r ^ 2 = u 0 ^ 2 + ρ ^ 2 := by
    rw [hr, hρsq]; unfold norm3; rw [Real.sq_sqrt (by positivity)]; ring
  have hrpos : 0 < r := by
    have h0 : 0 ≤ r := by rw [hr]; unfold norm3; exact Real.sqrt_nonneg _
    rcases h0.eq_or_lt with e | e
    · rw [← e] at hrsq; nlinarith [sq_nonneg (u 0), mul_pos hρpos hρpos]
    · exact e
  obtain ⟨a, ha, c1, s1⟩ := arctanQuot_angle hu
  obtain ⟨b, hb, c2, s2⟩ := arctanQuot_angle (y := -u 0) (z := ρ) (fun h => hρpos.ne' h.2)
  have hsq : Real.sqrt ((-u 0) ^ 2 + ρ ^ 2) = r := by rw [neg_sq, ← hrsq, Real.sqrt_sq hrpos.le]
  rw [hsq, abs_of_pos hρpos] at c2
  rw [hsq, if_neg (not_lt.2 hρpos.le)] at s2
  rw [← hρ] at c1 s1
  refine ⟨a, b, ha, by rw [← hρ]; exact hb, ?_⟩
  rw [← mulVec_mulVec, ← hr]
  by_cases hz : 0 ≤ u 2
  · rw [abs_of_nonneg hz] at c1
    rw [if_neg (not_lt.2 hz)] at s1
    refine iff_of_true ?_ hz
    have hx : rotX a *ᵥ u = ![u 0, 0, ρ] := by
      funext j
      fin_cases j
      · simp [rotX, mulVec, dotProduct, Fin.sum_univ_three]
      · simp [rotX, mulVec, dotProduct, Fin.sum_univ_three, c1, s1]; ring
      · simp [rotX, mulVec, dotProduct, Fin.sum_univ_three, c1, s1]; field_simp; linarith
    rw [hx]
    funext j
    fin_cases j
    · simp [rotY, mulVec, dotProduct, Fin.sum_univ_three, c2, s2]; ring
    · simp [rotY, mulVec, dotProduct, Fin.sum_univ_three]
    · simp [rotY, mulVec, dotProduct, Fin.sum_univ_three, c2, s2]; field_simp; linarith
  · refine iff_of_false ?_ hz
    have hz : u 2 < 0 := not_le.1 hz
    rw [abs_of_neg hz] at c1
    rw [if_pos hz] at s1
    have hx : rotX a *ᵥ u = ![u 0, 0, -ρ] := by
      funext j
      fin_cases j
      · simp [rotX, mulVec, dotProduct, Fin.sum_univ_three]
      · simp [rotX, mulVec, dotProduct, Fin.sum_univ_three, c1, s1]; ring
      · simp [rotX, mulVec, dotProduct, Fin.sum_univ_three, c1, s1]; field_simp; linarith
    rw [hx]
    intro h
    have h2 := congrFun h 2
    simp [rotY, mulVec, dotProduct, Fin.sum_univ_three, c2, s2] at h2
    field_simp at h2
    nlinarith [mul_pos hρpos hρpos]

/-- **C74 (part)**: for a segment that is not along the x axis there is one rotation such that the wave returned for any
incident wave has the rotated direction of incidence (and the same time function and polarisation angle) — unless the
rotated direction lies on the negative y side of the x-y plane.  The rotation takes the segment to the z axis exactly if
the segment does not point down. -/
theorem C74_direction_partial {u : V3} (hu : ¬ (u 1 = 0 ∧ u 2 = 0)) :
    ∃ R : Matrix (Fin 3) (Fin 3) ℝ, IsRotation R ∧ (R *ᵥ u = ![0, 0, norm3 u] ↔ 0 ≤ u 2) ∧
      ∀ (f : ℝ → ℝ) (p z d : ℝ), ∃ w' : PlaneWave, (PlaneWave.new f p z d).rotateToSegment u = .ok w' ∧
        w' = PlaneWave.new f w'.polar w'.azimuth d ∧
        (¬ ((R *ᵥ incidence p z) 2 = 0 ∧ (R *ᵥ incidence p z) 1 < 0) →
          incidence w'.polar w'.azimuth = R *ᵥ incidence p z) := by
  obtain ⟨a, b, ha, hb, hR⟩ := rotation_to_axis hu
  refine ⟨rotY b * rotX a, (rotY_isRotation b).mul (rotX_isRotation a), hR, ?_⟩
  intro f p z d
  have hF : (![Real.cos p, Real.sin p * Real.cos z, Real.sin z * Real.sin p] : V3) = incidence p z := by
    rw [mul_comm (Real.sin z)]; rfl
  unfold PlaneWave.rotateToSegment
  simp only [ha, hb, bind, Except.bind]
  refine ⟨_, rfl, rfl, ?_⟩
  intro hex
  have hunit : dot3 ((rotY b * rotX a) *ᵥ incidence p z) ((rotY b * rotX a) *ᵥ incidence p z) = 1 := by
    rw [((rotY_isRotation b).mul (rotX_isRotation a)).dot, incidence_unit]
  have := incidence_of_angles hunit hex
  simp only [PlaneWave.new, hF]
  convert this

/-- **C74 (part)**: for segments along the x axis the angles are not numbers. -/
theorem C74_undefined_partial {u : V3} (h1 : u 1 = 0) (h2 : u 2 = 0) (w : PlaneWave) :
    w.rotateToSegment u = .error .NotModelled := by
  unfold PlaneWave.rotateToSegment
  simp [arctanQuot, h1, h2, bind, Except.bind]

theorem rotX_zero : rotX 0 = 1 := by
  ext i j; fin_cases i <;> fin_cases j <;> simp [rotX]

theorem rotY_zero : rotY 0 = 1 := by
  ext i j; fin_cases i <;> fin_cases j <;> simp [rotY]

/-- A wave from the negative y axis is turned into one from the positive y axis by a segment along z. -/
theorem rotate_negative_y (f : ℝ → ℝ) (d : ℝ) : ∃ w', (PlaneWave.new f (Real.pi / 2) Real.pi d).rotateToSegment
    ![0, 0, 1] = .ok w' ∧ incidence w'.polar w'.azimuth = ![0, 1, 0] := by
  unfold PlaneWave.rotateToSegment
  simp [arctanQuot, bind, Except.bind, rotX_zero, rotY_zero, PlaneWave.new, incidence]

/-- A wave from the positive y axis keeps its direction there. -/
theorem rotate_positive_y (f : ℝ → ℝ) (d : ℝ) : ∃ w', (PlaneWave.new f (Real.pi / 2) 0 d).rotateToSegment
    ![0, 0, 1] = .ok w' ∧ incidence w'.polar w'.azimuth = ![0, 1, 0] := by
  unfold PlaneWave.rotateToSegment
  simp [arctanQuot, bind, Except.bind, rotX_zero, rotY_zero, PlaneWave.new, incidence]

/-- **C74 is false in general**: already for the segment along z, no linear map gives the returned directions: two
opposite waves are both turned into the same one. -/
theorem C74_refuted : ¬ ∀ u : V3, u ≠ 0 → ∃ R : Matrix (Fin 3) (Fin 3) ℝ, IsRotation R ∧
    ∀ (f : ℝ → ℝ) (p z d : ℝ) (w' : PlaneWave), (PlaneWave.new f p z d).rotateToSegment u = .ok w' →
      incidence w'.polar w'.azimuth = R *ᵥ incidence p z := by
  intro h
  obtain ⟨R, -, hR⟩ := h ![0, 0, 1] (fun h0 => by simpa using congrFun h0 2)
  obtain ⟨w1, h1, e1⟩ := rotate_negative_y 0 0
  obtain ⟨w2, h2, e2⟩ := rotate_positive_y 0 0
  have a1 := hR _ _ _ _ _ h1
  have a2 := hR _ _ _ _ _ h2
  rw [e1] at a1
  rw [e2] at a2
  have i1 : incidence (Real.pi / 2) Real.pi = -incidence (Real.pi / 2) 0 := by
    funext j; fin_cases j <;> simp [incidence]
  rw [i1, mulVec_neg, ← a2] at a1
  have := congrFun a1 1
  norm_num at this

/-- A wave from the positive z axis keeps its direction for a segment along negative z. -/
theorem rotate_down (f : ℝ → ℝ) (d : ℝ) : ∃ w', (PlaneWave.new f (Real.pi / 2) (Real.pi / 2) d).rotateToSegment
    ![0, 0, -1] = .ok w' ∧ incidence w'.polar w'.azimuth = ![0, 0, 1] := by
  unfold PlaneWave.rotateToSegment
  simp [arctanQuot, bind, Except.bind, rotX_zero, rotY_zero, PlaneWave.new, incidence]

/-- **C74 is false for segments pointing down**: the segment along negative z is not taken to the z axis. -/
theorem C74_refuted_down : ¬ ∃ R : Matrix (Fin 3) (Fin 3) ℝ, R *ᵥ ![0, 0, -1] = ![0, 0, 1] ∧
    ∀ (f : ℝ → ℝ) (p z d : ℝ) (w' : PlaneWave), (PlaneWave.new f p z d).rotateToSegment ![0, 0, -1] = .ok w' →
      incidence w'.polar w'.azimuth = R *ᵥ incidence p z := by
  rintro ⟨R, hz, hR⟩
  obtain ⟨w1, h1, e1⟩ := rotate_down 0 0
  have a1 := hR _ _ _ _ _ h1
  rw [e1] at a1
  have i1 : incidence (Real.pi / 2) (Real.pi / 2) = -![0, 0, -1] := by
    funext j; fin_cases j <;> simp [incidence]
  rw [i1, mulVec_neg, hz] at a1
  have := congrFun a1 2
  simp only [cons_val, Pi.neg_apply] at this
  norm_num at this

/-- **C74, non-vacuity**: the segment along y. -/
example : ¬ ((![0, 1, 0] : V3) 1 = 0 ∧ (![0, 1, 0] : V3) 2 = 0) := by simp

/-! ## C75 -/

theorem computeEL_ok_iff {F : Field} {du : V3} {E : Env → ℝ} :
    F.computeEL du = .ok E ↔ norm3 du ≠ 0 ∧ E = fun e => dot3 (F.at e) du / norm3 du := by
  unfold Field.computeEL
  simp only [bind_ok_iff, pyAssert_ok_iff, exists_const, Except.ok.injEq]
  refine and_congr_right fun _ => ?_
  have : (fun e => F.ex e * (du 0 / norm3 du) + F.ey e * (du 1 / norm3 du) + F.ez e * (du 2 / norm3 du)) =
      fun e => dot3 (F.at e) du / norm3 du := by
    funext e; simp only [dot3, Field.at, cons_val_zero, cons_val_one, cons_val]; ring
  rw [this]
  exact eq_comm

/-- The sum of two fields, scaled. -/
def Field.comb (a b : ℝ) (F G : Field) : Field where
  ex := fun e => a * F.ex e + b * G.ex e
  ey := fun e => a * F.ey e + b * G.ey e
  ez := fun e => a * F.ez e + b * G.ez e

theorem norm3_scale (a : ℝ) (x : V3) : norm3 (fun j => a * x j) = |a| * norm3 x := by
  unfold norm3
  rw [← Real.sqrt_sq_eq_abs, ← Real.sqrt_mul (sq_nonneg a)]
  congr 1; ring

theorem abs_dot3_le (a b : V3) : |dot3 a b| ≤ norm3 a * norm3 b := by
  unfold norm3
  rw [← Real.sqrt_mul (by positivity)]
  apply Real.abs_le_sqrt
  unfold dot3
  nlinarith [sq_nonneg (a 0 * b 1 - a 1 * b 0), sq_nonneg (a 0 * b 2 - a 2 * b 0),
    sq_nonneg (a 1 * b 2 - a 2 * b 1)]

/-- **C75**: the call succeeds exactly for segments of non-zero length, the result is the projection of the field on
the direction of the segment, at most the magnitude of the field. -/
theorem C75_projection (F : Field) (du : V3) :
    ((∃ E, F.computeEL du = .ok E) ↔ du ≠ 0) ∧
    ∀ E, F.computeEL du = .ok E →
      (∀ e, E e * norm3 du = dot3 (F.at e) du) ∧ (∀ e, |E e| ≤ norm3 (F.at e)) ∧
      (∀ e (a : ℝ), F.at e = (fun j => a * du j) → E e = a * norm3 du) := by
  constructor
  · constructor
    · rintro ⟨E, h⟩ rfl
      exact (computeEL_ok_iff.1 h).1 (norm3_eq_zero.2 rfl)
    · intro h
      exact ⟨_, computeEL_ok_iff.2 ⟨fun h0 => h (norm3_eq_zero.1 h0), rfl⟩⟩
  · intro E h
    obtain ⟨h0, rfl⟩ := computeEL_ok_iff.1 h
    have hpos : 0 < norm3 du := lt_of_le_of_ne (Real.sqrt_nonneg _) (Ne.symm h0)
    refine ⟨fun e => div_mul_cancel₀ _ h0, fun e => ?_, fun e a ha => ?_⟩
    · rw [abs_div, abs_of_pos hpos, div_le_iff₀ hpos]
      exact abs_dot3_le _ _
    · have hsq : norm3 du * norm3 du = dot3 du du := by
        unfold norm3; rw [Real.mul_self_sqrt (by positivity)]; simp [dot3]; ring
      show dot3 (F.at e) du / norm3 du = _
      rw [ha, div_eq_iff h0, mul_assoc, hsq]
      simp [dot3]; ring

/-- **C75**: linear in the field. -/
theorem C75_linear (F G : Field) (a b : ℝ) (du : V3) {E1 E2 : Env → ℝ} (h1 : F.computeEL du = .ok E1)
    (h2 : G.computeEL du = .ok E2) :
    (Field.comb a b F G).computeEL du = .ok fun e => a * E1 e + b * E2 e := by
  obtain ⟨h0, rfl⟩ := computeEL_ok_iff.1 h1
  obtain ⟨-, rfl⟩ := computeEL_ok_iff.1 h2
  refine computeEL_ok_iff.2 ⟨h0, ?_⟩
  funext e
  simp only [dot3, Field.at, Field.comb, cons_val_zero, cons_val_one, cons_val]
  ring

/-- **C75**: independent of the length of the segment; the opposite segment gives the opposite value. -/
theorem C75_length (F : Field) (du : V3) {a : ℝ} (ha : 0 < a) :
    F.computeEL (fun j => a * du j) = F.computeEL du ∧
      ∀ E, F.computeEL du = .ok E → F.computeEL (fun j => -du j) = .ok fun e => -E e := by
  constructor
  · by_cases h0 : norm3 du = 0
    · have : du = 0 := norm3_eq_zero.1 h0
      subst this
      congr 1
      funext j; simp
    · rw [computeEL_ok_iff.2 ⟨h0, rfl⟩]
      refine computeEL_ok_iff.2 ⟨?_, ?_⟩
      · rw [norm3_scale, abs_of_pos ha]; positivity
      · funext e
        rw [norm3_scale, abs_of_pos ha]
        have : dot3 (F.at e) (fun j => a * du j) = a * dot3 (F.at e) du := by simp [dot3]; ring
        rw [this, mul_div_mul_left _ _ ha.ne']
  · intro E h
    obtain ⟨h0, rfl⟩ := computeEL_ok_iff.1 h
    have hn : norm3 (fun j => -du j) = norm3 du := by unfold norm3; simp
    refine computeEL_ok_iff.2 ⟨by rwa [hn], ?_⟩
    funext e
    rw [hn]
    simp only [dot3]
    ring

/-- **C75, non-vacuity**. -/
example (F : Field) : ∃ E, F.computeEL ![0, 0, 2] = .ok E :=
  (C75_projection F _).1.2 fun h => by simpa using congrFun h 2

end Mtln
