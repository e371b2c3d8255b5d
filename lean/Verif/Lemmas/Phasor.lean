import Verif.Props.Periodic
import Mathlib.Analysis.SpecialFunctions.Trigonometric.Basic
import Mathlib.Analysis.Complex.Trigonometric

/-! # Sinusoidal motions of a line -/

namespace Mtln

open Matrix

variable {n p : ℕ}

/-- A real matrix as a complex one. -/
def cx (A : Mat n) : Matrix (Fin n) (Fin n) ℂ := A.map fun x => (x : ℂ)

/-- The values at the phase `φ` of the sinusoids with the complex amplitudes `X`. -/
noncomputable def phasor (φ : ℝ) : (Fin n → ℂ) →ₗ[ℝ] Col n where
  toFun X a := (X a * Complex.exp (φ * Complex.I)).re
  map_add' X Y := by funext a; simp [add_mul]
  map_smul' r X := by
    funext a
    show (((r : ℝ) • X a) * _).re = r * _
    rw [Complex.real_smul, mul_assoc, Complex.re_ofReal_mul]

theorem phasor_apply (φ : ℝ) (X : Fin n → ℂ) (a : Fin n) : phasor φ X a = (X a * Complex.exp (φ * Complex.I)).re := rfl

theorem phasor_mulVec (φ : ℝ) (A : Mat n) (X : Fin n → ℂ) : phasor φ (cx A *ᵥ X) = A *ᵥ phasor φ X := by
  funext a
  simp only [phasor_apply, mulVec, dotProduct, cx, Matrix.map_apply, Finset.sum_mul, Complex.re_sum]
  refine Finset.sum_congr rfl fun b _ => ?_
  rw [mul_assoc, Complex.re_ofReal_mul]

/-- Twice the sine of half the phase of a step, times the imaginary unit. -/
noncomputable def turn (θ : ℝ) : ℂ := ((2 * Real.sin (θ / 2) : ℝ) : ℂ) * Complex.I

theorem phasor_sum (φ θ : ℝ) (X : Fin n → ℂ) : phasor (φ + θ / 2) X + phasor (φ - θ / 2) X = (2 * Real.cos (θ / 2)) • phasor φ X := by
  funext a
  have e1 : ((φ + θ / 2 : ℝ) : ℂ) = φ + ((θ / 2 : ℝ) : ℂ) := by push_cast; ring
  have e2 : ((φ - θ / 2 : ℝ) : ℂ) = φ - ((θ / 2 : ℝ) : ℂ) := by push_cast; ring
  simp only [Pi.add_apply, Pi.smul_apply, phasor_apply, smul_eq_mul]
  rw [← Complex.re_ofReal_mul, ← Complex.add_re, e1, e2]
  congr 1
  rw [add_mul, sub_mul, Complex.exp_add, Complex.exp_sub, Complex.ofReal_mul, Complex.ofReal_cos, Complex.cos, Complex.ofReal_ofNat,
    neg_mul, Complex.exp_neg, div_eq_mul_inv (Complex.exp (φ * Complex.I))]
  ring

theorem phasor_diff (φ θ : ℝ) (X : Fin n → ℂ) : phasor (φ + θ / 2) X - phasor (φ - θ / 2) X = phasor φ (turn θ • X) := by
  funext a
  have e1 : ((φ + θ / 2 : ℝ) : ℂ) = φ + ((θ / 2 : ℝ) : ℂ) := by push_cast; ring
  have e2 : ((φ - θ / 2 : ℝ) : ℂ) = φ - ((θ / 2 : ℝ) : ℂ) := by push_cast; ring
  simp only [Pi.sub_apply, phasor_apply, turn, Pi.smul_apply, smul_eq_mul]
  rw [← Complex.sub_re, e1, e2]
  congr 1
  rw [add_mul, sub_mul, Complex.exp_add, Complex.exp_sub, Complex.ofReal_mul, Complex.ofReal_sin, Complex.sin, Complex.ofReal_ofNat,
    neg_mul, Complex.exp_neg, div_eq_mul_inv (Complex.exp (φ * Complex.I))]
  have := Complex.I_mul_I
  linear_combination (-(X a * Complex.exp (φ * Complex.I) * ((Complex.exp (((θ / 2 : ℝ) : ℂ) * Complex.I))⁻¹ -
    Complex.exp (((θ / 2 : ℝ) : ℂ) * Complex.I)))) * this

/-- The equations of one step with sources and fields; the coefficients of the ends belong to the time step `τ`.  `W0` and `W1` are
the sums of the voltages of the sources at both times, `F` and `F'` the transverse voltages, `H` the sums of the longitudinal
fields. -/
structure MTL.ForcedStep (s : MTL n p) (τ : ℝ) (W0 W1 : Col n) (F F' H v i v' i' : Grid n) : Prop where
  cell : ∀ k < s.m, s.dun k • ((1 / s.dt) • ((s.l k + s.conn.e k) *ᵥ (i' k - i k)) +
    (1 / 2 : ℝ) • ((s.r k + s.conn.d k) *ᵥ (i' k + i k))) = -(v' (k + 1) - v' k) - (F' (k + 1) - F' k) + s.dun k • ((1 / 2 : ℝ) • H k)
  node : ∀ k, 0 < k → k < s.m → ((s.dun (k - 1) + s.dun k) / 2) • ((1 / s.dt) • (s.c k *ᵥ (v' k - v k)) +
    (1 / 2 : ℝ) • (s.g k *ᵥ (v' k + v k))) = -(i k - i (k - 1)) - ((s.dun (k - 1) + s.dun k) / 2) •
      ((1 / s.dt) • (s.c k *ᵥ (F' k - F k)) + (1 / 2 : ℝ) • (s.g k *ᵥ (F' k - F k)))
  first : v' 0 + v 0 = W0 - s.zs *ᵥ ((2 : ℝ) • i 0 + (s.dun 0 / τ) • (s.c 0 *ᵥ (v' 0 - v 0)) +
    (s.dun 0 / 2) • (s.g 0 *ᵥ (v' 0 + v 0)) + (s.dun 0 / s.dt) • (s.c 0 *ᵥ (F' 0 - F 0)))
  last : v' s.m + v s.m = W1 - s.zl *ᵥ (-((2 : ℝ) • i (s.m - 1)) + (s.dun (s.m - 1) / τ) • (s.c s.m *ᵥ (v' s.m - v s.m)) +
    (s.dun (s.m - 1) / 2) • (s.g s.m *ᵥ (v' s.m + v s.m)) + (s.dun (s.m - 1) / s.dt) • (s.c s.m *ᵥ (F' s.m - F s.m)))

/-- The difference of two driven steps with the same excitation is a free step. -/
theorem MTL.ForcedStep.diff {s : MTL n p} {τ : ℝ} {W0 W1 : Col n} {F F' H v i v' i' w j w' j' : Grid n}
    (h : s.ForcedStep τ W0 W1 F F' H v i v' i') (g : s.ForcedStep τ W0 W1 F F' H w j w' j') :
    s.FreeStep τ (v - w) (i - j) (v' - w') (i' - j') := by
  refine ⟨⟨fun k hk => ?_, fun k h0 hk => ?_⟩, ?_, ?_⟩
  · have a := h.cell k hk
    have b := g.cell k hk
    simp only [Pi.sub_apply, mulVec_sub, mulVec_add] at a b ⊢
    linear_combination (norm := module) a - b
  · have a := h.node k h0 hk
    have b := g.node k h0 hk
    simp only [Pi.sub_apply, mulVec_sub, mulVec_add] at a b ⊢
    linear_combination (norm := module) a - b
  · have a := h.first
    have b := g.first
    simp only [Pi.sub_apply, mulVec_sub, mulVec_add, mulVec_smul] at a b ⊢
    linear_combination (norm := module) a - b
  · have a := h.last
    have b := g.last
    simp only [Pi.sub_apply, mulVec_sub, mulVec_add, mulVec_smul, mulVec_neg] at a b ⊢
    linear_combination (norm := module) a - b

/-- A driven step without excitation is a free step. -/
theorem MTL.ForcedStep.free {s : MTL n p} {τ : ℝ} {v i v' i' : Grid n} (h : s.ForcedStep τ 0 0 0 0 0 v i v' i') :
    s.FreeStep τ v i v' i' := by
  refine ⟨⟨fun k hk => ?_, fun k h0 hk => ?_⟩, ?_, ?_⟩
  · simpa using h.cell k hk
  · simpa using h.node k h0 hk
  · simpa using h.first
  · simpa using h.last

/-- The steps of the code are driven steps. -/
theorem forced_step {s : MTL n p} {lr : LR n} {cg : CG n} {τ : ℝ} (hp : s.Passive) (hτ : τ ≠ 0) (ht : s.TermFor τ)
    (hlr : updateLr s.m s.dt s.dun s.l s.r s.conn = .ok lr) (hcg : updateCg s.m s.dt s.dun s.c s.g = .ok cg) :
    s.ForcedStep τ (s.sample.vNow 0 + s.sample.vPrev 0) (s.sample.vNow s.m + s.sample.vPrev s.m) s.sample.eTPrev s.sample.eTNow
      (s.sample.eLNow + s.sample.eLPrev) s.v s.i (s.advanceFields lr cg).v (s.advanceFields lr cg).i := by
  obtain ⟨-, hdetL, hlr⟩ := updateLr_ok_iff.1 hlr
  obtain ⟨-, hdetC, hcg⟩ := updateCg_ok_iff.1 hcg
  obtain ⟨s', hs'⟩ : ∃ s', s' = s.advanceFields lr cg := ⟨_, rfl⟩
  rw [← hs']
  have hdt := hp.dt_pos.ne'
  have move : ∀ (d : ℝ) (A : Mat n) (x : Col n), (d / s.dt) • A *ᵥ x = (d / τ) • A *ᵥ ((τ / s.dt) • x) := by
    intro d A x
    rw [mulVec_smul, smul_smul]
    congr 1
    field_simp
  refine ⟨?_, ?_, ?_, ?_⟩
  · intro k hk
    have h1 := advanceFields_i lr cg s k hk
    rw [← hs', hlr] at h1
    have h2 := (current_update_iff (L := s.l k) (R := s.r k) (D := s.conn.d k) (E := s.conn.e k)
      (Q1 := s.conn.q1sum k) (Q2 := s.conn.q2sum k) rfl rfl (hdetL k hk) (s'.i k) (s.i k)
      (s.conn.q3phi s.phi k) (s'.v (k + 1) - s'.v k) (s.sample.eTNow (k + 1) - s.sample.eTNow k)
      (s.sample.eLNow k) (s.sample.eLPrev k)).1 h1
    have h3 : s.conn.q3phi s.phi k = 0 := by
      funext a
      simp [Disp.q3phi, hp.q3 k hk, QEntry.val, poleSum]
    rw [h3, hp.q1 k hk, hp.q2 k hk] at h2
    unfold CurrentEq at h2
    simp only [zero_mulVec, add_zero] at h2
    exact h2
  · intro k h0 hk
    have h1 := advanceFields_v_interior lr cg s k h0 hk
    rw [← hs', hcg] at h1
    have h2 := (voltage_update_iff (C := s.c k) (G := s.g k) rfl rfl (hdetC k hk.le) (s'.v k) (s.v k)
      (s.i k - s.i (k - 1)) (s.sample.eTNow k - s.sample.eTPrev k)).1 h1
    have hlen : nodalLength s.m s.dun k = (s.dun (k - 1) + s.dun k) / 2 := by
      unfold nodalLength
      rw [if_neg (by omega), if_pos hk]
      ring
    rw [hlen] at h2
    exact h2
  · have h1 := advanceFields_v_left lr cg s hp.cells
    rw [← hs', ht.left1, ht.left2, move] at h1
    have h2 := (terminal_update_iff ht.det_left _ _ _ _ _).1 h1
    rw [← move _ (s.c 0)] at h2
    exact h2
  · have h1 := advanceFields_v_right lr cg s hp.cells
    rw [← hs', ht.right1, ht.right2, move] at h1
    have h2 := (terminal_update_iff ht.det_right (s'.v s.m) (s.v s.m) (-s.i (s.m - 1)) (s.sample.vNow s.m + s.sample.vPrev s.m)
      ((τ / s.dt) • (s.sample.eTNow s.m - s.sample.eTPrev s.m))).1 (by
        rw [mulVec_neg, smul_neg, neg_neg]
        exact h1)
    rw [← move _ (s.c s.m), smul_neg] at h2
    exact h2

/-- The circuit of a line for alternating current, with the phase `θ` of a time step: the telegrapher's equations on the cells of the
line with `turn θ / dt` for the imaginary unit times the angular frequency, losses times the cosine of half the phase, and the
two ends with their impedances and half cells. -/
structure MTL.AC (s : MTL n p) (τ θ : ℝ) (E0 E1 : Fin n → ℂ) (F H V I : ℕ → Fin n → ℂ) : Prop where
  cell : ∀ k < s.m, s.dun k • ((1 / s.dt) • (cx (s.l k + s.conn.e k) *ᵥ (turn θ • I k)) +
    Real.cos (θ / 2) • (cx (s.r k + s.conn.d k) *ᵥ I k)) =
      -(V (k + 1) - V k) - (F (k + 1) - F k) + s.dun k • (Real.cos (θ / 2) • H k)
  node : ∀ k, 0 < k → k < s.m → ((s.dun (k - 1) + s.dun k) / 2) • ((1 / s.dt) • (cx (s.c k) *ᵥ (turn θ • V k)) +
    Real.cos (θ / 2) • (cx (s.g k) *ᵥ V k)) = -(I k - I (k - 1)) - ((s.dun (k - 1) + s.dun k) / 2) •
      ((1 / s.dt) • (cx (s.c k) *ᵥ (turn θ • F k)) + (1 / 2 : ℝ) • (cx (s.g k) *ᵥ (turn θ • F k)))
  first : Real.cos (θ / 2) • V 0 = Real.cos (θ / 2) • E0 - cx s.zs *ᵥ (I 0 + (s.dun 0 / 2) • ((1 / τ) • (cx (s.c 0) *ᵥ (turn θ • V 0)) +
    Real.cos (θ / 2) • (cx (s.g 0) *ᵥ V 0) + (1 / s.dt) • (cx (s.c 0) *ᵥ (turn θ • F 0))))
  last : Real.cos (θ / 2) • V s.m = Real.cos (θ / 2) • E1 - cx s.zl *ᵥ (-I (s.m - 1) + (s.dun (s.m - 1) / 2) •
    ((1 / τ) • (cx (s.c s.m) *ᵥ (turn θ • V s.m)) + Real.cos (θ / 2) • (cx (s.g s.m) *ᵥ V s.m) +
      (1 / s.dt) • (cx (s.c s.m) *ᵥ (turn θ • F s.m))))

/-- A solution of the circuit for alternating current moves like a driven line. -/
theorem MTL.AC.step {s : MTL n p} {τ θ : ℝ} {E0 E1 : Fin n → ℂ} {F H V I : ℕ → Fin n → ℂ} (h : s.AC τ θ E0 E1 F H V I) (φ : ℝ) :
    s.ForcedStep τ (phasor φ E0 + phasor (φ - θ) E0) (phasor φ E1 + phasor (φ - θ) E1) (fun k => phasor (φ - θ) (F k))
      (fun k => phasor φ (F k)) (fun k => phasor (φ + θ / 2) (H k) + phasor (φ - θ / 2) (H k)) (fun k => phasor (φ - θ) (V k))
      (fun k => phasor (φ - θ / 2) (I k)) (fun k => phasor φ (V k)) (fun k => phasor (φ + θ / 2) (I k)) := by
  have sum : ∀ X : Fin n → ℂ, phasor φ X + phasor (φ - θ) X = (2 * Real.cos (θ / 2)) • phasor (φ - θ / 2) X := by
    intro X
    have := phasor_sum (φ - θ / 2) θ X
    rwa [sub_add_cancel, show φ - θ / 2 - θ / 2 = φ - θ by ring] at this
  have diff : ∀ X : Fin n → ℂ, phasor φ X - phasor (φ - θ) X = phasor (φ - θ / 2) (turn θ • X) := by
    intro X
    have := phasor_diff (φ - θ / 2) θ X
    rwa [sub_add_cancel, show φ - θ / 2 - θ / 2 = φ - θ by ring] at this
  refine ⟨fun k hk => ?_, fun k h0 hk => ?_, ?_, ?_⟩
  · have e := congrArg (phasor φ) (h.cell k hk)
    simp only [map_add, map_sub, map_neg, map_smul, phasor_mulVec] at e
    rw [phasor_diff, phasor_sum, phasor_sum]
    simp only [mulVec_smul, smul_smul] at e ⊢
    linear_combination (norm := module) e
  · have e := congrArg (phasor (φ - θ / 2)) (h.node k h0 hk)
    simp only [map_add, map_sub, map_neg, map_smul, phasor_mulVec] at e
    rw [diff, diff, sum]
    simp only [mulVec_smul, smul_smul] at e ⊢
    linear_combination (norm := module) e
  · have e := congrArg (phasor (φ - θ / 2)) h.first
    simp only [map_add, map_sub, map_neg, map_smul, phasor_mulVec] at e
    rw [diff, diff, sum, sum]
    simp only [mulVec_smul, mulVec_add, smul_smul] at e ⊢
    linear_combination (norm := module) (2 : ℝ) • e
  · have e := congrArg (phasor (φ - θ / 2)) h.last
    simp only [map_add, map_sub, map_neg, map_smul, phasor_mulVec] at e
    rw [diff, diff, sum, sum]
    simp only [mulVec_smul, mulVec_add, mulVec_neg, smul_smul, smul_neg] at e ⊢
    linear_combination (norm := module) (2 : ℝ) • e

end Mtln
