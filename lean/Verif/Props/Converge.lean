import Verif.Spec.Converge
import Verif.Lemmas.Taylor
import Verif.Lemmas.Converge
import Verif.Lemmas.ErrorEnergy
import Verif.Props.Equations
import Verif.Props.Exact

/-! # Convergence of the scheme to smooth solutions of the telegrapher's equations -/

namespace Mtln

open Matrix

variable {n p : ℕ}

section

variable {s s' : MTL n p} {T : ℝ} {N : ℕ} {tr : ℕ → MTL n p} {D : ℝ} {L C R G Zs Zl : Mat n} {Vs Vl : ℝ → Col n}
  {t0 : ℝ} {V I : ℝ → ℝ → Col n}

/-- Difference between the voltages after `j` steps and the samples of `V` one step before the clock of the line. -/
noncomputable def errorV (s : MTL n p) (D : ℝ) (V : ℝ → ℝ → Col n) (tr : ℕ → MTL n p) (j : ℕ) : Grid n :=
  fun k => (tr j).v k - V (k * (D / s.m)) (s.time + j * s.dt - s.dt)

/-- Difference between the currents after `j` steps and the samples of `I` half a step before the clock of the line. -/
noncomputable def errorI (s : MTL n p) (D : ℝ) (I : ℝ → ℝ → Col n) (tr : ℕ → MTL n p) (j : ℕ) : Grid n :=
  fun k => (tr j).i k - I (k * (D / s.m) + D / s.m / 2) (s.time + j * s.dt - s.dt / 2)

/-- Residual of an equation in the interior, for the mesh widths `h` and `d`. -/
noncomputable def stepResidual (A B : Mat n) (P Q : ℝ → ℝ → Col n) (h d x t : ℝ) : Col n :=
  (1 / h) • (A *ᵥ (P x (t + h / 2) - P x (t - h / 2))) + (1 / 2 : ℝ) • (B *ᵥ (P x (t + h / 2) + P x (t - h / 2))) +
    (1 / d) • (Q (x + d / 2) t - Q (x - d / 2) t)

/-- Residual of the condition at the first end, whose coefficients belong to the time step `τ`. -/
noncomputable def firstResidual (A B : Mat n) (P Q : ℝ → ℝ → Col n) (τ h d t : ℝ) : Col n :=
  Q 0 (t + h / 2) + Q 0 (t - h / 2) - ((2 : ℝ) • Q (d / 2) t + (d / τ) • (A *ᵥ (P 0 (t + h / 2) - P 0 (t - h / 2))) +
      (d / 2) • (B *ᵥ (P 0 (t + h / 2) + P 0 (t - h / 2))))

/-- Residual of the condition at the last end. -/
noncomputable def lastResidual (A B : Mat n) (P Q : ℝ → ℝ → Col n) (D τ h d t : ℝ) : Col n :=
  -(Q D (t + h / 2) + Q D (t - h / 2)) - (-((2 : ℝ) • Q (D - d / 2) t) +
      (d / τ) • (A *ᵥ (P D (t + h / 2) - P D (t - h / 2))) + (d / 2) • (B *ᵥ (P D (t + h / 2) + P D (t - h / 2))))

/-- The conditions at the ends when the coefficients stored in the line belong to the time step `τ`. -/
theorem stale_terminal_equations {τ : ℝ} (hR : RunTrace s T s' N tr) (hT : s.TermFor τ) (hm : 0 < s.m)
    (hE : ∀ k x t, s.eT k x t = 0) {j : ℕ} (hj : j < N) :
    TerminalEq (s.dun 0) τ s.zs (s.c 0) (s.g 0) ((tr (j + 1)).v 0) ((tr j).v 0)
        (fun a => s.vSources 0 a (s.time + j * s.dt)) (fun a => s.vSources 0 a (s.time + j * s.dt - s.dt)) ((tr j).i 0) 0 ∧
    TerminalEq (s.dun (s.m - 1)) τ s.zl (s.c s.m) (s.g s.m) ((tr (j + 1)).v s.m) ((tr j).v s.m)
        (fun a => s.vSources s.m a (s.time + j * s.dt)) (fun a => s.vSources s.m a (s.time + j * s.dt - s.dt))
        (-(tr j).i (s.m - 1)) 0 := by
  obtain ⟨lr, cg, hlr, hcg, hst⟩ := hR.state
  obtain ⟨hc, hf, ht⟩ := hst j hj.le
  obtain ⟨hv, hi, -⟩ := hf.step_fields (hR.step j hj)
  have hm' : 0 < (tr j).m := by rw [hc.m]; exact hm
  constructor
  · unfold TerminalEq
    rw [← terminal_update_iff hT.det_left, hv, advanceFields_v_left _ _ _ hm', hc.left1, hc.left2, hT.left1, hT.left2]
    have e : (tr j).sample.eTNow 0 - (tr j).sample.eTPrev 0 = 0 := by
      funext a
      simp [MTL.sample, sampleSources, hc.eT, hE]
    rw [e, mulVec_zero, mulVec_zero]
    simp only [MTL.sample, sampleSources, hc.dt, hc.vSources, ht, hc.zs]
    simp only [smul_zero]
  · have h1 := advanceFields_v_right lr cg (tr j) hm'
    rw [hc.m] at h1
    unfold TerminalEq
    rw [← terminal_update_iff hT.det_right, hv, h1, hc.right1, hc.right2, hT.right1, hT.right2]
    have e : (tr j).sample.eTNow s.m - (tr j).sample.eTPrev s.m = 0 := by
      funext a
      simp [MTL.sample, sampleSources, hc.eT, hE]
    rw [e, mulVec_zero, mulVec_zero]
    simp only [MTL.sample, sampleSources, hc.dt, hc.vSources, ht, hc.zl]
    rw [mulVec_neg, smul_neg, neg_neg]
    simp only [smul_zero]

/-- The errors of a run satisfy the equations of the scheme up to the residuals of the solution. -/
theorem error_step (hU : s.Uniform D L C R G Zs Zl Vs Vl) (hD : 0 < D) (hS : SmoothSolution D L C R G Zs Zl Vs Vl t0 V I)
    {τ : ℝ} (hT : s.TermFor τ) (hR : RunTrace s T s' N tr) {j : ℕ} (hj : j < N) :
    s.ErrorStep τ (errorV s D V tr j) (errorI s D I tr j) (errorV s D V tr (j + 1)) (errorI s D I tr (j + 1))
      (fun k => -stepResidual L R I V s.dt (D / s.m) (k * (D / s.m) + D / s.m / 2) (s.time + j * s.dt))
      (fun k => -stepResidual C G V I s.dt (D / s.m) (k * (D / s.m)) (s.time + j * s.dt - s.dt / 2))
      (-((1 / 2 : ℝ) • firstResidual C G V I τ s.dt (D / s.m) (s.time + j * s.dt - s.dt / 2)))
      (-((1 / 2 : ℝ) • lastResidual C G V I D τ s.dt (D / s.m) (s.time + j * s.dt - s.dt / 2))) := by
  have hm : (0 : ℝ) < s.m := by exact_mod_cast hU.cells
  set d := D / s.m with hd
  have hd0 : 0 < d := by positivity
  have hmd : (s.m : ℝ) * d = D := by rw [hd]; field_simp
  have hdt := hU.dt_pos
  obtain ⟨δ, hconn⟩ := hU.conn
  have eeT : ∀ k t t', (fun a => s.eT k a t - s.eT k a t') = 0 := fun k t t' => by funext a; simp [hU.eT]
  have t1 : s.time + ((j + 1 : ℕ) : ℝ) * s.dt - s.dt = s.time + j * s.dt := by push_cast; ring
  have t2 : s.time + ((j + 1 : ℕ) : ℝ) * s.dt - s.dt / 2 = s.time + j * s.dt + s.dt / 2 := by push_cast; ring
  have t3 : s.time + j * s.dt - s.dt / 2 + s.dt / 2 = s.time + j * s.dt := by ring
  have t4 : s.time + j * s.dt - s.dt / 2 - s.dt / 2 = s.time + j * s.dt - s.dt := by ring
  refine ⟨?_, ?_, ?_, ?_⟩
  · intro k hk
    have h := (C07_current_equation hR j hj k hk _).2 rfl
    unfold CurrentEq at h
    rw [hU.dun k hk, hU.l k hk, hU.r k hk, hconn, ← hd] at h
    rw [hU.dun k hk, hU.l k hk, hU.r k hk, ← hd]
    have x1 : (k : ℝ) * d + d / 2 + d / 2 = ((k + 1 : ℕ) : ℝ) * d := by push_cast; ring
    have x2 : (k : ℝ) * d + d / 2 - d / 2 = (k : ℝ) * d := by ring
    unfold errorV errorI stepResidual
    rw [t1, t2, ← hd, x1, x2]
    funext a
    have ha := congrFun h a
    simp [Disp.new, hU.eT, hU.eL, QEntry.val] at ha
    simp only [Pi.add_apply, Pi.smul_apply, smul_eq_mul, Pi.neg_apply, Pi.sub_apply, mulVec_sub, mulVec_add] at ha ⊢
    have hdd : d * (1 / d) = 1 := by field_simp
    linear_combination ha - (-(V (((k + 1 : ℕ) : ℝ) * d) (s.time + j * s.dt) a) + V ((k : ℝ) * d) (s.time + j * s.dt) a) * hdd
  · intro k h0 hk
    have h := (C08_voltage_equation hR j hj k h0 hk _).2 rfl
    unfold VoltageEq at h
    obtain ⟨k, rfl⟩ : ∃ q, k = q + 1 := ⟨k - 1, by omega⟩
    rw [eeT] at h
    rw [hU.dun _ hk, hU.c _ hk.le, hU.g _ hk.le, Nat.add_sub_cancel, hU.dun k (by omega), ← hd] at h
    rw [hU.dun _ hk, hU.c _ hk.le, hU.g _ hk.le, Nat.add_sub_cancel, hU.dun k (by omega), ← hd]
    have e : (d + d) / 2 = d := by ring
    rw [e] at h ⊢
    have x1 : ((k + 1 : ℕ) : ℝ) * d - d / 2 = (k : ℝ) * d + d / 2 := by push_cast; ring
    unfold errorV errorI stepResidual
    rw [t1, ← hd, t3, t4, x1]
    funext a
    have ha := congrFun h a
    simp only [Pi.add_apply, Pi.smul_apply, smul_eq_mul, Pi.neg_apply, Pi.sub_apply, mulVec_sub, mulVec_add, mulVec_zero, Pi.zero_apply] at ha ⊢
    have hdd : d * (1 / d) = 1 := by field_simp
    linear_combination ha - (-(I (((k + 1 : ℕ) : ℝ) * d + d / 2) (s.time + j * s.dt - s.dt / 2) a) + I ((k : ℝ) * d + d / 2) (s.time + j * s.dt - s.dt / 2) a) * hdd
  · have h := (stale_terminal_equations hR hT hU.cells hU.eT hj).1
    unfold TerminalEq at h
    rw [hU.dun 0 hU.cells, hU.c 0 (by omega), hU.g 0 (by omega), hU.zs, ← hd] at h
    rw [hU.dun 0 hU.cells, hU.c 0 (by omega), hU.g 0 (by omega), hU.zs, ← hd]
    unfold errorV errorI firstResidual
    rw [t1, ← hd, t3, t4, Nat.cast_zero, zero_mul, zero_add]
    funext a
    have ha := congrFun h a
    have b1 := congrFun (hS.first (s.time + j * s.dt)) a
    have b2 := congrFun (hS.first (s.time + j * s.dt - s.dt)) a
    simp only [Pi.add_apply, Pi.smul_apply, smul_eq_mul, Pi.neg_apply, Pi.sub_apply, mulVec_sub, mulVec_add, mulVec_zero,
      Pi.zero_apply, mulVec_smul, mulVec_neg, hU.source] at ha b1 b2 ⊢
    linear_combination ha - b1 - b2
  · have h := (stale_terminal_equations hR hT hU.cells hU.eT hj).2
    unfold TerminalEq at h
    have hm1 : s.m - 1 < s.m := by have := hU.cells; omega
    rw [hU.dun _ hm1, hU.c _ le_rfl, hU.g _ le_rfl, hU.zl, ← hd] at h
    rw [hU.dun _ hm1, hU.c _ le_rfl, hU.g _ le_rfl, hU.zl, ← hd]
    have x1 : ((s.m - 1 : ℕ) : ℝ) * d + d / 2 = D - d / 2 := by
      rw [Nat.cast_sub hU.cells, ← hmd]; push_cast; ring
    unfold errorV errorI lastResidual
    rw [t1, ← hd, t3, t4, x1, hmd]
    funext a
    have ha := congrFun h a
    have b1 := congrFun (hS.last (s.time + j * s.dt)) a
    have b2 := congrFun (hS.last (s.time + j * s.dt - s.dt)) a
    simp only [Pi.add_apply, Pi.smul_apply, smul_eq_mul, Pi.neg_apply, Pi.sub_apply, mulVec_sub, mulVec_add, mulVec_zero,
      Pi.zero_apply, mulVec_smul, mulVec_neg, hU.load] at ha b1 b2 ⊢
    linear_combination ha - b1 - b2

theorem MTL.Uniform.lossy (hU : s.Uniform D L C R G Zs Zl Vs Vl) (hD : 0 < D) (hL : LineData L C R G Zs Zl) : s.Lossy := by
  have hm : (0 : ℝ) < s.m := by exact_mod_cast hU.cells
  refine ⟨hU.cells, hU.dt_pos, ?_, ?_, ?_, ?_, ?_, ?_, ?_, ?_, ?_, ?_⟩
  · intro k hk; rw [hU.dun k hk]; positivity
  · intro k hk; rw [hU.l k hk]; exact hL.l.symm
  · intro k hk; rw [hU.c k hk]; exact hL.c.symm
  · intro k hk; rw [hU.r k hk]; exact hL.r
  · intro k hk; rw [hU.g k hk]; exact hL.g
  · rw [hU.zs]; exact hL.zs
  · rw [hU.zl]; exact hL.zl
  · rw [hU.zs]; exact hL.zsT
  · rw [hU.zl]; exact hL.zlT
  · intro k _; obtain ⟨δ, h⟩ := hU.conn; rw [h]; rfl

theorem MTL.Uniform.stored (hU : s.Uniform D L C R G Zs Zl Vs Vl) (w : ℕ → ℝ) (e ε : Grid n) :
    MTL.electric { s with v := e, i := ε } w =
      ∑ k ∈ Finset.range s.m, D / s.m / 2 * (w k * (e k ⬝ᵥ (C *ᵥ e k)) + w (k + 1) * (e (k + 1) ⬝ᵥ (C *ᵥ e (k + 1)))) ∧
    MTL.magnetic { s with v := e, i := ε } = ∑ k ∈ Finset.range s.m, D / s.m * (ε k ⬝ᵥ (L *ᵥ ε k)) := by
  constructor
  · unfold MTL.electric
    refine Finset.sum_congr rfl fun k hk => ?_
    have hk := Finset.mem_range.1 hk
    show s.dun k / 2 * (w k * (e k ⬝ᵥ (s.c k *ᵥ e k)) + w (k + 1) * (e (k + 1) ⬝ᵥ (s.c (k + 1) *ᵥ e (k + 1)))) = _
    rw [hU.dun k hk, hU.c k hk.le, hU.c (k + 1) hk]
  · unfold MTL.magnetic
    refine Finset.sum_congr rfl fun k hk => ?_
    have hk := Finset.mem_range.1 hk
    show s.dun k * (ε k ⬝ᵥ ((s.l k + s.conn.e k) *ᵥ ε k)) = _
    obtain ⟨δ, h⟩ := hU.conn
    rw [hU.dun k hk, hU.l k hk, h]
    simp [Disp.new]

theorem MTL.Uniform.coercive (hU : s.Uniform D L C R G Zs Zl Vs Vl) (hD : 0 < D) (hL : LineData L C R G Zs Zl) {τ τ' θ : ℝ}
    (hτ' : maxTimestep s.m s.dun s.l s.c = .ok τ') (hθ : 0 ≤ θ) (hτ : s.dt ≤ τ) (hcfl : s.dt * τ ≤ θ ^ 2 * τ' ^ 2) (e ε : Grid n) :
    (1 - θ) * (∑ k ∈ Finset.range s.m, D / s.m / 2 *
        (s.endWeight τ k * (e k ⬝ᵥ (C *ᵥ e k)) + s.endWeight τ (k + 1) * (e (k + 1) ⬝ᵥ (C *ᵥ e (k + 1)))) +
      ∑ k ∈ Finset.range s.m, D / s.m * (ε k ⬝ᵥ (L *ᵥ ε k))) ≤ MTL.energyW { s with v := e, i := ε } (s.endWeight τ) := by
  have hm : (0 : ℝ) < s.m := by exact_mod_cast hU.cells
  obtain ⟨h1, h2⟩ := hU.stored (s.endWeight τ) e ε
  rw [← h1, ← h2]
  have hreg : MTL.Regular { s with v := e, i := ε } C := by
    refine ⟨hU.c, hL.c, ?_, ?_, ?_⟩
    · intro k hk
      show SPD (s.l k)
      rw [hU.l k hk]; exact hL.l
    · intro k hk
      show Dissipative (s.conn.e k)
      obtain ⟨δ, h⟩ := hU.conn
      rw [h]
      intro x
      simp [Disp.new]
    · intro k hk
      show 0 < s.dun k
      rw [hU.dun k hk]; positivity
  exact energy_lower (s := { s with v := e, i := ε }) hreg hτ' hU.dt_pos hτ hθ hcfl

theorem endWeight_nonneg {τ : ℝ} (hdt : 0 ≤ s.dt) (hτ : 0 ≤ τ) (k : ℕ) : 0 ≤ s.endWeight τ k := by
  unfold MTL.endWeight
  split
  · exact div_nonneg hdt hτ
  · exact zero_le_one

/-- Growth of the energy of the error in a step with residuals at most `r` and terminal work at most `B`. -/
theorem error_growth (hU : s.Uniform D L C R G Zs Zl Vs Vl) (hD : 0 < D) (hL : LineData L C R G Zs Zl) {τ τ' θ KC KL r B : ℝ}
    (hτ' : maxTimestep s.m s.dun s.l s.c = .ok τ') (hθ : 0 ≤ θ) (hθ1 : θ < 1) (hτ : s.dt ≤ τ) (hcfl : s.dt * τ ≤ θ ^ 2 * τ' ^ 2) (hKC : 0 ≤ KC) (hKL : 0 ≤ KL)
    (hr : 0 ≤ r) (hB : 0 ≤ B)
    (hC : ∀ (x : Col n) (a : Fin n), |x a| ≤ KC * Real.sqrt (x ⬝ᵥ (C *ᵥ x)))
    (hI : ∀ (x : Col n) (a : Fin n), |x a| ≤ KL * Real.sqrt (x ⬝ᵥ (L *ᵥ x))) {e ε e' ε' ρ η : Grid n} {σ σ' : Col n}
    (h : s.ErrorStep τ e ε e' ε' ρ η σ σ') (hρ : ∀ k < s.m, ∀ a, |ρ k a| ≤ r) (hη : ∀ k, 0 < k → k < s.m → ∀ a, |η k a| ≤ r)
    (hσ : σ ⬝ᵥ (Zs *ᵥ σ) ≤ B) (hσ' : σ' ⬝ᵥ (Zl *ᵥ σ') ≤ B) :
    MTL.energyW { s with v := e', i := ε' } (s.endWeight τ) ≤ MTL.energyW { s with v := e, i := ε } (s.endWeight τ) +
      s.dt * (n * (KL + KC) * r * Real.sqrt D / Real.sqrt (1 - θ)) *
        (Real.sqrt (MTL.energyW { s with v := e', i := ε' } (s.endWeight τ)) + Real.sqrt (MTL.energyW { s with v := e, i := ε } (s.endWeight τ))) + s.dt * B := by
  have hm : (0 : ℝ) < s.m := by exact_mod_cast hU.cells
  have hd0 : 0 < D / s.m := by positivity
  have hmd : (s.m : ℝ) * (D / s.m) = D := by field_simp
  have hτ0 : 0 < τ := hU.dt_pos.trans_le hτ
  have h1 := error_energy (hU.lossy hD hL) hτ0 h
  have c1 : ∑ k ∈ Finset.range s.m, s.dun k * ((ε' k + ε k) ⬝ᵥ ρ k) = ∑ k ∈ Finset.range s.m, D / s.m * ((ε' k + ε k) ⬝ᵥ ρ k) :=
    Finset.sum_congr rfl fun k hk => by rw [hU.dun k (Finset.mem_range.1 hk)]
  have c2 : ∑ k ∈ Finset.range s.m, s.dun k / 2 * (s.nodeWork e e' η σ σ' k + s.nodeWork e e' η σ σ' (k + 1)) =
      ∑ k ∈ Finset.range s.m, D / s.m / 2 * (s.nodeWork e e' η σ σ' k + s.nodeWork e e' η σ σ' (k + 1)) :=
    Finset.sum_congr rfl fun k hk => by rw [hU.dun k (Finset.mem_range.1 hk)]
  rw [c1, c2] at h1
  have w1 := cell_work (m := s.m) (x := ε') (y := ε) hL.l hd0.le hKL hr hI hρ
  have w2 := node_work (s := s) (e := e) (e' := e') hL.c hU.cells hd0 hKC hr hB hτ0 hU.dt_pos hU.dun hC hη (by rw [hU.zs]; exact hσ) (by rw [hU.zl]; exact hσ')
  rw [hmd] at w1 w2
  have bnd : ∀ e ε : Grid n,
      Real.sqrt (∑ k ∈ Finset.range s.m, D / s.m / 2 * (s.endWeight τ k * (e k ⬝ᵥ (C *ᵥ e k)) + s.endWeight τ (k + 1) * (e (k + 1) ⬝ᵥ (C *ᵥ e (k + 1))))) ≤
        Real.sqrt (MTL.energyW { s with v := e, i := ε } (s.endWeight τ)) / Real.sqrt (1 - θ) ∧
      Real.sqrt (∑ k ∈ Finset.range s.m, D / s.m * (ε k ⬝ᵥ (L *ᵥ ε k))) ≤
        Real.sqrt (MTL.energyW { s with v := e, i := ε } (s.endWeight τ)) / Real.sqrt (1 - θ) := by
    intro e ε
    have h2 := hU.coercive hD hL hτ' hθ hτ hcfl e ε
    have hw : ∀ k, 0 ≤ s.endWeight τ k := fun k => endWeight_nonneg hU.dt_pos.le hτ0.le k
    have p1 : 0 ≤ ∑ k ∈ Finset.range s.m, D / s.m / 2 * (s.endWeight τ k * (e k ⬝ᵥ (C *ᵥ e k)) + s.endWeight τ (k + 1) * (e (k + 1) ⬝ᵥ (C *ᵥ e (k + 1)))) :=
      Finset.sum_nonneg fun k _ => mul_nonneg (by positivity) (add_nonneg (mul_nonneg (hw _) (hL.c.nonneg _)) (mul_nonneg (hw _) (hL.c.nonneg _)))
    have p2 : 0 ≤ ∑ k ∈ Finset.range s.m, D / s.m * (ε k ⬝ᵥ (L *ᵥ ε k)) :=
      Finset.sum_nonneg fun k _ => mul_nonneg (by positivity) (hL.l.nonneg _)
    have q : 0 < 1 - θ := by linarith
    rw [← Real.sqrt_div' _ q.le]
    constructor
    · apply Real.sqrt_le_sqrt
      rw [le_div_iff₀ q]
      nlinarith
    · apply Real.sqrt_le_sqrt
      rw [le_div_iff₀ q]
      nlinarith
  obtain ⟨a1, a2⟩ := bnd e ε
  obtain ⟨a3, a4⟩ := bnd e' ε'
  set X := Real.sqrt (MTL.energyW { s with v := e, i := ε } (s.endWeight τ))
  set X' := Real.sqrt (MTL.energyW { s with v := e', i := ε' } (s.endWeight τ))
  have w1' := w1.trans (mul_le_mul_of_nonneg_left (add_le_add a4 a2) (by positivity))
  have w2' := w2.trans (add_le_add (mul_le_mul_of_nonneg_left (add_le_add a3 a1) (by positivity)) le_rfl)
  have w3 := mul_le_mul_of_nonneg_left (add_le_add w1' w2') hU.dt_pos.le
  refine h1.trans ?_
  rw [add_assoc, ← mul_add]
  refine (add_le_add le_rfl w3).trans (le_of_eq ?_)
  ring

theorem exists_entry_bound (A : Mat n) : ∃ μ : ℝ, 0 ≤ μ ∧ ∀ a b, |A a b| ≤ μ := by
  refine ⟨∑ a, ∑ b, |A a b|, Finset.sum_nonneg fun _ _ => Finset.sum_nonneg fun _ _ => abs_nonneg _, fun a b => ?_⟩
  exact (Finset.single_le_sum (f := fun b => |A a b|) (fun _ _ => abs_nonneg _) (Finset.mem_univ b)).trans
    (Finset.single_le_sum (f := fun a => ∑ b, |A a b|) (fun _ _ => Finset.sum_nonneg fun _ _ => abs_nonneg _) (Finset.mem_univ a))

theorem C3.mono {f f' : ℝ → ℝ} {K K' a b : ℝ} (h : C3 f f' K a b) (hK : K ≤ K') : C3 f f' K' a b := by
  obtain ⟨f2, f3, h1, h2, h3, h4⟩ := h.d2
  exact ⟨h.d1, f2, f3, h1, h2, fun x a b => (h3 x a b).trans hK, fun x a b => (h4 x a b).trans hK⟩

/-- One constant for all components. -/
theorem exists_component_bound {P : ℝ → ℝ → Col n} (hP : ∀ a, ContDiff ℝ 3 fun q : ℝ × ℝ => P q.1 q.2 a) (a b c d : ℝ) :
    ∃ K, 0 ≤ K ∧ (∀ y, c ≤ y → y ≤ d → ∀ i, C3 (fun x => P x y i) (fun x => deriv (fun x => P x y i) x) K a b) ∧
      ∀ x, a ≤ x → x ≤ b → ∀ i, C3 (fun y => P x y i) (fun y => deriv (fun y => P x y i) y) K c d := by
  choose K1 h1 h2 using fun i => smooth_first (F := fun x y => P x y i) (hP i) a b c d
  choose K2 h3 h4 using fun i => smooth_second (F := fun x y => P x y i) (hP i) a b c d
  have hs1 : 0 ≤ ∑ i, K1 i := Finset.sum_nonneg fun i _ => h1 i
  have hs2 : 0 ≤ ∑ i, K2 i := Finset.sum_nonneg fun i _ => h3 i
  refine ⟨∑ i, K1 i + ∑ i, K2 i, add_nonneg hs1 hs2, fun y hy hy' i => ?_, fun x hx hx' i => ?_⟩
  · refine (h2 i y hy hy').mono ?_
    have := Finset.single_le_sum (f := K1) (fun i _ => h1 i) (Finset.mem_univ i)
    linarith
  · refine (h4 i x hx hx').mono ?_
    have := Finset.single_le_sum (f := K2) (fun i _ => h3 i) (Finset.mem_univ i)
    linarith

theorem exists_component_change {P : ℝ → ℝ → Col n} (hP : ∀ a, ContDiff ℝ 3 fun q : ℝ × ℝ => P q.1 q.2 a) (a b c d : ℝ) :
    ∃ K, 0 ≤ K ∧ ∀ x, a ≤ x → x ≤ b → ∀ y y', c ≤ y → y ≤ d → c ≤ y' → y' ≤ d → ∀ i, |P x y i - P x y' i| ≤ K * |y - y'| := by
  choose K h1 h2 using fun i => smooth_change (F := fun x y => P x y i) (hP i) a b c d
  refine ⟨∑ i, K i, Finset.sum_nonneg fun i _ => h1 i, fun x x1 x2 y y' y1 y2 y3 y4 i => ?_⟩
  exact (h2 i x x1 x2 y y' y1 y2 y3 y4).trans (mul_le_mul_of_nonneg_right
    (Finset.single_le_sum (f := K) (fun i _ => h1 i) (Finset.mem_univ i)) (abs_nonneg _))

/-- The residuals of a smooth solution are of second order, but for the first order of conditions at the ends with
coefficients of another time step. -/
theorem exists_residual_bound (hS : SmoothSolution D L C R G Zs Zl Vs Vl t0 V I) (hD : 0 < D) (t1 t2 : ℝ) :
    ∃ κ, 0 ≤ κ ∧ ∀ τ h d t : ℝ, 0 < h → h ≤ τ → 0 < d → d ≤ D → t1 ≤ t - h / 2 → t + h / 2 ≤ t2 →
      (∀ x, 0 ≤ x - d / 2 → x + d / 2 ≤ D → ∀ a, |stepResidual L R I V h d x t a| ≤ κ * (h ^ 2 + d ^ 2)) ∧
      (∀ x, 0 ≤ x - d / 2 → x + d / 2 ≤ D → ∀ a, |stepResidual C G V I h d x t a| ≤ κ * (h ^ 2 + d ^ 2)) ∧
      (∀ a, |firstResidual C G V I τ h d t a| ≤ κ * (h ^ 2 + d ^ 2 + (1 - h / τ) * d)) ∧
      ∀ a, |lastResidual C G V I D τ h d t a| ≤ κ * (h ^ 2 + d ^ 2 + (1 - h / τ) * d) := by
  obtain ⟨μ1, m1, b1⟩ := exists_entry_bound L
  obtain ⟨μ2, m2, b2⟩ := exists_entry_bound C
  obtain ⟨μ3, m3, b3⟩ := exists_entry_bound R
  obtain ⟨μ4, m4, b4⟩ := exists_entry_bound G
  obtain ⟨KV, k1, v1, v2⟩ := exists_component_bound hS.smoothV 0 D t1 t2
  obtain ⟨KI, k2, i1, i2⟩ := exists_component_bound hS.smoothI 0 D t1 t2
  obtain ⟨KW, k3, w1⟩ := exists_component_change hS.smoothV 0 D t1 t2
  set μ := μ1 + μ2 + μ3 + μ4 with hμ
  have hμ0 : 0 ≤ μ := by positivity
  set K := KV + KI with hK
  have hK0 : 0 ≤ K := by positivity
  have c1 : ∀ a b, |L a b| ≤ μ := fun a b => (b1 a b).trans (by linarith)
  have c2 : ∀ a b, |C a b| ≤ μ := fun a b => (b2 a b).trans (by linarith)
  have c3 : ∀ a b, |R a b| ≤ μ := fun a b => (b3 a b).trans (by linarith)
  have c4 : ∀ a b, |G a b| ≤ μ := fun a b => (b4 a b).trans (by linarith)
  have hV : KV ≤ K := by linarith
  have hI : KI ≤ K := by linarith
  refine ⟨K * (1 + n * μ + n * μ * D) + n * μ * KW, by positivity, ?_⟩
  intro τ h d t hh hτ hd hdD ht1 ht2
  have e1 : K * (1 + n * μ) * (h ^ 2 + d ^ 2) ≤ (K * (1 + n * μ + n * μ * D) + n * μ * KW) * (h ^ 2 + d ^ 2) := by
    refine mul_le_mul_of_nonneg_right ?_ (by positivity)
    have : 0 ≤ K * (n * μ * D) := by positivity
    have : 0 ≤ n * μ * KW := by positivity
    linarith
  have hτ0 : 0 < τ := hh.trans_le hτ
  have hg : 0 ≤ (1 - h / τ) * d := mul_nonneg (by have := (div_le_one hτ0).2 hτ; linarith) hd.le
  have e2 : ∀ x y : ℝ, |x| ≤ K * (1 + n * μ * D) * (h ^ 2 + d ^ 2) → |y| ≤ n * μ * (KW * h) → |x + (d / h - d / τ) * y| ≤
      (K * (1 + n * μ + n * μ * D) + n * μ * KW) * (h ^ 2 + d ^ 2 + (1 - h / τ) * d) := by
    intro x y hx hy
    have g0 : 0 ≤ d / h - d / τ := by
      have := div_le_div_of_nonneg_left hd.le hh hτ
      linarith
    have h1 : |(d / h - d / τ) * y| ≤ (d / h - d / τ) * (n * μ * (KW * h)) := by
      rw [abs_mul, abs_of_nonneg g0]
      exact mul_le_mul_of_nonneg_left hy g0
    have h2 : (d / h - d / τ) * (n * μ * (KW * h)) = n * μ * KW * ((1 - h / τ) * d) := by
      field_simp
    rw [h2] at h1
    refine (abs_add_le _ _).trans ((add_le_add hx h1).trans ?_)
    have p1 : 0 ≤ K * (n * μ) * (h ^ 2 + d ^ 2) := by positivity
    have p2 : 0 ≤ n * μ * KW * (h ^ 2 + d ^ 2) := by positivity
    have p3 : 0 ≤ K * (1 + n * μ + n * μ * D) * ((1 - h / τ) * d) := mul_nonneg (by positivity) hg
    linarith
  have q1 : t1 ≤ t := by linarith
  have q2 : t ≤ t2 := by linarith
  refine ⟨fun x x1 x2 a => ?_, fun x x1 x2 a => ?_, fun a => ?_, fun a => ?_⟩
  · exact (residual_bound hμ0 hK0 c1 c3 hh hd (fun b => (i2 x (by linarith) (by linarith) b).mono hI)
      (fun b => (v1 t q1 q2 b).mono hV) ht1 ht2 x1 x2 (hS.eqV x t (by linarith) (by linarith)) a).trans e1
  · exact (residual_bound hμ0 hK0 c2 c4 hh hd (fun b => (v2 x (by linarith) (by linarith) b).mono hV)
      (fun b => (i1 t q1 q2 b).mono hI) ht1 ht2 x1 x2 (hS.eqI x t (by linarith) (by linarith)) a).trans e1
  · have h1 := first_bound hμ0 hK0 c2 c4 hh hd hdD (fun b => (v2 0 le_rfl hD.le b).mono hV) (fun b => (i2 0 le_rfl hD.le b).mono hI)
      (fun b => (i1 t q1 q2 b).mono hI) ht1 ht2 (hS.eqI 0 t le_rfl hD.le) a
    have h2 := mulVec_bound (w := V 0 (t + h / 2) - V 0 (t - h / 2)) c2 (c := KW * h) (fun b => by
      have := w1 0 le_rfl hD.le (t + h / 2) (t - h / 2) (by linarith) ht2 ht1 (by linarith) b
      rwa [show t + h / 2 - (t - h / 2) = h by ring, abs_of_pos hh] at this) hμ0 a
    have := e2 _ _ h1 h2
    refine le_trans (le_of_eq ?_) this
    unfold firstResidual
    simp only [Pi.sub_apply, Pi.add_apply, Pi.smul_apply, smul_eq_mul]
    congr 1
    ring
  · have h1 := last_bound hμ0 hK0 c2 c4 hh hd hdD (fun b => (v2 D hD.le le_rfl b).mono hV) (fun b => (i2 D hD.le le_rfl b).mono hI)
      (fun b => (i1 t q1 q2 b).mono hI) ht1 ht2 (hS.eqI D t hD.le le_rfl) a
    have h2 := mulVec_bound (w := V D (t + h / 2) - V D (t - h / 2)) c2 (c := KW * h) (fun b => by
      have := w1 D hD.le le_rfl (t + h / 2) (t - h / 2) (by linarith) ht2 ht1 (by linarith) b
      rwa [show t + h / 2 - (t - h / 2) = h by ring, abs_of_pos hh] at this) hμ0 a
    have := e2 _ _ h1 h2
    refine le_trans (le_of_eq ?_) this
    unfold lastResidual
    simp only [Pi.sub_apply, Pi.add_apply, Pi.smul_apply, Pi.neg_apply, smul_eq_mul]
    congr 1
    ring

theorem quadratic_bound {A : Mat n} {μ q : ℝ} (hμ : 0 ≤ μ) (hA : ∀ a b, |A a b| ≤ μ) {x : Col n} (hq : 0 ≤ q)
    (hx : ∀ a, |x a| ≤ q) : x ⬝ᵥ (A *ᵥ x) ≤ n ^ 2 * μ * q ^ 2 := by
  have := dot_le_components hx (mulVec_bound hA hx hμ) hq
  refine this.trans (le_of_eq (by ring))

/-- The squares of the components, summed over the nodes, are bounded by the energy. -/
theorem node_norm_le {m : ℕ} {d KA lam : ℝ} {A : Mat n} (hm : 0 < m) (hAs : SPD A) (hd : 0 ≤ d) (hlam : 0 < lam)
    {w : ℕ → ℝ} (hw : ∀ k, lam ≤ w k)
    (hA : ∀ (x : Col n) (a : Fin n), |x a| ≤ KA * Real.sqrt (x ⬝ᵥ (A *ᵥ x))) (z : Grid n) :
    ∑ k ∈ Finset.range (m + 1), d * ∑ a, z k a ^ 2 ≤ 2 * n * KA ^ 2 / lam *
      ∑ k ∈ Finset.range m, d / 2 * (w k * (z k ⬝ᵥ (A *ᵥ z k)) + w (k + 1) * (z (k + 1) ⬝ᵥ (A *ᵥ z (k + 1)))) := by
  have one : ∀ k, ∑ a, z k a ^ 2 ≤ n * KA ^ 2 * (z k ⬝ᵥ (A *ᵥ z k)) := by
    intro k
    calc ∑ a, z k a ^ 2 ≤ ∑ _a : Fin n, KA ^ 2 * (z k ⬝ᵥ (A *ᵥ z k)) := Finset.sum_le_sum fun a _ => by
          have := pow_le_pow_left₀ (abs_nonneg _) (hA (z k) a) 2
          rwa [sq_abs, mul_pow, Real.sq_sqrt (hAs.nonneg _)] at this
      _ = _ := by simp; ring
  have h1 : ∑ k ∈ Finset.range (m + 1), d * ∑ a, z k a ^ 2 ≤
      ∑ k ∈ Finset.range (m + 1), n * KA ^ 2 * d * (z k ⬝ᵥ (A *ᵥ z k)) := Finset.sum_le_sum fun k _ => by
    have := mul_le_mul_of_nonneg_left (one k) hd
    linarith
  refine h1.trans ?_
  rw [Finset.sum_range_succ']
  have h2 : n * KA ^ 2 * d * (z 0 ⬝ᵥ (A *ᵥ z 0)) ≤ ∑ k ∈ Finset.range m, n * KA ^ 2 * d * (z k ⬝ᵥ (A *ᵥ z k)) :=
    Finset.single_le_sum (f := fun k => n * KA ^ 2 * d * (z k ⬝ᵥ (A *ᵥ z k)))
      (fun k _ => mul_nonneg (by positivity) (hAs.nonneg _)) (Finset.mem_range.2 hm)
  refine (add_le_add le_rfl h2).trans ?_
  rw [← Finset.sum_add_distrib, Finset.mul_sum]
  refine Finset.sum_le_sum fun k _ => ?_
  have g : ∀ k, z k ⬝ᵥ (A *ᵥ z k) ≤ w k * (z k ⬝ᵥ (A *ᵥ z k)) / lam := fun k => by
    rw [le_div_iff₀ hlam, mul_comm]
    exact mul_le_mul_of_nonneg_right (hw k) (hAs.nonneg _)
  have := mul_le_mul_of_nonneg_left (add_le_add (g k) (g (k + 1))) (by positivity : 0 ≤ n * KA ^ 2 * d)
  refine le_trans (le_of_eq ?_) (this.trans (le_of_eq ?_))
  · ring
  · ring

theorem cell_norm_le {m : ℕ} {d KA : ℝ} {A : Mat n} (hAs : SPD A) (hd : 0 ≤ d)
    (hA : ∀ (x : Col n) (a : Fin n), |x a| ≤ KA * Real.sqrt (x ⬝ᵥ (A *ᵥ x))) (z : Grid n) :
    ∑ k ∈ Finset.range m, d * ∑ a, z k a ^ 2 ≤ n * KA ^ 2 * ∑ k ∈ Finset.range m, d * (z k ⬝ᵥ (A *ᵥ z k)) := by
  rw [Finset.mul_sum]
  refine Finset.sum_le_sum fun k _ => ?_
  have : ∑ a, z k a ^ 2 ≤ n * KA ^ 2 * (z k ⬝ᵥ (A *ᵥ z k)) := by
    calc ∑ a, z k a ^ 2 ≤ ∑ _a : Fin n, KA ^ 2 * (z k ⬝ᵥ (A *ᵥ z k)) := Finset.sum_le_sum fun a _ => by
          have := pow_le_pow_left₀ (abs_nonneg _) (hA (z k) a) 2
          rwa [sq_abs, mul_pow, Real.sq_sqrt (hAs.nonneg _)] at this
      _ = _ := by simp; ring
  have := mul_le_mul_of_nonneg_left this hd
  linarith

theorem RunTrace.duration (hR : RunTrace s T s' N tr) (hdt : 0 < s.dt) {j : ℕ} (hj : j ≤ N) (hj0 : 0 < j) : j * s.dt ≤ T := by
  have h := hR.len
  have h1 : (0 : ℤ) < ⌊T / s.dt⌋ := by
    by_contra hc
    rw [Int.toNat_of_nonpos (not_lt.1 hc)] at h
    omega
  have h2 : ((N : ℤ) : ℝ) ≤ T / s.dt := by
    rw [h, Int.toNat_of_nonneg h1.le]
    exact Int.floor_le _
  have h3 : (j : ℝ) ≤ T / s.dt := le_trans (by exact_mod_cast hj) h2
  rwa [le_div_iff₀ hdt] at h3

theorem error_start (hU : s.Uniform D L C R G Zs Zl Vs Vl) (hD : 0 < D) (hS : SmoothSolution D L C R G Zs Zl Vs Vl t0 V I)
    (hrest : s.AtRest) (ht0 : s.time = t0) (hR : RunTrace s T s' N tr) (τ : ℝ) :
    MTL.energyW { s with v := errorV s D V tr 0, i := errorI s D I tr 0 } (s.endWeight τ) = 0 := by
  have hdt0 := hU.dt_pos
  have hm : (0 : ℝ) < s.m := by exact_mod_cast hU.cells
  have hd0 : 0 < D / s.m := by positivity
  have hmd : (s.m : ℝ) * (D / s.m) = D := by field_simp
  obtain ⟨lr, cg, -, -, h0⟩ := hR.start
  have e1 : ∀ k ≤ s.m, errorV s D V tr 0 k = 0 := by
    intro k hk
    have hk1 : (k : ℝ) ≤ s.m := by exact_mod_cast hk
    have h3 := mul_le_mul_of_nonneg_right hk1 hd0.le
    rw [hmd] at h3
    unfold errorV
    rw [h0]
    show s.v k - _ = 0
    rw [hrest.v, (hS.rest _ _ (by positivity) h3 (by rw [ht0]; push_cast; linarith)).1, sub_zero]
  have e2 : ∀ k < s.m, errorI s D I tr 0 k = 0 := by
    intro k hk
    have hk1 : ((k + 1 : ℕ) : ℝ) ≤ s.m := by exact_mod_cast hk
    push_cast at hk1
    have h3 := mul_le_mul_of_nonneg_right hk1 hd0.le
    rw [hmd] at h3
    unfold errorI
    rw [h0]
    show s.i k - _ = 0
    rw [hrest.i, (hS.rest _ _ (by positivity) (by linarith) (by rw [ht0]; push_cast; linarith)).2, sub_zero]
  obtain ⟨s1, s2⟩ := hU.stored (s.endWeight τ) (errorV s D V tr 0) (errorI s D I tr 0)
  unfold MTL.energyW
  rw [s1, s2]
  have z1 : ∀ k ∈ Finset.range s.m, D / s.m / 2 * (s.endWeight τ k * (errorV s D V tr 0 k ⬝ᵥ (C *ᵥ errorV s D V tr 0 k)) +
    s.endWeight τ (k + 1) * (errorV s D V tr 0 (k + 1) ⬝ᵥ (C *ᵥ errorV s D V tr 0 (k + 1)))) = 0 := fun k hk => by
    have hk := Finset.mem_range.1 hk
    rw [e1 k hk.le, e1 (k + 1) hk]; simp
  have z2 : ∀ k ∈ Finset.range s.m, D / s.m * (errorI s D I tr 0 k ⬝ᵥ (L *ᵥ errorI s D I tr 0 k)) = 0 := fun k hk => by
    rw [e2 k (Finset.mem_range.1 hk)]; simp
  have z3 : ∀ k ∈ Finset.range s.m, errorI s D I tr 0 k ⬝ᵥ (errorV s D V tr 0 (k + 1) - errorV s D V tr 0 k) = 0 := fun k hk => by
    rw [e2 k (Finset.mem_range.1 hk)]; simp
  rw [Finset.sum_eq_zero z1, Finset.sum_eq_zero z2]
  show 0 + 0 + s.dt * ∑ k ∈ Finset.range s.m, errorI s D I tr 0 k ⬝ᵥ (errorV s D V tr 0 (k + 1) - errorV s D V tr 0 k) = 0
  rw [Finset.sum_eq_zero z3]
  simp

end

/-- The energy of the error is of fourth order. -/
theorem exists_energy_bound {D : ℝ} {L C R G Zs Zl : Mat n} {Vs Vl : ℝ → Col n} {t0 : ℝ} {V I : ℝ → ℝ → Col n} (hD : 0 < D)
    (hL : LineData L C R G Zs Zl) (hS : SmoothSolution D L C R G Zs Zl Vs Vl t0 V I) (T0 : ℝ) {θ lam : ℝ} (hθ : 0 ≤ θ)
    (hθ1 : θ < 1) (hlam : 0 < lam) :
    ∃ M : ℝ, 0 ≤ M ∧ ∀ (p : ℕ) (s s' : MTL n p) (T τ τ' : ℝ) (N : ℕ) (tr : ℕ → MTL n p), s.Uniform D L C R G Zs Zl Vs Vl →
      s.AtRest → s.time = t0 → maxTimestep s.m s.dun s.l s.c = .ok τ' → s.TermFor τ → s.dt ≤ τ → lam * τ ≤ s.dt →
      s.dt * τ ≤ θ ^ 2 * τ' ^ 2 → T ≤ T0 → RunTrace s T s' N tr →
      ∀ j ≤ N, MTL.energyW { s with v := errorV s D V tr j, i := errorI s D I tr j } (s.endWeight τ) ≤
        (M * (s.dt ^ 2 + (D / s.m) ^ 2 + (1 - s.dt / τ) * (D / s.m))) ^ 2 := by
  obtain ⟨KC, hKC, hC⟩ := hL.c.component_bound
  obtain ⟨KL, hKL, hI⟩ := hL.l.component_bound
  obtain ⟨μ1, m1, b1⟩ := exists_entry_bound Zs
  obtain ⟨μ2, m2, b2⟩ := exists_entry_bound Zl
  obtain ⟨κ, hκ, hres⟩ := exists_residual_bound hS hD (t0 - T0) (t0 + T0)
  set μ := μ1 + μ2 with hμ
  have hμ0 : 0 ≤ μ := by positivity
  have q0 : 0 < 1 - θ := by linarith
  set M := Real.sqrt (|T0| * (n ^ 2 * μ)) * κ + |T0| * (n * (KL + KC) * κ * Real.sqrt D / Real.sqrt (1 - θ)) with hM
  have hM0 : 0 ≤ M := by positivity
  refine ⟨M, hM0, ?_⟩
  intro p s s' T τ τ' N tr hU hrest ht0 hτ' hterm hτ hlamτ hcfl hT hR j hj
  have hdt0 := hU.dt_pos
  have hm : (0 : ℝ) < s.m := by exact_mod_cast hU.cells
  have hm1 : (1 : ℝ) ≤ s.m := by exact_mod_cast hU.cells
  have hd0 : 0 < D / s.m := by positivity
  have hdD : D / s.m ≤ D := div_le_self hD.le hm1
  have hmd : (s.m : ℝ) * (D / s.m) = D := by field_simp
  have hτ0 : 0 < τ := hdt0.trans_le hτ
  have hg : 0 ≤ (1 - s.dt / τ) * (D / s.m) := mul_nonneg (by have := (div_le_one hτ0).2 hτ; linarith) hd0.le
  set w := s.dt ^ 2 + (D / s.m) ^ 2 + (1 - s.dt / τ) * (D / s.m) with hw
  have hww : s.dt ^ 2 + (D / s.m) ^ 2 ≤ w := by linarith
  have hw0 : 0 ≤ w := by positivity
  have hwt : ∀ k, lam ≤ s.endWeight τ k := fun k => by
    have h1 : lam ≤ s.dt / τ := by rwa [le_div_iff₀ hτ0]
    unfold MTL.endWeight
    split
    · exact h1
    · exact h1.trans ((div_le_one hτ0).2 hτ)
  have hwt0 : ∀ k, 0 ≤ s.endWeight τ k := fun k => hlam.le.trans (hwt k)
  set E : ℕ → ℝ := fun j => MTL.energyW { s with v := errorV s D V tr j, i := errorI s D I tr j } (s.endWeight τ) with hE
  have hco := fun j => hU.coercive hD hL hτ' hθ hτ hcfl (errorV s D V tr j) (errorI s D I tr j)
  have p1 : ∀ j, 0 ≤ ∑ k ∈ Finset.range s.m, D / s.m / 2 * (s.endWeight τ k * (errorV s D V tr j k ⬝ᵥ (C *ᵥ errorV s D V tr j k)) +
      s.endWeight τ (k + 1) * (errorV s D V tr j (k + 1) ⬝ᵥ (C *ᵥ errorV s D V tr j (k + 1)))) := fun j =>
    Finset.sum_nonneg fun k _ => mul_nonneg (by positivity) (add_nonneg (mul_nonneg (hwt0 _) (hL.c.nonneg _)) (mul_nonneg (hwt0 _) (hL.c.nonneg _)))
  have p2 : ∀ j, 0 ≤ ∑ k ∈ Finset.range s.m, D / s.m * (errorI s D I tr j k ⬝ᵥ (L *ᵥ errorI s D I tr j k)) := fun j =>
    Finset.sum_nonneg fun k _ => mul_nonneg (by positivity) (hL.l.nonneg _)
  have hE0 : ∀ j, 0 ≤ E j := fun j => le_trans (mul_nonneg q0.le (add_nonneg (p1 j) (p2 j))) (hco j)
  have hgrow : ∀ j < N, E (j + 1) ≤ E j + s.dt * (n * (KL + KC) * (κ * w) * Real.sqrt D / Real.sqrt (1 - θ)) *
      (Real.sqrt (E (j + 1)) + Real.sqrt (E j)) + s.dt * (n ^ 2 * μ * (κ * w) ^ 2) := by
    intro j hj
    have d1 : ((j + 1 : ℕ) : ℝ) * s.dt ≤ T := hR.duration hdt0 hj (by omega)
    push_cast at d1
    have d0 : 0 ≤ (j : ℝ) * s.dt := by positivity
    have r1 := hres τ s.dt (D / s.m) (s.time + j * s.dt) hdt0 hτ hd0 hdD (by rw [ht0]; linarith) (by rw [ht0]; linarith)
    have r2 := hres τ s.dt (D / s.m) (s.time + j * s.dt - s.dt / 2) hdt0 hτ hd0 hdD (by rw [ht0]; linarith) (by rw [ht0]; linarith)
    refine error_growth hU hD hL hτ' hθ hθ1 hτ hcfl hKC hKL (by positivity) (by positivity) hC hI (error_step hU hD hS hterm hR hj) ?_ ?_ ?_ ?_
    · intro k hk a
      rw [Pi.neg_apply, abs_neg]
      refine (r1.1 _ (by have : 0 ≤ (k : ℝ) * (D / s.m) := by positivity
                         linarith) ?_ a).trans (mul_le_mul_of_nonneg_left hww hκ)
      have hk1 : ((k + 1 : ℕ) : ℝ) ≤ s.m := by exact_mod_cast hk
      push_cast at hk1
      have := mul_le_mul_of_nonneg_right hk1 hd0.le
      rw [hmd] at this
      linarith
    · intro k hk0 hk a
      rw [Pi.neg_apply, abs_neg]
      have hk1 : ((k + 1 : ℕ) : ℝ) ≤ s.m := by exact_mod_cast hk
      have hk2 : ((1 : ℕ) : ℝ) ≤ k := by exact_mod_cast hk0
      push_cast at hk1 hk2
      have h3 := mul_le_mul_of_nonneg_right hk1 hd0.le
      have h4 := mul_le_mul_of_nonneg_right hk2 hd0.le
      rw [hmd] at h3
      exact (r2.2.1 _ (by linarith) (by linarith) a).trans (mul_le_mul_of_nonneg_left hww hκ)
    · refine quadratic_bound hμ0 (fun a b => (b1 a b).trans (by linarith)) (by positivity) fun a => ?_
      rw [Pi.neg_apply, abs_neg, Pi.smul_apply, smul_eq_mul, abs_mul, abs_of_pos (by norm_num : (0 : ℝ) < 1 / 2)]
      have := r2.2.2.1 a
      have : 0 ≤ κ * w := by positivity
      linarith
    · refine quadratic_bound hμ0 (fun a b => (b2 a b).trans (by linarith)) (by positivity) fun a => ?_
      rw [Pi.neg_apply, abs_neg, Pi.smul_apply, smul_eq_mul, abs_mul, abs_of_pos (by norm_num : (0 : ℝ) < 1 / 2)]
      have := r2.2.2.2 a
      have : 0 ≤ κ * w := by positivity
      linarith
  have hstart : E 0 = 0 := error_start hU hD hS hrest ht0 hR τ
  have hsq := sqrt_growth (by positivity) (by positivity) (fun j _ => hE0 j) hgrow j hj
  have hjT : j * s.dt ≤ |T0| := by
    rcases Nat.eq_zero_or_pos j with h0 | h0
    · rw [h0]; simp
    · exact ((hR.duration hdt0 hj h0).trans hT).trans (le_abs_self _)
  have hsq2 : Real.sqrt (E j) ≤ M * w := by
    refine hsq.trans ?_
    rw [hstart, zero_add, hM, add_mul]
    refine add_le_add ?_ ?_
    · have : (j : ℝ) * (s.dt * (n ^ 2 * μ * (κ * w) ^ 2)) ≤ |T0| * (n ^ 2 * μ) * (κ * w) ^ 2 := by
        have := mul_le_mul_of_nonneg_right hjT (by positivity : 0 ≤ n ^ 2 * μ * (κ * w) ^ 2)
        linarith
      refine (Real.sqrt_le_sqrt this).trans ?_
      rw [Real.sqrt_mul (by positivity), Real.sqrt_sq (by positivity)]
      exact le_of_eq (by ring)
    · have := mul_le_mul_of_nonneg_right hjT (by positivity : 0 ≤ n * (KL + KC) * (κ * w) * Real.sqrt D / Real.sqrt (1 - θ))
      refine le_trans (le_of_eq ?_) (this.trans (le_of_eq ?_))
      · ring
      · ring
  show E j ≤ (M * w) ^ 2
  rw [← Real.sq_sqrt (hE0 j)]
  exact pow_le_pow_left₀ (Real.sqrt_nonneg _) hsq2 2

/-- **C136.** Convergence.  Let `V`, `I` be a three times continuously differentiable solution of the telegrapher's equations of
a uniform line of any number of conductors, with sources behind impedances at its two ends, at rest until `t0`.  Let `τ'` be
the largest time step `get_max_timestep` allows and `τ` the time step for which the coefficients of the ends were computed.
There is one constant `K` for all meshes and all time steps with `λ τ ≤ dt ≤ τ`, `dt τ ≤ θ² τ'²` (`λ > 0`, `θ < 1`): in every
run from rest of at most `T0` seconds, after every number `j` of steps, the voltages differ from the samples of `V` at
`t0 + (j-1) dt` and the currents from those of `I` at `t0 + (j-1/2) dt` by at most `K (dt² + dx² + (1 - dt/τ) dx)` in the mean
square: second order when the coefficients of the ends belong to the time step, first order when the time step was changed
after construction. -/
theorem C136_converges {D : ℝ} {L C R G Zs Zl : Mat n} {Vs Vl : ℝ → Col n} {t0 : ℝ} {V I : ℝ → ℝ → Col n} (hD : 0 < D)
    (hL : LineData L C R G Zs Zl) (hS : SmoothSolution D L C R G Zs Zl Vs Vl t0 V I) (T0 : ℝ) {θ lam : ℝ} (hθ : 0 ≤ θ)
    (hθ1 : θ < 1) (hlam : 0 < lam) :
    ∃ K : ℝ, 0 ≤ K ∧ ∀ (p : ℕ) (s s' : MTL n p) (T τ τ' : ℝ) (N : ℕ) (tr : ℕ → MTL n p), s.Uniform D L C R G Zs Zl Vs Vl →
      s.AtRest → s.time = t0 → maxTimestep s.m s.dun s.l s.c = .ok τ' → s.TermFor τ → s.dt ≤ τ → lam * τ ≤ s.dt →
      s.dt * τ ≤ θ ^ 2 * τ' ^ 2 → T ≤ T0 → RunTrace s T s' N tr →
      ∀ j ≤ N,
        ∑ k ∈ Finset.range (s.m + 1), D / s.m * ∑ a, ((tr j).v k a - V (k * (D / s.m)) (t0 + j * s.dt - s.dt) a) ^ 2
          ≤ (K * (s.dt ^ 2 + (D / s.m) ^ 2 + (1 - s.dt / τ) * (D / s.m))) ^ 2 ∧
        ∑ k ∈ Finset.range s.m, D / s.m *
            ∑ a, ((tr j).i k a - I (k * (D / s.m) + D / s.m / 2) (t0 + j * s.dt - s.dt / 2) a) ^ 2
          ≤ (K * (s.dt ^ 2 + (D / s.m) ^ 2 + (1 - s.dt / τ) * (D / s.m))) ^ 2 := by
  obtain ⟨KC, hKC, hC⟩ := hL.c.component_bound
  obtain ⟨KL, hKL, hI⟩ := hL.l.component_bound
  obtain ⟨M, hM0, hM⟩ := exists_energy_bound hD hL hS T0 hθ hθ1 hlam
  have q0 : 0 < 1 - θ := by linarith
  set F := (2 * n * KC ^ 2 / lam + n * KL ^ 2) / (1 - θ) with hF
  have hF0 : 0 ≤ F := by positivity
  refine ⟨Real.sqrt F * M, by positivity, ?_⟩
  intro p s s' T τ τ' N tr hU hrest ht0 hτ' hterm hτ hlamτ hcfl hT hR j hj
  have hEj := hM p s s' T τ τ' N tr hU hrest ht0 hτ' hterm hτ hlamτ hcfl hT hR j hj
  have hdt0 := hU.dt_pos
  have hm : (0 : ℝ) < s.m := by exact_mod_cast hU.cells
  have hm1 : (1 : ℝ) ≤ s.m := by exact_mod_cast hU.cells
  have hd0 : 0 < D / s.m := by positivity
  have hdD : D / s.m ≤ D := div_le_self hD.le hm1
  have hmd : (s.m : ℝ) * (D / s.m) = D := by field_simp
  have hτ0 : 0 < τ := hdt0.trans_le hτ
  have hg : 0 ≤ (1 - s.dt / τ) * (D / s.m) := mul_nonneg (by have := (div_le_one hτ0).2 hτ; linarith) hd0.le
  set w := s.dt ^ 2 + (D / s.m) ^ 2 + (1 - s.dt / τ) * (D / s.m) with hw
  have hw0 : 0 ≤ w := by positivity
  have hwt : ∀ k, lam ≤ s.endWeight τ k := fun k => by
    have h1 : lam ≤ s.dt / τ := by rwa [le_div_iff₀ hτ0]
    unfold MTL.endWeight
    split
    · exact h1
    · exact h1.trans ((div_le_one hτ0).2 hτ)
  have hwt0 : ∀ k, 0 ≤ s.endWeight τ k := fun k => hlam.le.trans (hwt k)
  have hco := fun j => hU.coercive hD hL hτ' hθ hτ hcfl (errorV s D V tr j) (errorI s D I tr j)
  have p1 : ∀ j, 0 ≤ ∑ k ∈ Finset.range s.m, D / s.m / 2 * (s.endWeight τ k * (errorV s D V tr j k ⬝ᵥ (C *ᵥ errorV s D V tr j k)) +
      s.endWeight τ (k + 1) * (errorV s D V tr j (k + 1) ⬝ᵥ (C *ᵥ errorV s D V tr j (k + 1)))) := fun j =>
    Finset.sum_nonneg fun k _ => mul_nonneg (by positivity) (add_nonneg (mul_nonneg (hwt0 _) (hL.c.nonneg _)) (mul_nonneg (hwt0 _) (hL.c.nonneg _)))
  have p2 : ∀ j, 0 ≤ ∑ k ∈ Finset.range s.m, D / s.m * (errorI s D I tr j k ⬝ᵥ (L *ᵥ errorI s D I tr j k)) := fun j =>
    Finset.sum_nonneg fun k _ => mul_nonneg (by positivity) (hL.l.nonneg _)
  have htot := (hco j).trans hEj
  rw [mul_comm, ← le_div_iff₀ q0] at htot
  have hKe : (Real.sqrt F * M * w) ^ 2 = F * (M * w) ^ 2 := by
    rw [mul_assoc, mul_pow, Real.sq_sqrt hF0]
  rw [hKe]
  have n1 := node_norm_le hU.cells hL.c hd0.le hlam hwt hC (errorV s D V tr j)
  have n2 := cell_norm_le (m := s.m) hL.l hd0.le hI (errorI s D I tr j)
  unfold errorV at n1
  unfold errorI at n2
  rw [ht0] at n1 n2
  have hq : 0 ≤ (M * w) ^ 2 / (1 - θ) := by positivity
  constructor
  · refine n1.trans ?_
    have h5 := mul_le_mul_of_nonneg_left (le_trans (le_add_of_nonneg_right (p2 j)) htot) (by positivity : 0 ≤ 2 * n * KC ^ 2 / lam)
    unfold errorV at h5
    rw [ht0] at h5
    refine h5.trans ?_
    have : F * (M * w) ^ 2 = 2 * n * KC ^ 2 / lam * ((M * w) ^ 2 / (1 - θ)) + n * KL ^ 2 * ((M * w) ^ 2 / (1 - θ)) := by
      rw [hF]; field_simp
    rw [this]
    have : 0 ≤ n * KL ^ 2 * ((M * w) ^ 2 / (1 - θ)) := by positivity
    linarith
  · refine n2.trans ?_
    have h5 := mul_le_mul_of_nonneg_left (le_trans (le_add_of_nonneg_left (p1 j)) htot) (by positivity : 0 ≤ n * KL ^ 2)
    unfold errorI at h5
    rw [ht0] at h5
    refine h5.trans ?_
    have : F * (M * w) ^ 2 = 2 * n * KC ^ 2 / lam * ((M * w) ^ 2 / (1 - θ)) + n * KL ^ 2 * ((M * w) ^ 2 / (1 - θ)) := by
      rw [hF]; field_simp
    rw [this]
    have h6 : 0 ≤ n * KL ^ 2 * ((M * w) ^ 2 / (1 - θ)) := by positivity
    have h7 : 0 ≤ 2 * n * KC ^ 2 / lam * ((M * w) ^ 2 / (1 - θ)) := by positivity
    linarith

end Mtln
