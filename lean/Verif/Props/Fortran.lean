import Verif.Lemmas.Fortran
import Verif.Props.ConvergeBuilt
import Verif.Props.Relax

/-!
# C144: the Fortran solvers compute the same as the Python class
-/

namespace Mtln

namespace Fortran

open Matrix

variable {n p : ℕ}

/-- One pass of the loop over time and one step of a Python line with the same data. -/
theorem step_same {zSteps : ℕ} {l c r g R : Mat n} {s : MTL n p} {lr : LR n} {cg : CG n}
    (hU : s.Uniform (zSteps * deltaZ) l c r g R R (fun _ _ => 25) fun _ _ => 0) (hm : s.m = zSteps) (ht : s.TermFor s.dt)
    (hlr : updateLr s.m s.dt s.dun s.l s.r s.conn = .ok lr) (hcg : updateCg s.m s.dt s.dun s.c s.g = .ok cg) {x : State n}
    (hv : ∀ k ≤ zSteps, x.v k = s.v k) (hi : ∀ k < zSteps, x.i k = s.i k) :
    (∀ k ≤ zSteps, (stepN zSteps (Loop.of s.dt l c r g R) R x).v k = (s.advanceFields lr cg).v k) ∧
    ∀ k < zSteps, (stepN zSteps (Loop.of s.dt l c r g R) R x).i k = (s.advanceFields lr cg).i k := by
  obtain ⟨-, -, elr⟩ := updateLr_ok_iff.1 hlr
  obtain ⟨-, -, ecg⟩ := updateCg_ok_iff.1 hcg
  have hz : 0 < zSteps := hm ▸ hU.cells
  have hz' : (zSteps : ℝ) ≠ 0 := by exact_mod_cast hz.ne'
  have hdun : ∀ k < zSteps, s.dun k = deltaZ := by
    intro k hk
    rw [hU.dun k (hm ▸ hk), hm]
    field_simp
  obtain ⟨δ, hconn⟩ := hU.conn
  have hnow : ∀ k, s.sample.eTNow k = 0 := fun k => funext fun a => hU.eT k a _
  have hprev : ∀ k, s.sample.eTPrev k = 0 := fun k => funext fun a => hU.eT k a _
  have hLnow : ∀ k, s.sample.eLNow k = 0 := fun k => funext fun a => hU.eL k a _
  have hLprev : ∀ k, s.sample.eLPrev k = 0 := fun k => funext fun a => hU.eL k a _
  have hq : s.conn.q3phi s.phi = fun _ => 0 := by
    rw [hconn]
    funext k a
    simp [Disp.q3phi, Disp.new, QEntry.val, poleSum]
  have vPart : ∀ k ≤ zSteps, (stepN zSteps (Loop.of s.dt l c r g R) R x).v k = (s.advanceFields lr cg).v k := by
    intro k hk
    rcases Nat.eq_zero_or_pos k with rfl | h0
    · have h1 := advanceFields_v_left lr cg s hU.cells
      rw [ht.left1, ht.left2, hnow, hprev, sub_self, mulVec_zero, smul_zero, sub_zero, hdun 0 hz, hU.zs, hU.c 0 (by omega),
        hU.g 0 (by omega), ← mulVec_mulVec, ← mulVec_add] at h1
      rw [h1]
      have e : s.sample.vNow 0 + s.sample.vPrev 0 = (2 : ℝ) • (fun _ => vSource : Col n) := by
        funext a
        show s.vSources 0 a _ + s.vSources 0 a _ = 2 * 25
        rw [hU.source, hU.source]
        norm_num
      rw [e]
      simp only [stepN, Loop.of, if_true]
      rw [hv 0 (by omega), hi 0 hz]
      congr 1
      module
    · rcases Nat.lt_or_ge k zSteps with h2 | h2
      · have h1 := advanceFields_v_interior lr cg s k h0 (hm ▸ h2)
        rw [hnow, hprev, sub_self, sub_zero] at h1
        rw [h1, ecg]
        have hlen : nodalLength s.m s.dun k = deltaZ := by
          unfold nodalLength
          rw [if_neg (by omega), if_pos (hm ▸ h2), hdun k h2, hdun (k - 1) (by omega)]
          ring
        have e1 : cgF1 s.m s.dt s.dun s.c s.g k = (deltaZ / s.dt) • c + (deltaZ / 2) • g := by
          unfold cgF1
          rw [hlen, hU.c k (by omega), hU.g k (by omega), smul_add, smul_smul, smul_smul]
          congr 2 <;> ring
        have e2 : cgF2 s.m s.dt s.dun s.c s.g k = (deltaZ / s.dt) • c - (deltaZ / 2) • g := by
          unfold cgF2
          rw [hlen, hU.c k (by omega), hU.g k (by omega), smul_sub, smul_smul, smul_smul]
          congr 2 <;> ring
        simp only [stepN, Loop.of, e1, e2]
        rw [if_neg (by omega), if_pos h2, hv k hk, hi k h2, hi (k - 1) (by omega)]
      · obtain rfl : k = zSteps := le_antisymm hk h2
        have h1 := advanceFields_v_right lr cg s hU.cells
        rw [ht.right1, ht.right2, hnow, hprev, sub_self, mulVec_zero, smul_zero, sub_zero, hm, hdun (k - 1) (by omega), hU.zl,
          hU.c k (by omega), hU.g k (by omega), ← mulVec_mulVec, ← mulVec_add] at h1
        rw [h1]
        have e : s.sample.vNow k + s.sample.vPrev k = (2 : ℝ) • (0 : Col n) := by
          funext a
          show s.vSources k a _ + s.vSources k a _ = 2 * 0
          rw [← hm, hU.load, hU.load]
          norm_num
        rw [e]
        simp only [stepN, Loop.of]
        rw [if_neg (by omega), if_neg (by omega), if_pos trivial, hv k hk, hi (k - 1) (by omega)]
        congr 1
        module
  refine ⟨vPart, fun k hk => ?_⟩
  have h1 := advanceFields_i lr cg s k (hm ▸ hk)
  rw [hnow, hnow, hLnow, hLprev, hq] at h1
  have e1 : lrF1 s.dt s.dun s.l s.r s.conn k = (deltaZ / s.dt) • l + (deltaZ / 2) • r := by
    unfold lrF1
    rw [hconn, hdun k hk, hU.l k (hm ▸ hk), hU.r k (hm ▸ hk)]
    simp only [Disp.new, smul_zero, add_zero, smul_add, smul_smul]
    congr 2 <;> ring
  have e2 : lrF2 s.dt s.dun s.l s.r s.conn k = (deltaZ / s.dt) • l - (deltaZ / 2) • r := by
    unfold lrF2
    rw [hconn, hdun k hk, hU.l k (hm ▸ hk), hU.r k (hm ▸ hk)]
    simp only [Disp.new, smul_zero, add_zero, sub_zero, smul_sub, smul_smul]
    congr 2 <;> ring
  rw [h1, ← vPart k (by omega), ← vPart (k + 1) (by omega), elr]
  simp only [e1, e2]
  have e3 : (stepN zSteps (Loop.of s.dt l c r g R) R x).i k =
      (Loop.of s.dt l c r g R).LR2 *ᵥ x.i k - (Loop.of s.dt l c r g R).LR1 *ᵥ
        ((stepN zSteps (Loop.of s.dt l c r g R) R x).v (k + 1) - (stepN zSteps (Loop.of s.dt l c r g R) R x).v k) := by
    simp only [stepN]
    rw [if_pos hk]
  rw [e3, hi k hk]
  simp [Loop.of]

/-- The loop over time and a run of a Python line with the same data. -/
theorem loop_same {zSteps : ℕ} {l c r g R : Mat n} {s : MTL n p} {lr : LR n} {cg : CG n}
    (hU : s.Uniform (zSteps * deltaZ) l c r g R R (fun _ _ => 25) fun _ _ => 0) (hm : s.m = zSteps) (ht : s.TermFor s.dt)
    (hrest : s.AtRest) (hlr : updateLr s.m s.dt s.dun s.l s.r s.conn = .ok lr)
    (hcg : updateCg s.m s.dt s.dun s.c s.g = .ok cg) (j : ℕ) :
    (∀ k ≤ zSteps, ((stepN zSteps (Loop.of s.dt l c r g R) R)^[j] .zero).v k = ((MTL.advanceFields lr cg)^[j] s).v k) ∧
    ∀ k < zSteps, ((stepN zSteps (Loop.of s.dt l c r g R) R)^[j] .zero).i k = ((MTL.advanceFields lr cg)^[j] s).i k := by
  induction j with
  | zero => exact ⟨fun k _ => (hrest.v k).symm, fun k _ => (hrest.i k).symm⟩
  | succ j ih =>
    have hc := iterate_advanceFields_config lr cg s j
    obtain ⟨δ, hconn⟩ := hU.conn
    rw [Function.iterate_succ_apply', iterate_succ_fields]
    have key := step_same (x := (stepN zSteps (Loop.of s.dt l c r g R) R)^[j] .zero) (s := (MTL.advanceFields lr cg)^[j] s)
      (lr := lr) (cg := cg) (l := l) (c := c) (r := r) (g := g) (R := R) (zSteps := zSteps)
      ⟨by rw [hc.m]; exact hU.cells, by rw [hc.dt]; exact hU.dt_pos, by rw [hc.m, hc.dun]; exact hU.dun,
        by rw [hc.m, hc.l]; exact hU.l, by rw [hc.m, hc.c]; exact hU.c, by rw [hc.m, hc.r]; exact hU.r,
        by rw [hc.m, hc.g]; exact hU.g, by rw [hc.conn]; exact hU.conn, by rw [hc.zs]; exact hU.zs, by rw [hc.zl]; exact hU.zl,
        by rw [hc.vSources]; exact hU.source, by rw [hc.m, hc.vSources]; exact hU.load, by rw [hc.eL]; exact hU.eL,
        by rw [hc.eT]; exact hU.eT⟩ (by rw [hc.m, hm]) (by rw [hc.dt]; exact ht.congr hc)
      (by rw [hc.m, hc.dt, hc.dun, hc.l, hc.r, hc.conn]; exact hlr) (by rw [hc.m, hc.dt, hc.dun, hc.c, hc.g]; exact hcg) ih.1 ih.2
    rwa [hc.dt] at key

/-- **C144** The Fortran solver with losses: whenever a Python line has the same cells, matrices, resistances of the ends, time
step and source, starts at rest and has terminal coefficients for its time step, the solver succeeds for every number of steps of
the run and returns the voltages and currents of the run. -/
theorem C144_losses {zSteps : ℕ} {l c r g : Mat n} {saved : Saved} {W T : ℝ} {s s' : MTL n p} {N : ℕ} {tr : ℕ → MTL n p}
    (hlc : ∀ i, 0 < l i i * c i i) (hW : IsGreatest (insert saved.maxVLosses (Set.range (velocity l c))) W) (hW0 : W ≠ 0)
    (hU : s.Uniform (zSteps * deltaZ) l c r g (terminals l c) (terminals l c) (fun _ _ => 25) fun _ _ => 0) (hm : s.m = zSteps)
    (hdt : s.dt = 0.95 * deltaZ / W) (ht : s.TermFor s.dt) (hrest : s.AtRest) (R : RunTrace s T s' N tr) :
    ∀ j ≤ N, ∃ x, nConductorsLosses zSteps j l c r g saved = .ok (x, { saved with maxVLosses := W }) ∧
      (∀ k ≤ zSteps, x.v k = (tr j).v k) ∧ ∀ k < zSteps, x.i k = (tr j).i k := by
  intro j hj
  obtain ⟨lr, cg, hlr, hcg, hc⟩ := R.closed
  obtain ⟨-, hdetL, -⟩ := updateLr_ok_iff.1 hlr
  obtain ⟨-, hdetC, -⟩ := updateCg_ok_iff.1 hcg
  have hz : 0 < zSteps := hm ▸ hU.cells
  have hz' : (zSteps : ℝ) ≠ 0 := by exact_mod_cast hz.ne'
  have hdun : ∀ k < zSteps, s.dun k = deltaZ := by
    intro k hk
    rw [hU.dun k (hm ▸ hk), hm]
    field_simp
  obtain ⟨δ, hconn⟩ := hU.conn
  refine ⟨_, losses_eq hlc hW hW0 (by omega) ?_ ?_ ?_, ?_⟩
  · have := ht.det_left
    rwa [hdun 0 hz, hU.zs, hU.c 0 (by omega), hU.g 0 (by omega), hdt] at this
  · have := hdetC 0 (by omega)
    unfold cgF1 at this
    rw [show nodalLength s.m s.dun 0 = s.dun 0 by simp [nodalLength], hdun 0 hz, hU.c 0 (by omega), hU.g 0 (by omega), smul_add,
      smul_smul, smul_smul, hdt] at this
    rw [div_eq_mul_one_div deltaZ, div_eq_mul_one_div deltaZ 2]
    exact this
  · have := hdetL 0 (by omega)
    unfold lrF1 at this
    rw [hconn, hdun 0 hz, hU.l 0 (by omega), hU.r 0 (by omega)] at this
    simp only [Disp.new, smul_zero, add_zero, smul_add, smul_smul] at this
    rw [hdt] at this
    rw [div_eq_mul_one_div deltaZ, div_eq_mul_one_div deltaZ 2]
    convert this using 5
    norm_num
  · rw [← hdt, hc j hj]
    exact loop_same hU hm ht hrest hlr hcg j

/-- **C144** for programs: the line of `zSteps` cells of a millimetre from the constructor, with the resistances of the Fortran
solver at both ends, `set_time_step` for `N` steps of its size, `compute_terminal_terms`, a constant source of 25 V on all
conductors, and `run_until`.  The Fortran solver succeeds and returns the voltages and currents of the final state. -/
theorem C144_program {la ca ra ga : Arg} {Z : ZArg} {name : String} {zSteps N : ℕ} {saved : Saved} {W T : ℝ}
    {s s1 s2 s3 : MTL n p} {S : Src n} (hz : 0 < zSteps) (hN : 0 < N)
    (h : MTL.new p la ca ra ga (zSteps * (1 / 1000)) [] [zSteps] Z Z name = .ok ⟨n, s⟩)
    (hlc : ∀ i, 0 < la.matrix n i i * ca.matrix n i i) (hZ : ∀ i : Fin n, Z.value i = Real.sqrt (la.matrix n i i / ca.matrix n i i))
    (hW : IsGreatest (insert saved.maxVLosses (Set.range (velocity (la.matrix n) (ca.matrix n)))) W) (hW0 : 0 < W)
    (hT : T = N * (0.95 * (1 / 1000) / W)) (h1 : s.setTimeStep N T = .ok s1) (h2 : s1.computeTerminalTerms = .ok s2)
    (hS : ∀ a t, S 0 a t = 25) (hS' : ∀ a t, S zSteps a t = 0)
    (h3 : ({ s2 with vSources := S } : MTL n p).runUntil T = .ok s3) :
    ∃ x, nConductorsLosses zSteps N (la.matrix n) (ca.matrix n) (ra.matrix n) (ga.matrix n) saved =
        .ok (x, { saved with maxVLosses := W }) ∧
      (∀ k ≤ zSteps, x.v k = s3.v k) ∧ ∀ k < zSteps, x.i k = s3.i k := by
  have hmm : (1 / 1000 : ℝ) = deltaZ := rfl
  rw [hmm] at h hT
  have hdz := deltaZ_pos
  have hz' : (0 : ℝ) < zSteps := by exact_mod_cast hz
  have hN' : (0 : ℝ) < N := by exact_mod_cast hN
  obtain ⟨d, hd⟩ : ∃ d : ℝ, d = 0.95 * deltaZ / W := ⟨_, rfl⟩
  have hd0 : 0 < d := by rw [hd]; positivity
  rw [← hd] at hT
  have e1 : s1 = { s with dt := d } := by
    unfold MTL.setTimeStep at h1
    obtain ⟨-, -, e⟩ := bind_ok_iff.1 h1
    injection e with e
    rw [← e, hT, mul_div_cancel_left₀ _ hN'.ne']
  obtain ⟨-, -, -, -, -, -, -, -, -, -, hmax, hp, -⟩ := new_ok_contents h
  obtain ⟨hU, hrest, htime, em, hpos, -, -, -⟩ := constructed_uniform (by positivity) hz h (Vs := fun _ _ => 25) (Vl := fun _ _ => 0)
    (S := S) (fun t a => hS a t) (fun t a => hS' a t) (q := d / s.dt) (by
      have := (constructed_uniform (by positivity) hz h (Vs := fun _ _ => 25) (Vl := fun _ _ => 0)
        (S := S) (fun t a => hS a t) (fun t a => hS' a t) (q := 1) one_pos).2.2.2.2.1
      positivity)
  rw [div_mul_cancel₀ _ hpos.ne'] at hU hrest
  obtain ⟨-, d1, d2, e2⟩ := computeTerminalTerms_ok_iff.1 h2
  subst e1
  subst e2
  obtain ⟨-, M, tr, R⟩ := (runUntil_ok_iff _ _ _).1 h3
  have hM : M = N := by
    rw [R.len, hT]
    show ⌊(N * d) / d⌋.toNat = N
    rw [mul_div_cancel_right₀ _ hd0.ne']
    simp
  have hterm : terminals (la.matrix n) (ca.matrix n) = Matrix.diagonal fun i : Fin n => Z.value i := by
    unfold terminals
    congr 1
    funext i
    rw [hZ]
  have key := fun a b c d e => C144_losses (saved := saved) (W := W) (zSteps := zSteps) (l := la.matrix n) (c := ca.matrix n)
    (r := ra.matrix n) (g := ga.matrix n) hlc hW hW0.ne' a b c d e R N hM.ge
  obtain ⟨x, hx, hv, hi⟩ := key (by
      rw [hterm]
      exact ⟨hU.cells, hU.dt_pos, hU.dun, hU.l, hU.c, hU.r, hU.g, hU.conn, hU.zs, hU.zl, hU.source, hU.load, hU.eL, hU.eT⟩)
    em hd ⟨d1, d2, rfl, rfl, rfl, rfl⟩ ⟨hrest.v, hrest.i, hrest.phi⟩
  rw [← hM, R.final] at hv hi
  exact ⟨x, hx, hv, hi⟩

/-- **C144** The solver without losses is the solver with losses for resistances and conductances zero, failures included. -/
theorem C144_lossless (zSteps tSteps : ℕ) (l c : Mat n) {saved saved' : Saved} (h : saved.maxV = saved'.maxVLosses) :
    (nConductors zSteps tSteps l c saved).map Prod.fst = (nConductorsLosses zSteps tSteps l c 0 0 saved').map Prod.fst := by
  have hdz := deltaZ_pos
  by_cases h1 : ∃ i, l i i * c i i ≤ 0
  · simp [nConductors, nConductorsLosses, checkN, failIf, h1, bind, Except.bind, Except.map]
  by_cases h2 : maxVelocity l c saved.maxV = 0
  · have h2' := h ▸ h2
    simp [nConductors, nConductorsLosses, checkN, failIf, h1, h2, h2', bind, Except.bind, Except.map]
  by_cases h3 : 0 < tSteps ∧ zSteps = 0
  · have h2' := h ▸ h2
    simp [nConductors, nConductorsLosses, checkN, failIf, h1, h2, h2', h3.1, h3.2, bind, Except.bind, Except.map]
  obtain ⟨W, hW⟩ : ∃ W, W = maxVelocity l c saved.maxV := ⟨_, rfl⟩
  rw [← hW] at h2
  have hW' : maxVelocity l c saved'.maxVLosses = W := by rw [hW, h]
  have hdt : (0.95 * deltaZ / W : ℝ) ≠ 0 := div_ne_zero (by positivity) h2
  unfold nConductors nConductorsLosses checkN getTerminalMatrices getUpdateMatrices
  rw [hW', ← hW, failIf_neg h1, failIf_neg h2, failIf_neg h3]
  obtain ⟨d, hd⟩ : ∃ d : ℝ, d = 0.95 * deltaZ / W := ⟨_, rfl⟩
  rw [← hd] at hdt
  have hq : deltaZ / d ≠ 0 := div_ne_zero hdz.ne' hdt
  have scaled : ∀ A : Mat n, ((deltaZ / d) • A).det = 0 ↔ A.det = 0 := by
    intro A
    rw [det_smul]
    simp [hq]
  simp only [← hd, smul_zero, mul_zero, add_zero, sub_zero, bind, Except.bind, failIf_neg hdt]
  by_cases e1 : ((deltaZ / d) • (terminals l c * c) + 1).det = 0
  · rcases eq_or_ne l.det 0 with e2 | e2 <;> rcases eq_or_ne c.det 0 with e3 | e3 <;> simp [inv, e1, e2, e3, Except.map]
  rcases eq_or_ne c.det 0 with e3 | e3
  · rcases eq_or_ne l.det 0 with e2 | e2 <;> simp [inv, e1, e2, e3, (scaled c).2 e3, Except.map]
  rcases eq_or_ne l.det 0 with e2 | e2
  · rw [inv_eq e1, inv_eq (mt (scaled c).1 e3)]
    simp [inv, e2, (scaled l).2 e2, Except.map]
  rw [inv_eq e1, inv_eq e2, inv_eq e3, inv_eq (mt (scaled c).1 e3), inv_eq (mt (scaled l).1 e2)]
  simp only [Except.map]
  rw [stepLossless_eq hdt e3 e2]
  simp only [Loop.of, termF1, termF2, smul_zero, mul_zero, add_zero, sub_zero]

/-- The loop for two conductors is the loop for one conductor and its reference. -/
theorem stepTwo_eq {zSteps : ℕ} {l c dT r : ℝ} (hl : l ≠ 0) (hc : c ≠ 0) (hdt : dT ≠ 0) (h : deltaZ * r * c / dT + 1 ≠ 0)
    (x : State 1) :
    stepTwo zSteps l c dT r (fun k => x.v k 0, fun k => x.i k 0) =
      (fun k => (stepN zSteps (Loop.of dT (l • 1) (c • 1) 0 0 (r • 1)) (r • 1) x).v k 0,
        fun k => (stepN zSteps (Loop.of dT (l • 1) (c • 1) 0 0 (r • 1)) (r • 1) x).i k 0) := by
  have hdz := deltaZ_pos.ne'
  have inv' : ∀ a : ℝ, a ≠ 0 → (a • (1 : Mat 1))⁻¹ = a⁻¹ • 1 := by
    intro a ha
    refine inv_eq_right_inv ?_
    rw [smul_mul_smul_comm, mul_one, mul_inv_cancel₀ ha, one_smul]
  have f1 : termF1 dT deltaZ (r • (1 : Mat 1)) (c • 1) 0 = (deltaZ * r * c / dT + 1) • 1 := by
    unfold termF1
    rw [smul_mul_smul_comm, mul_one, mul_zero, smul_zero, add_zero, smul_smul, add_smul, one_smul]
    congr 2
    ring
  have f2 : termF2 dT deltaZ (r • (1 : Mat 1)) (c • 1) 0 = (deltaZ * r * c / dT - 1) • 1 := by
    unfold termF2
    rw [smul_mul_smul_comm, mul_one, mul_zero, smul_zero, sub_zero, smul_smul, sub_smul, one_smul]
    congr 2
    ring
  have hq : ∀ a : ℝ, a ≠ 0 → deltaZ / dT * a ≠ 0 := fun a ha => mul_ne_zero (div_ne_zero hdz hdt) ha
  have e : Loop.of dT (l • (1 : Mat 1)) (c • 1) 0 0 (r • 1) =
      ⟨(deltaZ * r * c / dT + 1)⁻¹ • 1, (deltaZ * r * c / dT - 1) • 1, (deltaZ * r * c / dT + 1)⁻¹ • 1,
        (deltaZ * r * c / dT - 1) • 1, (dT / (deltaZ * c)) • 1, 1, (dT / (deltaZ * l)) • 1, 1⟩ := by
    unfold Loop.of
    rw [f1, f2, inv' _ h]
    simp only [smul_zero, add_zero, sub_zero, smul_smul]
    rw [inv' _ (hq c hc), inv' _ (hq l hl)]
    simp only [smul_mul_smul_comm, mul_one]
    rw [inv_mul_cancel₀ (hq c hc), inv_mul_cancel₀ (hq l hl), one_smul]
    congr 2 <;> field_simp
  have hv : ∀ k, (stepTwo zSteps l c dT r (fun k => x.v k 0, fun k => x.i k 0)).1 k =
      (stepN zSteps (Loop.of dT (l • 1) (c • 1) 0 0 (r • 1)) (r • 1) x).v k 0 := by
    intro k
    rw [e]
    simp only [stepTwo, stepN]
    split_ifs <;>
      simp only [smul_mulVec, one_mulVec, Pi.add_apply, Pi.sub_apply, Pi.smul_apply, smul_eq_mul, vSource, Pi.zero_apply] <;> ring
  refine Prod.ext (funext hv) (funext fun k => ?_)
  have hi : (stepTwo zSteps l c dT r (fun k => x.v k 0, fun k => x.i k 0)).2 k = if k < zSteps then x.i k 0 - (dT / (deltaZ * l)) *
      ((stepTwo zSteps l c dT r (fun k => x.v k 0, fun k => x.i k 0)).1 (k + 1) -
        (stepTwo zSteps l c dT r (fun k => x.v k 0, fun k => x.i k 0)).1 k) else x.i k 0 := rfl
  have hi' : ∀ (q : Loop 1) (R : Mat 1), (stepN zSteps q R x).i k = if k < zSteps then
      q.LR2 *ᵥ x.i k - q.LR1 *ᵥ ((stepN zSteps q R x).v (k + 1) - (stepN zSteps q R x).v k) else x.i k := fun _ _ => rfl
  rw [hi, hv, hv]
  show _ = (stepN zSteps (Loop.of dT (l • 1) (c • 1) 0 0 (r • 1)) (r • 1) x).i k 0
  rw [hi', e]
  split_ifs with h1
  · simp only [one_mulVec, smul_mulVec, Pi.sub_apply, Pi.smul_apply, smul_eq_mul]
  · rfl

/-- **C144** The solver for two conductors is the solver for one conductor and its reference, called for the first time. -/
theorem C144_two (zSteps tSteps : ℕ) {l c : ℝ} (hl : 0 < l) (hc : 0 < c) :
    twoConductors zSteps tSteps l c =
      (nConductors (n := 1) zSteps tSteps (l • 1) (c • 1) {}).map fun x => (fun k => x.1.v k 0, fun k => x.1.i k 0) := by
  have hdz := deltaZ_pos
  have hlc : 0 < l * c := mul_pos hl hc
  have hpos : ∀ i, 0 < (l • (1 : Mat 1)) i i * (c • (1 : Mat 1)) i i := fun i => by simpa using hlc
  have h4 : deltaZ * Real.sqrt (l / c) * c / (0.95 * deltaZ * Real.sqrt (l * c)) + 1 ≠ 0 := by positivity
  by_cases h3 : 0 < tSteps ∧ zSteps = 0
  · have h1 : ¬ ∃ i : Fin 1, (l • (1 : Mat 1)) i i * (c • (1 : Mat 1)) i i ≤ 0 := by
      push Not
      exact hpos
    have h2 : maxVelocity (l • (1 : Mat 1)) (c • 1) 0 ≠ 0 := (maxVelocity_pos one_pos hpos).ne'
    unfold twoConductors nConductors checkN
    rw [failIf_neg h1, failIf_neg h2, failIf_neg (by linarith)]
    simp [failIf, h3.1, h3.2, bind, Except.bind, Except.map, h4]
  have hvel : velocity (l • (1 : Mat 1)) (c • 1) = fun _ => 1 / Real.sqrt (l * c) := by
    funext i
    simp [velocity]
  have hsq : 0 < Real.sqrt (l * c) := Real.sqrt_pos.2 hlc
  have hW : IsGreatest (insert ({} : Saved).maxV (Set.range (velocity (l • (1 : Mat 1)) (c • 1)))) (1 / Real.sqrt (l * c)) := by
    constructor
    · exact Or.inr ⟨0, by rw [hvel]⟩
    · rintro y (rfl | ⟨i, rfl⟩)
      · show (0 : ℝ) ≤ _
        positivity
      · rw [hvel]
  have hterm : terminals (l • (1 : Mat 1)) (c • 1) = Real.sqrt (l / c) • 1 := by
    unfold terminals
    ext i j
    rw [Subsingleton.elim i 0, Subsingleton.elim j 0]
    simp
  have hdt : 0.95 * deltaZ / (1 / Real.sqrt (l * c)) = 0.95 * deltaZ * Real.sqrt (l * c) := by
    field_simp
  have hdet : ∀ a : ℝ, a ≠ 0 → (a • (1 : Mat 1)).det ≠ 0 := fun a ha => by simpa [det_smul] using ha
  rw [lossless_eq hpos hW (by positivity) h3 ?_ (hdet c hc.ne') (hdet l hl.ne'), hdt, hterm,
    stepLossless_eq (by positivity) (hdet c hc.ne') (hdet l hl.ne')]
  · unfold twoConductors
    rw [failIf_neg (by linarith), failIf_neg h3]
    simp only [bind, Except.bind, failIf_neg h4, Except.map]
    congr 1
    clear h3
    induction tSteps with
    | zero => rfl
    | succ t ih =>
      rw [Function.iterate_succ_apply', Function.iterate_succ_apply', ih]
      exact stepTwo_eq hl.ne' hc.ne' (by positivity) h4 _
  · rw [hdt, hterm, smul_mul_smul_comm, mul_one, smul_smul]
    have : (deltaZ / (0.95 * deltaZ * Real.sqrt (l * c)) * (Real.sqrt (l / c) * c)) • (1 : Mat 1) + 1 =
        (deltaZ * Real.sqrt (l / c) * c / (0.95 * deltaZ * Real.sqrt (l * c)) + 1) • 1 := by
      rw [add_smul, one_smul]
      congr 2
      ring
    rw [this]
    exact hdet _ h4

end Fortran

end Mtln
