import Verif.Props.Dispersive

/-!
# C65: `create_clean_copy`
-/

namespace Mtln

open Matrix

variable {n p : ℕ}

/-- The attributes a run can change. -/
theorem iterate_advanceFields_frame (lr : LR n) (cg : CG n) (s : MTL n p) (N : ℕ) :
    ∃ v i phi t, (MTL.advanceFields lr cg)^[N] s = { s with v := v, i := i, phi := phi, time := t } := by
  induction N with
  | zero => exact ⟨_, _, _, _, rfl⟩
  | succ N ih =>
    obtain ⟨v, i, phi, t, h⟩ := ih
    rw [Function.iterate_succ_apply', h]
    exact ⟨_, _, _, _, rfl⟩

theorem runUntil_eq (T : ℝ) (s : MTL n p) : s.runUntil T = timeRangeLen T s.dt >>= fun N =>
    updateLr s.m s.dt s.dun s.l s.r s.conn >>= fun lr => updateCg s.m s.dt s.dun s.c s.g >>= fun cg =>
      iterPy MTL.step N
        { s with lr := some lr, cg := some cg, probes := s.probes.map (Probe.resizeFrames N) } := by
  unfold MTL.runUntil MTL.updateLrTerms MTL.updateCgTerms
  cases timeRangeLen T s.dt with
  | error => rfl
  | ok N =>
    cases updateLr s.m s.dt s.dun s.l s.r s.conn with
    | error => rfl
    | ok lr =>
      simp only [bind, Except.bind]
      cases updateCg s.m s.dt s.dun s.c s.g <;> rfl

/-- **C65**, the part that holds: if the memory of the connectors is the one the line was built with (in particular
for a line without dispersive connectors, `C65_no_connectors_partial`), running the clean copy of a line that has already
been run gives exactly the result of running the line freshly built: same outcome, voltages, currents, clock and
probe records. -/
theorem C65_clean_copy_partial {s₀ s : MTL n p} {T : ℝ} (hrun : s₀.runUntil T = .ok s) (hv : ∀ k, s₀.v k = 0)
    (hi : ∀ k, s₀.i k = 0) (ht : s₀.time = 0) (hphi : s.phi = s₀.phi) (T' : ℝ) :
    s.createCleanCopy.runUntil T' = s₀.runUntil T' := by
  obtain ⟨-, N, tr, R⟩ := (runUntil_ok_iff _ _ _).1 hrun
  obtain ⟨lr, cg, -, -, hcl⟩ := R.closed
  have e := hcl N le_rfl
  have hp := R.probes N le_rfl
  rw [R.final] at e hp
  obtain ⟨v, i, phi, t, hf⟩ := iterate_advanceFields_frame lr cg s₀ N
  rw [hf] at e
  have hphi' : phi = s₀.phi := by rw [← hphi, e]
  subst hphi'
  have hv' : s₀.v = fun _ => 0 := funext hv
  have hi' : s₀.i = fun _ => 0 := funext hi
  have hpr : ∀ M, s.createCleanCopy.probes.map (Probe.resizeFrames M) = s₀.probes.map (Probe.resizeFrames M) := by
    intro M
    unfold MTL.createCleanCopy
    simp only
    rw [hp, List.map_map, List.map_map]
    apply List.map_congr_left
    intro q _
    rfl
  have key : ∀ M (a : Option (LR n)) (b : Option (CG n)),
      { s.createCleanCopy with lr := a, cg := b, probes := s.createCleanCopy.probes.map (Probe.resizeFrames M) }
      = { s₀ with lr := a, cg := b, probes := s₀.probes.map (Probe.resizeFrames M) } := by
    intro M a b
    rw [hpr]
    unfold MTL.createCleanCopy
    rw [e]
    simp only
    rw [hv', hi', ht]
  have hm : s.createCleanCopy.m = s₀.m := by show s.m = _; rw [e]
  have hdt : s.createCleanCopy.dt = s₀.dt := by show s.dt = _; rw [e]
  have hdun : s.createCleanCopy.dun = s₀.dun := by show s.dun = _; rw [e]
  have hl : s.createCleanCopy.l = s₀.l := by show s.l = _; rw [e]
  have hr : s.createCleanCopy.r = s₀.r := by show s.r = _; rw [e]
  have hc : s.createCleanCopy.c = s₀.c := by show s.c = _; rw [e]
  have hg : s.createCleanCopy.g = s₀.g := by show s.g = _; rw [e]
  have hcn : s.createCleanCopy.conn = s₀.conn := by show s.conn = _; rw [e]
  rw [runUntil_eq, runUntil_eq]
  simp only [key]
  rw [hm, hdt, hdun, hl, hr, hc, hg, hcn]

/-- **C65** for lines without dispersive connectors whose memory is empty. -/
theorem C65_no_connectors_partial {s₀ s : MTL n p} {T dt : ℝ} (hrun : s₀.runUntil T = .ok s) (h0 : s₀.AtRest)
    (ht : s₀.time = 0) (hc : s₀.conn = Disp.new dt) (T' : ℝ) :
    s.createCleanCopy.runUntil T' = s₀.runUntil T' := by
  refine C65_clean_copy_partial hrun h0.v h0.i ht ?_ T'
  obtain ⟨-, N, tr, R⟩ := (runUntil_ok_iff _ _ _).1 hrun
  have H : ∀ j ≤ N, ∀ k a, (tr j).phi k a = 0 := by
    intro j
    induction j with
    | zero =>
      intro _ k a
      obtain ⟨lr, cg, -, -, e0⟩ := R.start
      rw [e0]
      exact h0.phi k a
    | succ j ih =>
      intro hj k a
      obtain ⟨lr, cg, -, -, hst⟩ := R.state
      obtain ⟨hcc, hf, -⟩ := hst j (by omega)
      obtain ⟨-, -, hphi⟩ := hf.step_fields (R.step j (by omega))
      rw [hphi, advanceFields_phi, hcc.conn, hc]
      funext σ
      simp [Disp.updatePhi, Disp.new, QEntry.val]
  have := H N le_rfl
  rw [R.final] at this
  funext k a
  rw [this, h0.phi]

/-- Non-vacuity: the demo line. -/
example : (demoLine 0).AtRest ∧ (demoLine 0).time = 0 ∧ (demoLine 0).conn = Disp.new 1 ∧
    ∃ s, (demoLine 0).runUntil 5 = .ok s :=
  ⟨⟨fun _ => rfl, fun _ => rfl, fun _ _ => rfl⟩, rfl, rfl, demo_run 0 5⟩

/-- **C65** is false of the code: `create_clean_copy` does not reset the memory of dispersive connectors.  On the demo
line with a connector for `1/(s+1)`, after a run of one step the clean copy computes a different current in its first
step than the freshly built line. -/
theorem C65_memory_leaks : ∃ s₀ s s₁ s₂ : MTL 1 1,
    (demoLine 1).addDispersiveConnector ![0, 0, 0] 0 demoModel = .ok s₀ ∧
    s₀.runUntil 1 = .ok s ∧ s.createCleanCopy.runUntil 1 = .ok s₁ ∧ s₀.runUntil 1 = .ok s₂ ∧
    s₁.i 0 0 ≠ s₂.i 0 0 := by
  obtain ⟨D, hadd, H, hdt, hd, he, h1, h2⟩ := demo_connector
  obtain ⟨hrun, hne⟩ := demo_connector_run hd he h1
  obtain ⟨s, hs⟩ := hrun 1
  obtain ⟨-, N, tr, R⟩ := (runUntil_ok_iff _ _ _).1 hs
  have hN : N = 1 := by
    rw [R.len]
    show ⌊(1 : ℝ) / 1⌋.toNat = 1
    norm_num
  subst hN
  have hi := hne _ _ _ _ R one_pos
  obtain ⟨lr0, cg0, hlr0, hcg0, e0⟩ := R.start
  obtain ⟨lr, cg, hlr, hcg, hcl⟩ := R.closed
  have e := hcl 1 le_rfl
  have hp := R.probes 1 le_rfl
  have hphi : s.phi 0 0 0 = (1 - Real.exp (-1)) * s.i 0 0 := by
    have hst := R.state
    obtain ⟨lr', cg', -, -, hst⟩ := hst
    obtain ⟨hcc, hf, -⟩ := hst 0 zero_le_one
    obtain ⟨-, hi1, hphi⟩ := hf.step_fields (R.step 0 one_pos)
    rw [← R.final]
    rw [hphi, advanceFields_phi, ← hi1, hcc.conn]
    show D.updatePhi (tr 0).phi (tr 1).i (tr 1).i 0 0 0 = _
    rw [updatePhi_connector H]
    have hz : (tr 0).phi 0 0 0 = 0 := by rw [e0]; rfl
    have hA : coefA (-1) 1 1 = -Complex.exp (-1) := by
      unfold coefA; norm_num; ring
    have hB : coefB (-1) 1 1 = 1 - 2 * Complex.exp (-1) := by
      unfold coefB; norm_num; ring
    rw [hz, hdt, hA, hB]
    push_cast
    ring
  rw [R.final] at e hp hi
  obtain ⟨v, i, phi, t, hf⟩ := iterate_advanceFields_frame lr cg (demoWith D) 1
  rw [hf] at e
  obtain ⟨s₁, hs₁⟩ : ∃ s₁, s.createCleanCopy.runUntil 1 = .ok s₁ := by
    refine (runUntil_success_iff 1 _).2 ⟨?_, ?_, ?_, Or.inr ?_⟩
    · show s.dt ≠ 0
      rw [e]
      exact one_ne_zero
    · refine ⟨lr, ?_⟩
      show updateLr s.m s.dt s.dun s.l s.r s.conn = _
      rw [e]
      exact hlr
    · refine ⟨cg, ?_⟩
      show updateCg s.m s.dt s.dun s.c s.g = _
      rw [e]
      exact hcg
    · intro q hq
      simp only [MTL.createCleanCopy] at hq
      obtain ⟨q', hq', rfl⟩ := List.mem_map.1 hq
      rw [hp] at hq'
      obtain ⟨q'', hq'', rfl⟩ := List.mem_map.1 hq'
      exact demo_valid 1 q'' hq''
  refine ⟨_, s, s₁, s, hadd, hs, hs₁, hs, ?_⟩
  obtain ⟨-, N', tr', R'⟩ := (runUntil_ok_iff _ _ _).1 hs₁
  have hN' : N' = 1 := by
    rw [R'.len]
    have : s.createCleanCopy.dt = 1 := by show s.dt = 1; rw [e]; rfl
    rw [this]
    norm_num
  subst hN'
  obtain ⟨lr1, cg1, hlr1, hcg1, e1⟩ := R'.start
  have hT : (demoWith D).TermConsistent :=
    have h := demo_termConsistent 1
    ⟨h.det_left, h.det_right, h.left1, h.left2, h.right1, h.right2⟩
  have hT' : s.createCleanCopy.TermConsistent := by
    unfold MTL.createCleanCopy
    rw [e]
    exact ⟨hT.det_left, hT.det_right, hT.left1, hT.left2, hT.right1, hT.right2⟩
  have hm' : s.createCleanCopy.m = 2 := by show s.m = 2; rw [e]; rfl
  have heT : s.createCleanCopy.eT = fun _ _ _ => 0 := by show s.eT = _; rw [e]; rfl
  -- the equations of the first step of both runs
  have a0 := congrFun ((C09_terminal_equations R hT Nat.zero_lt_two 0 one_pos _).1.2 rfl) 0
  have a1 := congrFun (C08_voltage_equation_no_field R rfl 0 one_pos 1 one_pos (by show 1 < 2; norm_num)) 0
  have a2 := congrFun ((C07_current_equation R 0 one_pos 0 Nat.zero_lt_two _).2 rfl) 0
  have b0 := congrFun ((C09_terminal_equations R' hT' (by rw [hm']; norm_num) 0 one_pos _).1.2 rfl) 0
  have b1 := congrFun (C08_voltage_equation_no_field R' heT 0 one_pos 1 one_pos (by rw [hm']; norm_num)) 0
  have b2 := congrFun ((C07_current_equation R' 0 one_pos 0 (by rw [hm']; norm_num) _).2 rfl) 0
  have c1 : s.createCleanCopy.dun = (demoLine 1).dun := by show s.dun = _; rw [e]; rfl
  have c2 : s.createCleanCopy.dt = 1 := by show s.dt = _; rw [e]; rfl
  have c3 : s.createCleanCopy.zs = 1 := by show s.zs = _; rw [e]; rfl
  have c4 : s.createCleanCopy.c = fun _ => 1 := by show s.c = _; rw [e]; rfl
  have c5 : s.createCleanCopy.g = fun _ => 0 := by show s.g = _; rw [e]; rfl
  have c6 : s.createCleanCopy.vSources = (demoLine 1).vSources := by show s.vSources = _; rw [e]; rfl
  have c7 : s.createCleanCopy.l = fun _ => 1 := by show s.l = _; rw [e]; rfl
  have c8 : s.createCleanCopy.r = fun _ => 0 := by show s.r = _; rw [e]; rfl
  have c9 : s.createCleanCopy.eL = fun _ _ _ => 0 := by show s.eL = _; rw [e]; rfl
  have c10 : s.createCleanCopy.conn = D := by show s.conn = _; rw [e]; rfl
  have c11 : s.createCleanCopy.time = 0 := rfl
  have d1 : (tr' 0).v = fun _ => 0 := by rw [e1]; rfl
  have d2 : (tr' 0).i = fun _ => 0 := by rw [e1]; rfl
  have d3 : (tr' 0).phi 0 0 0 = (1 - Real.exp (-1)) * s.i 0 0 := by rw [e1]; exact hphi
  have d4 : (tr 0).v = fun _ => 0 := by rw [e0]; rfl
  have d5 : (tr 0).i = fun _ => 0 := by rw [e0]; rfl
  have d6 : (tr 0).phi 0 0 0 = 0 := by rw [e0]; rfl
  have hq3 : (D.q3 0 0 0).val 0 = (Real.exp (-1) : ℝ) := by
    rw [H.q3, if_pos rfl, hdt]
    simp [coefE]
  have sample : ∀ D, (demoWith D).vSources = (demoLine 1).vSources := fun _ => rfl
  rw [zero_add, R.final] at a0 a1 a2
  rw [zero_add, R'.final] at b0 b1 b2
  rw [d4, d5] at a0 a1
  rw [d1, d2, c1, c2, c3, c4, c5, c6, c11, heT] at b0
  rw [d1, d2, c1, c2, c4, c5] at b1
  simp only [Nat.cast_zero, zero_mul, zero_add, add_zero] at a0 b0
  simp [demoWith, demoLine, demoBare] at a0 a1 b0 b1
  rw [if_neg (by norm_num)] at a0 b0
  rw [d5] at a2
  rw [d2, c1, c2, c7, c8, c9, c10, heT] at b2
  simp [demoWith, demoLine, demoBare, Matrix.mulVec, dotProduct, hd, he, h1, d6, a1] at a2
  simp [demoLine, demoBare, Matrix.mulVec, dotProduct, hd, he, h1, d3, b1, hq3] at b2
  have hre : (Complex.exp (-1)).re = Real.exp (-1) := by
    have : Complex.exp (-1) = ((Real.exp (-1) : ℝ) : ℂ) := by push_cast; rfl
    rw [this, Complex.ofReal_re]
  have him : (Complex.exp (-1)).im = 0 := by
    have : Complex.exp (-1) = ((Real.exp (-1) : ℝ) : ℂ) := by push_cast; rfl
    rw [this, Complex.ofReal_im]
  rw [hre, him] at b2
  have hpos := Real.exp_pos (-1)
  have hlt : Real.exp (-1) < 1 := by
    rw [Real.exp_lt_one_iff]
    norm_num
  intro heq
  rw [heq] at b2
  have hz : Real.exp (-1) * ((1 - Real.exp (-1)) * s.i 0 0) = 0 := by linarith
  rcases mul_eq_zero.1 hz with h | h
  · linarith
  · rcases mul_eq_zero.1 h with h | h
    · linarith
    · exact hi h

end Mtln
