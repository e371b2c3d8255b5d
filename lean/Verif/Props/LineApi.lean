import Verif.Lemmas.Straight
import Verif.Props.Linear
import Verif.Props.ProbeApi

/-!
# The public methods of `MTL`: C13, C23, C26, C29, C30, C31
-/

namespace Mtln

open Matrix

variable {n p : ℕ}

/-! ## C31 -/

/-- **C31.** `add_voltage_source` changes the source of the nearest node and the given conductor, and nothing
else of the line. -/
theorem C31_source (s : MTL n p) (pos : Pos) (c : Fin n) (f : ℝ → ℝ) :
    ∃ k ≤ s.m, (∀ k' ≤ s.m, norm3 (s.u k - pos.toV3) ≤ norm3 (s.u k' - pos.toV3)) ∧
      (s.addVoltageSource pos c f).vSources k c = f ∧
      (∀ k' j, (k', j) ≠ (k, c) → (s.addVoltageSource pos c f).vSources k' j = s.vSources k' j) ∧
      { s.addVoltageSource pos c f with vSources := s.vSources } = s := by
  obtain ⟨h1, h2, -⟩ := C25_nearest s.u s.m pos.toV3
  refine ⟨nearest s.u s.m pos.toV3, h1, h2, by simp [MTL.addVoltageSource], ?_, rfl⟩
  intro k' j h
  simp only [MTL.addVoltageSource]
  rw [if_neg]
  rintro ⟨rfl, rfl⟩
  exact h rfl

/-- **C31**, second half: a later source at the same place replaces the earlier one. -/
theorem C31_replaces (s : MTL n p) (pos : Pos) (c : Fin n) (f g : ℝ → ℝ) :
    (s.addVoltageSource pos c f).addVoltageSource pos c g = s.addVoltageSource pos c g := by
  simp only [MTL.addVoltageSource]
  congr 1
  funext k j
  split_ifs <;> rfl

/-- Sources at different places or conductors do not interfere. -/
theorem C31_independent (s : MTL n p) (pos pos' : Pos) (c c' : Fin n) (f g : ℝ → ℝ)
    (h : nearest s.u s.m pos.toV3 ≠ nearest s.u s.m pos'.toV3 ∨ c ≠ c') :
    (s.addVoltageSource pos c f).addVoltageSource pos' c' g
      = (s.addVoltageSource pos' c' g).addVoltageSource pos c f := by
  simp only [MTL.addVoltageSource]
  congr 1
  funext k j
  by_cases h1 : k = nearest s.u s.m pos'.toV3 ∧ j = c'
  · have h2 : ¬ (k = nearest s.u s.m pos.toV3 ∧ j = c) := by
      rintro ⟨a, b⟩
      rcases h with h | h
      · exact h (a.symm.trans h1.1)
      · exact h (b.symm.trans h1.2)
    exact (if_pos h1).trans ((if_neg h2).trans (if_pos h1)).symm
  · refine (if_neg h1).trans ?_
    refine if_congr Iff.rfl rfl ?_
    exact (if_neg h1).symm

/-! ## C13 -/

/-- The code disagrees with **C13** whenever the nearest node is not an end node: the run with the source
goes through the same voltages and currents as the run without it. -/
theorem C13_interior_no_effect (T : ℝ) (s : MTL n p) (pos : Pos) (c : Fin n) (f : ℝ → ℝ)
    (h0 : 0 < nearest s.u s.m pos.toV3) (hm : nearest s.u s.m pos.toV3 < s.m) (s' t' : MTL n p) (N : ℕ)
    (trs trt : ℕ → MTL n p) (Rs : RunTrace s T s' N trs)
    (Rt : RunTrace (s.addVoltageSource pos c f) T t' N trt) :
    ∀ j ≤ N, (trs j).v = (trt j).v ∧ (trs j).i = (trt j).i := by
  have := C13_interior_sources_ignored T s (s.addVoltageSource pos c f) s' t' N trs trt Rs Rt
    (by constructor <;> rfl) (by refine ⟨rfl, rfl, rfl⟩) rfl rfl rfl
    (by funext j; simp only [MTL.addVoltageSource]; rw [if_neg (by omega)])
    (by funext j; simp only [MTL.addVoltageSource]; rw [if_neg (by omega)])
  exact fun j hj => ⟨(this j hj).v.symm, (this j hj).i.symm⟩

/-- A run with an additional source succeeds exactly when the run without it does (so that the theorems on
C13 are about all lines). -/
theorem C13_same_success (T : ℝ) (s : MTL n p) (pos : Pos) (c : Fin n) (f : ℝ → ℝ) :
    (∃ t', (s.addVoltageSource pos c f).runUntil T = .ok t') ↔ ∃ s', s.runUntil T = .ok s' := by
  rw [runUntil_success_iff, runUntil_success_iff]
  rfl

/-- **C13** is false of the code: on the demo line (two cells, mid node at `z = 1`) a source in the middle,
whatever its waveform, leaves the line at rest for ever. -/
theorem C13_fails (f : ℝ → ℝ) (T : ℝ) : ∃ s' : MTL 1 p,
    ((demoBare p).addVoltageSource (.float 1) 0 f).runUntil T = .ok s' ∧
      nearest (demoBare p).u (demoBare p).m ![0, 0, 1] = 1 ∧ ∀ k, s'.v k = 0 ∧ s'.i k = 0 := by
  have hn : nearest (demoBare p).u (demoBare p).m ![0, 0, 1] = 1 := by
    have e : (demoBare p).u 1 = ![0, 0, 1] := by simp [demoBare]
    rw [← e]
    refine nearest_node _ _ 1 (by norm_num [demoBare]) ?_
    intro a ha hu
    have ha : a ≤ 2 := ha
    have := congrFun hu 2
    interval_cases a <;> simp [demoBare] at this ⊢
  obtain ⟨s', hs⟩ : ∃ s', (demoBare p).runUntil T = .ok s' :=
    (runUntil_success_iff _ _).2 ⟨by norm_num [demoBare], demo_lr_dt 1 one_pos, demo_cg_dt (p := p) 1 one_pos,
      Or.inr (by simp [demoBare])⟩
  obtain ⟨t', ht⟩ := (C13_same_success T (demoBare p) (.float 1) 0 f).2 ⟨s', hs⟩
  obtain ⟨-, N, trs, Rs⟩ := (runUntil_ok_iff _ _ _).1 hs
  obtain ⟨-, N', trt, Rt⟩ := (runUntil_ok_iff _ _ _).1 ht
  have : N' = N := by rw [Rt.len, Rs.len]; rfl
  subst this
  have hm : (demoBare p).m = 2 := rfl
  have E := C13_interior_no_effect T (demoBare p) (.float 1) 0 f (by show 0 < nearest _ _ ![0, 0, 1]; rw [hn]; norm_num)
    (by show nearest _ _ ![0, 0, 1] < _; rw [hn, hm]; norm_num) s' t' N' trs trt Rs Rt N' le_rfl
  have R := (C11_rest T _ s' N' trs Rs ⟨fun _ => rfl, fun _ => rfl, fun _ _ => rfl⟩
    ⟨fun _ _ _ => rfl, fun _ _ _ => rfl, fun _ _ _ => rfl⟩).1 N' le_rfl
  refine ⟨t', ht, hn, fun k => ?_⟩
  rw [← Rt.final, ← E.1, ← E.2]
  exact ⟨R.v k, R.i k⟩

/-- **C13** where it holds: a source whose nearest node is the left (right) end acts there.  In the first
step of a run it changes the end voltages by `left_port_term_2` (`right_port_term_2`) times the source, which is
not zero as long as the source sampled at the two times of the step differs from the one it replaces. -/
theorem C13_end_source_partial (T : ℝ) (s : MTL n p) (pos : Pos) (c : Fin n) (f : ℝ → ℝ) (hm : 0 < s.m)
    (hT : s.TermConsistent) (s' t' : MTL n p) (N : ℕ) (hN : 0 < N) (trs trt : ℕ → MTL n p)
    (Rs : RunTrace s T s' N trs) (Rt : RunTrace (s.addVoltageSource pos c f) T t' N trt)
    (k : ℕ) (hk : k = nearest s.u s.m pos.toV3) (hend : k = 0 ∨ k = s.m)
    (hf : f s.time + f (s.time - s.dt) ≠ s.vSources k c s.time + s.vSources k c (s.time - s.dt)) :
    (trt 1).v k ≠ (trs 1).v k := by
  have hs0 := C09_terminal_equations Rs hT hm 0 hN
  have hT' : (s.addVoltageSource pos c f).TermConsistent := ⟨hT.1, hT.2, hT.3, hT.4, hT.5, hT.6⟩
  have ht0 := C09_terminal_equations Rt hT' hm 0 hN
  obtain ⟨_, _, -, -, e1⟩ := Rs.start
  obtain ⟨_, _, -, -, e2⟩ := Rt.start
  have src : ∀ t, (fun a => (s.addVoltageSource pos c f).vSources k a t) = Function.update (fun a => s.vSources k a t) c (f t) := by
    intro t
    funext a
    simp only [MTL.addVoltageSource, Function.update_apply, ← hk, true_and]
    split_ifs <;> rfl
  intro h
  apply hf
  simp only [Nat.cast_zero, zero_mul, add_zero, zero_add] at hs0 ht0
  rcases hend with h0 | h0
  · have a1 := ((hs0 ((trs 1).v 0)).1).2 rfl
    have a2 := ((ht0 ((trt 1).v 0)).1).2 rfl
    rw [h0] at h src
    unfold TerminalEq at a1 a2
    rw [e1] at a1
    rw [e2, h] at a2
    have b := a1.symm.trans a2
    have b := sub_left_injective b
    have b := congrFun b c
    have c1 := congrFun (src s.time) c
    have c2 := congrFun (src (s.time - s.dt)) c
    simp only [Function.update_self] at c1 c2
    rw [h0]
    simp only [Pi.add_apply] at b
    have b' : s.vSources 0 c s.time + s.vSources 0 c (s.time - s.dt) =
      (s.addVoltageSource pos c f).vSources 0 c s.time + (s.addVoltageSource pos c f).vSources 0 c (s.time - s.dt) := b
    rw [c1, c2] at b'
    exact b'.symm
  · have a1 := ((hs0 ((trs 1).v s.m)).2).2 rfl
    have a2 := ((ht0 ((trt 1).v s.m)).2).2 rfl
    rw [h0] at h src
    unfold TerminalEq at a1 a2
    rw [e1] at a1
    rw [e2, h] at a2
    have b := a1.symm.trans a2
    have b := sub_left_injective b
    have b := congrFun b c
    have c1 := congrFun (src s.time) c
    have c2 := congrFun (src (s.time - s.dt)) c
    simp only [Function.update_self] at c1 c2
    rw [h0]
    simp only [Pi.add_apply] at b
    have b' : s.vSources s.m c s.time + s.vSources s.m c (s.time - s.dt) =
      (s.addVoltageSource pos c f).vSources s.m c s.time
        + (s.addVoltageSource pos c f).vSources s.m c (s.time - s.dt) := b
    rw [c1, c2] at b'
    exact b'.symm

/-! ## C23 -/

/-- **C23** is false of the code: the demo line, after `set_time_step(4, 2)` (`dt` 1 → 1/2), makes a first
step whose left end voltage does not satisfy the boundary condition for the new time step, because
`set_time_step` does not recompute the terminal coefficients. -/
theorem C23_terminal_fails : ∃ s s' : MTL 1 p, ∃ tr, (demoLine p).setTimeStep 4 2 = .ok s ∧
    RunTrace s 2 s' 4 tr ∧ ¬ TerminalEq (s.dun 0) s.dt s.zs (s.c 0) (s.g 0) ((tr 1).v 0) ((tr 0).v 0)
      (fun a => s.vSources 0 a s.time) (fun a => s.vSources 0 a (s.time - s.dt)) ((tr 0).i 0)
      (fun a => s.eT 0 a s.time - s.eT 0 a (s.time - s.dt)) := by
  set s : MTL 1 p := { demoLine p with dt := 1 / 2 } with es
  have h1 : (demoLine p).setTimeStep 4 2 = .ok s := by
    unfold MTL.setTimeStep
    refine bind_ok_iff.2 ⟨(), raiseIf_ok_iff.2 (by norm_num), ?_⟩
    congr 1
    rw [es]
    norm_num
  obtain ⟨s', h2⟩ : ∃ s', s.runUntil 2 = .ok s' :=
    (runUntil_success_iff _ _).2 ⟨by norm_num [es], demo_lr_dt (p := p) _ (by norm_num),
      demo_cg_dt (p := p) _ (by norm_num), Or.inr (demo_valid p)⟩
  obtain ⟨-, N, tr, R⟩ := (runUntil_ok_iff _ _ _).1 h2
  have hN : N = 4 := by
    rw [R.len]
    have : (2 : ℝ) / s.dt = ((4 : ℤ) : ℝ) := by simp only [es]; norm_num
    rw [this, Int.floor_intCast]
    rfl
  subst hN
  refine ⟨s, s', tr, h1, R, ?_⟩
  obtain ⟨lr, cg, hlr, hcg, hst⟩ := R.state
  obtain ⟨hc, hf, ht⟩ := hst 0 (by norm_num)
  obtain ⟨hv, -, -⟩ := hf.step_fields (R.step 0 (by norm_num))
  obtain ⟨_, _, -, -, e0⟩ := R.start
  have inv2 : ((termF1 1 1 1 1 0 : Mat 1))⁻¹ = (1 / 2 : ℝ) • 1 := by
    rw [demo_termF1]
    refine Matrix.inv_eq_right_inv ?_
    rw [smul_mul_smul_comm]
    norm_num
  have hv1 : (tr 1).v 0 0 = 1 / 2 := by
    have hl2 : s.left2 = (1 / 2 : ℝ) • 1 := inv2
    rw [zero_add] at hv
    rw [hv, advanceFields_v_left _ _ _ (by rw [hc.m]; norm_num [es, demoLine, demoBare]), hc.left1, hc.left2, hl2]
    have a0 : (tr 0).v 0 = 0 := by rw [e0]; rfl
    have a1 : (tr 0).i 0 = 0 := by rw [e0]; rfl
    have a2 : (tr 0).sample.vNow 0 0 = 1 := by
      rw [e0]
      show (if 0 = 0 ∧ (0 : ℝ) ≤ 0 then (1 : ℝ) else 0) = 1
      simp
    have a3 : (tr 0).sample.vPrev 0 0 = 0 := by
      rw [e0]
      show (if 0 = 0 ∧ (0 : ℝ) ≤ 0 - 1 / 2 then (1 : ℝ) else 0) = 0
      norm_num
    have a4 : (tr 0).sample.eTNow 0 - (tr 0).sample.eTPrev 0 = 0 := by
      rw [e0]
      exact sub_self _
    simp [a0, a1, a2, a3, a4, smul_mulVec]
  intro h
  unfold TerminalEq at h
  have h := congrFun h 0
  have a0 : (tr 0).v 0 = 0 := by rw [e0]; rfl
  have a1 : (tr 0).i 0 = 0 := by rw [e0]; rfl
  rw [a0, a1] at h
  have b1 : s.zs = 1 := rfl
  have b2 : s.c 0 = 1 := rfl
  have b3 : s.g 0 = 0 := rfl
  have b4 : s.dun 0 = 1 := by simp [es, demoLine, demoBare]
  have b5 : s.dt = 1 / 2 := rfl
  have b6 : ∀ t, s.vSources 0 0 t = if 0 ≤ t then 1 else 0 := by
    intro t
    simp [es, demoLine]
  have b7 : (fun a => s.eT 0 a s.time - s.eT 0 a (s.time - s.dt)) = 0 := by
    funext a
    exact sub_self _
  have b8 : s.time = 0 := rfl
  rw [b7, b1, b2, b3, b4, b5, b8] at h
  simp only [sub_zero, add_zero, smul_zero, one_mulVec, zero_mulVec, mulVec_zero, Pi.add_apply, Pi.sub_apply,
    Pi.smul_apply, Pi.zero_apply, b6, hv1, smul_eq_mul] at h
  norm_num at h

/-- **C23** where it holds.  After `set_time_step` every run uses the new time step in the current and voltage
equations of the cells and interior nodes (C07 and C08 hold with it, without further assumptions), and if the
user also calls `compute_terminal_terms` the boundary conditions hold too. -/
theorem C23_interior_partial (NDT F T : ℝ) (s₀ s s' : MTL n p) (h : s₀.setTimeStep NDT F = .ok s) (N : ℕ)
    (tr : ℕ → MTL n p) (R : RunTrace s T s' N tr) (j : ℕ) (hj : j < N) :
    s.dt = F / NDT ∧
    (∀ k < s.m, CurrentEq (s₀.dun k) (F / NDT) (s₀.l k) (s₀.r k) (s₀.conn.d k) (s₀.conn.e k) (s₀.conn.q1sum k)
      (s₀.conn.q2sum k) ((tr (j + 1)).i k) ((tr j).i k)
      (fun a => (∑ σ, ∑ b, (s₀.conn.q3 k a b).val σ * (tr j).phi k b σ).re)
      ((tr (j + 1)).v (k + 1) - (tr (j + 1)).v k)
      (fun a => s₀.eT (k + 1) a (s₀.time + j * (F / NDT)) - s₀.eT k a (s₀.time + j * (F / NDT)))
      (fun a => s₀.eL k a (s₀.time + j * (F / NDT) + (F / NDT) / 2))
      (fun a => s₀.eL k a (s₀.time + j * (F / NDT) - (F / NDT) / 2))) ∧
    (∀ k, 0 < k → k < s.m → VoltageEq ((s₀.dun (k - 1) + s₀.dun k) / 2) (F / NDT) (s₀.c k) (s₀.g k)
      ((tr (j + 1)).v k) ((tr j).v k) ((tr j).i k - (tr j).i (k - 1))
      (fun a => s₀.eT k a (s₀.time + j * (F / NDT)) - s₀.eT k a (s₀.time + j * (F / NDT) - F / NDT))) := by
  unfold MTL.setTimeStep at h
  obtain ⟨_, -, h⟩ := bind_ok_iff.1 h
  injection h with h
  subst h
  refine ⟨rfl, fun k hk => (C07_current_equation R j hj k hk _).2 rfl, fun k h0 hk =>
    (C08_voltage_equation R j hj k h0 hk _).2 rfl⟩

/-- Calling `compute_terminal_terms` after the change of `dt` restores the boundary conditions of C09. -/
theorem C23_recompute_partial (NDT F T : ℝ) (s₀ s₁ s s' : MTL n p) (h : s₀.setTimeStep NDT F = .ok s₁)
    (hr : s₁.computeTerminalTerms = .ok s) (hm : 0 < s₀.m) (N : ℕ) (tr : ℕ → MTL n p)
    (R : RunTrace s T s' N tr) (j : ℕ) (hj : j < N) :
    s.dt = F / NDT ∧ TerminalEq (s.dun 0) s.dt s.zs (s.c 0) (s.g 0) ((tr (j + 1)).v 0) ((tr j).v 0)
        (fun a => s.vSources 0 a (s.time + j * s.dt)) (fun a => s.vSources 0 a (s.time + j * s.dt - s.dt))
        ((tr j).i 0)
        (fun a => s.eT 0 a (s.time + j * s.dt) - s.eT 0 a (s.time + j * s.dt - s.dt)) ∧
    TerminalEq (s.dun (s.m - 1)) s.dt s.zl (s.c s.m) (s.g s.m) ((tr (j + 1)).v s.m) ((tr j).v s.m)
        (fun a => s.vSources s.m a (s.time + j * s.dt))
        (fun a => s.vSources s.m a (s.time + j * s.dt - s.dt))
        (-(tr j).i (s.m - 1))
        (fun a => s.eT s.m a (s.time + j * s.dt) - s.eT s.m a (s.time + j * s.dt - s.dt)) := by
  have hT := computeTerminalTerms_consistent hr
  unfold MTL.setTimeStep at h
  obtain ⟨_, -, h⟩ := bind_ok_iff.1 h
  injection h with h
  subst h
  obtain ⟨-, -, -, hs⟩ := computeTerminalTerms_ok_iff.1 hr
  have hm' : 0 < s.m := by rw [hs]; exact hm
  refine ⟨by rw [hs], ((C09_terminal_equations R hT hm' j hj _).1).2 rfl, ((C09_terminal_equations R hT hm' j hj _).2).2 rfl⟩

/-- Non-vacuity of the two partial statements of C23: the demo line with the new time step. -/
example : ∃ s₁ s s' : MTL 1 p, ∃ tr, (demoLine p).setTimeStep 4 2 = .ok s₁ ∧ s₁.computeTerminalTerms = .ok s ∧
    RunTrace s 2 s' 4 tr := by
  have hd : (termF1 (1 / 2) 1 1 1 0 : Mat 1).det ≠ 0 := by
    simp [termF1]
    norm_num
  have h2 : ∃ s, ({ demoLine p with dt := 1 / 2 } : MTL 1 p).computeTerminalTerms = .ok s :=
    ⟨_, computeTerminalTerms_ok_iff.2 ⟨by norm_num, hd, hd, rfl⟩⟩
  obtain ⟨s, hs⟩ := h2
  obtain ⟨-, -, -, he⟩ := computeTerminalTerms_ok_iff.1 hs
  obtain ⟨s', h3⟩ : ∃ s', s.runUntil 2 = .ok s' := by
    rw [he]
    exact (runUntil_success_iff _ _).2 ⟨by norm_num, demo_lr_dt (p := p) _ (by norm_num),
      demo_cg_dt (p := p) _ (by norm_num), Or.inr (demo_valid p)⟩
  obtain ⟨-, N, tr, R⟩ := (runUntil_ok_iff _ _ _).1 h3
  have hN : N = 4 := by
    rw [R.len]
    have : (2 : ℝ) / s.dt = ((4 : ℤ) : ℝ) := by rw [he]; norm_num
    rw [this, Int.floor_intCast]
    rfl
  subst hN
  refine ⟨_, s, s', tr, ?_, hs, R⟩
  unfold MTL.setTimeStep
  refine bind_ok_iff.2 ⟨(), raiseIf_ok_iff.2 (by norm_num), ?_⟩
  congr 2
  norm_num

/-! ## C26 -/

/-- The point `x` lies on the polyline `u 0, …, u m`. -/
def OnPolyline (u : ℕ → V3) (m : ℕ) (x : V3) : Prop :=
  ∃ k < m, ∃ τ : ℝ, 0 ≤ τ ∧ τ ≤ 1 ∧ x = fun j => u k j + τ * (u (k + 1) j - u k j)

/-- What `MTL.add_probe` really checks: the position lies in the axis-parallel box whose corners are the first
and the last node (in this order: for a decreasing coordinate the box is empty).  Otherwise it raises
`ValueError`. -/
theorem C26_box (s : MTL n p) (pos : Pos) (type : String) :
    ((∃ s', s.addProbe pos type = .ok s') ↔ ∀ j, s.u 0 j ≤ pos.toV3 j ∧ pos.toV3 j ≤ s.u s.m j) ∧
    ((¬ ∀ j, s.u 0 j ≤ pos.toV3 j ∧ pos.toV3 j ≤ s.u s.m j) → s.addProbe pos type = .error .ValueError) := by
  constructor
  · constructor
    · rintro ⟨s', h⟩
      exact (addProbe_ok_iff.1 h).1
    · intro h
      exact ⟨_, addProbe_ok_iff.2 ⟨h, rfl⟩⟩
  · intro h
    unfold MTL.addProbe raiseIf
    rw [if_pos]
    · rfl
    · unfold outOfBox
      by_contra hb
      push Not at hb
      exact h fun j => ⟨hb.2 j, hb.1 j⟩

theorem segment_line (a b : V3) (h : a ≠ b) : ∃ s : MTL 1 p, MTL.new p (.scalar 1) (.scalar 1) (.scalar 0)
    (.scalar 0) 1 [a, b] [1] (.scalar 0) (.scalar 0) "" = .ok ⟨1, s⟩ ∧ s.m = 1 ∧ s.u 0 = a ∧ s.u 1 = b := by
  obtain ⟨s, hs⟩ : ∃ s : MTL 1 p, MTL.new p (.scalar 1) (.scalar 1) (.scalar 0)
    (.scalar 0) 1 [a, b] [1] (.scalar 0) (.scalar 0) "" = .ok ⟨1, s⟩ := by
    refine C32_physical_accepted (d := 1) "" one_ne_zero (.floats 1 1) .zero .zero (.numbers 0 0)
      (spd_one one_pos) (spd_one one_pos) dissipative_zero (fun _ _ => le_rfl) (fun _ _ => le_rfl)
      one_pos (by simp) rfl (by simp) ⟨0, by simp, ?_⟩
    simpa using h
  obtain ⟨h1, -, -, h2, h3⟩ := straight_mesh (a := a) (b := b) one_pos (by simp) hs
  exact ⟨s, hs, h1, h2, h3⟩

/-- **C26** is false of the code: the middle of a line that runs in the direction of decreasing `z` is
rejected. -/
theorem C26_rejects_on_line : ∃ s : MTL 1 p, (∃ ndiv, MTL.new p (.scalar 1) (.scalar 1) (.scalar 0)
    (.scalar 0) 1 [![0, 0, 0], ![0, 0, -1]] ndiv (.scalar 0) (.scalar 0) "" = .ok ⟨1, s⟩) ∧
    OnPolyline s.u s.m ![0, 0, -1 / 2] ∧ s.addProbe (.array ![0, 0, -1 / 2]) "voltage" = .error .ValueError := by
  obtain ⟨s, hs, hm, h0, h1⟩ := segment_line (p := p) ![0, 0, 0] ![0, 0, -1] (by
    intro h
    have := congrFun h 2
    simp at this)
  refine ⟨s, ⟨_, hs⟩, ?_, ?_⟩
  · refine ⟨0, by omega, 1 / 2, by norm_num, by norm_num, ?_⟩
    rw [h0, zero_add, h1]
    funext j
    fin_cases j <;> simp
    norm_num
  · refine (C26_box _ _ _).2 ?_
    intro h
    have := h 2
    rw [h0] at this
    simp [Pos.toV3] at this
    linarith [this.1]

/-- **C26** is false of the code in the other direction too: a point off an oblique line, but inside its
box, is accepted. -/
theorem C26_accepts_off_line : ∃ s : MTL 1 p, (∃ ndiv, MTL.new p (.scalar 1) (.scalar 1) (.scalar 0)
    (.scalar 0) 1 [![0, 0, 0], ![0, 1, 1]] ndiv (.scalar 0) (.scalar 0) "" = .ok ⟨1, s⟩) ∧
    ¬ OnPolyline s.u s.m ![0, 1, 0] ∧ ∃ s', s.addProbe (.array ![0, 1, 0]) "voltage" = .ok s' := by
  obtain ⟨s, hs, hm, h0, h1⟩ := segment_line (p := p) ![0, 0, 0] ![0, 1, 1] (by
    intro h
    have := congrFun h 2
    simp at this)
  refine ⟨s, ⟨_, hs⟩, ?_, ?_⟩
  · rintro ⟨k, hk, τ, -, -, h⟩
    have : k = 0 := by omega
    subst this
    rw [h0, zero_add, h1] at h
    have a1 := congrFun h 1
    have a2 := congrFun h 2
    simp at a1 a2
    linarith
  · refine (C26_box _ _ _).1.2 ?_
    rw [h0, hm, h1]
    intro j
    fin_cases j <;> simp [Pos.toV3]

/-- **C26** where it holds: a line along one of the axes, in the direction of increasing coordinate. -/
theorem C26_axis_partial (s : MTL n p) (pos : Pos) (type : String) (d : Fin 3) (hm : 0 < s.m)
    (hperp : ∀ k ≤ s.m, ∀ j ≠ d, s.u k j = s.u 0 j) (hinc : ∀ k < s.m, s.u k d ≤ s.u (k + 1) d) :
    (∃ s', s.addProbe pos type = .ok s') ↔ OnPolyline s.u s.m pos.toV3 := by
  rw [(C26_box s pos type).1]
  have mono : ∀ a b, a ≤ b → b ≤ s.m → s.u a d ≤ s.u b d := by
    intro a b hab
    induction b, hab using Nat.le_induction with
    | base => intro _; exact le_rfl
    | succ b _ ih => intro h; exact (ih (by omega)).trans (hinc b (by omega))
  constructor
  · intro h
    -- the first node beyond the position
    have hex : ∃ k, k < s.m ∧ s.u k d ≤ pos.toV3 d ∧ pos.toV3 d ≤ s.u (k + 1) d := by
      by_contra hno
      push Not at hno
      have : ∀ k ≤ s.m, k < s.m → s.u (k + 1) d < pos.toV3 d := by
        intro k
        induction k with
        | zero => intro _ hk; exact hno 0 hk (h d).1
        | succ k ih =>
          intro _ hk
          exact hno (k + 1) hk (ih (by omega) (by omega)).le
      have := this (s.m - 1) (by omega) (by omega)
      rw [Nat.sub_add_cancel hm] at this
      exact absurd (h d).2 (not_le.2 this)
    obtain ⟨k, hk, h1, h2⟩ := hex
    refine ⟨k, hk, ?_⟩
    by_cases hz : s.u (k + 1) d = s.u k d
    · refine ⟨0, le_rfl, zero_le_one, ?_⟩
      funext j
      by_cases hj : j = d
      · subst hj
        simp only [zero_mul, add_zero]
        linarith
      · simp only [zero_mul, add_zero]
        have a := h j
        rw [hperp s.m le_rfl j hj] at a
        rw [hperp k hk.le j hj]
        exact le_antisymm a.2 a.1
    · have hpos : 0 < s.u (k + 1) d - s.u k d := by
        have := hinc k hk
        rcases this.lt_or_eq with h | h
        · linarith
        · exact absurd h.symm hz
      refine ⟨(pos.toV3 d - s.u k d) / (s.u (k + 1) d - s.u k d), div_nonneg (by linarith) hpos.le, ?_, ?_⟩
      · rw [div_le_one hpos]; linarith
      · funext j
        by_cases hj : j = d
        · subst hj
          field_simp
          ring
        · have a := h j
          rw [hperp s.m le_rfl j hj] at a
          rw [hperp k hk.le j hj, hperp (k + 1) hk j hj]
          simp only [sub_self, mul_zero, add_zero]
          exact le_antisymm a.2 a.1
  · rintro ⟨k, hk, τ, h0, h1, hx⟩ j
    rw [hx]
    by_cases hj : j = d
    · subst hj
      have a := mono 0 k (by omega) hk.le
      have b := mono (k + 1) s.m hk le_rfl
      have c := hinc k hk
      simp only
      constructor
      · nlinarith
      · nlinarith
    · simp only [hperp s.m le_rfl j hj, hperp k hk.le j hj, hperp (k + 1) hk j hj, sub_self, mul_zero, add_zero]
      exact ⟨le_rfl, le_rfl⟩

/-- Non-vacuity: the demo line. -/
example : ∃ s', (demoBare p).addProbe (.float (3 / 2)) "current" = .ok s' :=
  (C26_axis_partial (demoBare p) (.float (3 / 2)) "current" 2 (by norm_num [demoBare])
    (by
      intro k hk j hj
      have hk : k ≤ 2 := hk
      fin_cases j <;> interval_cases k <;> simp [demoBare] at hj ⊢)
    (by
      intro k hk
      have hk : k < 2 := hk
      interval_cases k <;> simp [demoBare])).2
    ⟨1, by norm_num [demoBare], 1 / 2, by norm_num, by norm_num, by
      funext j
      fin_cases j <;> norm_num [demoBare, Pos.toV3]⟩

end Mtln
