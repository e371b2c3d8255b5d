import Verif.Lemmas.Fields
import Verif.Model.Construct
import Verif.Props.Demo

/-!
# The update formulas solve the discretised equations: C07, C08, C09
-/

namespace Mtln

open Matrix

variable {n p : ℕ}

/-- **C07.** In every step of every run, in every cell, the new currents satisfy the discretised current
equation (with the new voltages), and they are the only currents that do. -/
theorem C07_current_equation {s s' : MTL n p} {T : ℝ} {N : ℕ} {tr : ℕ → MTL n p}
    (R : RunTrace s T s' N tr) (j : ℕ) (hj : j < N) (k : ℕ) (hk : k < s.m) (x : Col n) :
    CurrentEq (s.dun k) s.dt (s.l k) (s.r k) (s.conn.d k) (s.conn.e k) (s.conn.q1sum k) (s.conn.q2sum k)
      x ((tr j).i k)
      (fun a => (∑ σ, ∑ b, (s.conn.q3 k a b).val σ * (tr j).phi k b σ).re)
      ((tr (j + 1)).v (k + 1) - (tr (j + 1)).v k)
      (fun a => s.eT (k + 1) a (s.time + j * s.dt) - s.eT k a (s.time + j * s.dt))
      (fun a => s.eL k a (s.time + j * s.dt + s.dt / 2))
      (fun a => s.eL k a (s.time + j * s.dt - s.dt / 2))
    ↔ x = (tr (j + 1)).i k := by
  obtain ⟨lr, cg, hlr, hcg, hst⟩ := R.state
  obtain ⟨hc, hf, ht⟩ := hst j hj.le
  obtain ⟨hv, hi, -⟩ := hf.step_fields (R.step j hj)
  obtain ⟨-, hdet, he⟩ := updateLr_ok_iff.1 hlr
  rw [hv, hi, advanceFields_i _ _ _ _ (by rw [hc.m]; exact hk), he]
  rw [← current_update_iff rfl rfl (hdet k hk)]
  simp only [lrF1, lrF2, MTL.sample, sampleSources, hc.dun, hc.dt, hc.eT, hc.eL, ht, hc.conn]
  rfl

/-- **C08.** In every step of every run, at every interior node, the new voltages satisfy the discretised
voltage equation, and they are the only ones that do.  The nodal length is the mean of the two cells. -/
theorem C08_voltage_equation {s s' : MTL n p} {T : ℝ} {N : ℕ} {tr : ℕ → MTL n p}
    (R : RunTrace s T s' N tr) (j : ℕ) (hj : j < N) (k : ℕ) (h0 : 0 < k) (hk : k < s.m) (x : Col n) :
    VoltageEq ((s.dun (k - 1) + s.dun k) / 2) s.dt (s.c k) (s.g k) x ((tr j).v k)
      ((tr j).i k - (tr j).i (k - 1))
      (fun a => s.eT k a (s.time + j * s.dt) - s.eT k a (s.time + j * s.dt - s.dt))
    ↔ x = (tr (j + 1)).v k := by
  obtain ⟨lr, cg, hlr, hcg, hst⟩ := R.state
  obtain ⟨hc, hf, ht⟩ := hst j hj.le
  obtain ⟨hv, hi, -⟩ := hf.step_fields (R.step j hj)
  obtain ⟨-, hdet, he⟩ := updateCg_ok_iff.1 hcg
  rw [hv, advanceFields_v_interior _ _ _ _ h0 (by rw [hc.m]; exact hk), he]
  have hlen : nodalLength s.m s.dun k = (s.dun (k - 1) + s.dun k) / 2 := by
    unfold nodalLength
    rw [if_neg (by omega), if_pos hk]
    ring
  rw [← hlen, ← voltage_update_iff rfl rfl (hdet k hk.le)]
  simp only [cgF1, cgF2, MTL.sample, sampleSources, hc.dt, hc.eT, ht]
  rfl

/-- **C08**, special case without transverse excitation:
`h C (v' - v)/dt + h G (v' + v)/2 = -(i_k - i_{k-1})`. -/
theorem C08_voltage_equation_no_field {s s' : MTL n p} {T : ℝ} {N : ℕ} {tr : ℕ → MTL n p}
    (R : RunTrace s T s' N tr) (hE : s.eT = fun _ _ _ => 0) (j : ℕ) (hj : j < N) (k : ℕ) (h0 : 0 < k)
    (hk : k < s.m) :
    ((s.dun (k - 1) + s.dun k) / 2) • ((1 / s.dt) • (s.c k *ᵥ ((tr (j + 1)).v k - (tr j).v k))
        + (1 / 2 : ℝ) • (s.g k *ᵥ ((tr (j + 1)).v k + (tr j).v k)))
      = -((tr j).i k - (tr j).i (k - 1)) := by
  have := (C08_voltage_equation R j hj k h0 hk _).2 rfl
  unfold VoltageEq at this
  have hz : (fun a : Fin n => s.eT k a (s.time + j * s.dt) - s.eT k a (s.time + j * s.dt - s.dt)) = 0 := by
    funext a; simp [hE]
  rw [hz] at this
  simpa using this

/-- **C09.** If the terminal coefficients belong to the line's time step (as the constructor leaves them,
`C09_constructed_consistent`), then in every step of every run the new end voltages are the unique solution
of the Thevenin boundary condition at both ends. -/
theorem C09_terminal_equations {s s' : MTL n p} {T : ℝ} {N : ℕ} {tr : ℕ → MTL n p}
    (R : RunTrace s T s' N tr) (hT : s.TermConsistent) (hm : 0 < s.m) (j : ℕ) (hj : j < N) (x : Col n) :
    (TerminalEq (s.dun 0) s.dt s.zs (s.c 0) (s.g 0) x ((tr j).v 0)
        (fun a => s.vSources 0 a (s.time + j * s.dt)) (fun a => s.vSources 0 a (s.time + j * s.dt - s.dt))
        ((tr j).i 0)
        (fun a => s.eT 0 a (s.time + j * s.dt) - s.eT 0 a (s.time + j * s.dt - s.dt))
      ↔ x = (tr (j + 1)).v 0) ∧
    (TerminalEq (s.dun (s.m - 1)) s.dt s.zl (s.c s.m) (s.g s.m) x ((tr j).v s.m)
        (fun a => s.vSources s.m a (s.time + j * s.dt))
        (fun a => s.vSources s.m a (s.time + j * s.dt - s.dt))
        (-(tr j).i (s.m - 1))
        (fun a => s.eT s.m a (s.time + j * s.dt) - s.eT s.m a (s.time + j * s.dt - s.dt))
      ↔ x = (tr (j + 1)).v s.m) := by
  obtain ⟨lr, cg, hlr, hcg, hst⟩ := R.state
  obtain ⟨hc, hf, ht⟩ := hst j hj.le
  obtain ⟨hv, hi, -⟩ := hf.step_fields (R.step j hj)
  have hm' : 0 < (tr j).m := by rw [hc.m]; exact hm
  constructor
  · rw [hv, advanceFields_v_left _ _ _ hm', hc.left1, hc.left2, hT.left1, hT.left2]
    unfold TerminalEq
    rw [← terminal_update_iff hT.det_left]
    simp only [MTL.sample, sampleSources, hc.dt, hc.eT, hc.vSources, ht, hc.zs, hc.c, hc.dun]
    rfl
  · have := advanceFields_v_right lr cg (tr j) hm'
    rw [hc.m] at this
    rw [hv, this, hc.right1, hc.right2, hT.right1, hT.right2]
    unfold TerminalEq
    rw [← terminal_update_iff hT.det_right]
    simp only [MTL.sample, sampleSources, hc.dt, hc.eT, hc.vSources, ht, hc.zl, hc.c, hc.dun]
    rw [mulVec_neg, smul_neg, neg_neg]
    rfl

/-- Every line built by the constructor has consistent terminal coefficients (hypothesis of C09). -/
theorem C09_constructed_consistent (l c r g : Arg) (length : ℝ) (positions : List V3) (ndiv : List ℕ)
    (Zs Zl : ZArg) (name : String) (s : MTL n p)
    (h : MTL.new p l c r g length positions ndiv Zs Zl name = .ok ⟨n, s⟩) : s.TermConsistent := by
  unfold MTL.new at h
  obtain ⟨⟨n', la, ca⟩, -, h⟩ := bind_ok_iff.1 h
  obtain ⟨ga, -, h⟩ := bind_ok_iff.1 h
  obtain ⟨ra, -, h⟩ := bind_ok_iff.1 h
  obtain ⟨⟨zsa, zla⟩, -, h⟩ := bind_ok_iff.1 h
  obtain ⟨mem, -, h⟩ := bind_ok_iff.1 h
  obtain ⟨_, -, h⟩ := bind_ok_iff.1 h
  obtain ⟨dt, -, h⟩ := bind_ok_iff.1 h
  obtain ⟨s1, h1, h⟩ := bind_ok_iff.1 h
  injection h with h
  obtain ⟨rfl, h⟩ := Sigma.mk.inj_iff.1 h
  have := eq_of_heq h
  subst this
  exact computeTerminalTerms_consistent h1

/-- Consistency survives any run (so C09 applies to later runs as well). -/
theorem C09_consistent_preserved {s s' : MTL n p} {T : ℝ} (h : s.runUntil T = .ok s')
    (ht : s.TermConsistent) : s'.TermConsistent := by
  obtain ⟨-, N, tr, R⟩ := (runUntil_ok_iff _ _ _).1 h
  obtain ⟨lr, cg, hlr, hcg, hst⟩ := R.state
  rw [← R.final]
  exact (hst N le_rfl).1.termConsistent ht

/-- Non-vacuity of C07-C09: the demo line is consistent, has cells, an interior node, and runs. -/
example : (demoLine 0).TermConsistent ∧ 0 < (demoLine 0).m ∧
    ∃ s' tr, RunTrace (demoLine 0) 5 s' 5 tr := by
  refine ⟨?_, by simp [demoLine, demoBare], ?_⟩
  · exact demo_termConsistent 0
  · obtain ⟨s', h⟩ := demo_run 0 5
    obtain ⟨-, N, tr, R⟩ := (runUntil_ok_iff _ _ _).1 h
    have : N = 5 := by
      rw [R.len]
      have : ⌊(5 : ℝ) / (demoLine 0).dt⌋ = 5 := by
        rw [Int.floor_eq_iff]; norm_num [demoLine, demoBare]
      rw [this]; rfl
    subst this
    exact ⟨s', tr, R⟩

end Mtln
