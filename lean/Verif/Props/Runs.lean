import Verif.Props.Demo

/-!
# Properties of running a single line: C01, C04, C05, C06 (running part), C22

`RunTrace s T s' N tr` (in `Verif.Spec.Run`) says that `run_until(T)` took the line `s` to `s'` through the
states `tr 0, …, tr N`, one `step` each.
-/

namespace Mtln

variable {n p : ℕ}

/-- **C01.** After `run_until(T)` every probe holds exactly `⌊T/dt⌋` frames (none if that is negative);
frame `j` has time `t₀ + (j+1) dt` (plus half the probe's `dt` for current probes) and the values the line
has at the probe's node (cell) after `j + 1` steps. -/
theorem C01_run_frames (s s' : MTL n p) (T : ℝ) (h : s.runUntil T = .ok s') :
    ∃ tr : ℕ → MTL n p, RunTrace s T s' ⌊T / s.dt⌋.toNat tr ∧
      s'.probes.length = s.probes.length ∧
      ∀ (a : ℕ) (q q' : Probe n), s.probes[a]? = some q → s'.probes[a]? = some q' →
        q'.type = q.type ∧ q'.index = q.index ∧
        q'.t = (List.range ⌊T / s.dt⌋.toNat).map (fun j : ℕ =>
          if q.type = "voltage" then s.time + (j + 1) * s.dt else s.time + (j + 1) * s.dt + q.dt / 2) ∧
        q'.val = .rows ((List.range ⌊T / s.dt⌋.toNat).map fun j =>
          if q.type = "voltage" then (tr (j + 1)).v q.index
          else if q.index = s.m then (tr (j + 1)).i (q.index - 1) else (tr (j + 1)).i q.index) := by
  obtain ⟨-, N, tr, h⟩ := (runUntil_ok_iff _ _ _).1 h
  have hN := h.len
  subst hN
  refine ⟨tr, h, ?_⟩
  have hp := h.probes _ le_rfl
  rw [h.final] at hp
  refine ⟨by rw [hp, List.length_map], ?_⟩
  intro a q q' hq hq'
  rw [hp, List.getElem?_map, hq] at hq'
  simp only [Option.map_some, Option.some.injEq] at hq'
  subst hq'
  refine ⟨rfl, rfl, ?_, ?_⟩
  · simp only [Probe.recorded, filled_full, Probe.stamp]
    push_cast
    rfl
  · simp only [Probe.recorded, filled_full, Probe.column]

/-- **C01**, success part: `run_until` fails exactly if the time step is zero, a coefficient matrix is
singular, or a step is made with a probe of unknown type. -/
theorem C01_run_succeeds_iff (s : MTL n p) (T : ℝ) :
    (∃ s', s.runUntil T = .ok s') ↔ s.dt ≠ 0 ∧
      (∀ k < s.m, (s.dun k • ((1 / s.dt) • s.l k + (0.5 : ℝ) • s.conn.d k + (1 / s.dt) • s.conn.e k
          + (0.5 : ℝ) • s.r k + s.conn.q1sum k)).det ≠ 0) ∧
      (∀ k ≤ s.m, (nodalLength s.m s.dun k • ((1 / s.dt) • s.c k + (1 / 2 : ℝ) • s.g k)).det ≠ 0) ∧
      (⌊T / s.dt⌋.toNat = 0 ∨ ∀ q ∈ s.probes, q.type = "voltage" ∨ q.type = "current") := by
  rw [runUntil_success_iff]
  constructor
  · rintro ⟨hdt, ⟨lr, hlr⟩, ⟨cg, hcg⟩, hv⟩
    refine ⟨hdt, ?_, ?_, hv⟩
    · intro k hk h0
      unfold updateLr at hlr
      rw [if_neg hdt, if_pos ⟨k, hk, h0⟩] at hlr
      simp at hlr
    · intro k hk h0
      unfold updateCg at hcg
      rw [if_neg hdt, if_pos ⟨k, hk, h0⟩] at hcg
      simp at hcg
  · rintro ⟨hdt, hl, hc, hv⟩
    refine ⟨hdt, ?_, ?_, hv⟩
    · unfold updateLr
      rw [if_neg hdt, if_neg (by rintro ⟨k, hk, h0⟩; exact hl k hk h0)]
      exact ⟨_, rfl⟩
    · unfold updateCg
      rw [if_neg hdt, if_neg (by rintro ⟨k, hk, h0⟩; exact hc k hk h0)]
      exact ⟨_, rfl⟩

/-- Non-vacuity of C01: the demo line runs for 7 steps and both probes hold 7 frames. -/
example : ∃ s', (demoLine 0).runUntil 7.5 = .ok s' ∧ ∀ q ∈ s'.probes, q.t.length = 7 := by
  obtain ⟨s', h⟩ := demo_run 0 7.5
  refine ⟨s', h, ?_⟩
  obtain ⟨tr, -, hlen, hq⟩ := C01_run_frames _ _ _ h
  intro q' hq'
  obtain ⟨a, ha, he⟩ := List.getElem_of_mem hq'
  have hb : a < (demoLine 0).probes.length := by omega
  have := (hq a _ q' (List.getElem?_eq_getElem hb) (by rw [List.getElem?_eq_getElem ha, he])).2.2.1
  rw [this, List.length_map, List.length_range]
  have : ⌊(7.5 : ℝ) / (demoLine 0).dt⌋ = 7 := by
    rw [Int.floor_eq_iff]
    norm_num [demoLine, demoBare]
  rw [this]
  rfl

/-- **C04.** Runs compose: if `run_until(T₁)` followed by `run_until(T₂)` succeeds, a single run over the
total number of steps succeeds too, ends with the same voltages, currents, memory and clock, and its probes
hold the frames of the first run followed by those of the second (after two runs a probe only keeps the
frames of the second one). -/
theorem C04_runs_compose (s s₁ s₂ : MTL n p) (T₁ T₂ T : ℝ) (h₁ : s.runUntil T₁ = .ok s₁)
    (h₂ : s₁.runUntil T₂ = .ok s₂)
    (hT : ⌊T / s.dt⌋.toNat = ⌊T₁ / s.dt⌋.toNat + ⌊T₂ / s.dt⌋.toNat) :
    ∃ s₃, s.runUntil T = .ok s₃ ∧ s₃.v = s₂.v ∧ s₃.i = s₂.i ∧ s₃.phi = s₂.phi ∧ s₃.time = s₂.time ∧
      ∀ (a : ℕ) (q₁ q₂ q₃ : Probe n), s₁.probes[a]? = some q₁ → s₂.probes[a]? = some q₂ →
        s₃.probes[a]? = some q₃ →
        q₃.t = q₁.t ++ q₂.t ∧
        ∃ r₁ r₂, q₁.val = .rows r₁ ∧ q₂.val = .rows r₂ ∧ q₃.val = .rows (r₁ ++ r₂) := by
  obtain ⟨hdt, N₁, tr₁, R₁⟩ := (runUntil_ok_iff _ _ _).1 h₁
  obtain ⟨-, N₂, tr₂, R₂⟩ := (runUntil_ok_iff _ _ _).1 h₂
  obtain ⟨lr, cg, hlr, hcg, hc₁⟩ := R₁.closed
  have hcfg : s.SameConfig s₁ := by
    obtain ⟨_, _, _, _, hst⟩ := R₁.state
    rw [← R₁.final]; exact (hst N₁ le_rfl).1
  have hdt₁ : s₁.dt = s.dt := hcfg.dt
  have hlr' : updateLr s₁.m s₁.dt s₁.dun s₁.l s₁.r s₁.conn = .ok lr := by
    rw [hcfg.m, hcfg.dt, hcfg.dun, hcfg.l, hcfg.r, hcfg.conn]; exact hlr
  have hcg' : updateCg s₁.m s₁.dt s₁.dun s₁.c s₁.g = .ok cg := by
    rw [hcfg.m, hcfg.dt, hcfg.dun, hcfg.c, hcfg.g]; exact hcg
  have hN₂ : N₂ = ⌊T₂ / s.dt⌋.toNat := by rw [R₂.len, hdt₁]
  have hN : ⌊T / s.dt⌋.toNat = N₁ + N₂ := by rw [hT, ← R₁.len, hN₂]
  have hp₁ := R₁.probes N₁ le_rfl
  rw [R₁.final] at hp₁
  have hp₂ := R₂.probes N₂ le_rfl
  rw [R₂.final] at hp₂
  have hs₁ : s₁ = { (MTL.advanceFields lr cg)^[N₁] s with
      lr := some lr, cg := some cg, probes := s₁.probes } := by
    have := hc₁ N₁ le_rfl
    rwa [R₁.final] at this
  have hiter : ∀ j, (MTL.advanceFields lr cg)^[j] s₁ =
      { (MTL.advanceFields lr cg)^[N₁ + j] s with
        lr := some lr, cg := some cg, probes := s₁.probes } := by
    intro j
    conv_lhs => rw [hs₁]
    rw [iterate_advanceFields_with, Nat.add_comm, Function.iterate_add_apply]
  -- validity of the probes
  have hval : ⌊T / s.dt⌋.toNat = 0 ∨ ∀ q ∈ s.probes, q.Valid := by
    rw [hN]
    rcases Nat.eq_zero_or_pos N₁ with h0 | h0
    · rcases Nat.eq_zero_or_pos N₂ with h0' | h0'
      · left; omega
      · right
        have := R₂.valid h0'
        intro q hq
        have h' := this (q.recorded N₁ (fun a => q.stamp (s.time + (a + 1 : ℕ) * s.dt))
          (fun a => q.column s.m (tr₁ (a + 1)).v (tr₁ (a + 1)).i) N₁)
          (by rw [hp₁]; exact List.mem_map_of_mem hq)
        exact h'
    · right; exact R₁.valid h0
  obtain ⟨s₃, h₃⟩ := (runUntil_success_iff T s).2 ⟨hdt, ⟨lr, hlr⟩, ⟨cg, hcg⟩, hval⟩
  obtain ⟨-, N₃, tr₃, R₃⟩ := (runUntil_ok_iff _ _ _).1 h₃
  have hN₃ : N₃ = N₁ + N₂ := by rw [R₃.len, hN]
  have hf₃ := R₃.fields hlr hcg
  have hf₂ := R₂.fields hlr' hcg'
  have hf₁ := R₁.fields hlr hcg
  have e₃ := hf₃ N₃ le_rfl
  have e₂ := hf₂ N₂ le_rfl
  rw [R₃.final, hN₃] at e₃
  rw [R₂.final, hiter] at e₂
  have hp₃ := R₃.probes N₃ le_rfl
  rw [R₃.final] at hp₃
  refine ⟨s₃, h₃, ?_, ?_, ?_, ?_, ?_⟩
  · rw [e₃, e₂]
  · rw [e₃, e₂]
  · rw [e₃, e₂]
  · rw [e₃, e₂]
  · intro a q₁ q₂ q₃ hq₁ hq₂ hq₃
    rw [hp₁, List.getElem?_map] at hq₁
    rw [hp₂, hp₁, List.map_map, List.getElem?_map] at hq₂
    rw [hp₃, List.getElem?_map] at hq₃
    cases hq : s.probes[a]? with
    | none => rw [hq] at hq₁; simp at hq₁
    | some q =>
      rw [hq] at hq₁ hq₂ hq₃
      simp only [Option.map_some, Option.some.injEq, Function.comp_apply] at hq₁ hq₂ hq₃
      subst hq₁ hq₂ hq₃
      have htime : s₁.time = s.time + N₁ * s.dt := by
        rw [hs₁]; exact iterate_advanceFields_time lr cg s N₁
      refine ⟨?_, _, _, rfl, rfl, ?_⟩
      · simp only [Probe.recorded, filled_full, Probe.stamp]
        rw [hN₃, List.range_add, List.map_append, List.map_map]
        congr 1
        apply List.map_congr_left
        intro j _
        simp only [Function.comp_apply]
        rw [htime, hdt₁]
        push_cast
        split <;> ring
      · simp only [Probe.recorded, filled_full, Probe.column]
        rw [hN₃, List.range_add, List.map_append, List.map_map]
        congr 2
        · apply List.map_congr_left
          intro j hj
          have hj : j < N₁ := List.mem_range.1 hj
          rw [hf₃ (j + 1) (by omega), hf₁ (j + 1) (by omega)]
        · apply List.map_congr_left
          intro j hj
          have hj : j < N₂ := List.mem_range.1 hj
          simp only [Function.comp_apply]
          rw [hf₃ (N₁ + j + 1) (by omega), hf₂ (j + 1) (by omega), hiter, hcfg.m]
          rfl

/-- Non-vacuity of C04: the demo line run for 2 and then 3 steps. -/
example : ∃ s₁ s₂, (demoLine 0).runUntil 2 = .ok s₁ ∧ s₁.runUntil 3 = .ok s₂ ∧
    ⌊(5 : ℝ) / (demoLine 0).dt⌋.toNat = ⌊(2 : ℝ) / (demoLine 0).dt⌋.toNat
      + ⌊(3 : ℝ) / (demoLine 0).dt⌋.toNat := by
  obtain ⟨s₁, h₁⟩ := demo_run 0 2
  obtain ⟨hdt, N₁, tr₁, R₁⟩ := (runUntil_ok_iff _ _ _).1 h₁
  obtain ⟨lr, cg, hlr, hcg, hst⟩ := R₁.state
  obtain ⟨hc, hf, -⟩ := hst N₁ le_rfl
  rw [R₁.final] at hc hf
  have hv : ∀ q ∈ s₁.probes, q.Valid := by
    have hp₁ := R₁.probes N₁ le_rfl
    rw [R₁.final] at hp₁
    rw [hp₁]
    intro q hq
    obtain ⟨q0, hq0, rfl⟩ := List.mem_map.1 hq
    exact demo_valid 0 q0 hq0
  obtain ⟨s₂, h₂⟩ := (runUntil_success_iff 3 s₁).2
    ⟨by rw [hc.dt]; exact hdt, ⟨lr, hf.lr_ok⟩, ⟨cg, hf.cg_ok⟩, Or.inr hv⟩
  refine ⟨s₁, s₂, h₁, h₂, ?_⟩
  simp [demoLine, demoBare]

/-- **C22.** After `set_time_step(NDT, T)` a run until `T` makes exactly `NDT` steps, for every `NDT ≥ 1` and
every `T ≠ 0`. -/
theorem C22_set_time_step (s s₁ : MTL n p) (NDT : ℕ) (T : ℝ) (hT : T ≠ 0)
    (h : s.setTimeStep NDT T = .ok s₁) :
    timeRangeLen T s₁.dt = .ok NDT ∧
    ∀ s₂, s₁.runUntil T = .ok s₂ → ∃ tr, RunTrace s₁ T s₂ NDT tr := by
  unfold MTL.setTimeStep at h
  obtain ⟨_, h1, h2⟩ := bind_ok_iff.1 h
  have h0 : (NDT : ℝ) ≠ 0 := raiseIf_ok_iff.1 h1
  injection h2 with h2
  have hdt : s₁.dt = T / NDT := by rw [← h2]
  have hlen : ⌊T / s₁.dt⌋.toNat = NDT := by
    rw [hdt]
    have : T / (T / NDT) = ((NDT : ℤ) : ℝ) := by
      field_simp
      simp
    rw [this, Int.floor_intCast]
    simp
  refine ⟨?_, ?_⟩
  · unfold timeRangeLen
    rw [if_neg, hlen]
    rw [hdt]
    exact div_ne_zero hT h0
  · intro s₂ hs₂
    obtain ⟨-, N, tr, R⟩ := (runUntil_ok_iff _ _ _).1 hs₂
    have : N = NDT := by rw [R.len, hlen]
    subst this
    exact ⟨tr, R⟩

/-- `set_time_step` succeeds for every `NDT ≥ 1` (non-vacuity of C22). -/
example (s : MTL n p) : ∃ s₁, s.setTimeStep (100 : ℕ) 3 = .ok s₁ := by
  refine ⟨{ s with dt := 3 / (100 : ℕ) }, ?_⟩
  unfold MTL.setTimeStep raiseIf
  rw [if_neg (by norm_num)]
  rfl

/-- **C06** (running part). A probe of unknown type makes every run that makes at least one step raise
`ValueError`. -/
theorem C06_unknown_probe_raises (s : MTL n p) (T : ℝ) (q : Probe n) (hq : q ∈ s.probes)
    (ht : q.type ≠ "voltage" ∧ q.type ≠ "current") (hdt : s.dt ≠ 0)
    (hlr : ∃ lr, updateLr s.m s.dt s.dun s.l s.r s.conn = .ok lr)
    (hcg : ∃ cg, updateCg s.m s.dt s.dun s.c s.g = .ok cg) (hN : ⌊T / s.dt⌋.toNat ≠ 0) :
    s.runUntil T = .error .ValueError := by
  obtain ⟨lr, hlr⟩ := hlr
  obtain ⟨cg, hcg⟩ := hcg
  obtain ⟨N, hN'⟩ := Nat.exists_eq_succ_of_ne_zero hN
  unfold MTL.runUntil timeRangeLen MTL.updateLrTerms MTL.updateCgTerms
  rw [if_neg hdt, hN', hlr]
  simp only [bind, Except.bind]
  rw [hcg]
  simp only [bind, Except.bind, iterPy, MTL.step]
  rw [updateProbes_error]
  exact ⟨q.resizeFrames _, List.mem_map_of_mem hq, by
    unfold Probe.Valid; exact not_or.2 ht⟩

end Mtln
