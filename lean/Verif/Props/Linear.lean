import Verif.Lemmas.Relational
import Verif.Props.Demo

/-!
# Superposition, rest, locality, causality, time invariance: C10, C11, C12, C13, C17, C18

The relations between lines (`SameMedium`, `StateComb`, …) are in `Verif.Spec.Relations`.
-/

namespace Mtln

open Matrix

variable {n p : ℕ}

/-- Probes of three lines that look at the same thing. -/
def Probe.Alike (q q' : Probe n) : Prop := q'.type = q.type ∧ q'.index = q.index

/-- **C10.** Superposition.  Three lines of the same hardware and clock; initial state and excitation of the
third are `a` times those of the first plus `b` times those of the second.  Then the same holds after every
step of a run for all voltages, currents and dispersive memory, and for every frame of every probe. -/
theorem C10_superposition (a b T : ℝ) (s₁ s₂ s₃ s₁' s₂' s₃' : MTL n p) (N : ℕ) (tr₁ tr₂ tr₃ : ℕ → MTL n p)
    (h₂ : s₁.SameMedium s₂) (h₃ : s₁.SameMedium s₃) (ht₂ : s₂.time = s₁.time) (ht₃ : s₃.time = s₁.time)
    (hsrc : SourceComb a b s₁ s₂ s₃) (hst : StateComb a b s₁ s₂ s₃)
    (R₁ : RunTrace s₁ T s₁' N tr₁) (R₂ : RunTrace s₂ T s₂' N tr₂) (R₃ : RunTrace s₃ T s₃' N tr₃) :
    (∀ j ≤ N, StateComb a b (tr₁ j) (tr₂ j) (tr₃ j)) ∧
    ∀ (x y z : ℕ) (q₁ q₂ q₃ : Probe n), s₁'.probes[x]? = some q₁ → s₂'.probes[y]? = some q₂ →
      s₃'.probes[z]? = some q₃ → q₁.Alike q₂ → q₁.Alike q₃ →
      ∃ r₁ r₂ r₃, q₁.val = .rows r₁ ∧ q₂.val = .rows r₂ ∧ q₃.val = .rows r₃ ∧
        r₁.length = N ∧ r₂.length = N ∧ r₃.length = N ∧
        ∀ (j : ℕ) (w₁ w₂ w₃ : Col n), r₁[j]? = some w₁ → r₂[j]? = some w₂ → r₃[j]? = some w₃ →
          ∀ x, w₃ x = a * w₁ x + b * w₂ x := by
  obtain ⟨lr, cg, hlr, hcg, c₁, c₂⟩ := two_runs h₂ R₁ R₂
  have c₃ := R₃.fields (by rw [h₃.updateLr]; exact hlr) (by rw [h₃.updateCg]; exact hcg)
  have key : ∀ j ≤ N, StateComb a b (tr₁ j) (tr₂ j) (tr₃ j) := by
    intro j hj
    have h := iterate_comb lr cg j h₂ h₃ ht₂ ht₃ hsrc hst
    rw [c₁ j hj, c₂ j hj, c₃ j hj]
    exact ⟨h.v, h.i, h.phi⟩
  refine ⟨key, ?_⟩
  intro x y z q₁ q₂ q₃ e₁ e₂ e₃ al₂ al₃
  have p₁ := R₁.probes N le_rfl
  have p₂ := R₂.probes N le_rfl
  have p₃ := R₃.probes N le_rfl
  rw [R₁.final] at p₁
  rw [R₂.final] at p₂
  rw [R₃.final] at p₃
  rw [p₁, List.getElem?_map, Option.map_eq_some_iff] at e₁
  rw [p₂, List.getElem?_map, Option.map_eq_some_iff] at e₂
  rw [p₃, List.getElem?_map, Option.map_eq_some_iff] at e₃
  obtain ⟨o₁, -, rfl⟩ := e₁
  obtain ⟨o₂, -, rfl⟩ := e₂
  obtain ⟨o₃, -, rfl⟩ := e₃
  have al₂' : o₂.type = o₁.type ∧ o₂.index = o₁.index := al₂
  have al₃' : o₃.type = o₁.type ∧ o₃.index = o₁.index := al₃
  refine ⟨_, _, _, rfl, rfl, rfl, filled_length _ _ _ _ le_rfl, filled_length _ _ _ _ le_rfl,
    filled_length _ _ _ _ le_rfl, ?_⟩
  intro j w₁ w₂ w₃ f₁ f₂ f₃ x
  simp only [filled_full, List.getElem?_map, Option.map_eq_some_iff, List.getElem?_eq_some_iff,
    List.length_range, List.getElem_range] at f₁ f₂ f₃
  obtain ⟨_, ⟨hj, rfl⟩, rfl⟩ := f₁
  obtain ⟨_, ⟨_, rfl⟩, rfl⟩ := f₂
  obtain ⟨_, ⟨_, rfl⟩, rfl⟩ := f₃
  have hk := key (j + 1) (by omega)
  unfold Probe.column
  rw [al₂'.1, al₂'.2, al₃'.1, al₃'.2, h₂.m, h₃.m]
  split
  · exact hk.v _ x
  · split
    · exact hk.i _ x
    · exact hk.i _ x

/-- Non-vacuity of C10: `2·x + 3·y` with `x` the demo line at rest with its source and `y` the demo line
without source but with an initial voltage. -/
example : ∃ (s₁ s₂ s₃ : MTL 1 0), s₁.SameMedium s₂ ∧ s₁.SameMedium s₃ ∧ SourceComb 2 3 s₁ s₂ s₃ ∧
    StateComb 2 3 s₁ s₂ s₃ ∧ s₃.v 1 0 = 3 ∧ s₃.vSources 0 0 0 = 2 ∧
    (∃ s', s₁.runUntil 5 = .ok s') ∧ (∃ s', s₂.runUntil 5 = .ok s') ∧ (∃ s', s₃.runUntil 5 = .ok s') := by
  refine ⟨demoLine 0, { demoLine 0 with vSources := fun _ _ _ => 0, v := fun k _ => if k = 1 then 1 else 0 },
    { demoLine 0 with
      vSources := fun k j t => 2 * (demoLine 0).vSources k j t, v := fun k _ => if k = 1 then 3 else 0 },
    by constructor <;> rfl, by constructor <;> rfl, ?_, ?_, ?_, ?_, demo_run 0 5, ?_, ?_⟩
  · constructor <;> intro k x t <;> simp [demoLine, demoBare]
  · constructor
    · intro k x; by_cases hk : k = 1 <;> simp [demoLine, demoBare, hk]
    · intro k x; simp [demoLine, demoBare]
    · intro k x σ; exact σ.elim0
  · simp
  · simp [demoLine]
  · exact (runUntil_success_iff 5 _).2
      ⟨by simp [demoLine, demoBare], demo_lr 0, demo_cg 0, Or.inr (demo_valid 0)⟩
  · exact (runUntil_success_iff 5 _).2
      ⟨by simp [demoLine, demoBare], demo_lr 0, demo_cg 0, Or.inr (demo_valid 0)⟩

/-- **C11.** A line at rest without excitation stays at rest, and all its probes read zero. -/
theorem C11_rest (T : ℝ) (s s' : MTL n p) (N : ℕ) (tr : ℕ → MTL n p) (R : RunTrace s T s' N tr)
    (hr : s.AtRest) (hu : s.Unexcited) :
    (∀ j ≤ N, (tr j).AtRest) ∧
    ∀ q ∈ s'.probes, ∃ r, q.val = .rows r ∧ r.length = N ∧ ∀ w ∈ r, w = 0 := by
  obtain ⟨lr, cg, hlr, hcg, c⟩ := R.closed
  have key : ∀ j ≤ N, (tr j).AtRest := by
    intro j hj
    have h := iterate_rest lr cg hr hu j
    rw [c j hj]
    exact ⟨h.v, h.i, h.phi⟩
  refine ⟨key, ?_⟩
  intro q hq
  have hp := R.probes N le_rfl
  rw [R.final] at hp
  rw [hp] at hq
  obtain ⟨o, -, rfl⟩ := List.mem_map.1 hq
  refine ⟨_, rfl, filled_length _ _ _ _ le_rfl, ?_⟩
  intro w hw
  rw [filled_full] at hw
  obtain ⟨j, hj, rfl⟩ := List.mem_map.1 hw
  have hj : j < N := List.mem_range.1 hj
  have hk := key (j + 1) (by omega)
  unfold Probe.column
  split
  · exact hk.v _
  · split <;> exact hk.i _

/-- Non-vacuity of C11: the demo line without its source. -/
example : ({ demoLine 0 with vSources := fun _ _ _ => 0 } : MTL 1 0).AtRest ∧
    ({ demoLine 0 with vSources := fun _ _ _ => 0 } : MTL 1 0).Unexcited ∧
    ∃ s', ({ demoLine 0 with vSources := fun _ _ _ => 0 } : MTL 1 0).runUntil 5 = .ok s' := by
  refine ⟨⟨fun _ => rfl, fun _ => rfl, fun _ _ => rfl⟩, ⟨fun _ _ _ => rfl, fun _ _ _ => rfl, fun _ _ _ => rfl⟩,
    ?_⟩
  exact (runUntil_success_iff 5 _).2
      ⟨by simp [demoLine, demoBare], demo_lr 0, demo_cg 0, Or.inr (demo_valid 0)⟩

/-- **C12**, general form to the right: if two lines of the same hardware and clock agree from node and cell
`a` on (sources: strictly to the right of `a`), they still agree from `a + j` on after `j` steps. -/
theorem C12_dependence_right (T : ℝ) (s t s' t' : MTL n p) (N : ℕ) (trs trt : ℕ → MTL n p)
    (Rs : RunTrace s T s' N trs) (Rt : RunTrace t T t' N trt) (h : s.SameMedium t)
    (ht : t.time = s.time) (hm : 0 < s.m) (a : ℕ)
    (hS : ∀ k > a, t.vSources k = s.vSources k) (hL : ∀ k > a, t.eL k = s.eL k)
    (hT : ∀ k > a, t.eT k = s.eT k)
    (hv : ∀ k ≥ a, t.v k = s.v k) (hi : ∀ k ≥ a, t.i k = s.i k) (hphi : ∀ k ≥ a, t.phi k = s.phi k) :
    ∀ j ≤ N, ∀ k ≥ a + j, (trt j).v k = (trs j).v k ∧ (trt j).i k = (trs j).i k := by
  obtain ⟨lr, cg, -, -, c₁, c₂⟩ := two_runs h Rs Rt
  intro j hj k hk
  have := iterate_agree_right lr cg h ht hm a hS hL hT hv hi hphi j k hk
  rw [c₁ j hj, c₂ j hj]
  exact ⟨this.1, this.2.1⟩

/-- **C12**, general form to the left: agreement up to node `b` and in the cells before it (sources: strictly
to the left of `b`) shrinks by one node per step. -/
theorem C12_dependence_left (T : ℝ) (s t s' t' : MTL n p) (N : ℕ) (trs trt : ℕ → MTL n p)
    (Rs : RunTrace s T s' N trs) (Rt : RunTrace t T t' N trt) (h : s.SameMedium t)
    (ht : t.time = s.time) (hm : 0 < s.m) (b : ℕ)
    (hS : ∀ k < b, t.vSources k = s.vSources k) (hL : ∀ k, k + 1 < b → t.eL k = s.eL k)
    (hT : ∀ k < b, t.eT k = s.eT k)
    (hv : ∀ k ≤ b, t.v k = s.v k) (hi : ∀ k < b, t.i k = s.i k) (hphi : ∀ k < b, t.phi k = s.phi k) :
    ∀ j ≤ N, (∀ k, k + j ≤ b → (trt j).v k = (trs j).v k) ∧ ∀ k, k + j < b → (trt j).i k = (trs j).i k := by
  obtain ⟨lr, cg, -, -, c₁, c₂⟩ := two_runs h Rs Rt
  intro j hj
  have := iterate_agree_left lr cg h ht hm b hS hL hT hv hi hphi j
  rw [c₁ j hj, c₂ j hj]
  exact ⟨this.1, fun k hk => (this.2 k hk).1⟩

/-- **C12.** A line at rest excited only at its left end: node `k` and cell `k` are exactly at zero until
more than `k` steps were made. -/
theorem C12_one_cell_per_step_left (T : ℝ) (s s' : MTL n p) (N : ℕ) (tr : ℕ → MTL n p)
    (R : RunTrace s T s' N tr) (hm : 0 < s.m) (hr : s.AtRest)
    (hS : ∀ k > 0, ∀ x t, s.vSources k x t = 0) (hL : ∀ k x t, s.eL k x t = 0) (hT : ∀ k x t, s.eT k x t = 0) :
    ∀ j ≤ N, ∀ k ≥ j, (tr j).v k = 0 ∧ (tr j).i k = 0 := by
  obtain ⟨lr, cg, -, -, c⟩ := R.closed
  intro j hj k hk
  have hz := iterate_rest lr cg (s := { s with vSources := fun _ _ _ => 0 }) ⟨hr.v, hr.i, hr.phi⟩
    ⟨fun _ _ _ => rfl, hL, hT⟩ j
  have := iterate_agree_right lr cg (s := { s with vSources := fun _ _ _ => 0 }) (t := s)
    (by constructor <;> rfl) rfl hm 0 (by intro k hk; funext x t; exact hS k hk x t)
    (fun _ _ => rfl) (fun _ _ => rfl) (fun _ _ => rfl) (fun _ _ => rfl) (fun _ _ => rfl) j k (by omega)
  rw [c j hj]
  exact ⟨this.1.trans (hz.v k), this.2.1.trans (hz.i k)⟩

/-- **C12**, symmetric: excited only at its right end `m`, node `k` is at zero during the first `m - k` steps
and cell `k` (the cell between nodes `k` and `k+1`) during the first `m - 1 - k` steps. -/
theorem C12_one_cell_per_step_right (T : ℝ) (s s' : MTL n p) (N : ℕ) (tr : ℕ → MTL n p)
    (R : RunTrace s T s' N tr) (hm : 0 < s.m) (hr : s.AtRest)
    (hS : ∀ k < s.m, ∀ x t, s.vSources k x t = 0) (hL : ∀ k x t, s.eL k x t = 0)
    (hT : ∀ k x t, s.eT k x t = 0) :
    ∀ j ≤ N, (∀ k, k + j ≤ s.m → (tr j).v k = 0) ∧ ∀ k, k + j < s.m → (tr j).i k = 0 := by
  obtain ⟨lr, cg, -, -, c⟩ := R.closed
  intro j hj
  have hz := iterate_rest lr cg (s := { s with vSources := fun _ _ _ => 0 }) ⟨hr.v, hr.i, hr.phi⟩
    ⟨fun _ _ _ => rfl, hL, hT⟩ j
  have := iterate_agree_left lr cg (s := { s with vSources := fun _ _ _ => 0 }) (t := s)
    (by constructor <;> rfl) rfl hm s.m (by intro k hk; funext x t; exact hS k hk x t)
    (fun _ _ => rfl) (fun _ _ => rfl) (fun _ _ => rfl) (fun _ _ => rfl) (fun _ _ => rfl) j
  rw [c j hj]
  exact ⟨fun k hk => (this.1 k hk).trans (hz.v k), fun k hk => ((this.2 k hk).1).trans (hz.i k)⟩

/-- The demo line satisfies the hypotheses of C12, and its left end does move in the first step: it is not
zero because nothing ever happens. -/
example : ∃ s' tr, RunTrace (demoLine 0) 5 s' 5 tr ∧ (demoLine 0).AtRest ∧
    (∀ k > 0, ∀ x t, (demoLine 0).vSources k x t = 0) ∧ (tr 1).v 0 ≠ 0 := by
  obtain ⟨s', h⟩ := demo_run 0 5
  obtain ⟨-, N, tr, R⟩ := (runUntil_ok_iff _ _ _).1 h
  have : N = 5 := by
    rw [R.len]
    have : ⌊(5 : ℝ) / (demoLine 0).dt⌋ = 5 := by
      rw [Int.floor_eq_iff]; norm_num [demoLine, demoBare]
    rw [this]; rfl
  subst this
  refine ⟨s', tr, R, ⟨fun _ => rfl, fun _ => rfl, fun _ _ => rfl⟩, ?_, ?_⟩
  · intro k hk x t; simp [demoLine]; omega
  · obtain ⟨lr, cg, -, -, c⟩ := R.closed
    rw [c 1 (by omega)]
    intro h0
    have h1 : ((demoLine 0).advanceFields lr cg).v 0 = 0 := h0
    rw [advanceFields_v_left _ _ _ (by simp [demoLine, demoBare])] at h1
    have h2 := congrFun h1 0
    norm_num [demoLine, demoBare, demo_termF1, MTL.sample, sampleSources] at h2

/-- **C13**, the code disagrees with the property: voltage sources at interior nodes have no effect.  Two
lines that differ only in the sources of interior nodes go through the same voltages and currents in every
run. -/
theorem C13_interior_sources_ignored (T : ℝ) (s t s' t' : MTL n p) (N : ℕ) (trs trt : ℕ → MTL n p)
    (Rs : RunTrace s T s' N trs) (Rt : RunTrace t T t' N trt) (h : s.SameMedium t) (hs : s.SameState t)
    (ht : t.time = s.time) (hL : t.eL = s.eL) (hT : t.eT = s.eT)
    (h0 : t.vSources 0 = s.vSources 0) (hm : t.vSources s.m = s.vSources s.m) :
    ∀ j ≤ N, (trs j).SameState (trt j) := by
  obtain ⟨lr, cg, -, -, c₁, c₂⟩ := two_runs h Rs Rt
  intro j hj
  have := iterate_congr lr cg h hs N (by
    rintro j hj a b rfl rfl
    simp [sampleSources, ht, h.dt, hL, hT, h0, hm]) j hj
  rw [c₁ j hj, c₂ j hj]
  exact ⟨this.v, this.i, this.phi⟩

/-- **C17.** Causality.  Two lines of the same hardware, state and clock whose sources and transverse fields
agree up to the time at which the `J`-th step starts, and whose longitudinal fields agree up to half a step
later, have the same state after `J` steps (and after all earlier ones). -/
theorem C17_causality (T : ℝ) (s t s' t' : MTL n p) (N : ℕ) (trs trt : ℕ → MTL n p)
    (Rs : RunTrace s T s' N trs) (Rt : RunTrace t T t' N trt) (h : s.SameMedium t) (hs : s.SameState t)
    (ht : t.time = s.time) (hdt : 0 < s.dt) (J : ℕ) (hJ : J ≤ N)
    (hS : ∀ k x τ, τ ≤ s.time + (J - 1) * s.dt → t.vSources k x τ = s.vSources k x τ)
    (hT : ∀ k x τ, τ ≤ s.time + (J - 1) * s.dt → t.eT k x τ = s.eT k x τ)
    (hL : ∀ k x τ, τ ≤ s.time + (J - 1) * s.dt + s.dt / 2 → t.eL k x τ = s.eL k x τ) :
    ∀ j ≤ J, (trs j).SameState (trt j) := by
  obtain ⟨lr, cg, -, -, c₁, c₂⟩ := two_runs h Rs Rt
  intro j hj
  have := iterate_congr lr cg h hs J (by
    rintro j hj a b rfl rfl
    have hj' : (j : ℝ) ≤ J - 1 := by
      have : (j : ℝ) + 1 ≤ J := by exact_mod_cast hj
      linarith
    have hle : (j : ℝ) * s.dt ≤ (J - 1) * s.dt := mul_le_mul_of_nonneg_right hj' hdt.le
    simp only [sampleSources, ht, h.dt]
    refine ⟨?_, ?_, ?_, ?_, ?_, ?_, ?_, ?_⟩ <;> funext
    · exact hS _ _ _ (by linarith)
    · exact hS _ _ _ (by linarith)
    · exact hS _ _ _ (by linarith)
    · exact hS _ _ _ (by linarith)
    · exact hL _ _ _ (by linarith)
    · exact hL _ _ _ (by linarith)
    · exact hT _ _ _ (by linarith)
    · exact hT _ _ _ (by linarith)) j hj
  rw [c₁ j (by omega), c₂ j (by omega)]
  exact ⟨this.v, this.i, this.phi⟩

/-- **C18.** Time-shift invariance: a line of the same hardware and state whose clock and whose sources are
all delayed by `τ` goes through the same states, `τ` later. -/
theorem C18_time_shift (T τ : ℝ) (s t s' t' : MTL n p) (N : ℕ) (trs trt : ℕ → MTL n p)
    (Rs : RunTrace s T s' N trs) (Rt : RunTrace t T t' N trt) (h : s.SameMedium t) (hs : s.SameState t)
    (ht : t.time = s.time + τ)
    (hS : ∀ k x θ, t.vSources k x θ = s.vSources k x (θ - τ))
    (hT : ∀ k x θ, t.eT k x θ = s.eT k x (θ - τ))
    (hL : ∀ k x θ, t.eL k x θ = s.eL k x (θ - τ)) :
    ∀ j ≤ N, (trs j).SameState (trt j) ∧ (trt j).time = (trs j).time + τ := by
  obtain ⟨lr, cg, -, -, c₁, c₂⟩ := two_runs h Rs Rt
  intro j hj
  have := iterate_congr lr cg h hs N (by
    rintro j hj a b rfl rfl
    simp only [sampleSources, ht, h.dt, hS, hT, hL]
    refine ⟨?_, ?_, ?_, ?_, ?_, ?_, ?_, ?_⟩ <;> funext <;> congr 1 <;> ring) j hj
  refine ⟨?_, ?_⟩
  · rw [c₁ j hj, c₂ j hj]
    exact ⟨this.v, this.i, this.phi⟩
  · rw [c₁ j hj, c₂ j hj]
    show ((MTL.advanceFields lr cg)^[j] t).time = ((MTL.advanceFields lr cg)^[j] s).time + τ
    rw [iterate_advanceFields_time, iterate_advanceFields_time, ht, h.dt]
    ring

/-- Non-vacuity of C17 and C18: the demo line, a copy whose source stops at `t = 2` (same results for three
steps), and a copy delayed by 10. -/
example : (∃ t : MTL 1 0, (demoLine 0).SameMedium t ∧ (demoLine 0).SameState t ∧ t.time = (demoLine 0).time ∧
      t.vSources ≠ (demoLine 0).vSources ∧
      (∀ k x τ, τ ≤ (demoLine 0).time + ((3 : ℕ) - 1) * (demoLine 0).dt →
        t.vSources k x τ = (demoLine 0).vSources k x τ) ∧ ∃ t', t.runUntil 5 = .ok t') ∧
    ∃ t : MTL 1 0, (demoLine 0).SameMedium t ∧ (demoLine 0).SameState t ∧ t.time = (demoLine 0).time + 10 ∧
      (∀ k x θ, t.vSources k x θ = (demoLine 0).vSources k x (θ - 10)) ∧ ∃ t', t.runUntil 5 = .ok t' := by
  refine ⟨⟨{ demoLine 0 with vSources := fun k j t => if t ≤ 2 then (demoLine 0).vSources k j t else 0 },
    by constructor <;> rfl, by constructor <;> rfl, rfl, ?_, ?_, ?_⟩,
    ⟨{ demoLine 0 with time := 10, vSources := fun k j t => (demoLine 0).vSources k j (t - 10) },
    by constructor <;> rfl, by constructor <;> rfl, ?_, fun _ _ _ => rfl, ?_⟩⟩
  · intro h
    have := congrFun (congrFun (congrFun h 0) 0) 3
    norm_num [demoLine] at this
  · intro k x τ hτ
    have : τ ≤ 2 := by
      norm_num [demoLine, demoBare] at hτ; exact hτ
    simp [this]
  · exact (runUntil_success_iff 5 _).2
      ⟨by simp [demoLine, demoBare], demo_lr 0, demo_cg 0, Or.inr (demo_valid 0)⟩
  · simp [demoLine, demoBare]
  · exact (runUntil_success_iff 5 _).2
      ⟨by simp [demoLine, demoBare], demo_lr 0, demo_cg 0, Or.inr (demo_valid 0)⟩

end Mtln
