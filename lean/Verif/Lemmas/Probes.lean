import Verif.Lemmas.Run

/-! # Recording of probes -/

namespace Mtln

variable {n p : ℕ}

theorem updateProbes_ok_iff (m : ℕ) (t : ℝ) (v i : Grid n) (ps ps' : List (Probe n)) :
    updateProbes m t v i ps = .ok ps' ↔
      (∀ q ∈ ps, q.Valid) ∧ ps' = ps.map fun q => q.saveFrame (q.stamp t) (q.column m v i) := by
  induction ps generalizing ps' with
  | nil =>
    simp only [updateProbes, List.not_mem_nil, List.map_nil]
    constructor
    · intro h; injection h with h; exact ⟨by simp, h.symm⟩
    · rintro ⟨-, rfl⟩; rfl
  | cons q qs ih =>
    unfold updateProbes
    rw [bind_ok_iff]
    simp only [bind_ok_iff, List.mem_cons, forall_eq_or_imp, List.map_cons]
    constructor
    · rintro ⟨q', hq', qs', hqs', h⟩
      unfold Probe.update at hq'
      split at hq'
      · rename_i hv
        obtain ⟨hall, rfl⟩ := (ih _).1 hqs'
        injection hq' with hq'
        injection h with h
        subst hq'
        exact ⟨⟨hv, hall⟩, h.symm⟩
      · simp at hq'
    · rintro ⟨⟨hv, hall⟩, rfl⟩
      refine ⟨_, ?_, _, (ih _).2 ⟨hall, rfl⟩, rfl⟩
      unfold Probe.update
      exact if_pos hv

theorem updateProbes_error {m : ℕ} {t : ℝ} {v i : Grid n} {ps : List (Probe n)}
    (h : ∃ q ∈ ps, ¬ q.Valid) : updateProbes m t v i ps = .error .ValueError := by
  induction ps with
  | nil => simp at h
  | cons q qs ih =>
    unfold updateProbes Probe.update
    by_cases hv : q.type = "voltage" ∨ q.type = "current"
    · rw [if_pos hv]
      have : ∃ q ∈ qs, ¬ q.Valid := by
        obtain ⟨x, hx, hnx⟩ := h
        rcases List.mem_cons.1 hx with rfl | hx
        · exact absurd hv hnx
        · exact ⟨x, hx, hnx⟩
      rw [ih this]
      rfl
    · rw [if_neg hv]; rfl

/-- A list filled up to position `j` with `f 0 … f (j-1)`, the rest still zero. -/
def filled {α : Type} (f : ℕ → α) (z : α) (N j : ℕ) : List α :=
  (List.range j).map f ++ List.replicate (N - j) z

theorem filled_length {α : Type} (f : ℕ → α) (z : α) (N j : ℕ) (h : j ≤ N) :
    (filled f z N j).length = N := by
  simp [filled]; omega

theorem filled_set {α : Type} (f : ℕ → α) (z : α) (N j : ℕ) (h : j < N) :
    (filled f z N j).set j (f j) = filled f z N (j + 1) := by
  obtain ⟨r, hr⟩ : ∃ r, N - j = r + 1 := ⟨N - j - 1, by omega⟩
  have hr' : N - (j + 1) = r := by omega
  unfold filled
  rw [hr, hr', List.replicate_succ, List.set_append_right (h := by simp)]
  simp [List.range_succ]

theorem filled_zero {α : Type} (f : ℕ → α) (z : α) (N : ℕ) : filled f z N 0 = List.replicate N z := by
  simp [filled]

theorem filled_full {α : Type} (f : ℕ → α) (z : α) (N : ℕ) : filled f z N N = (List.range N).map f := by
  simp [filled]

/-- A probe after `j` of `N` preallocated frames were recorded. -/
def Probe.recorded (q : Probe n) (N : ℕ) (f : ℕ → ℝ) (g : ℕ → Col n) (j : ℕ) : Probe n :=
  { q with currentFrame := j, t := filled f 0 N j, val := .rows (filled g 0 N j) }

theorem Probe.recorded_zero (q : Probe n) (N : ℕ) (f : ℕ → ℝ) (g : ℕ → Col n) :
    q.resizeFrames N = q.recorded N f g 0 := by
  simp [Probe.resizeFrames, Probe.recorded, filled_zero]

theorem Probe.recorded_save (q : Probe n) (N : ℕ) (f : ℕ → ℝ) (g : ℕ → Col n) (j : ℕ) (h : j < N) :
    (q.recorded N f g j).saveFrame (f j) (g j) = q.recorded N f g (j + 1) := by
  unfold Probe.saveFrame
  rw [if_pos (by simp [Probe.recorded, filled_length _ _ _ _ h.le, h])]
  simp only [Probe.recorded, filled_set _ _ _ _ h]

/-- All probes of a run, in closed form. -/
theorem RunTrace.probes {s s' : MTL n p} {T : ℝ} {N : ℕ} {tr : ℕ → MTL n p}
    (h : RunTrace s T s' N tr) : ∀ j ≤ N, (tr j).probes = s.probes.map fun q =>
      q.recorded N (fun a => q.stamp (s.time + (a + 1 : ℕ) * s.dt))
        (fun a => q.column s.m (tr (a + 1)).v (tr (a + 1)).i) j := by
  obtain ⟨lr, cg, -, -, hst⟩ := h.state
  intro j
  induction j with
  | zero =>
    intro _
    obtain ⟨lr, cg, hlr, hcg, h0⟩ := h.start
    rw [h0]
    apply List.map_congr_left
    intro q _
    exact q.recorded_zero _ _ _
  | succ j ih =>
    intro hj
    have e := ih (by omega)
    have hs := h.step j (by omega)
    obtain ⟨c1, f1, t1⟩ := hst j (by omega)
    obtain ⟨lr', cg', ps, h1, h2, hps, he⟩ := (step_ok_iff _ _).1 hs
    obtain ⟨-, hps⟩ := (updateProbes_ok_iff _ _ _ _ _ _).1 hps
    have hv : (tr (j + 1)).v = ((tr j).advanceFields lr' cg').v := by rw [he]
    have hi : (tr (j + 1)).i = ((tr j).advanceFields lr' cg').i := by rw [he]
    have hp : (tr (j + 1)).probes = ps := by rw [he]
    rw [hp, hps, e, List.map_map, ← hv, ← hi]
    apply List.map_congr_left
    intro q _
    have := q.recorded_save N (fun a => q.stamp (s.time + (a + 1 : ℕ) * s.dt))
        (fun a => q.column s.m (tr (a + 1)).v (tr (a + 1)).i) j (by omega)
    rw [← this]
    simp only [Function.comp_apply]
    rw [t1, c1.m, c1.dt]
    have e1 : s.time + (j : ℝ) * s.dt + s.dt = s.time + ((j + 1 : ℕ) : ℝ) * s.dt := by push_cast; ring
    rw [e1]
    rfl

/-- If a run makes at least one step, all probes were valid. -/
theorem RunTrace.valid {s s' : MTL n p} {T : ℝ} {N : ℕ} {tr : ℕ → MTL n p}
    (h : RunTrace s T s' N tr) (hN : 0 < N) : ∀ q ∈ s.probes, q.Valid := by
  have hs := h.step 0 hN
  obtain ⟨lr', cg', ps, h1, h2, hps, he⟩ := (step_ok_iff _ _).1 hs
  obtain ⟨hv, -⟩ := (updateProbes_ok_iff _ _ _ _ _ _).1 hps
  obtain ⟨lr, cg, hlr, hcg, h0⟩ := h.start
  rw [h0] at hv
  intro q hq
  exact hv (q.resizeFrames N) (List.mem_map_of_mem hq)

end Mtln

namespace Mtln

variable {n p : ℕ}

theorem Probe.resizeFrames_valid (q : Probe n) (N : ℕ) : (q.resizeFrames N).Valid ↔ q.Valid := Iff.rfl

theorem Probe.saveFrame_valid (q : Probe n) (t : ℝ) (x : Col n) : (q.saveFrame t x).Valid ↔ q.Valid := by
  unfold Probe.saveFrame
  split <;> exact Iff.rfl

/-- Stepping with valid probes never fails once the coefficients exist. -/
theorem iter_step_success (lr : LR n) (cg : CG n) (N : ℕ) (s : MTL n p) (hlr : s.lr = some lr)
    (hcg : s.cg = some cg) (hv : N = 0 ∨ ∀ q ∈ s.probes, q.Valid) :
    ∃ s', iterPy MTL.step N s = .ok s' := by
  induction N generalizing s with
  | zero => exact ⟨s, rfl⟩
  | succ N ih =>
    have hv : ∀ q ∈ s.probes, q.Valid := by
      rcases hv with hv | hv
      · omega
      · exact hv
    let s1 : MTL n p := { s.advanceFields lr cg with
      probes := s.probes.map fun q => q.saveFrame (q.stamp (s.time + s.dt))
        (q.column s.m (s.advanceFields lr cg).v (s.advanceFields lr cg).i) }
    have hs : s.step = .ok s1 :=
      (step_ok_iff _ _).2 ⟨lr, cg, _, hlr, hcg, (updateProbes_ok_iff _ _ _ _ _ _).2 ⟨hv, rfl⟩, rfl⟩
    obtain ⟨s', hs'⟩ := ih s1 hlr hcg (Or.inr (by
      intro q hq
      obtain ⟨q0, hq0, rfl⟩ := List.mem_map.1 hq
      exact (q0.saveFrame_valid _ _).2 (hv q0 hq0)))
    exact ⟨s', bind_ok_iff.2 ⟨s1, hs, hs'⟩⟩

/-- Exactly when `run_until` succeeds. -/
theorem runUntil_success_iff (T : ℝ) (s : MTL n p) :
    (∃ s', s.runUntil T = .ok s') ↔ s.dt ≠ 0 ∧
      (∃ lr, updateLr s.m s.dt s.dun s.l s.r s.conn = .ok lr) ∧
      (∃ cg, updateCg s.m s.dt s.dun s.c s.g = .ok cg) ∧
      (⌊T / s.dt⌋.toNat = 0 ∨ ∀ q ∈ s.probes, q.Valid) := by
  constructor
  · rintro ⟨s', h⟩
    obtain ⟨hdt, N, tr, h⟩ := (runUntil_ok_iff _ _ _).1 h
    obtain ⟨lr, cg, hlr, hcg, -⟩ := h.start
    refine ⟨hdt, ⟨lr, hlr⟩, ⟨cg, hcg⟩, ?_⟩
    rcases Nat.eq_zero_or_pos N with h0 | h0
    · left; rw [← h.len, h0]
    · right; exact h.valid h0
  · rintro ⟨hdt, ⟨lr, hlr⟩, ⟨cg, hcg⟩, hv⟩
    have := iter_step_success lr cg ⌊T / s.dt⌋.toNat
      { s with lr := some lr, cg := some cg, probes := s.probes.map (Probe.resizeFrames ⌊T / s.dt⌋.toNat) }
      rfl rfl (by
        rcases hv with hv | hv
        · left; exact hv
        · right
          intro q hq
          obtain ⟨q0, hq0, rfl⟩ := List.mem_map.1 hq
          exact hv q0 hq0)
    obtain ⟨s', hs'⟩ := this
    obtain ⟨tr, h0, hN, hs⟩ := (iterPy_ok_iff _ _ _ _).1 hs'
    exact ⟨s', (runUntil_ok_iff _ _ _).2 ⟨hdt, _, tr, rfl, ⟨lr, cg, hlr, hcg, h0⟩, hs, hN⟩⟩

end Mtln
