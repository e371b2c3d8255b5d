import Verif.Model.Probe

/-! # What a user sees in probes that are stepped by hand (C05) -/

namespace Mtln

variable {n : ℕ}

/-- A list of updates, each with its time and the voltages and currents at that time. -/
noncomputable def Probe.updates (m : ℕ) : List (ℝ × Grid n × Grid n) → Probe n → Py (Probe n)
  | [], q => .ok q
  | s :: ss, q => (q.update m s.1 s.2.1 s.2.2).bind (Probe.updates m ss)

/-- The values at the probe. -/
def readAt (voltage : Prop) [Decidable voltage] (index m : ℕ) (s : ℝ × Grid n × Grid n) : Col n :=
  if voltage then s.2.1 index else if index = m then s.2.2 (index - 1) else s.2.2 index

theorem updates_rows {m : ℕ} {q : Probe n} (hq : q.type = "voltage" ∨ q.type = "current") (hf : q.t.length ≤ q.currentFrame)
    {r : List (Col n)} (hr : q.val = .rows r) (ss : List (ℝ × Grid n × Grid n)) :
    ∃ q', q.updates m ss = .ok q' ∧ q'.val = .rows (r ++ ss.map (readAt (q.type = "voltage") q.index m)) := by
  induction ss generalizing q r with
  | nil => exact ⟨q, rfl, by simpa using hr⟩
  | cons s ss ih =>
    have e : q.update m s.1 s.2.1 s.2.2 = .ok (q.saveFrame (q.stamp s.1) (q.column m s.2.1 s.2.2)) := if_pos hq
    have e' : q.saveFrame (q.stamp s.1) (q.column m s.2.1 s.2.2) = { q with
        t := q.t ++ [q.stamp s.1]
        val := .rows (r ++ [q.column m s.2.1 s.2.2])
        currentFrame := q.currentFrame + 1 } := by
      rw [Probe.saveFrame, if_neg (by omega), hr]
    obtain ⟨q', h1, h2⟩ := ih (q := { q with
        t := q.t ++ [q.stamp s.1]
        val := .rows (r ++ [q.column m s.2.1 s.2.2])
        currentFrame := q.currentFrame + 1 }) hq (by simpa using hf) rfl
    refine ⟨q', ?_, ?_⟩
    · rw [Probe.updates, e, e']
      exact h1
    · rw [h2, List.append_assoc]
      rfl

/-- **C05.**  A new probe shows nothing.  After its first update without preallocated frames it shows what the line holds now, whatever
it held at the update.  From the second update on it owns its rows: the first row is then the values at the second update, and the others are
the values at their updates; the values at the first update are lost. -/
theorem C05_seen {position : V3} {type : String} (hq : type = "voltage" ∨ type = "current") {dt : ℝ} {u : ℕ → V3} {m : ℕ} :
    (∀ v i, (Probe.new (n := n) position type dt u m).rowsSeen m v i = []) ∧
    (∀ s, ∃ q, (Probe.new (n := n) position type dt u m).updates m [s] = .ok q ∧ ∀ t v i, q.rowsSeen m v i =
      [readAt (type = "voltage") (nearest u m position) m (t, v, i)]) ∧
    ∀ s₁ s₂ ss, ∃ q, (Probe.new (n := n) position type dt u m).updates m (s₁ :: s₂ :: ss) = .ok q ∧ ∀ v i, q.rowsSeen m v i =
      (s₂ :: s₂ :: ss).map (readAt (type = "voltage") (nearest u m position) m) := by
  have first : ∀ s : ℝ × Grid n × Grid n, ∃ x : ℝ, (Probe.new (n := n) position type dt u m).update m s.1 s.2.1 s.2.2 =
      .ok ⟨type, [x], .view, position, nearest u m position, dt, 1⟩ := fun s => ⟨_, if_pos hq⟩
  refine ⟨fun _ _ => rfl, fun s => ?_, fun s₁ s₂ ss => ?_⟩
  · obtain ⟨x, e⟩ := first s
    exact ⟨_, by rw [Probe.updates, e]; rfl, fun t v i => rfl⟩
  · obtain ⟨x, e⟩ := first s₁
    obtain ⟨q', h1, h2⟩ := updates_rows (m := m) (q := ⟨type, [x, Probe.stamp (n := n) ⟨type, [x], .view, position, nearest u m position, dt, 1⟩ s₂.1],
      .rows [readAt (type = "voltage") (nearest u m position) m s₂, readAt (type = "voltage") (nearest u m position) m s₂], position,
      nearest u m position, dt, 2⟩) hq (by simp) rfl ss
    refine ⟨q', ?_, fun v i => ?_⟩
    · rw [← h1, Probe.updates, e]
      show Probe.updates m (s₂ :: ss) _ = _
      rw [Probe.updates]
      show Except.bind (Probe.update m s₂.1 s₂.2.1 s₂.2.2 _) _ = _
      rw [Probe.update, if_pos hq]
      rfl
    · rw [Probe.rowsSeen, h2]
      rfl

/-- Two updates with different voltages: the first is lost. -/
example : ∃ q, (Probe.new (n := 1) 0 "voltage" 1 (fun _ => 0) 1).updates 1 [(0, fun _ _ => 5, 0), (1, fun _ _ => 7, 0)] = .ok q ∧
    ∀ v i, q.rowsSeen 1 v i = [fun _ => 7, fun _ => 7] := by
  obtain ⟨q, h1, h2⟩ := (C05_seen (n := 1) (position := 0) (dt := 1) (u := fun _ => 0) (m := 1) (Or.inl rfl)).2.2
    (0, fun _ _ => 5, 0) (1, fun _ _ => 7, 0) []
  exact ⟨q, h1, fun v i => by rw [h2]; simp [readAt]⟩

end Mtln
