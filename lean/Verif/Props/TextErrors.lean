import Verif.Props.Text

/-! # Which texts are no numbers: C164 -/

namespace Mtln.Text

/-- **C164** `int` of an unsigned text of plain characters raises `ValueError` exactly if the text is empty or contains anything but a
digit; underscores and characters beyond ASCII, which Python may accept, are not modelled. -/
theorem C164_natural_error (s : List Char) :
    (natOf s = .error .ValueError ↔ (∀ c ∈ s, c ≠ '_' ∧ c.toNat < 128) ∧ (s = [] ∨ ∃ c ∈ s, c.toNat < '0'.toNat ∨ '9'.toNat < c.toNat)) ∧
      (natOf s = .error .NotModelled ↔ ∃ c ∈ s, c = '_' ∨ 128 ≤ c.toNat) := by
  have plain : s.any strange = true ↔ ∃ c ∈ s, c = '_' ∨ 128 ≤ c.toNat := by simp [List.any_eq_true, strange]
  have digits : s.all digit = true ↔ ∀ c ∈ s, 48 ≤ c.toNat ∧ c.toNat ≤ 57 := by simp [List.all_eq_true, digit]
  have e0 : '0'.toNat = 48 := rfl
  have e9 : '9'.toNat = 57 := rfl
  rw [e0, e9]
  unfold natOf
  by_cases h : s.any strange = true
  · rw [if_pos h]
    obtain ⟨c, hc, h'⟩ := plain.1 h
    refine ⟨⟨fun e => by simp at e, fun e => ?_⟩, ⟨fun _ => plain.1 h, fun _ => rfl⟩⟩
    have := e.1 c hc
    rcases h' with h' | h'
    · exact absurd h' this.1
    · omega
  · rw [if_neg h]
    have hn : ∀ c ∈ s, c ≠ '_' ∧ c.toNat < 128 := by
      intro c hc
      refine ⟨fun e => h (plain.2 ⟨c, hc, Or.inl e⟩), ?_⟩
      by_contra hl
      exact h (plain.2 ⟨c, hc, Or.inr (not_lt.1 hl)⟩)
    have hm : ¬ ∃ c ∈ s, c = '_' ∨ 128 ≤ c.toNat := fun e => h (plain.2 e)
    by_cases hd : s ≠ [] ∧ s.all digit = true
    · rw [if_pos hd]
      refine ⟨⟨fun e => by simp at e, fun e => ?_⟩, ⟨fun e => by simp at e, fun e => absurd e hm⟩⟩
      rcases e.2 with e | ⟨c, hc, e⟩
      · exact absurd e hd.1
      · have := digits.1 hd.2 c hc
        omega
    · rw [if_neg hd]
      refine ⟨⟨fun _ => ⟨hn, ?_⟩, fun _ => rfl⟩, ⟨fun e => by simp at e, fun e => absurd e hm⟩⟩
      by_contra hc
      push Not at hc
      exact hd ⟨hc.1, digits.2 fun c h => by have := hc.2 c h; omega⟩

/-- `int` of any text without blanks: one sign may come first. -/
theorem C164_int_error (s : List Char) : int s = .error .ValueError ↔
    natOf (match s with | '-' :: t => t | '+' :: t => t | t => t) = .error .ValueError := by
  have key : ∀ (t : List Char) (f : ℕ → ℤ), (do let k ← natOf t; .ok (f k) : Py ℤ) = .error .ValueError ↔ natOf t = .error .ValueError := by
    intro t f
    cases h : natOf t with
    | error e => exact ⟨fun e' => by simpa [bind, Except.bind] using e', fun e' => by simpa [bind, Except.bind] using e'⟩
    | ok k => exact ⟨fun e' => by simp [bind, Except.bind] at e', fun e' => by simp at e'⟩
  unfold int
  split
  · exact key _ _
  · exact key _ _
  · rename_i h1 h2
    split
    · rename_i t; exact absurd rfl (h1 t)
    · rename_i t; exact absurd rfl (h2 t)
    · exact key _ _

example : natOf "12a".toList = .error .ValueError := (C164_natural_error _).1.2 ⟨by decide, Or.inr ⟨'a', by decide, by decide⟩⟩

example : int "1-2".toList = .error .ValueError :=
  (C164_int_error _).2 ((C164_natural_error _).1.2 ⟨by decide, Or.inr ⟨'-', by decide, by decide⟩⟩)

end Mtln.Text
