import Verif.Props.ExternalField

/-! # How adding a field fails: C45, C77 -/

namespace Mtln

variable {n p : ℕ}

theorem fieldSources_errors {m rows start stop : ℕ} {u du : ℕ → V3} {l c : ℕ → Mat n} {F : Field} {D : Distances}
    {eL eT : Src n} (hr : rows ≠ 0) (h0 : ∀ k < m, ∀ x ∈ eigRe (l k * c (k + 1)), 0 < x) :
    (stop ≤ start → fieldSources m rows start stop u du l c F D eL eT = .error .UnboundLocalError) ∧
    (start < stop → (∃ k, start ≤ k ∧ k < stop ∧ k < m ∧ norm3 (du k) = 0) →
      fieldSources m rows start stop u du l c F D eL eT = .error .AssertionError) ∧
    (start < stop → (∀ k, start ≤ k → k < stop → k < m → norm3 (du k) ≠ 0) → m < stop →
      fieldSources m rows start stop u du l c F D eL eT = .error .IndexError) := by
  have heig : ¬ ∃ k < m, ∃ x ∈ eigRe (l k * c (k + 1)), x ≤ 0 := by push Not; exact h0
  refine ⟨fun h => ?_, fun h hk => ?_, fun h hk hm => ?_⟩
  · unfold fieldSources
    simp only [raiseIf, if_neg heig, if_neg hr, if_pos h, bind, Except.bind]
  · unfold fieldSources
    have : ¬ ∀ k, start ≤ k → k < stop → k < m → norm3 (du k) ≠ 0 := by
      obtain ⟨k, a, b, c, d⟩ := hk
      exact fun H => H k a b c d
    simp only [raiseIf, pyAssert, if_neg heig, if_neg hr, if_neg (not_le.2 h), if_neg this, bind, Except.bind]
  · unfold fieldSources
    simp only [raiseIf, pyAssert, if_neg heig, if_neg hr, if_neg (not_le.2 h), if_pos hk, if_pos hm, bind, Except.bind]

/-- **C77** Which exception adding a field to a line of positive phase velocities raises: `AssertionError` for offsets of another
shape and for a cell without length, `UnboundLocalError` if the two positions have the same nearest node or are in the wrong order. -/
theorem C77_errors_partial (s : MTL n p) (F : Field) (D : Distances) (loc : Option (V3 × V3)) :
    (¬ (D.rows = n ∧ D.cols = s.m + 1) → s.addExternalField F D loc = .error .AssertionError) ∧
    (D.rows = n → D.cols = s.m + 1 → n ≠ 0 → (∀ k < s.m, ∀ x ∈ eigRe (s.l k * s.c (k + 1)), 0 < x) →
      ((∃ a b, loc = some (a, b) ∧ nearest s.u s.m b ≤ nearest s.u s.m a) →
        s.addExternalField F D loc = .error .UnboundLocalError) ∧
      (loc = none → s.m = 0 → s.addExternalField F D loc = .error .UnboundLocalError) ∧
      (loc = none → (∃ k < s.m, norm3 (s.du k) = 0) → s.addExternalField F D loc = .error .AssertionError)) := by
  refine ⟨fun h => ?_, fun hr hc hn he => ⟨?_, ?_, ?_⟩⟩
  · unfold MTL.addExternalField
    simp only [pyAssert, if_neg h, bind, Except.bind]
  · rintro ⟨a, b, rfl, hab⟩
    unfold MTL.addExternalField
    simp only [pyAssert, if_pos (And.intro hr hc), bind, Except.bind, (fieldSources_errors hn he).1 hab]
  · rintro rfl hm
    unfold MTL.addExternalField
    simp only [pyAssert, if_pos (And.intro hr hc), bind, Except.bind, (fieldSources_errors hn he).1 hm.le]
  · rintro rfl ⟨k, hk, hz⟩
    unfold MTL.addExternalField
    simp only [pyAssert, if_pos (And.intro hr hc), bind, Except.bind,
      (fieldSources_errors hn he).2.1 (Nat.zero_lt_of_lt hk) ⟨k, Nat.zero_le _, hk, hk, hz⟩]

/-- **C45** On a bundle a localization that ends at the last node raises `IndexError`, whatever the field and wherever it starts;
one that ends before it starts raises `UnboundLocalError`. -/
theorem C45_errors_partial (b : MTLD n p) (F : Field) (D : Distances) (x y : V3) (hr : D.rows = b.inLevel.headD 0)
    (hc : D.cols = b.m + 1) (hn : D.rows ≠ 0) (he : ∀ k < b.m, ∀ x ∈ eigRe (b.l k * b.c (k + 1)), 0 < x) :
    (nearest b.u b.m y < nearest b.u b.m x → b.addExternalField F D (some (x, y)) = .error .UnboundLocalError) ∧
    ((∀ k < b.m, norm3 (b.du k) ≠ 0) → nearest b.u b.m x ≤ nearest b.u b.m y → nearest b.u b.m y = b.m →
      b.addExternalField F D (some (x, y)) = .error .IndexError) := by
  rw [hr] at hn
  refine ⟨fun h => ?_, fun hd h hm => ?_⟩
  · unfold MTLD.addExternalField
    simp only [pyAssert, if_pos (And.intro hr hc), bind, Except.bind, (fieldSources_errors hn he).1 h]
  · unfold MTLD.addExternalField
    simp only [pyAssert, if_pos (And.intro hr hc), bind, Except.bind,
      (fieldSources_errors hn he).2.2 (Nat.lt_succ_of_le h) (fun k _ _ hk => hd k hk) (by omega : b.m < nearest b.u b.m y + 1)]

/-- Non-vacuity: the demo line has positive phase velocities; a field localized at one point is not accepted. -/
example (F : Field) (x : V3) :
    (demoBare p).addExternalField F (constOffset x) (some (x, x)) = .error .UnboundLocalError :=
  ((C77_errors_partial (demoBare p) F (constOffset x) (some (x, x))).2 rfl rfl one_ne_zero (by
    intro k _ x hx
    rw [eigRe_one_by_one, Set.mem_singleton_iff] at hx
    rw [hx]; simp [demoBare])).1 ⟨x, x, rfl, le_rfl⟩

end Mtln
