import Verif.Props.ParserLookup

/-! # The exceptions of the look-up of a node's connector: C81 -/

namespace Mtln

theorem connectorAndCableOnSide_error_iff {F : File} {el : ℤ} {side : String} {e : PyErr} :
    F.connectorAndCableOnSide el side = .error e ↔
      ((∀ c ∈ F.cables, el ∉ c.elemIds) ∧ e = .Exception) ∨
      ((∃ c, FirstMatch F.cables (fun c => el ∈ c.elemIds) c ∧ ¬ (side = "initial" ∧ c.initialConnectorId ≠ none) ∧
        ¬ (side = "end" ∧ c.endConnectorId ≠ none)) ∧ e = .KeyError) := by
  unfold File.connectorAndCableOnSide
  simp only [← find?_iff_firstMatch]
  cases hf : F.cables.find? fun c => el ∈ c.elemIds with
  | none =>
    rw [List.find?_eq_none] at hf
    simp only [decide_eq_true_eq] at hf
    simp [eq_comm]
    exact fun _ => hf
  | some c =>
    have hc := List.find?_some hf
    have hm := List.mem_of_find?_eq_some hf
    simp only [decide_eq_true_eq] at hc
    have hn : ¬ ∀ c ∈ F.cables, el ∉ c.elemIds := fun h => h c hm hc
    simp only [hn, false_and, false_or, Option.some.injEq, exists_eq_left']
    unfold File.connectorIdOf
    by_cases h1 : side = "initial"
    · subst h1
      cases c.initialConnectorId <;> simp [pyKey, bind, Except.bind, eq_comm]
    · by_cases h2 : side = "end"
      · subst h2
        cases c.endConnectorId <;> simp [pyKey, bind, Except.bind, eq_comm]
      · simp [h1, h2, pyKey, bind, Except.bind, eq_comm]

/-- **C81** The exceptions of `_getConnectorAndCableInNode`: no line touches the node, no cable has the line, the cable names no
connector on that side (`KeyError`), or no connector has the material. -/
theorem C81_errors {F : File} (hF : F.WellFormed) (node : ℤ) (e : PyErr) :
    F.connectorAndCableInNode node = .error e ↔
      ((∀ x ∈ F.lines, ¬ touches node x) ∧ e = .Exception) ∨
      ∃ el side, F.elementOfNode node = .ok (el, side) ∧
        (((∀ c ∈ F.cables, el ∉ c.elemIds) ∧ e = .Exception) ∨
          ((∃ c, FirstMatch F.cables (fun c => el ∈ c.elemIds) c ∧ ¬ (side = "initial" ∧ c.initialConnectorId ≠ none) ∧
            ¬ (side = "end" ∧ c.endConnectorId ≠ none)) ∧ e = .KeyError) ∨
          (∃ id name k, F.connectorAndCableOnSide el side = .ok (id, name, k) ∧ (∀ c ∈ F.connectors, c.materialId ≠ id) ∧
            e = .Exception)) := by
  rw [← (C81_elements hF node).2]
  unfold File.connectorAndCableInNode
  rcases h1 : F.elementOfNode node with e1 | ⟨el, side⟩
  · have : e1 = .Exception := by
      by_cases hx : ∀ x ∈ F.lines, ¬ touches node x
      · rw [(C81_elements hF node).2.2 hx] at h1
        exact (Except.error.inj h1).symm
      · push Not at hx
        obtain ⟨x, hx, ht⟩ := hx
        obtain ⟨y, hy⟩ : ∃ y, FirstMatch F.lines (touches node) y := by
          classical
          cases hf : F.lines.find? fun y => decide (touches node y) with
          | none =>
            rw [List.find?_eq_none] at hf
            exact absurd ht (by simpa using hf x hx)
          | some y => exact ⟨y, find?_iff_firstMatch.1 hf⟩
        have hyl : y ∈ F.lines := by
          classical
          exact List.mem_of_find?_eq_some (find?_iff_firstMatch.2 hy)
        have hl := hF y hyl
        obtain ⟨id, hid⟩ : ∃ id, y[0]? = some id := ⟨y[0], List.getElem?_eq_getElem (by omega)⟩
        by_cases h3 : y[3]? = some node
        · rw [((C81_elements hF node).1 id "initial").2 ⟨y, hy, hid, Or.inl ⟨h3, rfl⟩⟩] at h1
          exact absurd h1 (by simp)
        · rw [((C81_elements hF node).1 id "end").2 ⟨y, hy, hid, Or.inr ⟨h3, rfl⟩⟩] at h1
          exact absurd h1 (by simp)
    subst this
    simp [bind, Except.bind, eq_comm]
  · have hs : ∀ x y : PyErr, (∃ el' side', (Except.ok (el, side) : Py (ℤ × String)) = .ok (el', side') ∧ (
          ((∀ c ∈ F.cables, el' ∉ c.elemIds) ∧ e = x) ∨
          ((∃ c, FirstMatch F.cables (fun c => el' ∈ c.elemIds) c ∧ ¬ (side' = "initial" ∧ c.initialConnectorId ≠ none) ∧
            ¬ (side' = "end" ∧ c.endConnectorId ≠ none)) ∧ e = y) ∨
          (∃ id name k, F.connectorAndCableOnSide el' side' = .ok (id, name, k) ∧ (∀ c ∈ F.connectors, c.materialId ≠ id) ∧
            e = x))) ↔
          (((∀ c ∈ F.cables, el ∉ c.elemIds) ∧ e = x) ∨
          ((∃ c, FirstMatch F.cables (fun c => el ∈ c.elemIds) c ∧ ¬ (side = "initial" ∧ c.initialConnectorId ≠ none) ∧
            ¬ (side = "end" ∧ c.endConnectorId ≠ none)) ∧ e = y) ∨
          (∃ id name k, F.connectorAndCableOnSide el side = .ok (id, name, k) ∧ (∀ c ∈ F.connectors, c.materialId ≠ id) ∧
            e = x)) := by
      intro x y
      constructor
      · rintro ⟨el', side', h, h'⟩
        obtain ⟨rfl, rfl⟩ := Prod.mk.inj (Except.ok.inj h)
        exact h'
      · intro h'
        exact ⟨el, side, rfl, h'⟩
    have hne : ¬ ((Except.ok (el, side) : Py (ℤ × String)) = .error .Exception ∧ e = .Exception) := by simp
    rw [hs, or_iff_right hne, ← or_assoc, ← connectorAndCableOnSide_error_iff]
    simp only [bind, Except.bind]
    rcases h2 : F.connectorAndCableOnSide el side with e2 | ⟨id, name, k⟩
    · constructor
      · intro h
        exact Or.inl (congrArg Except.error (Except.error.inj h))
      · rintro (h | ⟨_, _, _, h, -⟩)
        · exact congrArg Except.error (Except.error.inj h)
        · exact absurd h (by simp)
    · show (match F.connectors.find? fun c => c.materialId = id with
        | none => (Except.error .Exception : Py (Connector × String × ℕ × String))
        | some c => Except.ok (c.connector, name, k, File.sideLetter side)) = Except.error e ↔ _
      cases hf : F.connectors.find? fun c => c.materialId = id with
      | none =>
        rw [List.find?_eq_none] at hf
        simp only [decide_eq_true_eq] at hf
        try simp only [reduceCtorEq, false_or]
        constructor
        · intro h
          exact ⟨id, name, k, rfl, hf, (Except.error.inj h).symm⟩
        · rintro ⟨_, _, _, -, -, rfl⟩
          rfl
      | some c =>
        have hc := List.find?_some hf
        have hm := List.mem_of_find?_eq_some hf
        simp only [decide_eq_true_eq] at hc
        simp only [reduceCtorEq, false_or, false_iff]
        rintro ⟨id', _, _, h, h', -⟩
        obtain ⟨rfl, -⟩ := Prod.mk.inj (Except.ok.inj h)
        exact h' c hm hc

end Mtln
