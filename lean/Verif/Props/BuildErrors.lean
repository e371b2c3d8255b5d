import Verif.Props.ParserFile

/-! # The exceptions in the construction of lines and bundles from a file: C84, C113, C121, C122 -/

namespace Mtln

variable {p : ℕ}

theorem bind_error_iff {α β : Type} {x : Py α} {f : α → Py β} {e : PyErr} :
    (x >>= f) = .error e ↔ x = .error e ∨ ∃ a, x = .ok a ∧ f a = .error e := by
  cases x with
  | error e' => simp [bind, Except.bind]
  | ok a => simp [bind, Except.bind]

theorem pyIndex_error_iff {α : Type} {l : List α} {k : ℕ} {e : PyErr} : pyIndex l k = .error e ↔ l.length ≤ k ∧ e = .IndexError := by
  unfold pyIndex
  by_cases h : l.length ≤ k
  · rw [List.getElem?_eq_none h]; simp [h, eq_comm]
  · rw [List.getElem?_eq_getElem (by omega)]; simp [h]

theorem pyIndex_filter_error_iff {α : Type} {l : List α} {P : α → Prop} [DecidablePred P] {e : PyErr} :
    pyIndex (l.filter fun x => P x) 0 = .error e ↔ (∀ x ∈ l, ¬ P x) ∧ e = .IndexError := by
  rw [pyIndex_error_iff, Nat.le_zero, List.length_eq_zero_iff, List.filter_eq_nil_iff]
  simp only [decide_eq_true_eq]

theorem dictGet_error_iff {α β : Type} [DecidableEq α] {d : List (α × β)} {key : α} {e : PyErr} :
    dictGet d key = .error e ↔ (∀ x ∈ d, x.1 ≠ key) ∧ e = .KeyError := by
  unfold dictGet
  cases h : d.find? fun e => e.1 = key with
  | none =>
    rw [List.find?_eq_none] at h
    simp only [decide_eq_true_eq] at h
    simp only [Except.error.injEq]
    exact ⟨fun h' => ⟨h, h'.symm⟩, fun h' => h'.2.symm⟩
  | some x =>
    have h1 := List.find?_some h
    have h2 := List.mem_of_find?_eq_some h
    simp only [decide_eq_true_eq] at h1
    constructor
    · intro h'; cases h'
    · intro h'; exact absurd h1 (h'.1 x h2)

theorem pyKey_error_iff {α : Type} {x : Option α} {e : PyErr} : pyKey x = .error e ↔ x = none ∧ e = .KeyError := by
  cases x <;> simp [pyKey, eq_comm]

theorem mapPy_error_iff {α β : Type} {f : α → Py β} {l : List α} {e : PyErr} :
    mapPy f l = .error e ↔ ∃ pre x post, l = pre ++ x :: post ∧ (∀ y ∈ pre, ∃ b, f y = .ok b) ∧ f x = .error e := by
  induction l with
  | nil => simp [mapPy]
  | cons a l ih =>
    simp only [mapPy, bind_error_iff, ih]
    constructor
    · rintro (h | ⟨b, hb, ⟨pre, x, post, rfl, h1, h2⟩ | ⟨c, -, h⟩⟩)
      · exact ⟨[], a, l, rfl, by simp, h⟩
      · refine ⟨a :: pre, x, post, rfl, fun y hy => ?_, h2⟩
        rcases List.mem_cons.1 hy with rfl | hy
        · exact ⟨b, hb⟩
        · exact h1 y hy
      · cases h
    · rintro ⟨pre, x, post, h, h1, h2⟩
      cases pre with
      | nil =>
        simp only [List.nil_append, List.cons.injEq] at h
        obtain ⟨rfl, rfl⟩ := h
        exact .inl h2
      | cons y pre =>
        simp only [List.cons_append, List.cons.injEq] at h
        obtain ⟨rfl, rfl⟩ := h
        obtain ⟨b, hb⟩ := h1 a (by simp)
        exact .inr ⟨b, hb, .inl ⟨pre, x, post, rfl, fun y hy => h1 y (by simp [hy]), h2⟩⟩

/-- A coordinate the file lacks. -/
theorem coordinates_error_iff {F : File} {ids : List ℤ} {e : PyErr} :
    mapPy F.coordinate ids = .error e ↔ (∃ id ∈ ids, ∀ x ∈ F.coordinates, x.1 ≠ id) ∧ e = .KeyError := by
  rw [mapPy_error_iff]
  constructor
  · rintro ⟨pre, x, post, rfl, -, h⟩
    obtain ⟨h1, h2⟩ := dictGet_error_iff.1 h
    exact ⟨⟨x, by simp, h1⟩, h2⟩
  · rintro ⟨⟨id, hid, h⟩, rfl⟩
    induction ids with
    | nil => simp at hid
    | cons a l ih =>
      cases ha : F.coordinate a with
      | error e' => exact ⟨[], a, l, rfl, by simp, by rw [ha, (dictGet_error_iff.1 ha).2]⟩
      | ok v =>
        rcases List.mem_cons.1 hid with rfl | hid
        · rw [show F.coordinate id = .error .KeyError from dictGet_error_iff.2 ⟨h, rfl⟩] at ha
          cases ha
        · obtain ⟨pre, x, post, rfl, h1, h2⟩ := ih hid
          refine ⟨a :: pre, x, post, rfl, fun y hy => ?_, h2⟩
          rcases List.mem_cons.1 hy with rfl | hy
          · exact ⟨v, ha⟩
          · exact h1 y hy

/-- **C84** The exceptions of `_addLumpedElement`: the line has none of the lumped elements of the file (`IndexError`), no connector
has its material (`IndexError`), the connector has no model (`Exception`), one of its coordinates is unknown (`KeyError`), it
has no coordinate (`IndexError`), the line has no such conductor (`IndexError`), or the exceptions of
`add_dispersive_connector`. -/
theorem C84_errors {F : File} {L : AnyLine p} (h : F.lumped ≠ []) (e : PyErr) :
    F.addLumped L = .error e ↔
      ((∀ x ∈ F.lumped, x.cable ≠ L.2.name) ∧ e = .IndexError) ∨
      ∃ x, FirstMatch F.lumped (fun x => x.cable = L.2.name) x ∧
        (((∀ c ∈ F.connectors, c.materialId ≠ x.materialId) ∧ e = .IndexError) ∨
        ∃ c, FirstMatch F.connectors (fun c => c.materialId = x.materialId) c ∧
          ((c.model = none ∧ e = .Exception) ∨
          ∃ M, c.model = some M ∧
            (((∃ id ∈ x.coordIds, ∀ y ∈ F.coordinates, y.1 ≠ id) ∧ e = .KeyError) ∨
            ∃ ps, mapPy F.coordinate x.coordIds = .ok ps ∧
              ((ps = [] ∧ e = .IndexError) ∨
              ∃ y, ps.head? = some y ∧ ((L.1 ≤ x.conductor ∧ e = .IndexError) ∨
                ∃ hk : x.conductor < L.1, L.2.addDispersiveConnector y ⟨x.conductor, hk⟩ M = .error e))))) := by
  unfold File.addLumped
  rw [if_neg h, bind_error_iff]
  simp only [pyIndex_filter_error_iff, pyIndex_filter_ok_iff]
  refine or_congr Iff.rfl (exists_congr fun x => and_congr Iff.rfl ?_)
  rw [bind_error_iff]
  unfold File.connectorWithId
  simp only [pyIndex_filter_error_iff, pyIndex_filter_ok_iff]
  refine or_congr Iff.rfl (exists_congr fun c => and_congr Iff.rfl ?_)
  cases hM : c.model with
  | none => simp [eq_comm]
  | some M =>
    simp only [reduceCtorEq, false_and, false_or, Option.some.injEq, exists_eq_left']
    rw [bind_error_iff, coordinates_error_iff]
    refine or_congr Iff.rfl (exists_congr fun ps => and_congr Iff.rfl ?_)
    rw [bind_error_iff]
    simp only [pyIndex_error_iff, pyIndex_ok_iff, Nat.le_zero, List.length_eq_zero_iff, ← List.head?_eq_getElem?]
    refine or_congr Iff.rfl (exists_congr fun y => and_congr Iff.rfl ?_)
    by_cases hk : x.conductor < L.1
    · rw [dif_pos hk, bind_error_iff]
      simp [hk]
    · rw [dif_neg hk]
      simp [hk, not_lt.1 hk, eq_comm]

/-- **C113** The exceptions of `_findConductorNumberInLevel`: the bundle has no such level (`IndexError`), no cable has the name of the
vertex (`IndexError`), or the cable lacks the element (`ValueError`). -/
theorem C113_errors {F : File} {v : Vertex} {B : PBundle p} (e : PyErr) :
    F.conductorNumber v B = .error e ↔
      (B.levels.length ≤ v.level ∧ e = .IndexError) ∨ (v.level < B.levels.length ∧
        (((∀ c ∈ F.cables, c.name ≠ v.cable) ∧ e = .IndexError) ∨
          ∃ c, FirstMatch F.cables (fun c => c.name = v.cable) c ∧ v.name ∉ c.elemIds ∧ e = .ValueError)) := by
  unfold File.conductorNumber
  rw [bind_error_iff, pyIndex_error_iff]
  refine or_congr Iff.rfl ?_
  by_cases hl : v.level < B.levels.length
  · rw [show pyIndex B.levels v.level = .ok B.levels[v.level] from pyIndex_ok_iff.2 (List.getElem?_eq_getElem hl)]
    simp only [Except.ok.injEq, exists_eq_left', hl, true_and]
    rw [bind_error_iff]
    unfold File.cableNamed
    simp only [pyIndex_filter_error_iff, pyIndex_filter_ok_iff]
    refine or_congr Iff.rfl (exists_congr fun c => and_congr Iff.rfl ?_)
    by_cases hc : v.name ∈ c.elemIds
    · simp [hc]
    · simp [hc, eq_comm]
  · simp only [hl, false_and, iff_false, not_exists, not_and]
    intro lines hlines
    rw [pyIndex_ok_iff, List.getElem?_eq_none (by omega)] at hlines
    cases hlines

/-- **C121** The exceptions of `_addConnectorsResistance` for an end of a cable: the end names no node (`IndexError`), no line touches
it, the node has no coordinates (`KeyError`), no connector has the material (`IndexError`), the connector has no resistance
(`KeyError`), or the exceptions of `set_resistance_in_region`. -/
theorem C121_errors {F : File} {c : Cable} {L : AnyLine p} {x : CableEnd} (e : PyErr) :
    F.addEndResistance c L x = .error e ↔
      (x.coordIds = [] ∧ e = .IndexError) ∨
      ∃ node, x.coordIds.head? = some node ∧ (F.elementOfNode node = .error e ∨
        ∃ el side, F.elementOfNode node = .ok (el, side) ∧ el ∈ c.elemIds ∧
          (((∀ y ∈ F.coordinates, y.1 ≠ node) ∧ e = .KeyError) ∨
          ∃ pos, F.coordinate node = .ok pos ∧
            (((∀ m ∈ F.connectors, m.materialId ≠ x.materialId) ∧ e = .IndexError) ∨
            ∃ m, FirstMatch F.connectors (fun m => m.materialId = x.materialId) m ∧
              ((m.connector.resistance = none ∧ e = .KeyError) ∨
              ∃ R, m.connector.resistance = some R ∧
                L.2.setResistanceInRegion (.list pos) (.list pos) (c.elemIds.idxOf el) R = .error e)))) := by
  unfold File.addEndResistance
  rw [bind_error_iff]
  simp only [pyIndex_error_iff, pyIndex_ok_iff, Nat.le_zero, List.length_eq_zero_iff, ← List.head?_eq_getElem?]
  refine or_congr Iff.rfl (exists_congr fun node => and_congr Iff.rfl ?_)
  rw [bind_error_iff]
  refine or_congr Iff.rfl ?_
  rw [Prod.exists]
  refine exists_congr fun el => exists_congr fun side => and_congr Iff.rfl ?_
  by_cases hel : el ∈ c.elemIds
  · simp only [hel, if_true, true_and]
    rw [bind_error_iff]
    refine or_congr dictGet_error_iff (exists_congr fun pos => and_congr Iff.rfl ?_)
    rw [bind_error_iff]
    unfold File.connectorWithId
    simp only [pyIndex_filter_error_iff, pyIndex_filter_ok_iff]
    refine or_congr Iff.rfl (exists_congr fun m => and_congr Iff.rfl ?_)
    rw [bind_error_iff]
    refine or_congr pyKey_error_iff (exists_congr fun R => and_congr ?_ ?_)
    · cases m.connector.resistance <;> simp [pyKey]
    · rw [bind_error_iff]
      simp
  · simp [hel]

/-- **C122** The exceptions of `_setBundleTransferImpedance` for an edge of the graph whose two vertices have conductor numbers: without
a transfer impedance `AssertionError` for levels that are not adjacent, `AttributeError` for adjacent ones; else those of
`add_transfer_impedance`. -/
theorem C122_edge_errors {F : File} {g : Graph} {B : PBundle p} {x : Edge} {s t : Vertex} {a b : ℕ} (hs : g.vertex x.source = .ok s)
    (ht : g.vertex x.target = .ok t) (ha : F.conductorNumber s B = .ok a) (hb : F.conductorNumber t B = .ok b) (e : PyErr) :
    F.addEdge g B x = .error e ↔
      (x.Zt = none ∧ ¬ adjacentLevels s.level t.level ∧ e = .AssertionError) ∨
      (x.Zt = none ∧ adjacentLevels s.level t.level ∧ e = .AttributeError) ∨
      ∃ Z, x.Zt = some Z ∧ B.bundle.2.addTransferImpedance s.level [a] t.level [b] Z = .error e := by
  unfold File.addEdge
  rw [hs, ht]
  simp only [bind, Except.bind, ha, hb]
  cases hZ : x.Zt with
  | none =>
    by_cases hadj : adjacentLevels s.level t.level
    · simp [pyAssert, hadj, eq_comm]
    · simp [pyAssert, hadj, eq_comm]
  | some Z =>
    simp only [reduceCtorEq, false_and, false_or, Option.some.injEq, exists_eq_left']
    unfold PBundle.change
    rw [bind_error_iff]
    simp

end Mtln
