import Verif.Props.ParserLookup

/-!
# Sections of the file (C110), look-ups by node, coordinate and material (C111), terminal sources (C117), and the cable
of an element (C120)
-/

namespace Mtln

/-! ## C110 -/

theorem mem_filterMap_wire {l : List Material} {w : Wire} :
    w ∈ l.filterMap (fun m => match m with | .wire w => some w | _ => none) ↔ Material.wire w ∈ l := by
  rw [List.mem_filterMap]
  constructor
  · rintro ⟨m, hm, e⟩
    cases m <;> simp at e
    rw [← e]; exact hm
  · intro h; exact ⟨_, h, rfl⟩

theorem mem_filterMap_connector {l : List Material} {w : ConnectorMaterial} :
    w ∈ l.filterMap (fun m => match m with | .connector w => some w | _ => none) ↔ Material.connector w ∈ l := by
  rw [List.mem_filterMap]
  constructor
  · rintro ⟨m, hm, e⟩
    cases m <;> simp at e
    rw [← e]; exact hm
  · intro h; exact ⟨_, h, rfl⟩

theorem sublist_filterMap {α β : Type} {f : α → Option β} {g : β → α} (h : ∀ a b, f a = some b → g b = a) (l : List α) :
    ((l.filterMap f).map g).Sublist l := by
  induction l with
  | nil => simp
  | cons a l ih =>
    cases hf : f a with
    | none => rw [List.filterMap_cons_none hf]; exact ih.cons a
    | some b =>
      rw [List.filterMap_cons_some hf, List.map_cons, h a b hf]
      exact ih.cons_cons a

theorem readElements_eq (names : List String) (l : List (String × List ElemFields)) :
    readElements names l = l.flatMap fun e => if e.1 ∈ names then e.2 else [] := by
  unfold readElements
  induction l with
  | nil => rfl
  | cons a l ih =>
    by_cases h : a.1 ∈ names
    · simp only [List.filter_cons, h, decide_true, if_true, List.flatMap_cons, ih]
    · rw [List.filter_cons_of_neg (by simpa using h), List.flatMap_cons, ih, if_neg h, List.nil_append]

/-- **C110** A file is read if and only if the five required sections are there; all entries of all sections are kept in
their order, optional sections are empty when absent. -/
theorem C110_sections {j : Json} {F : File} (h : j.read = .ok F) :
    ∃ coordinates elements materials, j.coordinates = some coordinates ∧ j.cables = some F.cables ∧
      j.bundles = some F.bundles ∧ j.elements = some elements ∧ j.materials = some materials ∧
      F.lines = (elements.flatMap fun e => if e.1 = "line" ∨ e.1 = "polyline" then e.2 else []) ∧
      F.nodes = (elements.flatMap fun e => if e.1 = "node" then e.2 else []) ∧
      (∀ w, w ∈ F.wires ↔ Material.wire w ∈ materials) ∧ (F.wires.map Material.wire).Sublist materials ∧
      (∀ c, c ∈ F.connectors ↔ Material.connector c ∈ materials) ∧
      (F.connectors.map Material.connector).Sublist materials ∧
      (j.junctions = some F.junctions ∨ j.junctions = none ∧ F.junctions = []) ∧
      (j.terminations = some F.terminations ∨ j.terminations = none ∧ F.terminations = []) ∧
      (j.sources = some F.sources ∨ j.sources = none ∧ F.sources = []) ∧
      (j.probes = some F.probes ∨ j.probes = none ∧ F.probes = []) ∧
      (j.cableEnds = some F.ends ∨ j.cableEnds = none ∧ F.ends = []) ∧
      (j.lumpedElements = some F.lumped ∨ j.lumpedElements = none ∧ F.lumped = []) := by
  unfold Json.read at h
  simp only [bind_ok_iff] at h
  obtain ⟨a, ha, b, hb, c, hc, d, hd, e, he, h⟩ := h
  have need : ∀ {α : Type} {o : Option α} {x : α}, needSection o = .ok x → o = some x := by
    intro α o x hx
    cases o with
    | none => simp [needSection] at hx
    | some y => rw [← Except.ok.inj hx]
  have opt : ∀ {α : Type} (o : Option (List α)), o = some (o.getD []) ∨ o = none ∧ o.getD [] = [] := by
    intro α o; cases o <;> simp
  obtain rfl := (Except.ok.inj h).symm
  refine ⟨a, d, e, need ha, need hb, need hc, need hd, need he, ?_, ?_, fun w => mem_filterMap_wire, ?_,
    fun w => mem_filterMap_connector, ?_, opt _, opt _, opt _, opt _, opt _, opt _⟩
  · simp [readElements_eq]
  · simp [readElements_eq]
  · refine sublist_filterMap (fun m w hm => ?_) e
    cases m <;> simp at hm
    rw [hm]
  · refine sublist_filterMap (fun m w hm => ?_) e
    cases m <;> simp at hm
    rw [hm]

/-- **C110** Any missing required section is reported by `AssertionError`, and nothing else is. -/
theorem C110_missing (j : Json) :
    (j.read = .error .AssertionError ↔ j.coordinates = none ∨ j.cables = none ∨ j.bundles = none ∨ j.elements = none ∨
      j.materials = none) ∧
    ((∃ F, j.read = .ok F) ↔ ¬ (j.coordinates = none ∨ j.cables = none ∨ j.bundles = none ∨ j.elements = none ∨
      j.materials = none)) := by
  unfold Json.read
  cases j.coordinates <;> cases j.cables <;> cases j.bundles <;> cases j.elements <;> cases j.materials <;>
    simp [needSection, bind, Except.bind]

/-- A file with two sections of lines. -/
def demoSections : Json where
  coordinates := some []
  cables := some []
  bundles := some []
  elements := some [("line", [[1, 0, 0, 2, 3]]), ("node", [[7, 0, 0, 2]]), ("polyline", [[2, 0, 0, 3, 4]])]
  materials := some []

theorem C110_example : ∃ F, demoSections.read = .ok F ∧ F.lines = [[1, 0, 0, 2, 3], [2, 0, 0, 3, 4]] ∧ F.nodes = [[7, 0, 0, 2]] :=
  ⟨_, rfl, rfl, rfl⟩

/-! ## C111 -/

/-- The strings of node elements are not empty. -/
def File.NodesWellFormed (F : File) : Prop := ∀ e ∈ F.nodes, e ≠ []

theorem nodeCoordId_go {l : List ElemFields} (hl : ∀ e ∈ l, e ≠ []) (id : ℤ) :
    (∀ c, File.nodeCoordId.go id l = .ok c ↔ ∃ e, FirstMatch l (fun e => e[0]? = some id) e ∧ e.getLast? = some c) ∧
    (File.nodeCoordId.go id l = .error .TypeError ↔ ∀ e ∈ l, e[0]? ≠ some id) := by
  induction l with
  | nil =>
    refine ⟨fun c => ?_, by simp [File.nodeCoordId.go]⟩
    constructor
    · intro h; simp [File.nodeCoordId.go] at h
    · rintro ⟨e, he, -⟩; exact absurd he.mem (by simp)
  | cons e l ih =>
    have ih := ih fun x hx => hl x (by simp [hx])
    have hne := hl e (by simp)
    have hpos : 0 < e.length := List.length_pos_of_ne_nil hne
    have e0 : e[0]? = some e[0] := List.getElem?_eq_getElem hpos
    have el : e.getLast? = some (e.getLast hne) := List.getLast?_eq_some_getLast hne
    unfold File.nodeCoordId.go
    rw [pyIndex_ok_iff.2 e0, pyLast_ok_iff.2 el]
    simp only [bind, Except.bind, firstMatch_cons]
    by_cases h0 : e[0] = id
    · have h0' : e[0]? = some id := by rw [e0, h0]
      rw [if_pos h0]
      refine ⟨fun c => ?_, ?_⟩
      · constructor
        · intro h; exact ⟨e, Or.inl ⟨h0', rfl⟩, by rw [el, Except.ok.inj h]⟩
        · rintro ⟨x, (⟨-, rfl⟩ | ⟨hx, -⟩), hc⟩
          · rw [el, Option.some.injEq] at hc; rw [hc]
          · exact absurd h0' hx
      · constructor
        · intro h; simp at h
        · intro h; exact absurd h0' (h e (by simp))
    · have h0' : e[0]? ≠ some id := by rw [e0]; simpa using h0
      rw [if_neg h0]
      refine ⟨fun c => ?_, ?_⟩
      · rw [ih.1]
        constructor
        · rintro ⟨x, hx, hr⟩; exact ⟨x, Or.inr ⟨h0', hx⟩, hr⟩
        · rintro ⟨x, (⟨hx, -⟩ | ⟨-, hx⟩), hr⟩
          · exact absurd hx h0'
          · exact ⟨x, hx, hr⟩
      · rw [ih.2]
        constructor
        · intro h x hx
          rcases List.mem_cons.1 hx with rfl | hx
          · exact h0'
          · exact h x hx
        · intro h x hx; exact h x (by simp [hx])

/-- **C111** The coordinate of a node element: the last field of the first node with the id. -/
theorem C111_node {F : File} (hF : F.NodesWellFormed) (id : ℤ) :
    (∀ c, F.nodeCoordId id = .ok c ↔ ∃ e, FirstMatch F.nodes (fun e => e[0]? = some id) e ∧ e.getLast? = some c) ∧
    (F.nodeCoordId id = .error .TypeError ↔ ∀ e ∈ F.nodes, e[0]? ≠ some id) := nodeCoordId_go hF id

/-- **C111** The line through a coordinate: the first that has it among its coordinates (the fields from the fourth on). -/
theorem C111_line {F : File} (hF : F.WellFormed) (c : ℤ) :
    (∀ id, F.lineElemIdFromCoordId c = .ok id ↔
      ∃ e, FirstMatch F.lines (fun e => ∃ k, 3 ≤ k ∧ e[k]? = some c) e ∧ e[0]? = some id) ∧
    (F.lineElemIdFromCoordId c = .error .TypeError ↔ ∀ e ∈ F.lines, ∀ k, 3 ≤ k → e[k]? ≠ some c) := by
  have hP : ∀ e : ElemFields, c ∈ e.drop 3 ↔ ∃ k, 3 ≤ k ∧ e[k]? = some c := by
    intro e
    rw [List.mem_iff_getElem?]
    constructor
    · rintro ⟨k, hk⟩
      rw [List.getElem?_drop] at hk
      exact ⟨3 + k, by omega, hk⟩
    · rintro ⟨k, hk, he⟩
      refine ⟨k - 3, ?_⟩
      rw [List.getElem?_drop, show 3 + (k - 3) = k by omega]
      exact he
  have hfm : ∀ e, FirstMatch F.lines (fun e => ∃ k, 3 ≤ k ∧ e[k]? = some c) e ↔ FirstMatch F.lines (fun e => c ∈ e.drop 3) e := by
    intro e
    have : (fun e : ElemFields => ∃ k, 3 ≤ k ∧ e[k]? = some c) = fun e => c ∈ e.drop 3 := by
      funext e; exact propext (hP e).symm
    rw [this]
  unfold File.lineElemIdFromCoordId
  cases hf : F.lines.find? fun e => c ∈ e.drop 3 with
  | none =>
    rw [List.find?_eq_none] at hf
    refine ⟨fun id => ?_, ?_⟩
    · constructor
      · intro h; simp at h
      · rintro ⟨e, he, -⟩
        rw [hfm] at he
        obtain ⟨pre, post, e1, e2, -⟩ := he
        exact absurd (decide_eq_true e2) (hf e (by rw [e1]; simp))
    · constructor
      · intro _ e he k hk hx
        exact absurd (decide_eq_true ((hP e).2 ⟨k, hk, hx⟩)) (hf e he)
      · intro _; rfl
  | some e =>
    have hm := find?_iff_firstMatch.1 hf
    have h4 := hF e hm.mem
    have e0 : e[0]? = some e[0] := List.getElem?_eq_getElem (by omega)
    refine ⟨fun id => ?_, ?_⟩
    · show pyIndex e 0 = _ ↔ _
      rw [pyIndex_ok_iff]
      constructor
      · intro h; exact ⟨e, (hfm e).2 hm, h⟩
      · rintro ⟨x, hx, h⟩
        rw [hm.unique ((hfm x).1 hx)]; exact h
    · constructor
      · intro h
        have : pyIndex e 0 = .ok e[0] := pyIndex_ok_iff.2 e0
        simp [this] at h
      · intro h
        obtain ⟨pre, post, e1, e2, -⟩ := hm
        obtain ⟨k, hk, hx⟩ := (hP e).1 e2
        exact absurd hx (h e (by rw [e1]; simp) k hk)

/-- **C111** Wires and connectors by their material: the first with the id. -/
theorem C111_material (F : File) (id : ℤ) :
    (∀ w, F.wireWithMaterialId id = .ok w ↔ FirstMatch F.wires (fun w => w.materialId = id) w) ∧
    ((∀ w ∈ F.wires, w.materialId ≠ id) → F.wireWithMaterialId id = .error .Exception) ∧
    (∀ c, F.connectorWithId id = .ok c ↔ FirstMatch F.connectors (fun c => c.materialId = id) c) ∧
    ((∀ c ∈ F.connectors, c.materialId ≠ id) → F.connectorWithId id = .error .IndexError) := by
  refine ⟨fun w => ?_, fun h => ?_, fun c => pyIndex_filter_ok_iff, fun h => ?_⟩
  · rw [← find?_iff_firstMatch]
    unfold File.wireWithMaterialId
    cases F.wires.find? fun w => w.materialId = id <;> simp
  · unfold File.wireWithMaterialId
    rw [List.find?_eq_none.2 fun w hw => by simpa using h w hw]
  · unfold File.connectorWithId
    rw [List.filter_eq_nil_iff.2 fun w hw => by simpa using h w hw]
    rfl

/-- **C111** Cables by name: the first with the name. -/
theorem C111_cable (F : File) (name : String) :
    (∀ c, F.cableNamed name = .ok c ↔ FirstMatch F.cables (fun c => c.name = name) c) ∧
    (∀ c, F.cableFromLineName name = .ok c ↔ FirstMatch F.cables (fun c => c.name = name) c) ∧
    ((∀ c ∈ F.cables, c.name ≠ name) → F.cableNamed name = .error .IndexError ∧
      F.cableFromLineName name = .error .Exception) := by
  refine ⟨fun c => pyIndex_filter_ok_iff, fun w => ?_, fun h => ⟨?_, ?_⟩⟩
  · rw [← find?_iff_firstMatch]
    unfold File.cableFromLineName
    cases F.cables.find? fun c => c.name = name <;> simp
  · unfold File.cableNamed
    rw [List.filter_eq_nil_iff.2 fun w hw => by simpa using h w hw]
    rfl
  · unfold File.cableFromLineName
    rw [List.find?_eq_none.2 fun w hw => by simpa using h w hw]

theorem filter_name {l : List Cable} (hn : (l.map Cable.name).Nodup) {c : Cable} (hc : c ∈ l) :
    (l.filter fun c' => c'.name = c.name) = [c] := by
  induction l with
  | nil => simp at hc
  | cons a l ih =>
    rw [List.map_cons, List.nodup_cons] at hn
    rcases List.mem_cons.1 hc with rfl | hc
    · rw [List.filter_cons_of_pos (by simp), List.filter_eq_nil_iff.2]
      intro x hx
      simp only [decide_eq_true_eq]
      intro e
      exact hn.1 (by rw [← e]; exact List.mem_map_of_mem hx)
    · rw [List.filter_cons_of_neg, ih hn.2 hc]
      simp only [decide_eq_true_eq]
      intro e
      exact hn.1 (by rw [e]; exact List.mem_map_of_mem hc)

/-- **C111** The transfer impedance of a cable: that of the first wire of its material that has one. -/
theorem C111_transfer {F : File} {c : Cable} (hc : c ∈ F.cables) (hn : (F.cables.map Cable.name).Nodup)
    (Z : TransferModel) :
    F.transferImpedance c.name = some Z ↔
      ∃ w, FirstMatch F.wires (fun w => w.materialId = c.materialId ∧ w.transferImpedance ≠ none) w ∧
        w.transferImpedance = some Z := by
  have h1 := filter_name hn hc
  unfold File.transferImpedance
  rw [h1, List.flatMap_cons, List.flatMap_nil, List.append_nil]
  generalize F.wires = ws
  clear h1
  induction ws with
  | nil =>
    simp only [List.filter_nil, List.filterMap_nil, List.head?_nil]
    constructor
    · intro h; simp at h
    · rintro ⟨w, hw, -⟩; exact absurd hw.mem (by simp)
  | cons w l ih =>
    simp only [firstMatch_cons]
    by_cases hm : w.materialId = c.materialId
    · rw [List.filter_cons_of_pos (by simpa using hm)]
      cases hz : w.transferImpedance with
      | none =>
        rw [List.filterMap_cons_none hz]
        refine Iff.trans ih ?_
        constructor
        · rintro ⟨x, hx, hr⟩; exact ⟨x, Or.inr ⟨by simp, hx⟩, hr⟩
        · rintro ⟨x, (⟨hx, -⟩ | ⟨-, hx⟩), hr⟩
          · simp at hx
          · exact ⟨x, hx, hr⟩
      | some Y =>
        rw [List.filterMap_cons_some hz, List.head?_cons]
        constructor
        · intro h; exact ⟨w, Or.inl ⟨⟨hm, by simp⟩, rfl⟩, by rw [hz, h]⟩
        · rintro ⟨x, (⟨-, rfl⟩ | ⟨hx, -⟩), hr⟩
          · rw [← hz, hr]
          · exact absurd ⟨hm, by simp⟩ hx
    · rw [List.filter_cons_of_neg (by simpa using hm)]
      refine Iff.trans ih ?_
      constructor
      · rintro ⟨x, hx, hr⟩; exact ⟨x, Or.inr ⟨fun h => hm h.1, hx⟩, hr⟩
      · rintro ⟨x, (⟨hx, -⟩ | ⟨-, hx⟩), hr⟩
        · exact absurd hx.1 hm
        · exact ⟨x, hx, hr⟩

/-- **C111** The coordinates of an element, in order; nothing if no line has the id. -/
theorem C111_coordinates {F : File} (hF : F.WellFormed) (id : ℤ) :
    (∀ cs, F.listOfCoordinates id = .ok (some cs) ↔ ∃ e, FirstMatch F.lines (fun e => e[0]? = some id) e ∧
      List.Forall₂ (fun c x => F.coordinate c = .ok x) (e.drop 3) cs) ∧
    (F.listOfCoordinates id = .ok none ↔ ∀ e ∈ F.lines, e[0]? ≠ some id) := by
  have hmap : ∀ (l : List ℤ) (cs : List V3), mapPy F.coordinate l = .ok cs ↔
      List.Forall₂ (fun c x => F.coordinate c = .ok x) l cs := by
    intro l
    induction l with
    | nil =>
      intro cs
      rw [List.forall₂_nil_left_iff]
      simp only [mapPy, Except.ok.injEq]
      exact eq_comm
    | cons a l ih =>
      intro cs
      rw [List.forall₂_cons_left_iff]
      simp only [mapPy, bind_ok_iff, Except.ok.injEq]
      constructor
      · rintro ⟨b, hb, l', hl, rfl⟩; exact ⟨b, l', hb, (ih l').1 hl, rfl⟩
      · rintro ⟨b, l', hb, hl, rfl⟩; exact ⟨b, hb, l', (ih l').2 hl, rfl⟩
  have key : ∀ l : List ElemFields, (∀ e ∈ l, 4 ≤ e.length) →
      (∀ cs, File.listOfCoordinates.go F id l = .ok (some cs) ↔ ∃ e, FirstMatch l (fun e => e[0]? = some id) e ∧
        List.Forall₂ (fun c x => F.coordinate c = .ok x) (e.drop 3) cs) ∧
      (File.listOfCoordinates.go F id l = .ok none ↔ ∀ e ∈ l, e[0]? ≠ some id) := by
    intro l
    induction l with
    | nil =>
      intro _
      refine ⟨fun cs => ?_, by simp [File.listOfCoordinates.go]⟩
      constructor
      · intro h; simp [File.listOfCoordinates.go] at h
      · rintro ⟨e, he, -⟩; exact absurd he.mem (by simp)
    | cons e l ih =>
      intro hl
      have ih := ih fun x hx => hl x (by simp [hx])
      have h4 := hl e (by simp)
      have e0 : e[0]? = some e[0] := List.getElem?_eq_getElem (by omega)
      unfold File.listOfCoordinates.go
      rw [pyIndex_ok_iff.2 e0]
      simp only [firstMatch_cons]
      by_cases h0 : e[0] = id
      · have h0' : e[0]? = some id := by rw [e0, h0]
        have hb : ∀ r, ((do
            let first ← (Except.ok e[0] : Py ℤ)
            if first = id then do
              let cs ← mapPy F.coordinate (List.drop 3 e)
              Except.ok (some cs)
            else File.listOfCoordinates.go F id l) : Py (Option (List V3))) = r ↔
              (mapPy F.coordinate (List.drop 3 e) >>= fun cs => Except.ok (some cs)) = r := by
          intro r
          show (if e[0] = id then _ else _) = r ↔ _
          rw [if_pos h0]
        rw [hb]
        refine ⟨fun cs => ?_, ?_⟩
        · rw [hb, bind_ok_iff]
          simp only [Except.ok.injEq, Option.some.injEq]
          constructor
          · rintro ⟨cs', hcs, rfl⟩; exact ⟨e, Or.inl ⟨h0', rfl⟩, (hmap _ _).1 hcs⟩
          · rintro ⟨x, (⟨-, rfl⟩ | ⟨hx, -⟩), hc⟩
            · exact ⟨cs, (hmap _ _).2 hc, rfl⟩
            · exact absurd h0' hx
        · constructor
          · intro h
            simp [bind_ok_iff] at h
          · intro h; exact absurd h0' (h e (by simp))
      · have h0' : e[0]? ≠ some id := by rw [e0]; simpa using h0
        have hb : ∀ r, ((do
            let first ← (Except.ok e[0] : Py ℤ)
            if first = id then do
              let cs ← mapPy F.coordinate (List.drop 3 e)
              Except.ok (some cs)
            else File.listOfCoordinates.go F id l) : Py (Option (List V3))) = r ↔
              File.listOfCoordinates.go F id l = r := by
          intro r
          show (if e[0] = id then _ else _) = r ↔ _
          rw [if_neg h0]
        rw [hb]
        refine ⟨fun c => ?_, ?_⟩
        · rw [hb, ih.1]
          constructor
          · rintro ⟨x, hx, hr⟩; exact ⟨x, Or.inr ⟨h0', hx⟩, hr⟩
          · rintro ⟨x, (⟨hx, -⟩ | ⟨-, hx⟩), hr⟩
            · exact absurd hx h0'
            · exact ⟨x, hx, hr⟩
        · rw [ih.2]
          constructor
          · intro h x hx
            rcases List.mem_cons.1 hx with rfl | hx
            · exact h0'
            · exact h x hx
          · intro h x hx; exact h x (by simp [hx])
  exact key F.lines hF

/-- A file with one line and one node. -/
def demoRead : File where
  coordinates := [(2, ![0, 0, 0]), (3, ![0, 0, 1])]
  lines := [[1, 0, 0, 2, 3]]
  nodes := [[7, 0, 0, 3]]

theorem C111_example : demoRead.WellFormed ∧ demoRead.NodesWellFormed ∧ demoRead.nodeCoordId 7 = .ok 3 ∧
    demoRead.lineElemIdFromCoordId 3 = .ok 1 ∧ demoRead.listOfCoordinates 1 = .ok (some [![0, 0, 0], ![0, 0, 1]]) := by
  refine ⟨by simp [File.WellFormed, demoRead], by simp [File.NodesWellFormed, demoRead], rfl, rfl, rfl⟩

/-! ## C117 -/

/-- The function of a magnitude, whenever the magnitude has a value at all times. -/
theorem function_ok_iff {M : Magnitude} {f : ℝ → ℝ} : M.function = .ok f ↔ ∀ t, M.eval t = .ok (some (f t)) := by
  unfold Magnitude.function
  by_cases h : ∃ f : ℝ → ℝ, ∀ t, M.eval t = .ok (some (f t))
  · rw [dif_pos h, Except.ok.injEq]
    constructor
    · rintro rfl; exact h.choose_spec
    · intro hf
      funext t
      have := h.choose_spec t
      rw [hf t] at this
      simpa using this.symm
  · rw [dif_neg h]
    constructor
    · intro e; simp at e
    · intro hf; exact absurd ⟨f, hf⟩ h

/-- The source is attached to a node at a coordinate. -/
def File.AtNode (F : File) (node : ℤ) (s : SourceDesc) : Prop :=
  ∃ e ∈ F.nodes, e[0]? = s.elemIds[0]? ∧ e.getLast? = some node

theorem terminalSource_inner {l : List ElemFields} (hl : ∀ e ∈ l, e ≠ []) (node id : ℤ) :
    ∃ b, File.terminalSource.inner node (.ok id) l = .ok b ∧
      (b = true ↔ ∃ e ∈ l, e[0]? = some id ∧ e.getLast? = some node) := by
  induction l with
  | nil => exact ⟨false, rfl, by simp⟩
  | cons e l ih =>
    obtain ⟨b, hb, hb'⟩ := ih fun x hx => hl x (by simp [hx])
    have hne := hl e (by simp)
    have hpos : 0 < e.length := List.length_pos_of_ne_nil hne
    have e0 : e[0]? = some e[0] := List.getElem?_eq_getElem hpos
    have el : e.getLast? = some (e.getLast hne) := List.getLast?_eq_some_getLast hne
    unfold File.terminalSource.inner
    rw [pyIndex_ok_iff.2 e0, pyLast_ok_iff.2 el]
    simp only [bind, Except.bind]
    by_cases h : e[0] = id ∧ e.getLast hne = node
    · refine ⟨true, by rw [if_pos h.1, if_pos h.2], ?_⟩
      simp only [true_iff]
      exact ⟨e, by simp, by rw [e0, h.1], by rw [el, h.2]⟩
    · refine ⟨b, ?_, ?_⟩
      · by_cases h1 : e[0] = id
        · rw [if_pos h1, if_neg fun h2 => h ⟨h1, h2⟩, hb]
        · rw [if_neg h1, hb]
      · rw [hb']
        constructor
        · rintro ⟨x, hx, hr⟩; exact ⟨x, by simp [hx], hr⟩
        · rintro ⟨x, hx, h1, h2⟩
          rcases List.mem_cons.1 hx with rfl | hx
          · rw [e0, Option.some.injEq] at h1
            rw [el, Option.some.injEq] at h2
            exact absurd ⟨h1, h2⟩ h
          · exact ⟨x, hx, h1, h2⟩

/-- **C117** The source of a terminal: the first terminal source attached to a node element at that coordinate; none if
there is no such source. -/
theorem C117_source {F : File} (hF : F.NodesWellFormed) (hs : ∀ s ∈ F.sources, s.elemIds ≠ []) (node : ℤ) :
    (∀ f, F.terminalSource node = .ok (some f) ↔
      ∃ s, FirstMatch F.sources (fun s => s.sourceType = "TerminalSource" ∧ F.AtNode node s) s ∧
        ∀ t, s.magnitude.eval t = .ok (some (f t))) ∧
    (F.terminalSource node = .ok none ↔ ∀ s ∈ F.sources, s.sourceType = "TerminalSource" → ¬ F.AtNode node s) := by
  have key : ∀ l : List SourceDesc, (∀ s ∈ l, s.elemIds ≠ []) →
      (∀ f, File.terminalSource.go F node (l.filter fun s => s.sourceType = "TerminalSource") = .ok (some f) ↔
        ∃ s, FirstMatch l (fun s => s.sourceType = "TerminalSource" ∧ F.AtNode node s) s ∧
          ∀ t, s.magnitude.eval t = .ok (some (f t))) ∧
      (File.terminalSource.go F node (l.filter fun s => s.sourceType = "TerminalSource") = .ok none ↔
        ∀ s ∈ l, s.sourceType = "TerminalSource" → ¬ F.AtNode node s) := by
    intro l
    induction l with
    | nil =>
      intro _
      refine ⟨fun f => ?_, by simp [File.terminalSource.go]⟩
      constructor
      · intro h; simp [File.terminalSource.go] at h
      · rintro ⟨e, he, -⟩; exact absurd he.mem (by simp)
    | cons s l ih =>
      intro hl
      have ih := ih fun x hx => hl x (by simp [hx])
      simp only [firstMatch_cons]
      by_cases hT : s.sourceType = "TerminalSource"
      · rw [List.filter_cons_of_pos (by simpa using hT)]
        unfold File.terminalSource.go
        have hpos : 0 < s.elemIds.length := List.length_pos_of_ne_nil (hl s (by simp))
        have i0 : s.elemIds[0]? = some s.elemIds[0] := List.getElem?_eq_getElem hpos
        obtain ⟨b, hb, hb'⟩ := terminalSource_inner (l := F.nodes) hF node s.elemIds[0]
        rw [← i0] at hb'
        rw [pyIndex_ok_iff.2 i0, hb]
        cases b with
        | true =>
          have hat : F.AtNode node s := hb'.1 rfl
          simp only [bind, Except.bind, if_true]
          refine ⟨fun f => ?_, ?_⟩
          · cases hfn : s.magnitude.function with
            | error e =>
              constructor
              · intro h; simp at h
              · rintro ⟨x, (⟨-, rfl⟩ | ⟨hx, -⟩), hr⟩
                · rw [← function_ok_iff, hfn] at hr; simp at hr
                · exact absurd ⟨hT, hat⟩ hx
            | ok g =>
              simp only [Except.ok.injEq, Option.some.injEq]
              constructor
              · rintro rfl; exact ⟨s, Or.inl ⟨⟨hT, hat⟩, rfl⟩, function_ok_iff.1 hfn⟩
              · rintro ⟨x, (⟨-, rfl⟩ | ⟨hx, -⟩), hr⟩
                · rw [← function_ok_iff, hfn] at hr; simpa using hr
                · exact absurd ⟨hT, hat⟩ hx
          · constructor
            · cases s.magnitude.function <;> simp
            · intro h; exact absurd hat (h s (by simp) hT)
        | false =>
          have hat : ¬ F.AtNode node s := fun h => by simpa using hb'.2 h
          simp only [bind, Except.bind, Bool.false_eq_true, if_false]
          refine ⟨fun f => ?_, ?_⟩
          · refine Iff.trans (ih.1 f) ?_
            constructor
            · rintro ⟨x, hx, hr⟩; exact ⟨x, Or.inr ⟨fun h => hat h.2, hx⟩, hr⟩
            · rintro ⟨x, (⟨hx, -⟩ | ⟨-, hx⟩), hr⟩
              · exact absurd hx.2 hat
              · exact ⟨x, hx, hr⟩
          · refine Iff.trans ih.2 ?_
            simp only [List.forall_mem_cons, hat, not_false_eq_true, implies_true, true_and]
      · rw [List.filter_cons_of_neg (by simpa using hT)]
        refine ⟨fun f => ?_, ?_⟩
        · refine Iff.trans (ih.1 f) ?_
          constructor
          · rintro ⟨x, hx, hr⟩; exact ⟨x, Or.inr ⟨fun h => hT h.1, hx⟩, hr⟩
          · rintro ⟨x, (⟨hx, -⟩ | ⟨-, hx⟩), hr⟩
            · exact absurd hx.1 hT
            · exact ⟨x, hx, hr⟩
        · refine Iff.trans ih.2 ?_
          simp only [List.forall_mem_cons, hT, false_implies, true_and]
  exact key F.sources hs

/-! ## C120 -/

theorem dictGet_foldl_same (l : List ℤ) (d : List (ℤ × String)) (name : String) (id : ℤ) :
    dictGet (l.foldl (fun d id => dictSet d id name) d) id = if id ∈ l then .ok name else dictGet d id := by
  induction l generalizing d with
  | nil => simp
  | cons a l ih =>
    rw [List.foldl_cons, ih, dictGet_dictSet]
    by_cases h : id ∈ l
    · simp [h]
    · by_cases ha : id = a <;> simp [h, ha]

/-- **C120** The graph of a bundle takes the last cable with the element. -/
theorem C120_graph (F : File) (id : ℤ) (name : String) :
    F.cableNameOf id = .ok name ↔ ∃ c, FirstMatch F.cables.reverse (fun c => id ∈ c.elemIds) c ∧ c.name = name := by
  unfold File.cableNameOf File.elemIdsToNames
  generalize F.cables = l
  induction l using List.reverseRecOn with
  | nil =>
    constructor
    · intro h; simp [dictGet] at h
    · rintro ⟨c, hc, -⟩; exact absurd hc.mem (by simp)
  | append_singleton l c ih =>
    rw [List.foldl_append, List.foldl_cons, List.foldl_nil, dictGet_foldl_same, List.reverse_append]
    show _ ↔ ∃ x, FirstMatch (c :: l.reverse) _ x ∧ _
    simp only [firstMatch_cons]
    by_cases h : id ∈ c.elemIds
    · rw [if_pos h, Except.ok.injEq]
      constructor
      · rintro rfl; exact ⟨c, Or.inl ⟨h, rfl⟩, rfl⟩
      · rintro ⟨x, (⟨-, rfl⟩ | ⟨hx, -⟩), e⟩
        · exact e
        · exact absurd h hx
    · rw [if_neg h]
      refine Iff.trans ih ?_
      constructor
      · rintro ⟨x, hx, e⟩; exact ⟨x, Or.inr ⟨h, hx⟩, e⟩
      · rintro ⟨x, (⟨hx, -⟩ | ⟨-, hx⟩), e⟩
        · exact absurd hx h
        · exact ⟨x, hx, e⟩

/-- **C120** The cable of an element is unique when only one cable lists it: all look-ups agree then. -/
theorem C120_unique_partial {F : File} {id : ℤ} {c : Cable} (hc : c ∈ F.cables) (hid : id ∈ c.elemIds)
    (hu : ∀ c' ∈ F.cables, id ∈ c'.elemIds → c' = c) : F.cableNameOf id = .ok c.name ∧ F.cableWithElemId id = .ok c := by
  have key : ∀ l : List Cable, c ∈ l → (∀ c' ∈ l, id ∈ c'.elemIds → c' = c) → FirstMatch l (fun c => id ∈ c.elemIds) c := by
    intro l hl hu'
    obtain ⟨x, hx⟩ := firstMatch_exists (P := fun c : Cable => id ∈ c.elemIds) ⟨c, hl, hid⟩
    have hm := hx.mem
    obtain ⟨pre, post, e, hx', hpre⟩ := hx
    rw [← hu' x hm hx']
    exact ⟨pre, post, e, hx', hpre⟩
  refine ⟨(C120_graph F id c.name).2 ⟨c, key _ (by simpa using hc) (fun c' h' => hu c' (by simpa using h')), rfl⟩, ?_⟩
  exact ((C81_cables F id).2.2.1 c).2 (key _ hc hu)

/-- **C120** Otherwise the graph of the bundle and the look-ups of nodes and probes use different cables. -/
theorem C120_refuted : ∃ (F : File) (c : Cable), F.cableNameOf 1 = .ok "b" ∧ F.cableWithElemId 1 = .ok c ∧ c.name = "a" :=
  ⟨{ cables := [{ name := "a", materialId := 0, elemIds := [1], ndiv := [1] },
      { name := "b", materialId := 0, elemIds := [1], ndiv := [1] }] }, _, rfl, rfl, rfl⟩

/-- Two sources, the first attached to another node. -/
noncomputable def demoTerminal : File where
  nodes := [[7, 0, 0, 3], [8, 0, 0, 4]]
  sources := [{ sourceType := "TerminalSource", type := "voltage", elemIds := [7], magnitude :=
      { type := "sin", amplitude := some 1, frequency := some 1 } },
    { sourceType := "TerminalSource", type := "voltage", elemIds := [8], magnitude :=
      { type := "sin", amplitude := some 2, frequency := some 1 } }]

theorem C117_example : demoTerminal.terminalSource 4 = .ok (some fun t => sinPulse t 2 1) ∧
    demoTerminal.terminalSource 5 = .ok none := by
  have hF : demoTerminal.NodesWellFormed := by simp [File.NodesWellFormed, demoTerminal]
  have hs : ∀ s ∈ demoTerminal.sources, s.elemIds ≠ [] := by simp [demoTerminal]
  refine ⟨((C117_source hF hs 4).1 _).2 ?_, (C117_source hF hs 5).2.2 ?_⟩
  · refine ⟨{ sourceType := "TerminalSource", type := "voltage", elemIds := [8], magnitude :=
      { type := "sin", amplitude := some 2, frequency := some 1 } }, ?_, ?_⟩
    · simp [demoTerminal, firstMatch_cons, File.AtNode]
    · intro t
      simp [Magnitude.eval, pyKey, bind, Except.bind]
  · simp [demoTerminal, File.AtNode]

end Mtln
