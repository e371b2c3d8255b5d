import Verif.Lemmas.Parser

/-!
# Lookups of the parser (C81) and grouping of terminations and junctions (C82)
-/

namespace Mtln

/-! ## C81 -/

theorem dictGet_foldl_dictSet {α β : Type} [DecidableEq α] (l : List (α × β)) (id : α) :
    (∀ x, dictGet (l.foldl (fun d c => dictSet d c.1 c.2) []) id = .ok x ↔
      FirstMatch l.reverse (fun c => c.1 = id) (id, x)) ∧
    (dictGet (l.foldl (fun d c => dictSet d c.1 c.2) []) id = .error .KeyError ↔ ∀ c ∈ l, c.1 ≠ id) := by
  induction l using List.reverseRecOn with
  | nil =>
    refine ⟨fun x => ?_, ?_⟩
    · constructor
      · intro h; simp [dictGet] at h
      · intro h; exact absurd h.mem (by simp)
    · simp [dictGet]
  | append_singleton l c ih =>
    rw [List.foldl_append, List.foldl_cons, List.foldl_nil, dictGet_dictSet, List.reverse_append]
    by_cases hc : id = c.1
    · rw [if_pos hc]
      refine ⟨fun x => ?_, ?_⟩
      · show _ ↔ FirstMatch (c :: l.reverse) _ _
        rw [firstMatch_cons, Except.ok.injEq]
        constructor
        · intro e; exact Or.inl ⟨hc.symm, Prod.ext hc e.symm⟩
        · rintro (e | e)
          · exact (Prod.ext_iff.1 e.2).2.symm
          · exact absurd hc.symm e.1
      · constructor
        · intro e; simp at e
        · intro e; exact absurd hc.symm (e c (by simp))
    · rw [if_neg hc]
      refine ⟨fun x => ?_, ?_⟩
      · show _ ↔ FirstMatch (c :: l.reverse) _ _
        rw [firstMatch_cons, ih.1]
        constructor
        · intro e; exact Or.inr ⟨fun e => hc e.symm, e⟩
        · rintro (e | e)
          · exact absurd e.1.symm hc
          · exact e.2
      · rw [ih.2]
        constructor
        · intro e x hx
          rcases List.mem_append.1 hx with hx | hx
          · exact e x hx
          · rw [List.mem_singleton] at hx
            rw [hx]
            exact fun e => hc e.symm
        · intro e x hx; exact e x (by simp [hx])

/-- **C81** Coordinates: the last line of the file with that id, `KeyError` if there is none. -/
theorem C81_coordinates {j : Json} {F : File} (h : j.read = .ok F) : ∃ l, j.coordinates = some l ∧ ∀ id,
    (∀ x, F.coordinate id = .ok x ↔ FirstMatch l.reverse (fun c => c.1 = id) (id, x)) ∧
    (F.coordinate id = .error .KeyError ↔ ∀ c ∈ l, c.1 ≠ id) := by
  unfold Json.read at h
  cases hc : j.coordinates with
  | none => rw [hc] at h; simp [needSection, bind, Except.bind] at h
  | some l =>
    refine ⟨l, rfl, fun id => ?_⟩
    simp only [bind_ok_iff] at h
    obtain ⟨a, ha, b, -, c, -, d, -, e, -, h⟩ := h
    have hl : F.coordinates = readCoordinates l := by
      rw [← Except.ok.inj h]
      rw [hc] at ha
      rw [← Except.ok.inj ha]
    unfold File.coordinate
    rw [hl]
    exact dictGet_foldl_dictSet l id

/-- The element strings have at least one coordinate. -/
def File.WellFormed (F : File) : Prop := ∀ e ∈ F.lines, 4 ≤ e.length

/-- The string of an element begins or ends at a node. -/
def touches (node : ℤ) (e : ElemFields) : Prop := e[3]? = some node ∨ e.getLast? = some node

theorem elementOfNode_go {l : List ElemFields} (hl : ∀ e ∈ l, 4 ≤ e.length) (node : ℤ) :
    (∀ id side, File.elementOfNode.go node l = .ok (id, side) ↔ ∃ e, FirstMatch l (touches node) e ∧
      e[0]? = some id ∧ (e[3]? = some node ∧ side = "initial" ∨ e[3]? ≠ some node ∧ side = "end")) ∧
    (File.elementOfNode.go node l = .error .Exception ↔ ∀ e ∈ l, ¬ touches node e) := by
  induction l with
  | nil =>
    refine ⟨fun id side => ?_, by simp [File.elementOfNode.go]⟩
    constructor
    · intro h; simp [File.elementOfNode.go] at h
    · rintro ⟨e, he, -⟩; exact absurd he.mem (by simp)
  | cons e l ih =>
    have ih := ih fun x hx => hl x (by simp [hx])
    have h4 := hl e (by simp)
    have e3 : e[3]? = some e[3] := List.getElem?_eq_getElem (by omega)
    have e0 : e[0]? = some e[0] := List.getElem?_eq_getElem (by omega)
    have hne : e ≠ [] := by rintro rfl; simp at h4
    have el : e.getLast? = some (e.getLast hne) := List.getLast?_eq_some_getLast hne
    unfold File.elementOfNode.go
    rw [pyIndex_ok_iff.2 e3, pyIndex_ok_iff.2 e0, pyLast_ok_iff.2 el]
    simp only [bind, Except.bind, firstMatch_cons]
    by_cases h3 : e[3] = node
    · have ht : touches node e := Or.inl (by rw [e3, h3])
      rw [if_pos h3]
      refine ⟨fun id side => ?_, ?_⟩
      · rw [Except.ok.injEq, Prod.mk.injEq]
        constructor
        · rintro ⟨rfl, rfl⟩
          exact ⟨e, Or.inl ⟨ht, rfl⟩, e0, Or.inl ⟨by rw [e3, h3], rfl⟩⟩
        · rintro ⟨x, (⟨-, rfl⟩ | ⟨hx, -⟩), hid, hs⟩
          · rw [e0, Option.some.injEq] at hid
            refine ⟨hid, ?_⟩
            rcases hs with hs | hs
            · exact hs.2.symm
            · exact absurd (by rw [e3, h3]) hs.1
          · exact absurd ht hx
      · constructor
        · intro h; simp at h
        · intro h; exact absurd ht (h e (by simp))
    · rw [if_neg h3]
      have h3' : e[3]? ≠ some node := by rw [e3]; simpa using h3
      by_cases hla : e.getLast hne = node
      · have ht : touches node e := Or.inr (by rw [el, hla])
        rw [if_pos hla]
        refine ⟨fun id side => ?_, ?_⟩
        · rw [Except.ok.injEq, Prod.mk.injEq]
          constructor
          · rintro ⟨rfl, rfl⟩
            exact ⟨e, Or.inl ⟨ht, rfl⟩, e0, Or.inr ⟨h3', rfl⟩⟩
          · rintro ⟨x, (⟨-, rfl⟩ | ⟨hx, -⟩), hid, hs⟩
            · rw [e0, Option.some.injEq] at hid
              refine ⟨hid, ?_⟩
              rcases hs with hs | hs
              · exact absurd hs.1 h3'
              · exact hs.2.symm
            · exact absurd ht hx
        · constructor
          · intro h; simp at h
          · intro h; exact absurd ht (h e (by simp))
      · have ht : ¬ touches node e := by
          rintro (h | h)
          · exact h3' h
          · rw [el, Option.some.injEq] at h; exact hla h
        rw [if_neg hla]
        refine ⟨fun id side => ?_, ?_⟩
        · rw [ih.1]
          constructor
          · rintro ⟨x, hx, hr⟩; exact ⟨x, Or.inr ⟨ht, hx⟩, hr⟩
          · rintro ⟨x, (⟨hx, -⟩ | ⟨-, hx⟩), hr⟩
            · exact absurd hx ht
            · exact ⟨x, hx, hr⟩
        · rw [ih.2]
          simp [ht]

/-- **C81** Elements: the first line element that begins or ends at the node, with the side; the beginning counts
first; an exception if there is none. -/
theorem C81_elements {F : File} (hF : F.WellFormed) (node : ℤ) :
    (∀ id side, F.elementOfNode node = .ok (id, side) ↔ ∃ e, FirstMatch F.lines (touches node) e ∧
      e[0]? = some id ∧ (e[3]? = some node ∧ side = "initial" ∨ e[3]? ≠ some node ∧ side = "end")) ∧
    (F.elementOfNode node = .error .Exception ↔ ∀ e ∈ F.lines, ¬ touches node e) :=
  elementOfNode_go hF node

/-- **C81** Cables: the first cable with the element, the position of the element in it, and the connector on the
requested side; an exception if no cable has the element. -/
theorem C81_cables (F : File) (el : ℤ) :
    (∀ side id name k, F.connectorAndCableOnSide el side = .ok (id, name, k) ↔
      ∃ c, FirstMatch F.cables (fun c => el ∈ c.elemIds) c ∧ name = c.name ∧
        (side = "initial" ∧ c.initialConnectorId = some id ∨ side = "end" ∧ c.endConnectorId = some id) ∧
        FirstMatch (c.elemIds.zipIdx) (fun x => x.1 = el) (el, k)) ∧
    ((∀ c ∈ F.cables, el ∉ c.elemIds) → ∀ side, F.connectorAndCableOnSide el side = .error .Exception) ∧
    (∀ c, F.cableWithElemId el = .ok c ↔ FirstMatch F.cables (fun c => el ∈ c.elemIds) c) ∧
    ((∀ c ∈ F.cables, el ∉ c.elemIds) → F.cableWithElemId el = .error .TypeError) := by
  have hidx : ∀ (l : List ℤ) (s k : ℕ), el ∈ l →
      (s + l.idxOf el = k ↔ FirstMatch (l.zipIdx s) (fun x => x.1 = el) (el, k)) := by
    intro l
    induction l with
    | nil => simp
    | cons a l ih =>
      intro s k hm
      rw [List.zipIdx_cons, firstMatch_cons]
      by_cases ha : a = el
      · subst ha
        rw [List.idxOf_cons_self]
        constructor
        · rintro rfl; exact Or.inl ⟨rfl, rfl⟩
        · rintro (e | e)
          · exact (Prod.ext_iff.1 e.2).2.symm
          · exact absurd rfl e.1
      · have hm' : el ∈ l := by
          rcases List.mem_cons.1 hm with e | e
          · exact absurd e.symm ha
          · exact e
        rw [List.idxOf_cons_ne _ ha]
        constructor
        · intro e
          exact Or.inr ⟨ha, (ih (s + 1) k hm').1 (by omega)⟩
        · rintro (e | e)
          · exact absurd e.1 ha
          · have := (ih (s + 1) k hm').2 e.2
            omega
  refine ⟨fun side id name k => ?_, fun h side => ?_, fun c => ?_, fun h => ?_⟩
  · unfold File.connectorAndCableOnSide
    cases hc : F.cables.find? fun c => el ∈ c.elemIds with
    | none =>
      constructor
      · intro h; simp at h
      · rintro ⟨c, hm, -⟩
        rw [← find?_iff_firstMatch, hc] at hm
        simp at hm
    | some c =>
      have hf := find?_iff_firstMatch.1 hc
      have hmem : el ∈ c.elemIds := by
        obtain ⟨_, _, -, hm, -⟩ := hf
        exact hm
      have hu : ∀ c', FirstMatch F.cables (fun c => el ∈ c.elemIds) c' → c' = c := fun c' h' => h'.unique hf
      simp only [bind_ok_iff, Except.ok.injEq, Prod.mk.injEq, File.connectorIdOf, pyKey_ok_iff]
      constructor
      · rintro ⟨i, hi, rfl, rfl, rfl⟩
        refine ⟨c, hf, rfl, ?_, (hidx c.elemIds 0 _ hmem).1 (by omega)⟩
        by_cases h1 : side = "initial"
        · rw [if_pos h1] at hi; exact Or.inl ⟨h1, hi⟩
        · rw [if_neg h1] at hi
          by_cases h2 : side = "end"
          · rw [if_pos h2] at hi; exact Or.inr ⟨h2, hi⟩
          · rw [if_neg h2] at hi; simp at hi
      · rintro ⟨c', hc', rfl, hs, hk⟩
        obtain rfl := hu c' hc'
        refine ⟨id, ?_, rfl, rfl, ?_⟩
        · rcases hs with ⟨rfl, hs⟩ | ⟨rfl, hs⟩
          · simpa using hs
          · simpa using hs
        · have := (hidx c'.elemIds 0 k hmem).2 hk
          omega
  · unfold File.connectorAndCableOnSide
    have : (F.cables.find? fun c => el ∈ c.elemIds) = none := List.find?_eq_none.2 fun c hc => by simpa using h c hc
    rw [this]
  · unfold File.cableWithElemId
    rw [← find?_iff_firstMatch]
    cases F.cables.find? fun c => el ∈ c.elemIds <;> simp
  · unfold File.cableWithElemId
    have : (F.cables.find? fun c => el ∈ c.elemIds) = none := List.find?_eq_none.2 fun c hc => by simpa using h c hc
    rw [this]

/-- **C81** The connector of a node: the first connector material with the id found on the side of the node. -/
theorem C81_connectors {F : File} {node : ℤ} {conn : Connector} {cable letter : String} {k : ℕ} :
    F.connectorAndCableInNode node = .ok (conn, cable, k, letter) ↔
      ∃ el side id c, F.elementOfNode node = .ok (el, side) ∧ F.connectorAndCableOnSide el side = .ok (id, cable, k) ∧
        FirstMatch F.connectors (fun c => c.materialId = id) c ∧ conn = c.connector ∧
        letter = if side = "initial" then "S" else "L" := by
  unfold File.connectorAndCableInNode
  constructor
  · intro h
    obtain ⟨⟨el, side⟩, h1, h⟩ := bind_ok_iff.1 h
    obtain ⟨⟨id, cable', k'⟩, h2, h⟩ := bind_ok_iff.1 h
    simp only at h
    cases hc : F.connectors.find? fun c => c.materialId = id with
    | none => rw [hc] at h; simp at h
    | some c =>
      rw [hc] at h
      simp only [Except.ok.injEq, Prod.mk.injEq] at h
      obtain ⟨rfl, rfl, rfl, rfl⟩ := h
      exact ⟨el, side, id, c, h1, h2, find?_iff_firstMatch.1 hc, rfl, rfl⟩
  · rintro ⟨el, side, id, c, h1, h2, h3, rfl, rfl⟩
    rw [h1]
    simp only [bind, Except.bind]
    rw [h2]
    rw [← find?_iff_firstMatch] at h3
    simp only [h3]
    rfl

/-- A small file: two coordinates with the id 1, two elements, two cables that share an element. -/
def demoLookup : Json where
  coordinates := some [(1, ![0, 0, 0]), (2, ![0, 0, 1]), (1, ![0, 0, 5])]
  elements := some [("line", [[7, 0, 1, 1, 2], [8, 0, 1, 2, 3]]), ("node", [[9, 0, 1, 1]])]
  materials := some []
  bundles := some []
  cables := some [{ name := "a", materialId := 1, initialConnectorId := some 4, endConnectorId := some 5,
                    elemIds := [6, 7], ndiv := [1] },
                  { name := "b", materialId := 1, elemIds := [7, 8], ndiv := [1] }]

/-- Non-vacuity of C81: the last coordinate, the first element and the first cable are found; a missing node raises. -/
theorem C81_example : ∃ F, demoLookup.read = .ok F ∧ F.WellFormed ∧ F.coordinate 1 = .ok ![0, 0, 5] ∧
    F.elementOfNode 2 = .ok (7, "end") ∧ F.connectorAndCableOnSide 7 "end" = .ok (5, "a", 1) ∧
    F.elementOfNode 4 = .error .Exception ∧ F.coordinate 4 = .error .KeyError := by
  refine ⟨_, rfl, ?_, ?_, ?_, ?_, ?_, ?_⟩
  · intro e he
    simp [demoLookup, readElements] at he
    rcases he with rfl | rfl <;> simp
  · simp [File.coordinate, demoLookup, readCoordinates, dictSet, dictGet]
  · simp [File.elementOfNode, File.elementOfNode.go, demoLookup, readElements, pyIndex, pyLast, bind, Except.bind]
  · simp [File.connectorAndCableOnSide, File.connectorIdOf, demoLookup, pyKey, bind, Except.bind]
  · simp [File.elementOfNode, File.elementOfNode.go, demoLookup, readElements, pyIndex, pyLast, bind, Except.bind]
  · simp [File.coordinate, demoLookup, readCoordinates, dictSet, dictGet]

/-! ## C82 -/

/-- The position of a joint: the coordinates of its first node. -/
def File.Position (F : File) (t : Joint) (x : V3) : Prop :=
  ∃ c cs r, t.coordIds = (c :: cs) :: r ∧ F.coordinate c = .ok x

theorem File.Position.unique {F : File} {t : Joint} {x y : V3} (hx : F.Position t x) (hy : F.Position t y) : x = y := by
  obtain ⟨c, cs, r, h1, h2⟩ := hx
  obtain ⟨c', cs', r', h1', h2'⟩ := hy
  rw [h1] at h1'
  injection h1' with e1 e2
  injection e1 with e1 e3
  subst e1
  exact Except.ok.inj (h2.symm.trans h2')

theorem position_of_reads {F : File} {t : Joint} {cs : List ℤ} {c : ℤ} {x : V3} (h1 : pyIndex t.coordIds 0 = .ok cs)
    (h2 : pyIndex cs 0 = .ok c) (h3 : F.coordinate c = .ok x) : F.Position t x := by
  rw [pyIndex_ok_iff] at h1 h2
  cases ht : t.coordIds with
  | nil => rw [ht] at h1; simp at h1
  | cons a l =>
    rw [ht] at h1
    simp only [List.getElem?_cons_zero, Option.some.injEq] at h1
    subst h1
    cases a with
    | nil => simp at h2
    | cons b m =>
      simp only [List.getElem?_cons_zero, Option.some.injEq] at h2
      subst h2
      exact ⟨b, m, l, ht, h3⟩

theorem reads_of_position {F : File} {t : Joint} {x : V3} (h : F.Position t x) :
    ∃ cs c, pyIndex t.coordIds 0 = .ok cs ∧ pyIndex cs 0 = .ok c ∧ F.coordinate c = .ok x := by
  obtain ⟨c, cs, r, h1, h2⟩ := h
  exact ⟨c :: cs, c, by rw [h1]; rfl, rfl, h2⟩

open Classical in
theorem groupStep_eq {F : File} {d : List (V3 × List Joint)} {t : Joint} {x : V3} (h : F.Position t x) :
    F.groupStep d t = .ok (dictSet d x (((d.find? fun e => e.1 = x).elim [] Prod.snd) ++ [t])) := by
  obtain ⟨cs, c, h1, h2, h3⟩ := reads_of_position h
  unfold File.groupStep
  rw [h1]
  simp only [bind, Except.bind]
  rw [h2]
  simp only
  rw [h3]
  simp only
  cases d.find? fun e => e.1 = x <;> rfl

open Classical in
theorem group_fold {F : File} {pos : Joint → V3} {ts : List Joint} {d : List (V3 × List Joint)}
    (hpos : ∀ t ∈ ts, F.Position t (pos t)) (h : ts.foldlM F.groupStep [] = .ok d) :
    (d.map Prod.fst).Nodup ∧ (∀ x, x ∈ d.map Prod.fst ↔ ∃ t ∈ ts, pos t = x) ∧
      d = (d.map Prod.fst).map fun x => (x, ts.filter fun t => pos t = x) := by
  induction ts using List.reverseRecOn generalizing d with
  | nil =>
    obtain rfl := (Except.ok.inj h).symm
    simp
  | append_singleton ts t ih =>
    rw [List.foldlM_append] at h
    obtain ⟨d0, h0, h⟩ := bind_ok_iff.1 h
    obtain ⟨hn, hk, hd⟩ := ih (fun u hu => hpos u (by simp [hu])) h0
    have ht := hpos t (by simp)
    simp only [List.foldlM_cons, List.foldlM_nil] at h
    rw [groupStep_eq ht] at h
    have h : dictSet d0 (pos t) (((d0.find? fun e => e.1 = pos t).elim [] Prod.snd) ++ [t]) = d := by
      simpa [bind, Except.bind, pure, Except.pure] using h
    have hval : ((d0.find? fun e => e.1 = pos t).elim [] Prod.snd) = ts.filter fun u => pos u = pos t := by
      cases hf : d0.find? fun e => e.1 = pos t with
      | none =>
        rw [List.find?_eq_none] at hf
        symm
        rw [Option.elim_none, List.filter_eq_nil_iff]
        intro u hu he
        have : pos t ∈ d0.map Prod.fst := (hk _).2 ⟨u, hu, by simpa using he⟩
        obtain ⟨e, he1, he2⟩ := List.mem_map.1 this
        exact hf e he1 (by simpa using he2)
      | some e =>
        have hm := List.mem_of_find?_eq_some hf
        have hp := List.find?_some hf
        rw [hd] at hm
        obtain ⟨x, -, rfl⟩ := List.mem_map.1 hm
        simp only [decide_eq_true_eq] at hp
        rw [Option.elim_some, hp]
    rw [hval] at h
    subst h
    refine ⟨nodup_keys_dictSet hn _ _, fun x => ?_, ?_⟩
    · rw [mem_keys_dictSet, hk]
      constructor
      · rintro (⟨u, hu, e⟩ | rfl)
        · exact ⟨u, by simp [hu], e⟩
        · exact ⟨t, by simp, rfl⟩
      · rintro ⟨u, hu, e⟩
        rcases List.mem_append.1 hu with hu | hu
        · exact Or.inl ⟨u, hu, e⟩
        · rw [List.mem_singleton] at hu
          subst hu
          exact Or.inr e.symm
    · have hother : ∀ x, x ≠ pos t → ((ts ++ [t]).filter fun u => pos u = x) = ts.filter fun u => pos u = x := by
        intro x hx
        rw [List.filter_append]
        simp [Ne.symm hx]
      have hsame : ((ts ++ [t]).filter fun u => pos u = pos t) = (ts.filter fun u => pos u = pos t) ++ [t] := by
        rw [List.filter_append]
        simp
      rw [keys_dictSet]
      unfold dictSet
      split
      · nth_rw 1 [hd]
        rw [List.map_map]
        apply List.map_congr_left
        intro x hx
        simp only [Function.comp]
        by_cases hx : x = pos t
        · rw [if_pos hx, hx, hsame]
        · rw [if_neg hx, hother x hx]
      · rename_i hnot
        rw [List.map_append]
        congr 1
        · nth_rw 1 [hd]
          apply List.map_congr_left
          intro x hx
          rw [hother x]
          rintro rfl
          exact hnot hx
        · simp only [List.map_cons, List.map_nil, hsame]

theorem group_fold_pos {F : File} {ts : List Joint} {d d' : List (V3 × List Joint)}
    (h : ts.foldlM F.groupStep d = .ok d') : ∀ t ∈ ts, ∃ x, F.Position t x := by
  induction ts generalizing d with
  | nil => simp
  | cons t ts ih =>
    rw [List.foldlM_cons] at h
    obtain ⟨d1, h1, h⟩ := bind_ok_iff.1 h
    intro u hu
    rcases List.mem_cons.1 hu with rfl | hu
    · unfold File.groupStep at h1
      obtain ⟨cs, h2, h1⟩ := bind_ok_iff.1 h1
      obtain ⟨c, h3, h1⟩ := bind_ok_iff.1 h1
      obtain ⟨x, h4, -⟩ := bind_ok_iff.1 h1
      exact ⟨x, position_of_reads h2 h3 h4⟩
    · exact ih h u hu

theorem group_fold_exists {F : File} {ts : List Joint} (d : List (V3 × List Joint))
    (h : ∀ t ∈ ts, ∃ x, F.Position t x) : ∃ d', ts.foldlM F.groupStep d = .ok d' := by
  induction ts generalizing d with
  | nil => exact ⟨d, rfl⟩
  | cons t ts ih =>
    obtain ⟨x, hx⟩ := h t (by simp)
    obtain ⟨d', hd'⟩ := ih _ fun u hu => h u (by simp [hu])
    refine ⟨d', ?_⟩
    rw [List.foldlM_cons, groupStep_eq hx]
    exact hd'

open Classical in
/-- **C82** The groups are the fibres of the position: one group for each position, with all joints at that position in
the order of the file. -/
theorem C82_groups {F : File} {ts : List Joint} {gs : List (List Joint)} (h : F.groupJoints ts = .ok gs) :
    ∃ (pos : Joint → V3) (keys : List V3), (∀ t ∈ ts, F.Position t (pos t)) ∧ keys.Nodup ∧
      (∀ x, x ∈ keys ↔ ∃ t ∈ ts, pos t = x) ∧ gs = keys.map fun x => ts.filter fun t => pos t = x := by
  obtain ⟨d, hd, h⟩ := bind_ok_iff.1 h
  have hp := group_fold_pos hd
  let pos : Joint → V3 := fun t => if h : ∃ x, F.Position t x then h.choose else 0
  have hpos : ∀ t ∈ ts, F.Position t (pos t) := by
    intro t ht
    have := hp t ht
    simp only [pos, dif_pos this]
    exact this.choose_spec
  obtain ⟨h1, h2, h3⟩ := group_fold hpos hd
  refine ⟨pos, d.map Prod.fst, hpos, h1, h2, ?_⟩
  rw [← Except.ok.inj h]
  conv_lhs => rw [h3]
  rw [List.map_map]
  rfl

open Classical in
theorem sum_ite_nodup {keys : List V3} (h : keys.Nodup) (a : V3) (k : ℕ) :
    (keys.map fun x => if x = a then k else 0).sum = if a ∈ keys then k else 0 := by
  induction keys with
  | nil => simp
  | cons x l ih =>
    rw [List.nodup_cons] at h
    rw [List.map_cons, List.sum_cons, ih h.2]
    by_cases hx : x = a
    · subst hx
      simp [h.1]
    · simp [hx, Ne.symm hx]

/-- **C82** Nothing is lost or duplicated, no group is empty, and the order inside a group is the order of the file. -/
theorem C82_partition {F : File} {ts : List Joint} {gs : List (List Joint)} (h : F.groupJoints ts = .ok gs) :
    gs.flatten.Perm ts ∧ (∀ g ∈ gs, g ≠ [] ∧ g.Sublist ts) ∧
      ∀ g ∈ gs, ∀ t ∈ g, ∀ u ∈ ts, u ∈ g ↔ ∃ x, F.Position t x ∧ F.Position u x := by
  classical
  obtain ⟨pos, keys, hp, hn, hk, rfl⟩ := C82_groups h
  refine ⟨?_, ?_, ?_⟩
  · rw [List.perm_iff_count]
    intro a
    rw [List.count_flatten, List.map_map]
    have hc : ∀ x, (List.count a ∘ fun x => ts.filter fun t => pos t = x) x
        = if x = pos a then ts.count a else 0 := by
      intro x
      simp only [Function.comp]
      split
      · rename_i e
        rw [List.count_filter]
        simpa using e.symm
      · rename_i e
        rw [List.count_eq_zero]
        intro hm
        exact e (by simpa [eq_comm] using (List.mem_filter.1 hm).2)
    rw [List.map_congr_left fun x _ => hc x, sum_ite_nodup hn]
    by_cases ha : a ∈ ts
    · rw [if_pos ((hk _).2 ⟨a, ha, rfl⟩)]
    · rw [List.count_eq_zero.2 ha]
      simp
  · intro g hg
    obtain ⟨x, hx, rfl⟩ := List.mem_map.1 hg
    obtain ⟨t, ht, e⟩ := (hk x).1 hx
    exact ⟨List.ne_nil_of_mem (List.mem_filter.2 ⟨ht, by simpa using e⟩), List.filter_sublist⟩
  · intro g hg t ht u hu
    obtain ⟨x, hx, rfl⟩ := List.mem_map.1 hg
    obtain ⟨ht, e⟩ := List.mem_filter.1 ht
    simp only [decide_eq_true_eq] at e
    rw [List.mem_filter]
    constructor
    · rintro ⟨-, e'⟩
      simp only [decide_eq_true_eq] at e'
      exact ⟨x, e ▸ hp t ht, e' ▸ hp u hu⟩
    · rintro ⟨y, h1, h2⟩
      refine ⟨hu, ?_⟩
      simp only [decide_eq_true_eq]
      exact ((hp u hu).unique h2).trans ((h1.unique (hp t ht)).trans e)

/-- **C82** The grouping succeeds exactly when every joint has a first node with coordinates. -/
theorem C82_total (F : File) (ts : List Joint) :
    (∃ gs, F.groupJoints ts = .ok gs) ↔ ∀ t ∈ ts, ∃ x, F.Position t x := by
  constructor
  · rintro ⟨gs, h⟩
    obtain ⟨d, hd, -⟩ := bind_ok_iff.1 h
    exact group_fold_pos hd
  · intro h
    obtain ⟨d, hd⟩ := group_fold_exists [] h
    refine ⟨d.map Prod.snd, ?_⟩
    unfold File.groupJoints
    rw [hd]
    rfl

/-- Non-vacuity of C82: three terminations at two positions. -/
theorem C82_example : ∃ gs, ({ coordinates := [(1, ![0, 0, 0]), (2, ![0, 0, 1]), (3, ![0, 0, 0])] } : File).groupJoints
    [⟨"a", [[1]]⟩, ⟨"b", [[2]]⟩, ⟨"c", [[3], [1]]⟩] = .ok gs := by
  rw [C82_total]
  intro t ht
  simp only [List.mem_cons, List.not_mem_nil, or_false] at ht
  rcases ht with rfl | rfl | rfl
  · exact ⟨![0, 0, 0], 1, [], [], rfl, by simp [File.coordinate, dictGet]⟩
  · exact ⟨![0, 0, 1], 2, [], [], rfl, by simp [File.coordinate, dictGet]⟩
  · exact ⟨![0, 0, 0], 3, [], [[1]], rfl, by simp [File.coordinate, dictGet]⟩

end Mtln
