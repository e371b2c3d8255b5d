import Verif.Props.ParserLine
import Verif.Props.ConnectorTransfer
import Verif.Props.Region

/-!
# Resistances of cable ends (C121), transfer impedances of a bundle of the file (C122) and of connectors (C123)
-/

namespace Mtln

variable {n p : ℕ}

/-! ## C121 -/

/-- The effect of `set_resistance_in_region` when both ends are the same point of the file. -/
theorem setResistance_point {s s' : MTL n p} {x : V3} {c : ℕ} {R : ℝ} (hm : 0 < s.m)
    (h : s.setResistanceInRegion (.list x) (.list x) c R = .ok s') :
    c = 0 ∧ 0 < n ∧ norm3 (s.du (s.cellAt x)) ≠ 0 ∧
    (∀ k a b, s'.r k a b = if k = s.cellAt x ∧ a.val = 0 then R / norm3 (s.du (s.cellAt x)) else s.r k a b) ∧
    { s' with r := s.r, lr := s.lr } = s := by
  unfold MTL.setResistanceInRegion at h
  simp only [bind_ok_iff] at h
  obtain ⟨_, -, v, e2, r, e3, h⟩ := h
  have hn : nearest s.u s.m x ≤ s.m := (C25_nearest s.u s.m x).1
  have hc : (if nearest s.u s.m (Pos.toV3 (.list x)) = s.m then nearest s.u s.m (Pos.toV3 (.list x)) - 1
      else nearest s.u s.m (Pos.toV3 (.list x))) = s.cellAt x := by
    unfold MTL.cellAt Pos.toV3
    split_ifs with h
    · rw [h]
    · rfl
  rw [hc] at e2 e3
  have hlt : s.cellAt x < s.m := by
    unfold MTL.cellAt
    split_ifs <;> omega
  obtain ⟨e1, e2⟩ := (regionValue_ok_iff hlt hlt).1 e2
  rw [if_neg (by simp)] at e1 e2
  obtain ⟨⟨a1, a2, a3⟩, e3⟩ := assignRow_ok_iff.1 e3
  unfold MTL.updateLrTerms at h
  simp only [bind_ok_iff] at h
  obtain ⟨lr, -, h⟩ := h
  injection h with h
  subst h
  have h0 : c = 0 := by omega
  subst h0
  refine ⟨rfl, a3, e1, ?_, rfl⟩
  intro k a b
  simp only [e3, Matrix.of_apply, Nat.add_zero]
  split_ifs
  · exact e2
  · rfl

/-- **C121** What an end of a cable does to the line of a cable: nothing if the element at the node of the end is not of the
cable; otherwise the element is the first of the cable, and the resistance of the connector is put into the cell of
the node, on conductor 0. -/
theorem C121_effect_partial {F : File} (hF : F.WellFormed) {c : Cable} {s : MTL n p} {L' : AnyLine p} {e : CableEnd}
    (hm : 0 < s.m) (h : F.addEndResistance c ⟨n, s⟩ e = .ok L') :
    ∃ node l el, e.coordIds[0]? = some node ∧ FirstMatch F.lines (touches node) l ∧ l[0]? = some el ∧
      (el ∉ c.elemIds → L' = ⟨n, s⟩) ∧
      (el ∈ c.elemIds → c.elemIds[0]? = some el ∧ ∃ x conn R s', F.coordinate node = .ok x ∧
        FirstMatch F.connectors (fun m => m.materialId = e.materialId) conn ∧ conn.connector.resistance = some R ∧
        L' = ⟨n, s'⟩ ∧ { s' with r := s.r, lr := s.lr } = s ∧ ∀ k a b, s'.r k a b =
          if k = s.cellAt x ∧ a.val = 0 then R / norm3 (s.du (s.cellAt x)) else s.r k a b) := by
  unfold File.addEndResistance at h
  obtain ⟨node, h1, h⟩ := bind_ok_iff.1 h
  obtain ⟨⟨el, side⟩, h2, h⟩ := bind_ok_iff.1 h
  obtain ⟨l, h3, h4, -⟩ := ((C81_elements hF node).1 el side).1 h2
  refine ⟨node, l, el, pyIndex_ok_iff.1 h1, h3, h4, fun hel => ?_, fun hel => ?_⟩
  · simp only [if_neg hel, Except.ok.injEq] at h
    exact h.symm
  · simp only [if_pos hel] at h
    obtain ⟨x, hx, h⟩ := bind_ok_iff.1 h
    obtain ⟨conn, hconn, h⟩ := bind_ok_iff.1 h
    obtain ⟨R, hR, h⟩ := bind_ok_iff.1 h
    obtain ⟨s', hs, h⟩ := bind_ok_iff.1 h
    obtain ⟨h0, -, -, h5, h6⟩ := setResistance_point hm hs
    refine ⟨?_, x, conn, R, s', hx, pyIndex_filter_ok_iff.1 hconn, pyKey_ok_iff.1 hR, by simpa using h.symm, h6, h5⟩
    rw [← h0, List.getElem?_eq_some_iff]
    exact ⟨List.idxOf_lt_length_of_mem hel, List.getElem_idxOf _⟩

/-- **C121** is false: the end of a later element of a cable is refused, although its node and connector are in the file. -/
theorem C121_refuted {F : File} (hF : F.WellFormed) {c : Cable} {s : MTL n p} {e : CableEnd} {node el : ℤ}
    {l : ElemFields} {x : V3} {conn : ConnectorMaterial} {R : ℝ} (hm : 0 < s.m) (h1 : e.coordIds[0]? = some node)
    (h2 : FirstMatch F.lines (touches node) l) (h3 : l[0]? = some el) (hel : el ∈ c.elemIds)
    (hel0 : c.elemIds[0]? ≠ some el) (hx : F.coordinate node = .ok x)
    (hc : FirstMatch F.connectors (fun m => m.materialId = e.materialId) conn)
    (hR : conn.connector.resistance = some R) (hdu : norm3 (s.du (s.cellAt x)) ≠ 0) :
    F.addEndResistance c ⟨n, s⟩ e = .error .IndexError := by
  obtain ⟨side, h4⟩ : ∃ side, F.elementOfNode node = .ok (el, side) := by
    by_cases h : l[3]? = some node
    · exact ⟨"initial", ((C81_elements hF node).1 _ _).2 ⟨l, h2, h3, .inl ⟨h, rfl⟩⟩⟩
    · exact ⟨"end", ((C81_elements hF node).1 _ _).2 ⟨l, h2, h3, .inr ⟨h, rfl⟩⟩⟩
  have h5 : pyIndex e.coordIds 0 = .ok node := pyIndex_ok_iff.2 h1
  have h6 : F.connectorWithId e.materialId = .ok conn := pyIndex_filter_ok_iff.2 hc
  have hi : c.elemIds.idxOf el ≠ 0 := fun h0 => hel0 (by
    rw [← h0, List.getElem?_eq_some_iff]
    exact ⟨List.idxOf_lt_length_of_mem hel, List.getElem_idxOf _⟩)
  have hn : nearest s.u s.m x ≤ s.m := (C25_nearest s.u s.m x).1
  have hlt : s.cellAt x < s.m := by
    unfold MTL.cellAt
    split_ifs <;> omega
  have hcell : (if nearest s.u s.m (Pos.toV3 (.list x)) = s.m then nearest s.u s.m (Pos.toV3 (.list x)) - 1
      else nearest s.u s.m (Pos.toV3 (.list x))) = s.cellAt x := by
    unfold MTL.cellAt Pos.toV3
    split_ifs with h
    · rw [h]
    · rfl
  have h7 : s.setResistanceInRegion (.list x) (.list x) (c.elemIds.idxOf el) R = .error .IndexError := by
    unfold MTL.setResistanceInRegion
    rw [show assertOrdered (.list x) (.list x) = .ok () from if_pos (.inl rfl)]
    simp only [hcell, bind, Except.bind]
    rw [(regionValue_ok_iff hlt hlt).2 ⟨by rwa [if_neg (by simp)], rfl⟩]
    simp only [assignRow]
    rw [if_neg (by omega)]
  unfold File.addEndResistance
  simp only [h5, h4, hx, h6, hR, pyKey, if_pos hel, h7, bind, Except.bind]

/-- **C121** is false for several conductors: the whole row of the matrix is overwritten, with the mutual resistances. -/
theorem C121_refuted_row {F : File} (hF : F.WellFormed) {c : Cable} {s s' : MTL n p} {e : CableEnd} {node el : ℤ}
    {l : ElemFields} {x : V3} {conn : ConnectorMaterial} {R : ℝ} (hm : 0 < s.m) (h1 : e.coordIds[0]? = some node)
    (h2 : FirstMatch F.lines (touches node) l) (h3 : l[0]? = some el) (hel : el ∈ c.elemIds)
    (hx : F.coordinate node = .ok x) (hc : FirstMatch F.connectors (fun m => m.materialId = e.materialId) conn)
    (hR : conn.connector.resistance = some R) (h : F.addEndResistance c ⟨n, s⟩ e = .ok ⟨n, s'⟩) {a : Fin n}
    (ha : a.val = 0) (b : Fin n) : s'.r (s.cellAt x) a b = R / norm3 (s.du (s.cellAt x)) := by
  obtain ⟨node', l', el', g1, g2, g3, -, g4⟩ := C121_effect_partial hF hm h
  rw [h1, Option.some.injEq] at g1
  subst g1
  obtain rfl := g2.unique h2
  rw [h3, Option.some.injEq] at g3
  subst g3
  obtain ⟨-, x', conn', R', s1, k1, k2, k3, k4, -, k5⟩ := g4 hel
  rw [hx, Except.ok.injEq] at k1
  subst k1
  obtain rfl := k2.unique hc
  rw [hR, Option.some.injEq] at k3
  subst k3
  obtain rfl : s' = s1 := by simpa using k4
  rw [k5, if_pos ⟨rfl, ha⟩]

theorem addEndResistance_other {F : File} {c : Cable} {L L' : AnyLine p} {e : CableEnd}
    (he : ∀ node el side, e.coordIds[0]? = some node → F.elementOfNode node = .ok (el, side) → el ∉ c.elemIds)
    (h : F.addEndResistance c L e = .ok L') : L' = L := by
  unfold File.addEndResistance at h
  obtain ⟨node, h1, h⟩ := bind_ok_iff.1 h
  obtain ⟨⟨el, side⟩, h2, h⟩ := bind_ok_iff.1 h
  have := he node el side (pyIndex_ok_iff.1 h1) h2
  simp only [if_neg this, Except.ok.injEq] at h
  exact h.symm

theorem addEndResistance_others {F : File} {c : Cable} {l : List CableEnd} {A A' : AnyLine p}
    (hl : ∀ e' ∈ l, ∀ node el side, e'.coordIds[0]? = some node → F.elementOfNode node = .ok (el, side) → el ∉ c.elemIds)
    (h : l.foldlM (F.addEndResistance c) A = .ok A') : A' = A := by
  induction l generalizing A with
  | nil => simpa [pure, Except.pure, eq_comm] using h
  | cons a l ih =>
    rw [List.foldlM_cons] at h
    obtain ⟨A1, h1, h2⟩ := bind_ok_iff.1 h
    rw [ih (fun e' he' => hl e' (by simp [he'])) h2, addEndResistance_other (hl a (by simp)) h1]

/-- **C121** On a line with one cable of its name, and one end at an element of this cable, exactly this end acts. -/
theorem C121_one_end_partial {F : File} {c : Cable} {L L' : AnyLine p} {e : CableEnd} {pre post : List CableEnd}
    (hc : F.cables.filter (fun c => c.name = L.2.name) = [c]) (hs : F.ends = pre ++ e :: post)
    (he : ∀ e' ∈ pre ++ post, ∀ node el side, e'.coordIds[0]? = some node → F.elementOfNode node = .ok (el, side) →
      el ∉ c.elemIds) (h : F.addEndResistances L = .ok L') : F.addEndResistance c L e = .ok L' := by
  unfold File.addEndResistances at h
  rw [hc, hs] at h
  simp only [List.foldlM_cons, List.foldlM_nil, List.foldlM_append, bind_pure] at h
  obtain ⟨A, h1, h2⟩ := bind_ok_iff.1 h
  obtain ⟨A1, h3, h4⟩ := bind_ok_iff.1 h2
  rw [addEndResistance_others (fun e' h' => he e' (by simp [h'])) h1] at h3
  rw [addEndResistance_others (fun e' h' => he e' (by simp [h'])) h4]
  exact h3

/-- **C121** Without ends at elements of its cables a line is unchanged. -/
theorem C121_none {F : File} {L L' : AnyLine p}
    (he : ∀ c ∈ F.cables, c.name = L.2.name → ∀ e ∈ F.ends, ∀ node el side, e.coordIds[0]? = some node →
      F.elementOfNode node = .ok (el, side) → el ∉ c.elemIds) (h : F.addEndResistances L = .ok L') : L' = L := by
  unfold File.addEndResistances at h
  have hl : ∀ c ∈ F.cables.filter (fun c => c.name = L.2.name), ∀ e ∈ F.ends, ∀ node el side,
      e.coordIds[0]? = some node → F.elementOfNode node = .ok (el, side) → el ∉ c.elemIds := by
    intro c hc
    rw [List.mem_filter] at hc
    exact he c hc.1 (by simpa using hc.2)
  generalize F.cables.filter (fun c => c.name = L.2.name) = cs at h hl
  clear he
  induction cs generalizing L with
  | nil => simpa [pure, Except.pure, eq_comm] using h
  | cons c cs ih =>
    rw [List.foldlM_cons] at h
    obtain ⟨A, h1, h2⟩ := bind_ok_iff.1 h
    rw [ih h2 fun c' hc' => hl c' (by simp [hc']), addEndResistance_others (hl c (by simp)) h1]

/-- A file with one cable of two elements, and a connector at the end of the first (`7`) or second (`8`) one. -/
noncomputable def demoEndFile (node : ℤ) : File where
  coordinates := [(1, ![0, 0, 0]), (2, ![0, 0, 3]), (3, ![0, 0, 0]), (4, ![0, 0, 3])]
  lines := [[7, 0, 1, 1, 2], [8, 0, 1, 3, 4]]
  cables := [{ name := "", materialId := 1, elemIds := [7, 8], ndiv := [3] }]
  connectors := [{ materialId := 5, connector := { connectorType := "Conn_R", resistance := some 50 } }]
  ends := [⟨5, [node]⟩]

/-- Non-vacuity of C121: at the end of the first element the resistance appears in the last cell; at the end of the
second element the file is refused. -/
theorem C121_example : ∃ s s' : MTL 1 p,
    MTL.new p (.scalar 1) (.scalar 1) (.scalar 0) (.scalar 0) 3 [] [3] (.scalar 1) (.scalar 1) "" = .ok ⟨1, s⟩ ∧
    (demoEndFile 2).addEndResistances ⟨1, s⟩ = .ok ⟨1, s'⟩ ∧ s'.r 2 0 0 = 50 ∧ s'.r 1 0 0 = 0 ∧ s'.r 0 0 0 = 0 ∧
    (demoEndFile 4).addEndResistances ⟨1, s⟩ = .error .IndexError := by
  obtain ⟨s, hs, hm, hu, hdu, hdun, hr, hl, hconn, hdt, -, -⟩ := demo3 (p := p)
  have n3 : nearest s.u s.m ![0, 0, 3] = 3 := by simpa using demo3_nearest hm hu 3 (by norm_num)
  have hname : s.name = "" := new_name hs
  have hd : norm3 (s.du 2) = 1 := by rw [hdu 2 (by norm_num)]; unfold norm3; simp
  have hcell : s.cellAt ![0, 0, 3] = 2 := by unfold MTL.cellAt; rw [n3, hm]; rfl
  rw [hm] at n3
  set r' : ℕ → Mat 1 := fun k => Matrix.of fun a b => if k = 2 + 0 ∧ a.val = 0 then 50 else s.r k a b with er
  obtain ⟨lr, hlr⟩ : ∃ lr, updateLr s.m s.dt s.dun s.l r' s.conn = .ok lr := by
    refine ⟨_, updateLr_ok_iff.2 ⟨by rw [hdt]; norm_num, ?_, rfl⟩⟩
    intro k hk
    rw [hm] at hk
    unfold lrF1
    rw [hdun k hk, hl, hconn, hdt, er, Matrix.det_fin_one]
    simp only [Disp.new, hr]
    by_cases hk0 : k = 2
    · simp [hk0]
      norm_num
    · simp [hk0]
  have hset : s.setResistanceInRegion (.list ![0, 0, 3]) (.list ![0, 0, 3]) 0 50
      = .ok { s with r := r', lr := some lr } := by
    unfold MTL.setResistanceInRegion
    simp only [bind_ok_iff]
    refine ⟨(), if_pos (.inl rfl), 50, ?_, r', ?_, ?_⟩
    · simp only [Pos.toV3, n3, hm]
      norm_num
      refine (regionValue_ok_iff (by norm_num) (by norm_num)).2 ?_
      norm_num [hd]
    · simp only [Pos.toV3, n3, hm]
      exact assignRow_ok_iff.2 ⟨by norm_num, rfl⟩
    · unfold MTL.updateLrTerms
      exact bind_ok_iff.2 ⟨lr, hlr, rfl⟩
  have hfold : ∀ node, (demoEndFile node).addEndResistances ⟨1, s⟩ = (demoEndFile node).addEndResistance
      { name := "", materialId := 1, elemIds := [7, 8], ndiv := [3] } ⟨1, s⟩ ⟨5, [node]⟩ := by
    intro node
    unfold File.addEndResistances
    simp [demoEndFile, hname]
  refine ⟨s, { s with r := r', lr := some lr }, hs, ?_, ?_, ?_, ?_, ?_⟩
  · rw [hfold]
    unfold File.addEndResistance
    simp [demoEndFile, pyIndex, File.elementOfNode, File.elementOfNode.go, File.coordinate, dictGet,
      File.connectorWithId, pyKey, pyLast, hset, bind, Except.bind]
  · simp [er]
  · simp [er, hr]
  · simp [er, hr]
  · rw [hfold]
    refine C121_refuted (F := demoEndFile 4) (node := 4) (el := 8) (l := [8, 0, 1, 3, 4]) (x := ![0, 0, 3]) (R := 50)
      (conn := { materialId := 5, connector := { connectorType := "Conn_R", resistance := some 50 } }) ?_ (by omega) rfl ?_ rfl
      (by simp) (by simp) ?_ ?_ rfl ?_
    · intro e he
      simp only [demoEndFile, List.mem_cons, List.not_mem_nil, or_false] at he
      rcases he with rfl | rfl <;> simp
    · simp [demoEndFile, firstMatch_cons, touches]
    · simp [demoEndFile, File.coordinate, dictGet]
    · simp [demoEndFile, firstMatch_cons]
    · rw [hcell, hd]; norm_num

/-! ## C122 -/

/-- The row of an element in the matrices of a bundle: the conductors of the levels before, and its number in the level. -/
def RowOf (F : File) (g : Graph) (b : MTLD n p) (levels : List (List (AnyLine p))) (id : ℤ) (row : ℕ) : Prop :=
  ∃ v a, FirstMatch g.vs (fun v => v.name = id) v ∧ F.conductorNumber v ⟨⟨n, b⟩, levels⟩ = .ok a ∧
    row = conductorsBefore b.inLevel v.level + a

/-- The edge couples row `x` to the current of row `y`: from the shield into the cable, or the other way. -/
def edgeHits (direction : String) (outer inner x y : ℕ) : Prop :=
  direction = "in" ∧ x = inner ∧ y = outer ∨ direction = "out" ∧ x = outer ∧ y = inner

theorem vertex_ok_iff {g : Graph} {id : ℤ} {v : Vertex} : g.vertex id = .ok v ↔ FirstMatch g.vs (fun v => v.name = id) v := by
  rw [← find?_iff_firstMatch]
  unfold Graph.vertex
  cases g.vs.find? fun v => v.name = id <;> simp

open Classical in
/-- **C122** One edge: its two elements have rows, and its transfer impedance changes the coupling between these two rows
in all cells, and nothing else. -/
theorem C122_edge_partial {F : File} {g : Graph} {b : MTLD n p} {levels : List (List (AnyLine p))} {e : Edge} {B' : PBundle p}
    (h : F.addEdge g ⟨⟨n, b⟩, levels⟩ e = .ok B') (hd : ∀ Z, e.Zt = some Z → Z.direction = "in" ∨ Z.direction = "out") :
    ∃ (b' : MTLD n p) (Z : TransferModel) (outer inner : ℕ), B' = ⟨⟨n, b'⟩, levels⟩ ∧ e.Zt = some Z ∧
      RowOf F g b levels e.source outer ∧ RowOf F g b levels e.target inner ∧ b' = { b with tz := b'.tz } ∧
      ∀ (k : ℕ) (x y : Fin n),
        b'.tz.d k x y = b.tz.d k x y - (if edgeHits Z.direction outer inner x y then Z.cte / Z.factor.getD 1 else 0) ∧
        b'.tz.e k x y = b.tz.e k x y - (if edgeHits Z.direction outer inner x y then Z.prop / Z.factor.getD 1 else 0) ∧
        (¬ edgeHits Z.direction outer inner x y → (b'.tz.q1 k x y).val = (b.tz.q1 k x y).val ∧
          (b'.tz.q2 k x y).val = (b.tz.q2 k x y).val ∧ (b'.tz.q3 k x y).val = (b.tz.q3 k x y).val) := by
  unfold File.addEdge at h
  obtain ⟨s, h1, h⟩ := bind_ok_iff.1 h
  obtain ⟨t, h2, h⟩ := bind_ok_iff.1 h
  obtain ⟨a, h3, h⟩ := bind_ok_iff.1 h
  obtain ⟨c, h4, h⟩ := bind_ok_iff.1 h
  cases hZ : e.Zt with
  | none =>
    rw [hZ] at h
    obtain ⟨_, -, h⟩ := bind_ok_iff.1 h
    simp at h
  | some Z =>
    rw [hZ] at h
    unfold PBundle.change at h
    obtain ⟨b', h5, h⟩ := bind_ok_iff.1 h
    unfold MTLD.addTransferImpedance at h5
    obtain ⟨tz, h6, h7⟩ := bind_ok_iff.1 h5
    simp only [Except.ok.injEq] at h h7
    subst h7
    refine ⟨_, Z, _, _, h.symm, rfl, ⟨s, a, vertex_ok_iff.1 h1, h3, rfl⟩, ⟨t, c, vertex_ok_iff.1 h2, h4, rfl⟩, rfl,
      fun k x y => ?_⟩
    rcases hd Z hZ with hdir | hdir
    · obtain ⟨k1, k2, k3⟩ := C37_in_partial hdir h6 k x y
      simp only [List.map_cons, List.map_nil, List.count_singleton] at k1 k2 k3
      by_cases hx : edgeHits Z.direction (conductorsBefore b.inLevel s.level + a)
          (conductorsBefore b.inLevel t.level + c) x y
      · have hx' : (x : ℕ) = conductorsBefore b.inLevel t.level + c ∧ (y : ℕ) = conductorsBefore b.inLevel s.level + a := by
          rcases hx with ⟨-, h⟩ | ⟨h, -⟩
          · exact h
          · rw [hdir] at h; exact absurd h (by decide)
        rw [if_pos hx, if_pos hx, k1, k2]
        refine ⟨?_, ?_, fun h => absurd hx h⟩ <;> simp [hx'.1, hx'.2]
      · have hx' : ¬ ((y : ℕ) = conductorsBefore b.inLevel s.level + a ∧ (x : ℕ) = conductorsBefore b.inLevel t.level + c) :=
          fun h => hx (.inl ⟨hdir, h.2, h.1⟩)
        have h0 : ((if (conductorsBefore b.inLevel s.level + a == (y : ℕ)) = true then 1 else 0) *
            if (conductorsBefore b.inLevel t.level + c == (x : ℕ)) = true then 1 else 0) = 0 := by
          rw [Nat.mul_eq_zero]
          by_contra hcon
          simp only [beq_iff_eq, not_or, ite_eq_right_iff, one_ne_zero, imp_false, not_not] at hcon
          exact hx' ⟨hcon.1.symm, hcon.2.symm⟩
        rw [if_neg hx, if_neg hx]
        refine ⟨?_, ?_, fun _ => k3 h0⟩
        · rw [k1, h0]; simp
        · rw [k2, h0]; simp
    · obtain ⟨k1, k2, k3⟩ := C37_out_partial hdir h6 k x y
      simp only [List.map_cons, List.map_nil, List.count_singleton] at k1 k2 k3
      by_cases hx : edgeHits Z.direction (conductorsBefore b.inLevel s.level + a)
          (conductorsBefore b.inLevel t.level + c) x y
      · have hx' : (x : ℕ) = conductorsBefore b.inLevel s.level + a ∧ (y : ℕ) = conductorsBefore b.inLevel t.level + c := by
          rcases hx with ⟨h, -⟩ | ⟨-, h⟩
          · rw [hdir] at h; exact absurd h (by decide)
          · exact h
        rw [if_pos hx, if_pos hx, k1, k2]
        refine ⟨?_, ?_, fun h => absurd hx h⟩ <;> simp [hx'.1, hx'.2]
      · have hx' : ¬ ((x : ℕ) = conductorsBefore b.inLevel s.level + a ∧ (y : ℕ) = conductorsBefore b.inLevel t.level + c) :=
          fun h => hx (.inr ⟨hdir, h.1, h.2⟩)
        have h0 : ((if (conductorsBefore b.inLevel s.level + a == (x : ℕ)) = true then 1 else 0) *
            if (conductorsBefore b.inLevel t.level + c == (y : ℕ)) = true then 1 else 0) = 0 := by
          rw [Nat.mul_eq_zero]
          by_contra hcon
          simp only [beq_iff_eq, not_or, ite_eq_right_iff, one_ne_zero, imp_false, not_not] at hcon
          exact hx' ⟨hcon.1.symm, hcon.2.symm⟩
        rw [if_neg hx, if_neg hx]
        refine ⟨?_, ?_, fun _ => k3 h0⟩
        · rw [k1, h0]; simp
        · rw [k2, h0]; simp

theorem RowOf.unique {F : File} {g : Graph} {b : MTLD n p} {levels : List (List (AnyLine p))} {id : ℤ} {r r' : ℕ}
    (h : RowOf F g b levels id r) (h' : RowOf F g b levels id r') : r = r' := by
  obtain ⟨v, a, h1, h2, rfl⟩ := h
  obtain ⟨v', a', h1', h2', rfl⟩ := h'
  obtain rfl := h1.unique h1'
  rw [h2, Except.ok.injEq] at h2'
  rw [h2']

theorem RowOf.congr {F : File} {g : Graph} {b b' : MTLD n p} {levels : List (List (AnyLine p))} {id : ℤ} {r : ℕ}
    (hb : b'.inLevel = b.inLevel) (h : RowOf F g b levels id r) : RowOf F g b' levels id r := by
  obtain ⟨v, a, h1, h2, rfl⟩ := h
  exact ⟨v, a, h1, h2, by rw [hb]⟩

open Classical in
/-- What an edge adds to the coupling of row `x` to the current of row `y`: the part `f` of its impedance. -/
noncomputable def edgeTerm (F : File) (g : Graph) (b : MTLD n p) (levels : List (List (AnyLine p))) (f : TransferModel → ℝ)
    (x y : Fin n) (e : Edge) : ℝ :=
  match e.Zt with
  | some Z => if ∃ outer inner, RowOf F g b levels e.source outer ∧ RowOf F g b levels e.target inner ∧
      edgeHits Z.direction outer inner x y then f Z / Z.factor.getD 1 else 0
  | none => 0

/-- **C122** All edges: each couples the rows of its two elements, in all cells; several edges add up; nothing else of the
bundle changes. -/
theorem C122_edges_partial {F : File} {g : Graph} {levels : List (List (AnyLine p))} {es : List Edge} {B' : PBundle p}
    (hd : ∀ e ∈ es, ∀ Z, e.Zt = some Z → Z.direction = "in" ∨ Z.direction = "out") :
    ∀ {b : MTLD n p}, es.foldlM (F.addEdge g) ⟨⟨n, b⟩, levels⟩ = .ok B' →
    ∃ b' : MTLD n p, B' = ⟨⟨n, b'⟩, levels⟩ ∧ b' = { b with tz := b'.tz } ∧
      (∀ e ∈ es, ∃ outer inner, RowOf F g b levels e.source outer ∧ RowOf F g b levels e.target inner ∧ e.Zt ≠ none) ∧
      ∀ (k : ℕ) (x y : Fin n),
        b'.tz.d k x y = b.tz.d k x y - (es.map (edgeTerm F g b levels (fun Z => Z.cte) x y)).sum ∧
        b'.tz.e k x y = b.tz.e k x y - (es.map (edgeTerm F g b levels (fun Z => Z.prop) x y)).sum := by
  classical
  induction es with
  | nil =>
    intro b h
    simp only [List.foldlM_nil, pure, Except.pure, Except.ok.injEq] at h
    exact ⟨b, h.symm, rfl, by simp, by simp⟩
  | cons e es ih =>
    intro b h
    rw [List.foldlM_cons] at h
    obtain ⟨B1, h1, h2⟩ := bind_ok_iff.1 h
    obtain ⟨b1, Z, outer, inner, rfl, hZ, ho, hi, hb1, hk⟩ := C122_edge_partial h1 (hd e (by simp))
    have hlev : b1.inLevel = b.inLevel := by rw [hb1]
    obtain ⟨b', rfl, hb', hes, hk'⟩ := ih (fun e' he' => hd e' (by simp [he'])) h2
    have hrow : ∀ id r, RowOf F g b1 levels id r ↔ RowOf F g b levels id r :=
      fun id r => ⟨RowOf.congr hlev.symm, RowOf.congr hlev⟩
    have hterm : ∀ f (x y : Fin n), edgeTerm F g b1 levels f x y = edgeTerm F g b levels f x y := by
      intro f x y
      funext e'
      unfold edgeTerm
      rw [show RowOf F g b1 levels = RowOf F g b levels from funext fun id => funext fun r => propext (hrow id r)]
    have he : ∀ f (x y : Fin n), edgeTerm F g b levels f x y e =
        (open Classical in if edgeHits Z.direction outer inner x y then f Z / Z.factor.getD 1 else 0) := by
      intro f x y
      unfold edgeTerm
      rw [hZ]
      have : (∃ o i, RowOf F g b levels e.source o ∧ RowOf F g b levels e.target i ∧ edgeHits Z.direction o i x y) ↔
          edgeHits Z.direction outer inner x y :=
        ⟨fun ⟨o, i, h1, h2, h3⟩ => by rw [ho.unique h1, hi.unique h2]; exact h3, fun h => ⟨_, _, ho, hi, h⟩⟩
      by_cases hh : edgeHits Z.direction outer inner x y
      · rw [if_pos hh]; exact if_pos (this.2 hh)
      · rw [if_neg hh]; exact if_neg fun hc => hh (this.1 hc)
    refine ⟨b', rfl, ?_, ?_, fun k x y => ?_⟩
    · rw [hb', hb1]
    · intro e' he'
      rcases List.mem_cons.1 he' with rfl | he'
      · exact ⟨outer, inner, ho, hi, by rw [hZ]; simp⟩
      · simpa only [hrow] using hes e' he'
    · obtain ⟨k1, k2⟩ := hk' k x y
      obtain ⟨k3, k4, -⟩ := hk k x y
      simp only [List.map_cons, List.sum_cons, he, hterm] at k1 k2 ⊢
      rw [k1, k2, k3, k4]
      constructor <;> ring

/-- **C122** is false for the direction `both`: the edge is accepted, and nothing is coupled. -/
theorem C122_refuted {F : File} {g : Graph} {b : MTLD n p} {levels : List (List (AnyLine p))} {e : Edge} {Z : TransferModel}
    {s t : Vertex} {x y : ℕ} (hs : FirstMatch g.vs (fun v => v.name = e.source) s)
    (ht : FirstMatch g.vs (fun v => v.name = e.target) t) (hl : adjacentLevels s.level t.level)
    (hx : F.conductorNumber s ⟨⟨n, b⟩, levels⟩ = .ok x) (hy : F.conductorNumber t ⟨⟨n, b⟩, levels⟩ = .ok y)
    (hZ : e.Zt = some Z) (hd : Z.direction = "both") (hf : Z.factor.getD 1 ≠ 0) (hlen : Z.LengthsOk)
    (hdt : b.tz.dt ≠ 0) (hp : ∀ i < Z.polesReal.length, Z.pole i ≠ 0) :
    ∃ b' : MTLD n p, F.addEdge g ⟨⟨n, b⟩, levels⟩ e = .ok ⟨⟨n, b'⟩, levels⟩ ∧ b'.tz.d = b.tz.d ∧ b'.tz.e = b.tz.e ∧
      b'.tz.q1 = b.tz.q1 ∧ b'.tz.q2 = b.tz.q2 ∧ b'.tz.q3 = b.tz.q3 := by
  obtain ⟨D', h1, h2⟩ := C37_both_does_nothing b.tz b.m b.inLevel [x] [y] hd hl hf hlen hdt hp
  refine ⟨{ b with tz := D' }, ?_, h2⟩
  unfold File.addEdge
  simp only [vertex_ok_iff.2 hs, vertex_ok_iff.2 ht, hx, hy, hZ, PBundle.change, MTLD.addTransferImpedance, h1, bind,
    Except.bind]

/-! ## C123 -/

/-- One edge that leaves the element at an end: the connector replaces the coupling of the two rows in the end cell. -/
theorem setEndOnEdge_effect {F : File} {g : Graph} {b : MTLD n p} {levels : List (List (AnyLine p))} {e : Edge}
    {side : String} {c : CableEnd} {B' : PBundle p} (h : F.setEndOnEdge g side c ⟨⟨n, b⟩, levels⟩ e = .ok B') :
    ∃ (b' : MTLD n p) (conn : ConnectorMaterial) (Z : TransferModel) (outer inner : ℕ), B' = ⟨⟨n, b'⟩, levels⟩ ∧
      FirstMatch F.connectors (fun m => m.materialId = c.materialId) conn ∧ conn.transferImpedance = some Z ∧
      RowOf F g b levels e.source outer ∧ RowOf F g b levels e.target inner ∧ b' = { b with tz := b'.tz } ∧
      (¬ (Z.cte = 0 ∧ Z.prop = 0 ∧ Z.polesReal = []) → ∃ cell, ((side = "initial" ∧ cell = 0) ∨
          (side = "end" ∧ cell = b.m - 1)) ∧ ∀ (k : ℕ) (x y : Fin n),
        (k = cell → edgeHits Z.direction outer inner x y →
          b'.tz.d k x y = -(Z.cte / Z.factor.getD 1) ∧ b'.tz.e k x y = -(Z.prop / Z.factor.getD 1)) ∧
        (¬ (k = cell ∧ edgeHits Z.direction outer inner x y) →
          b'.tz.d k x y = b.tz.d k x y ∧ b'.tz.e k x y = b.tz.e k x y)) := by
  unfold File.setEndOnEdge at h
  obtain ⟨conn, h1, h⟩ := bind_ok_iff.1 h
  obtain ⟨Z, h2, h⟩ := bind_ok_iff.1 h
  obtain ⟨s, h3, h⟩ := bind_ok_iff.1 h
  obtain ⟨t, h4, h⟩ := bind_ok_iff.1 h
  obtain ⟨a, h5, h⟩ := bind_ok_iff.1 h
  obtain ⟨a', h6, h⟩ := bind_ok_iff.1 h
  unfold PBundle.change at h
  obtain ⟨b', h7, h⟩ := bind_ok_iff.1 h
  simp only [Except.ok.injEq] at h
  have hb : b' = { b with tz := b'.tz } := by
    unfold MTLD.setConnectorTransferImpedance at h7
    obtain ⟨_, -, h7⟩ := bind_ok_iff.1 h7
    obtain ⟨tz, -, h7⟩ := bind_ok_iff.1 h7
    simp only [Except.ok.injEq] at h7
    rw [← h7]
  refine ⟨b', conn, Z, _, _, h.symm, pyIndex_filter_ok_iff.1 h1, pyKey_ok_iff.1 h2, ⟨s, a, vertex_ok_iff.1 h3, h5, rfl⟩,
    ⟨t, a', vertex_ok_iff.1 h4, h6, rfl⟩, hb, fun hZ => ?_⟩
  obtain ⟨cell, hc, -, hset, -⟩ := C96_effect h7 hZ
  have hcp : ∀ x y : ℕ, couples Z.direction ([a].map (conductorsBefore b.inLevel s.level + ·))
      ([a'].map (conductorsBefore b.inLevel t.level + ·)) x y ↔
      edgeHits Z.direction (conductorsBefore b.inLevel s.level + a) (conductorsBefore b.inLevel t.level + a') x y := by
    intro x y
    simp only [couples, edgeHits, List.map_cons, List.map_nil, List.mem_singleton]
    tauto
  refine ⟨cell, hc, fun k x y => ⟨?_, fun hk => ?_⟩⟩
  · rintro rfl hk
    exact hset.inside x y ((hcp _ _).2 hk)
  · obtain ⟨g1, g2, -⟩ := hset.outside k x y fun hh => hk ⟨hh.1, (hcp _ _).1 hh.2⟩
    exact ⟨g1, g2⟩

/-- Some edge of the list couples row `x` to the current of row `y`. -/
def Hit (F : File) (g : Graph) (b : MTLD n p) (levels : List (List (AnyLine p))) (direction : String) (es : List Edge)
    (x y : Fin n) : Prop :=
  ∃ e ∈ es, ∃ outer inner, RowOf F g b levels e.source outer ∧ RowOf F g b levels e.target inner ∧
    edgeHits direction outer inner x y

theorem setEnd_fold {F : File} {g : Graph} {levels : List (List (AnyLine p))} {side : String} {c : CableEnd}
    {es : List Edge} {B' : PBundle p} : ∀ {b : MTLD n p}, es.foldlM (F.setEndOnEdge g side c) ⟨⟨n, b⟩, levels⟩ = .ok B' →
    ∃ b' : MTLD n p, B' = ⟨⟨n, b'⟩, levels⟩ ∧ b' = { b with tz := b'.tz } ∧ (es = [] → b' = b) ∧
      (es ≠ [] → ∃ conn Z, FirstMatch F.connectors (fun m => m.materialId = c.materialId) conn ∧
        conn.transferImpedance = some Z) ∧
      ∀ conn Z, FirstMatch F.connectors (fun m => m.materialId = c.materialId) conn → conn.transferImpedance = some Z →
        ¬ (Z.cte = 0 ∧ Z.prop = 0 ∧ Z.polesReal = []) → ∀ cell, ((side = "initial" ∧ cell = 0) ∨
          (side = "end" ∧ cell = b.m - 1)) → ∀ (k : ℕ) (x y : Fin n),
        (k = cell → Hit F g b levels Z.direction es x y →
          b'.tz.d k x y = -(Z.cte / Z.factor.getD 1) ∧ b'.tz.e k x y = -(Z.prop / Z.factor.getD 1)) ∧
        (¬ (k = cell ∧ Hit F g b levels Z.direction es x y) →
          b'.tz.d k x y = b.tz.d k x y ∧ b'.tz.e k x y = b.tz.e k x y) := by
  induction es with
  | nil =>
    intro b h
    simp only [List.foldlM_nil, pure, Except.pure, Except.ok.injEq] at h
    refine ⟨b, h.symm, rfl, fun _ => rfl, fun h => absurd rfl h, fun conn Z _ _ _ cell _ k x y =>
      ⟨fun _ hh => ?_, fun _ => ⟨rfl, rfl⟩⟩⟩
    obtain ⟨e, he, -⟩ := hh
    simp at he
  | cons e es ih =>
    intro b h
    rw [List.foldlM_cons] at h
    obtain ⟨B1, h1, h2⟩ := bind_ok_iff.1 h
    obtain ⟨b1, conn1, Z1, outer, inner, rfl, hc1, hZ1, ho, hi, hb1, hk⟩ := setEndOnEdge_effect h1
    have hlev : b1.inLevel = b.inLevel := by rw [hb1]
    have hm : b1.m = b.m := by rw [hb1]
    obtain ⟨b', rfl, hb', -, -, hk'⟩ := ih h2
    have hrow : ∀ id r, RowOf F g b1 levels id r ↔ RowOf F g b levels id r :=
      fun id r => ⟨RowOf.congr hlev.symm, RowOf.congr hlev⟩
    have hhit : ∀ d (x y : Fin n), Hit F g b1 levels d es x y ↔ Hit F g b levels d es x y := by
      intro d x y
      simp only [Hit, hrow]
    have hcons : ∀ d (x y : Fin n), Hit F g b levels d (e :: es) x y ↔
        edgeHits d outer inner x y ∨ Hit F g b levels d es x y := by
      intro d x y
      constructor
      · rintro ⟨e', he', o, i, r1, r2, r3⟩
        rcases List.mem_cons.1 he' with rfl | he'
        · rw [← r1.unique ho, ← r2.unique hi]; exact .inl r3
        · exact .inr ⟨e', he', o, i, r1, r2, r3⟩
      · rintro (hh | ⟨e', he', hh⟩)
        · exact ⟨e, by simp, outer, inner, ho, hi, hh⟩
        · exact ⟨e', by simp [he'], hh⟩
    refine ⟨b', rfl, by rw [hb', hb1], by simp, fun _ => ⟨conn1, Z1, hc1, hZ1⟩, ?_⟩
    intro conn Z hc hZ hne cell hcell k x y
    obtain rfl := hc1.unique hc
    rw [hZ1, Option.some.injEq] at hZ
    subst hZ
    obtain ⟨cell', hcell', hk⟩ := hk hne
    have hcc : cell' = cell := by
      rcases hcell with ⟨s1, rfl⟩ | ⟨s1, rfl⟩ <;> rcases hcell' with ⟨s2, rfl⟩ | ⟨s2, rfl⟩
      · rfl
      · rw [s1] at s2; exact absurd s2 (by decide)
      · rw [s1] at s2; exact absurd s2 (by decide)
      · rfl
    subst hcc
    obtain ⟨k1, k2⟩ := hk k x y
    obtain ⟨k3, k4⟩ := hk' conn1 Z1 hc hZ1 hne cell' (by rw [hm]; exact hcell) k x y
    rw [hhit] at k3 k4
    rw [hcons]
    constructor
    · rintro rfl hh
      by_cases h3 : Hit F g b levels Z1.direction es x y
      · exact k3 rfl h3
      · obtain ⟨k5, k6⟩ := k4 fun hh => h3 hh.2
        rw [k5, k6]
        exact k1 rfl (hh.resolve_right h3)
    · intro hh
      obtain ⟨k5, k6⟩ := k4 fun hc => hh ⟨hc.1, .inr hc.2⟩
      rw [k5, k6]
      exact k2 fun hc => hh ⟨hc.1, .inl hc.2⟩

/-- **C123** An end of a cable: with the element whose line begins (ends) at the node, the transfer impedance of its
connector replaces, in the first (last) cell, the coupling between the element and all elements inside it.  If the
element contains nothing, the bundle is unchanged. -/
theorem C123_end_partial {F : File} (hF : F.WellFormed) {g : Graph} {b : MTLD n p} {levels : List (List (AnyLine p))}
    {c : CableEnd} {B' : PBundle p} (h : F.setEnd g ⟨⟨n, b⟩, levels⟩ c = .ok B') :
    ∃ (b' : MTLD n p) (node el : ℤ) (l : ElemFields), B' = ⟨⟨n, b'⟩, levels⟩ ∧ b' = { b with tz := b'.tz } ∧
      c.coordIds[0]? = some node ∧ FirstMatch F.lines (touches node) l ∧ l[0]? = some el ∧
      ((∀ e ∈ g.es, e.source ≠ el) → b' = b) ∧
      ((∃ e ∈ g.es, e.source = el) → ∃ conn Z, FirstMatch F.connectors (fun m => m.materialId = c.materialId) conn ∧
        conn.transferImpedance = some Z ∧ (¬ (Z.cte = 0 ∧ Z.prop = 0 ∧ Z.polesReal = []) →
          ∀ cell, (l[3]? = some node ∧ cell = 0 ∨ l[3]? ≠ some node ∧ cell = b.m - 1) → ∀ (k : ℕ) (x y : Fin n),
          (k = cell → Hit F g b levels Z.direction (g.es.filter fun e => e.source = el) x y →
            b'.tz.d k x y = -(Z.cte / Z.factor.getD 1) ∧ b'.tz.e k x y = -(Z.prop / Z.factor.getD 1)) ∧
          (¬ (k = cell ∧ Hit F g b levels Z.direction (g.es.filter fun e => e.source = el) x y) →
            b'.tz.d k x y = b.tz.d k x y ∧ b'.tz.e k x y = b.tz.e k x y))) := by
  unfold File.setEnd at h
  obtain ⟨node, h1, h⟩ := bind_ok_iff.1 h
  obtain ⟨⟨el, side⟩, h2, h⟩ := bind_ok_iff.1 h
  obtain ⟨l, h3, h4, h5⟩ := ((C81_elements hF node).1 el side).1 h2
  obtain ⟨b', rfl, hb', hnil, hcons, hk⟩ := setEnd_fold h
  refine ⟨b', node, el, l, rfl, hb', pyIndex_ok_iff.1 h1, h3, h4, fun hno => hnil ?_, fun hyes => ?_⟩
  · rw [List.filter_eq_nil_iff]
    intro e he
    simpa using hno e he
  · obtain ⟨e, he, hes⟩ := hyes
    obtain ⟨conn, Z, hc, hZ⟩ := hcons (List.ne_nil_of_mem (List.mem_filter.2 ⟨he, by simpa using hes⟩))
    refine ⟨conn, Z, hc, hZ, fun hne cell hcell => hk conn Z hc hZ hne cell ?_⟩
    rcases h5 with ⟨i1, i2⟩ | ⟨i1, i2⟩ <;> rcases hcell with ⟨i3, i4⟩ | ⟨i3, i4⟩
    · exact .inl ⟨i2, i4⟩
    · exact absurd i1 i3
    · exact absurd i3 i1
    · exact .inr ⟨i2, i4⟩

/-- **C123** is false for a connector with the transfer impedance 0: the coupling of the cable remains in the end cell. -/
theorem C123_refuted {F : File} {g : Graph} {b : MTLD n p} {levels : List (List (AnyLine p))} {e : Edge} {c : CableEnd}
    {side direction : String} {s t : Vertex} {x y : ℕ} {conn : ConnectorMaterial}
    (hside : side = "initial" ∨ side = "end") (hs : FirstMatch g.vs (fun v => v.name = e.source) s)
    (ht : FirstMatch g.vs (fun v => v.name = e.target) t) (hl : adjacentLevels s.level t.level)
    (hx : F.conductorNumber s ⟨⟨n, b⟩, levels⟩ = .ok x) (hy : F.conductorNumber t ⟨⟨n, b⟩, levels⟩ = .ok y)
    (hc : FirstMatch F.connectors (fun m => m.materialId = c.materialId) conn)
    (hZ : conn.transferImpedance = some ⟨⟨0, 0, [], [], [], []⟩, none, direction⟩) :
    F.setEndOnEdge g side c ⟨⟨n, b⟩, levels⟩ e = .ok ⟨⟨n, b⟩, levels⟩ := by
  have h : F.connectorWithId c.materialId = .ok conn := pyIndex_filter_ok_iff.2 hc
  unfold File.setEndOnEdge
  simp only [vertex_ok_iff.2 hs, vertex_ok_iff.2 ht, hx, hy, hZ, h, pyKey, PBundle.change, C97_refuted b hside hl, bind,
    Except.bind]

/-- A shield `o` with a transfer impedance of 5 + 2 s around a wire `a`; the shield ends, at both ends, in a connector with
a transfer impedance of 7. -/
noncomputable def demoCoupledFile : File where
  coordinates := [(1, ![0, 0, 0]), (2, ![0, 0, 0]), (4, ![0, 0, 1]), (5, ![0, 0, 1])]
  cables := [{ name := "o", materialId := 1, elemIds := [1], ndiv := [1] },
    { name := "a", materialId := 2, elemIds := [2], ndiv := [1] }]
  lines := [[1, 0, 1, 1, 4], [2, 0, 1, 2, 5]]
  connectors := [{ materialId := 5, connector := { connectorType := "Conn_R", resistance := some 50 },
                   transferImpedance := some ⟨⟨7, 0, [], [], [], []⟩, none, "in"⟩ }]
  ends := [⟨5, [1]⟩, ⟨5, [4]⟩]

/-- Its graph. -/
noncomputable def demoCoupledGraph : Graph where
  vs := [⟨1, 0, "o"⟩, ⟨2, 1, "a"⟩]
  es := [⟨1, 2, some ⟨⟨5, 2, [], [], [], []⟩, none, "in"⟩⟩]

theorem demoCoupled_add (b : MTLD 2 p) {o a : MTL 1 p} (no : o.name = "o") (na : a.name = "a") (hl : b.inLevel = [1, 1])
    (hdt : b.tz.dt ≠ 0) : ∃ b1 : MTLD 2 p,
      demoCoupledGraph.es.foldlM (demoCoupledFile.addEdge demoCoupledGraph) ⟨⟨2, b⟩, [[⟨1, o⟩], [⟨1, a⟩]]⟩ =
        .ok ⟨⟨2, b1⟩, [[⟨1, o⟩], [⟨1, a⟩]]⟩ ∧ b1.inLevel = [1, 1] ∧ b1.m = b.m ∧ b1.tz.dt ≠ 0 ∧
      ∀ k x y, b1.tz.d k x y = (if x = 1 ∧ y = 0 then b.tz.d k x y - 5 else b.tz.d k x y) ∧
        b1.tz.e k x y = (if x = 1 ∧ y = 0 then b.tz.e k x y - 2 else b.tz.e k x y) := by
  refine ⟨{ b with tz := { b.tz with
    d := fun k => Matrix.of fun x y => if x = 1 ∧ y = 0 then b.tz.d k x y - 5 else b.tz.d k x y
    e := fun k => Matrix.of fun x y => if x = 1 ∧ y = 0 then b.tz.e k x y - 2 else b.tz.e k x y
    q1sum := vSum b.tz.q1, q2sum := vSum b.tz.q2 } }, ?_, hl, rfl, hdt, fun k x y => ⟨rfl, rfl⟩⟩
  simp [demoCoupledGraph, File.addEdge, Graph.vertex, File.conductorNumber, pyIndex, no, na,
    File.cableNamed, demoCoupledFile, PBundle.change, bind, Except.bind, pure, Except.pure, MTLD.addTransferImpedance,
    Disp.addTransferImpedance, pyAssert, raiseIf, RationalModel.checkLengths, adjacentLevels, hdt, hl, forPairs,
    Disp.transferBody, Disp.addTransferPair, conductorsBefore]

theorem demoCoupled_set (b : MTLD 2 p) {o a : MTL 1 p} (no : o.name = "o") (na : a.name = "a") (hl : b.inLevel = [1, 1])
    (hdt : b.tz.dt ≠ 0) (node : ℤ) (cell : ℕ) (hn : node = 1 ∧ cell = 0 ∨ node = 4 ∧ cell = b.m - 1) : ∃ b1 : MTLD 2 p,
      demoCoupledFile.setEnd demoCoupledGraph ⟨⟨2, b⟩, [[⟨1, o⟩], [⟨1, a⟩]]⟩ ⟨5, [node]⟩ =
        .ok ⟨⟨2, b1⟩, [[⟨1, o⟩], [⟨1, a⟩]]⟩ ∧ b1.inLevel = [1, 1] ∧ b1.m = b.m ∧ b1.tz.dt ≠ 0 ∧
      ∀ k x y, b1.tz.d k x y = if k = cell ∧ x = 1 ∧ y = 0 then -7 else b.tz.d k x y := by
  refine ⟨{ b with tz := { b.tz with
    d := setMat b.tz.d cell 1 0 (-7)
    e := setMat b.tz.e cell 1 0 (-0)
    q1sum := vSum b.tz.q1, q2sum := vSum b.tz.q2 } }, ?_, hl, rfl, hdt, fun k x y => ?_⟩
  · rcases hn with ⟨rfl, rfl⟩ | ⟨rfl, rfl⟩ <;>
    simp [demoCoupledGraph, Graph.vertex, File.conductorNumber, pyIndex, pyLast, no, na,
      File.cableNamed, demoCoupledFile, PBundle.change, bind, Except.bind, pure, Except.pure,
      pyAssert, raiseIf, RationalModel.checkLengths, adjacentLevels, hdt, hl, forPairs,
      conductorsBefore, File.setEnd, File.elementOfNode, File.elementOfNode.go,
      File.setEndOnEdge, File.connectorWithId, pyKey, MTLD.setConnectorTransferImpedance, Disp.setTransferImpedanceAt,
      Disp.setTransferBody, Disp.setTransferPair]
  · simp [setMat]

/-- Non-vacuity of C122 and C123: the current of the shield acts on the wire with 5 in the middle and with 7 in the first and
last cell. -/
theorem C122_C123_example (b : MTLD 2 p) {o a : MTL 1 p} (no : o.name = "o") (na : a.name = "a") (hl : b.inLevel = [1, 1])
    (hdt : b.tz.dt ≠ 0) (hm : b.m = 3) (hd : ∀ k, b.tz.d k = 0) (he : ∀ k, b.tz.e k = 0) :
    ∃ b1 b2 : MTLD 2 p,
      demoCoupledGraph.es.foldlM (demoCoupledFile.addEdge demoCoupledGraph) ⟨⟨2, b⟩, [[⟨1, o⟩], [⟨1, a⟩]]⟩ =
        .ok ⟨⟨2, b1⟩, [[⟨1, o⟩], [⟨1, a⟩]]⟩ ∧
      demoCoupledFile.setTransferImpedances demoCoupledGraph ⟨⟨2, b⟩, [[⟨1, o⟩], [⟨1, a⟩]]⟩ =
        .ok ⟨⟨2, b2⟩, [[⟨1, o⟩], [⟨1, a⟩]]⟩ ∧
      (∀ k, b1.tz.d k 1 0 = -5 ∧ b1.tz.e k 1 0 = -2 ∧ b1.tz.d k 0 1 = 0) ∧
      b2.tz.d 0 1 0 = -7 ∧ b2.tz.d 1 1 0 = -5 ∧ b2.tz.d 2 1 0 = -7 ∧ b2.tz.d 0 0 1 = 0 := by
  obtain ⟨b1, h1, l1, m1, t1, v1⟩ := demoCoupled_add b no na hl hdt
  obtain ⟨b2, h2, l2, m2, t2, v2⟩ := demoCoupled_set b1 no na l1 t1 1 0 (.inl ⟨rfl, rfl⟩)
  obtain ⟨b3, h3, -, -, -, v3⟩ := demoCoupled_set b2 no na l2 t2 4 2 (.inr ⟨rfl, by rw [m2, m1, hm]⟩)
  refine ⟨b1, b3, h1, ?_, fun k => ?_, ?_⟩
  · unfold File.setTransferImpedances
    rw [h1]
    show [⟨5, [1]⟩, ⟨5, [4]⟩].foldlM (demoCoupledFile.setEnd demoCoupledGraph) _ = _
    rw [List.foldlM_cons, h2]
    show [⟨5, [4]⟩].foldlM (demoCoupledFile.setEnd demoCoupledGraph) _ = _
    rw [List.foldlM_cons, h3]
    rfl
  · simp [v1, hd, he]
  · simp [v3, v2, v1, hd]

end Mtln
