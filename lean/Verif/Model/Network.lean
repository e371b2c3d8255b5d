import Verif.Model.Bundle
import Mathlib.Data.List.Sort
import Mathlib.Data.Matrix.ColumnRowPartitioned

/-!
# Terminal networks: `Network` and `NetworkD` (networks.py)
-/

namespace Mtln

variable {p : ℕ}

/-- The two ends of a line: side index `0` and `-1` (networks.py:98-101). -/
inductive Side where
  | S | L
  deriving DecidableEq, Repr

/-- A termination as it appears in the third place of a connection (networks.py:54-70); missing keys are `none`. -/
structure Connector where
  connectorType : String
  resistance : Option ℝ := none
  inductance : Option ℝ := none
  capacitance : Option ℝ := none
  connections : Option (List String) := none
  resistanceVector : Option (List ℝ) := none
  inductanceVector : Option (List ℝ) := none
  capacitanceVector : Option (List ℝ) := none

/-- `[node id, conductor, connector]` (networks.py:111-127). -/
structure Connection where
  id : ℤ
  conductor : ℕ
  connector : Connector

/-- One item of the description of a network: a line and `{"connections": …, "side": …, "bundle": …}`. -/
structure LineConnections (p : ℕ) where
  line : AnyLine p
  connections : List Connection
  side : String
  bundleName : String

/-- An entry of `Network.connections` (networks.py:127-134) with the entries of the diagonal of `dx` and of `e_T`
that belong to the node.  The attribute `index` is the position of the node. -/
structure Node where
  id : ℤ
  lineName : String
  lineIndex : ℕ
  side : Side
  bundleName : String
  stateIndex : List ℕ
  dx : ℝ
  eT : ℝ → ℝ

open Classical in
/-- networks.py:52-72 `Network._get_number_of_state_vars_in_connector`. -/
noncomputable def stateVarsIn (c : Connector) (conductor : ℕ) : Py ℕ :=
  if c.connectorType = "Conn_sRLC" then
    match c.inductance, c.capacitance with
    | some L, some C => .ok ((if L ≠ 0 then 1 else 0) + (if C < 10 ^ 22 then 1 else 0))
    | _, _ => .error .KeyError
  else if c.connectorType = "Conn_C" then .ok 1
  else if c.connectorType = "Conn_LCpRs" then .ok 2
  else if c.connectorType = "MultiwireConnector" then
    match c.connections with
    | none => .error .KeyError
    | some l =>
      match l[conductor]? with
      | none => .error .IndexError
      | some t => .ok (if t = "Conn_C" then 1 else if t = "Conn_LCpRs" then 2 else 0)
  else .ok 0

/-- The attributes of a `Network` while its constructor runs. -/
structure NetBuild where
  nodes : List Node := []
  stateVars : ℕ := 0
  /-- the diagonal blocks of `c` -/
  blocks : List (Σ n, Fin n → Fin n → ℝ) := []

/-- networks.py:111-134 `Network._add_node(connection, side_idx, line, bundle_name)`. -/
noncomputable def NetBuild.addNode (B : NetBuild) (side : Side) (line : AnyLine p) (bundleName : String)
    (conn : Connection) : Py NetBuild := do
  pyAssert (0 ≤ conn.id)
  pyAssert (conn.id ∉ B.nodes.map Node.id)
  let k ← stateVarsIn conn.connector conn.conductor
  raiseIf (line.2.m = 0) .IndexError
  if h : conn.conductor < line.1 then
    .ok
      { B with
        stateVars := B.stateVars + k
        nodes := B.nodes ++ [
          { id := conn.id
            lineName := line.2.name
            lineIndex := conn.conductor
            side := side
            bundleName := bundleName
            stateIndex := (List.range k).map (B.stateVars + ·)
            dx := line.2.dun (match side with | .S => 0 | .L => line.2.m - 1)
            eT := line.2.eT (match side with | .S => 0 | .L => line.2.m) ⟨conn.conductor, h⟩ }] }
  else .error .IndexError

/-- networks.py:95-109 `Network._add_nodes_in_line`; `sorted` is a stable sort. -/
noncomputable def NetBuild.addLine (B : NetBuild) (d : LineConnections p) : Py NetBuild := do
  pyAssert (d.side = "S" ∨ d.side = "L")
  let side : Side := if d.side = "S" then .S else .L
  let C : Fin d.line.1 → Fin d.line.1 → ℝ := d.line.2.c (match side with | .S => 0 | .L => d.line.2.m)
  (d.connections.insertionSort fun a b => a.conductor ≤ b.conductor).foldlM
    (fun B conn => B.addNode side d.line d.bundleName conn) { B with blocks := B.blocks ++ [⟨d.line.1, C⟩] }

/-- `A`, `B1`, `B2` (networks.py:253-265). -/
structure VTerms (N S : ℕ) where
  A : Matrix (Fin N ⊕ Fin S) (Fin N ⊕ Fin S) ℝ
  B1 : Matrix (Fin N ⊕ Fin S) (Fin N ⊕ Fin S) ℝ
  B2 : Matrix (Fin N ⊕ Fin S) (Fin N) ℝ

/-- The attributes of a `Network` with `N` nodes and `S` state variables (networks.py:16-49).  The attribute `H` is
always the concatenation of `nw_v` and `X` and is not stored. -/
structure Network (N S : ℕ) where
  nodes : Fin N → Node
  /-- number of rows of the block-diagonal matrix `c` -/
  cSize : ℕ
  c : ℕ → ℕ → ℝ
  P1 : Matrix (Fin N) (Fin N) ℝ
  Ps : Matrix (Fin N) (Fin N) ℝ
  Q1 : Matrix (Fin N) (Fin N) ℝ
  Qs : Matrix (Fin N) (Fin N) ℝ
  M : Matrix (Fin S) (Fin S) ℝ
  N1 : Matrix (Fin S) (Fin N) ℝ
  Ns : Matrix (Fin S) (Fin N) ℝ
  O : Matrix (Fin N) (Fin S) ℝ
  vSources : Fin N → ℝ → ℝ
  v : Fin N → ℝ
  vPrev : Fin N → ℝ
  i : Fin N → ℝ
  X : Fin S → ℝ
  terms : Option (VTerms N S)

/-- A network of some size. -/
abbrev AnyNetwork := Σ N S, Network N S

/-- The network at the end of the constructor (networks.py:32-49). -/
def NetBuild.finish (B : NetBuild) : Network B.nodes.length B.stateVars where
  nodes := B.nodes.get
  cSize := (B.blocks.map Sigma.fst).sum
  c := blockEntry 0 B.blocks
  P1 := 0
  Ps := 0
  Q1 := 0
  Qs := 0
  M := 0
  N1 := 0
  Ns := 0
  O := 0
  vSources := fun _ _ => 0
  v := 0
  vPrev := 0
  i := 0
  X := 0
  terms := none

/-- networks.py:16-49 `Network.__init__(description)`. -/
noncomputable def Network.new (description : List (LineConnections p)) : Py AnyNetwork := do
  let B ← description.foldlM NetBuild.addLine {}
  .ok ⟨_, _, B.finish⟩

variable {N S : ℕ}

/-- `self.connections[id]["index"]`, `none` if there is no such node. -/
def Network.find (nw : Network N S) (id : ℤ) : Option (Fin N) :=
  (List.finRange N).find? fun a => (nw.nodes a).id = id

/-- `assert(node in self.connections.keys())` and the index of the node (networks.py:137-138, …). -/
def Network.assertNode (nw : Network N S) (id : ℤ) : Py (Fin N) :=
  match nw.find id with
  | some a => .ok a
  | none => .error .AssertionError

/-- `self.connections[node]` without an assertion (networks.py:201-202). -/
def Network.getNode (nw : Network N S) (id : ℤ) : Py (Fin N) :=
  match nw.find id with
  | some a => .ok a
  | none => .error .KeyError

/-- `A[a, b] = x`. -/
def putEntry {α β : Type} [DecidableEq α] [DecidableEq β] (A : Matrix α β ℝ) (a : α) (b : β) (x : ℝ) :
    Matrix α β ℝ := Matrix.of fun i j => if i = a ∧ j = b then x else A i j

/-- `A[a, b] += x`. -/
def addEntry {α β : Type} [DecidableEq α] [DecidableEq β] (A : Matrix α β ℝ) (a : α) (b : β) (x : ℝ) :
    Matrix α β ℝ := Matrix.of fun i j => if i = a ∧ j = b then A i j + x else A i j

open Classical in
/-- networks.py:136-143 `connect_to_ground(node, R, Vt)`, networks.py:145-152 `connect_to_ground_R` (same code).
`Vt` is the integer `0` (`none`) or a function of time; `1/R` with `R = 0` raises. -/
noncomputable def Network.connectToGround (nw : Network N S) (node : ℤ) (R : ℝ) (Vt : Option (ℝ → ℝ)) :
    Py (Network N S) := do
  let a ← nw.assertNode node
  let P1 := if R ≠ 0 then putEntry nw.P1 a a (-1 / R) else nw.P1
  match Vt with
  | none => .ok { nw with P1 := P1 }
  | some f =>
    raiseIf (R = 0) .ZeroDivisionError
    .ok { nw with P1 := P1, vSources := Function.update nw.vSources a f, Ps := putEntry nw.Ps a a (1 / R) }

open Classical in
/-- networks.py:154-167 `connect_to_ground_LCpRs(node, R, L, C, Vt)`.  Assigning arrays of two entries to a slice of
another length raises `ValueError` (the slice `x[0]:x[-1]+1` has the length of `state_index`). -/
noncomputable def Network.connectToGroundLCpRs (nw : Network N S) (node : ℤ) (R L C : ℝ) (Vt : Option (ℝ → ℝ)) :
    Py (Network N S) := do
  let a ← nw.assertNode node
  pyAssert (R ≥ 0 ∧ L ≥ 0 ∧ C < 10 ^ 22)
  raiseIf (R * C = 0 ∨ C = 0 ∨ L = 0) .ZeroDivisionError
  raiseIf ((nw.nodes a).stateIndex = []) .IndexError
  match (nw.nodes a).stateIndex with
  | [x, y] =>
    if h : x < S ∧ y < S then
      let x : Fin S := ⟨x, h.1⟩
      let y : Fin S := ⟨y, h.2⟩
      let nw1 : Network N S :=
        { nw with
          M := putEntry (putEntry (putEntry (putEntry nw.M x x (1 / (R * C))) x y (1 / C)) y x (-1 / L)) y y 0
          N1 := putEntry (putEntry nw.N1 x a (-1 / (R * C))) y a 0
          O := putEntry (putEntry nw.O a x (1 / R)) a y 0
          P1 := putEntry nw.P1 a a (-1 / R) }
      let nw2 : (ℝ → ℝ) → Network N S := fun f =>
        { nw1 with
          vSources := Function.update nw.vSources a f
          Ps := putEntry nw.Ps a a (1 / R)
          Ns := putEntry (putEntry nw.Ns x a (1 / (R * C))) y a 0 }
      .ok (match Vt with
        | none => nw1
        | some f => nw2 f)
    else .error .ValueError
  | _ => .error .ValueError

open Classical in
/-- networks.py:169-176 `connect_to_ground_C(node, C, Vt)`. -/
noncomputable def Network.connectToGroundC (nw : Network N S) (node : ℤ) (C : ℝ) (Vt : Option (ℝ → ℝ)) :
    Py (Network N S) := do
  let a ← nw.assertNode node
  let Q1 := if C ≠ 0 then putEntry nw.Q1 a a (-C) else nw.Q1
  match Vt with
  | none => .ok { nw with Q1 := Q1 }
  | some f =>
    .ok { nw with Q1 := Q1, vSources := Function.update nw.vSources a f, Qs := putEntry nw.Qs a a C }

/-- networks.py:178-181 `short_to_ground(node)`. -/
noncomputable def Network.shortToGround (nw : Network N S) (node : ℤ) : Py (Network N S) := do
  let a ← nw.assertNode node
  .ok { nw with P1 := putEntry nw.P1 a a (-10 ^ 10) }

/-- The four entries of a conductance `y` between two nodes (networks.py:189-192, 203-206). -/
def addBranch {α : Type} [DecidableEq α] (P : Matrix α α ℝ) (a b : α) (y : ℝ) : Matrix α α ℝ :=
  addEntry (addEntry (addEntry (addEntry P a a (-y)) a b y) b a y) b b (-y)

open Classical in
/-- networks.py:183-198 `connect_nodes(node1, node2, R, Vt)`; functions are assumed to have a parameter `t`
(utils.py:15-25). -/
noncomputable def Network.connectNodes (nw : Network N S) (node1 node2 : ℤ) (R : ℝ) (Vt : Option (ℝ → ℝ)) :
    Py (Network N S) := do
  let a ← nw.assertNode node1
  let b ← nw.assertNode node2
  pyAssert (R ≠ 0)
  let P1 := addBranch nw.P1 a b (1 / R)
  match Vt with
  | none => .ok { nw with P1 := P1 }
  | some f =>
    let s1 := Function.update nw.vSources a (fun t => nw.vSources a t + f t)
    let s2 := Function.update s1 b (fun t => s1 b t + f t)
    .ok { nw with P1 := P1, Ps := addEntry (addEntry nw.Ps a a (1 / R)) b b (-(1 / R)), vSources := s2 }

/-- networks.py:200-206 `short_nodes(node1, node2)`. -/
noncomputable def Network.shortNodes (nw : Network N S) (node1 node2 : ℤ) : Py (Network N S) := do
  let a ← nw.getNode node1
  let b ← nw.getNode node2
  .ok { nw with P1 := addBranch nw.P1 a b (10 ^ 10) }

/-- The product `dx.dot(c)` when `c` has `N` rows. -/
def Network.dxc (nw : Network N S) : Matrix (Fin N) (Fin N) ℝ :=
  Matrix.of fun a b => (nw.nodes a).dx * nw.c a b

open Classical in
/-- networks.py:253-265 `compute_v_terms(dt)`.  `dx.dot(c)` raises `ValueError` if `c` does not have as many rows as
there are nodes. -/
noncomputable def Network.computeVTerms (dt : ℝ) (nw : Network N S) : Py (Network N S) := do
  raiseIf (nw.cSize ≠ N) .ValueError
  raiseIf (dt = 0) .NotModelled
  .ok
    { nw with
      terms := some
        { A := Matrix.fromBlocks ((1 / dt) • nw.dxc - nw.P1 - (1 / dt) • nw.Q1) (-nw.O) (-(dt • nw.N1)) (1 - dt • nw.M)
          B1 := Matrix.fromBlocks ((1 / dt) • nw.dxc - (1 / dt) • nw.Q1) 0 0 1
          B2 := Matrix.fromRows (nw.Ps + (1 / dt) • nw.Qs) (dt • nw.Ns) } }

/-- The upper part of `B3` (networks.py:218-228) for the sampled sources and fields. -/
noncomputable def Network.known (nw : Network N S) (dt : ℝ) (sPrev sPrev2 eTNow eTPrev : Fin N → ℝ) : Fin N → ℝ :=
  nw.O.mulVec nw.X + nw.P1.mulVec nw.v + nw.Ps.mulVec sPrev + (1 / dt) • nw.Q1.mulVec (nw.v - nw.vPrev)
    + (1 / dt) • nw.Qs.mulVec (sPrev - sPrev2)
    - (1 / dt) • nw.Qs.mulVec sPrev - (2 : ℝ) • nw.i - (1 / dt) • nw.dxc.mulVec (eTNow - eTPrev)

open Classical in
/-- networks.py:208-236 `update_sources(time, dt)` and `advance_voltage(dt)`, always called in this order
(mtln.py:89-90). -/
noncomputable def Network.advanceVoltage (time dt : ℝ) (nw : Network N S) : Py (Network N S) :=
  match nw.terms with
  | none => .error .AttributeError
  | some T => do
    raiseIf (nw.cSize ≠ N) .Exception
    raiseIf (dt = 0) .NotModelled
    raiseIf (T.A.det = 0) .LinAlgError
    let B3 := nw.known dt (fun a => nw.vSources a (time - dt)) (fun a => nw.vSources a (time - 2 * dt))
      (fun a => (nw.nodes a).eT time) (fun a => (nw.nodes a).eT (time - dt))
    let H := T.A⁻¹.mulVec (T.B1.mulVec (Sum.elim nw.v nw.X) + T.B2.mulVec (fun a => nw.vSources a time)
      + Sum.elim B3 0)
    .ok { nw with v := fun a => H (.inl a), X := fun x => H (.inr x), vPrev := nw.v }

/-! ## Exchange with the bundles -/

/-- A bundle with some number of conductors. -/
abbrev AnyBundle (p : ℕ) := Σ n, MTLD n p

/-- The node of a bundle with `m` cells at a side (`v[…, 0]`, `v[…, -1]`). -/
def Side.node (m : ℕ) : Side → ℕ
  | .S => 0
  | .L => m

/-- The cell at a side (`i[…, 0]`, `i[…, -1]`). -/
def Side.cell (m : ℕ) : Side → ℕ
  | .S => 0
  | .L => m - 1

/-- networks.py:243-247 `Network.i_factor`. -/
def Side.factor : Side → ℝ
  | .S => 1
  | .L => -1

/-- `bundles[name]`: names are unique (`MTLN.addBundle`). -/
def findBundle (bs : List (AnyBundle p)) (name : String) : Option (AnyBundle p) := bs.find? fun b => b.2.name = name

/-- One assignment `lines[name].v[row, side] = value` (networks.py:241). -/
structure Write where
  bundle : String
  row : ℕ
  side : Side
  value : ℝ

/-- The effect of an assignment on a bundle of that name. -/
noncomputable def Write.on (w : Write) {n : ℕ} (b : MTLD n p) : MTLD n p :=
  if b.name = w.bundle then
    { b with v := fun k j => if k = w.side.node b.m ∧ (j : ℕ) = w.row then w.value else b.v k j }
  else b

/-- One assignment: `KeyError` without such a bundle, `IndexError` without such a row. -/
noncomputable def Write.run (bs : List (AnyBundle p)) (w : Write) : Py (List (AnyBundle p)) :=
  match findBundle bs w.bundle with
  | none => .error .KeyError
  | some b =>
    if w.row < b.1 then .ok (bs.map fun b => ⟨b.1, w.on b.2⟩) else .error .IndexError

/-- The assignments of `update_voltages`, in order. -/
def Network.writes (nw : Network N S) : List Write :=
  List.ofFn fun a => ⟨(nw.nodes a).bundleName, (nw.nodes a).lineIndex, (nw.nodes a).side, nw.v a⟩

/-- networks.py:239-241 `Network.update_voltages(lines)`. -/
noncomputable def Network.updateVoltages (nw : Network N S) (bs : List (AnyBundle p)) : Py (List (AnyBundle p)) :=
  nw.writes.foldlM Write.run bs

/-- `i_factor(node) * lines[name].i[row, side]` (networks.py:251). -/
noncomputable def readCurrent (bs : List (AnyBundle p)) (d : Node) : Py ℝ :=
  match findBundle bs d.bundleName with
  | none => .error .KeyError
  | some b =>
    if h : d.lineIndex < b.1 ∧ b.2.m ≠ 0 then .ok (d.side.factor * b.2.i (d.side.cell b.2.m) ⟨d.lineIndex, h.1⟩)
    else .error .IndexError

/-- networks.py:249-251 `Network.update_currents(lines)`. -/
noncomputable def Network.updateCurrents (bs : List (AnyBundle p)) (nw : Network N S) : Py (Network N S) :=
  (List.finRange N).foldlM (fun (nw : Network N S) a => do
    let x ← readCurrent bs (nw.nodes a)
    .ok { nw with i := Function.update nw.i a x }) nw

/-! ## Tiered networks -/

/-- `f` applied to the elements of a list in order, stopping at the first exception. -/
def mapPy {α β : Type} (f : α → Py β) : List α → Py (List β)
  | [] => .ok []
  | a :: l => do
    let b ← f a
    let l' ← mapPy f l
    .ok (b :: l')

/-- A method that changes a network, on a network of some size. -/
def onAny (f : ∀ {N S}, Network N S → Py (Network N S)) (nw : AnyNetwork) : Py AnyNetwork := do
  let nw' ← f nw.2.2
  .ok ⟨nw.1, nw.2.1, nw'⟩

/-- networks.py:268-273: a dictionary from levels to networks. -/
abbrev NetworkD := List (ℕ × AnyNetwork)

/-- A method applied to the networks of all levels. -/
def NetworkD.forAll (f : ∀ {N S}, Network N S → Py (Network N S)) (nwd : NetworkD) : Py NetworkD :=
  mapPy (fun (e : ℕ × AnyNetwork) => do
    let nw' ← onAny f e.2
    .ok (e.1, nw')) nwd

/-- One step of `update_index_numbers` (networks.py:277-280) for node `a`. -/
noncomputable def Network.shiftIndex (bs : List (AnyBundle p)) (level : ℕ) (nw : Network N S) (a : Fin N) :
    Py (Network N S) :=
  match findBundle bs (nw.nodes a).bundleName with
  | none => .error .KeyError
  | some b =>
    let d := nw.nodes a
    let d' : Node := { d with lineIndex := d.lineIndex + conductorsBefore b.2.inLevel level }
    .ok { nw with nodes := Function.update nw.nodes a d' }

/-- networks.py:275-280 `NetworkD.update_index_numbers(bundles)`. -/
noncomputable def NetworkD.updateIndexNumbers (bs : List (AnyBundle p)) (nwd : NetworkD) : Py NetworkD :=
  mapPy (fun (e : ℕ × AnyNetwork) => do
    let nw' ← (List.finRange e.2.1).foldlM (Network.shiftIndex bs e.1) e.2.2.2
    .ok (e.1, ⟨_, _, nw'⟩)) nwd

/-- networks.py:282-288 `NetworkD.update_sources`, `NetworkD.advance_voltage`. -/
noncomputable def NetworkD.advanceVoltage (time dt : ℝ) (nwd : NetworkD) : Py NetworkD :=
  nwd.forAll (Network.advanceVoltage time dt)

/-- The assignments of all levels, in order. -/
def NetworkD.writes (nwd : NetworkD) : List Write := nwd.flatMap fun e => e.2.2.2.writes

/-- networks.py:290-292 `NetworkD.update_voltages(bundles)`. -/
noncomputable def NetworkD.updateVoltages (nwd : NetworkD) (bs : List (AnyBundle p)) : Py (List (AnyBundle p)) :=
  nwd.writes.foldlM Write.run bs

/-- networks.py:294-296 `NetworkD.update_currents(bundles)`. -/
noncomputable def NetworkD.updateCurrents (bs : List (AnyBundle p)) (nwd : NetworkD) : Py NetworkD :=
  nwd.forAll (Network.updateCurrents bs)

/-- networks.py:298-300 `NetworkD.compute_v_terms(dt)`. -/
noncomputable def NetworkD.computeVTerms (dt : ℝ) (nwd : NetworkD) : Py NetworkD :=
  nwd.forAll (Network.computeVTerms dt)

end Mtln
