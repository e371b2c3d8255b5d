import Verif.Model.Field
import Verif.Model.Waveforms
import Verif.Model.Construct

/-!
# The reader of input files: `Parser` (jsonParser.py)

The contents of a file are given as Lean data.  Simplifications:

* The strings of elements and coordinates are split into their fields already, and their numbers are in canonical
  notation, so that comparing strings and comparing numbers is the same (jsonParser.py:81, 676-678, 707); Model/Text has the
  look-ups in the strings.
* Keys that the code always reads are present, unless the field is an `Option`.
* Numbers of connectors and sources are reals; `1e22` is `10 ^ 22`.
* `order` stands for the iteration order of a Python `set` of strings (jsonParser.py:332), which Python does not fix.
* A source function that raises or returns `None` at some time is reported as `NotModelled` when it is attached;
  Python would raise when the simulation evaluates it.
-/

namespace Mtln

/-! ## Contents of a file -/

/-- Python dictionaries with insertion order: `d[key] = value`. -/
def dictSet {α β : Type} [DecidableEq α] (d : List (α × β)) (key : α) (value : β) : List (α × β) :=
  if key ∈ d.map Prod.fst then d.map fun e => if e.1 = key then (key, value) else e else d ++ [(key, value)]

/-- `d[key]`. -/
def dictGet {α β : Type} [DecidableEq α] (d : List (α × β)) (key : α) : Py β :=
  match d.find? fun e => e.1 = key with
  | some e => .ok e.2
  | none => .error .KeyError

/-- `l[k]` of a list, `k ≥ 0`. -/
def pyIndex {α : Type} (l : List α) (k : ℕ) : Py α :=
  match l[k]? with
  | some a => .ok a
  | none => .error .IndexError

/-- `d["key"]` of a dictionary that may lack the key. -/
def pyKey {α : Type} : Option α → Py α
  | some a => .ok a
  | none => .error .KeyError

/-- `l[-1]`. -/
def pyLast {α : Type} (l : List α) : Py α :=
  match l.getLast? with
  | some a => .ok a
  | none => .error .IndexError

/-- A number or an array of numbers of the file. -/
inductive JVal where
  | float (x : ℝ)
  | int (k : ℤ)
  | vec (a : List ℝ)
  | mat (rows cols : ℕ) (a : ℕ → ℕ → ℝ)

/-- The fields of the string of an element: id, material, layer, and the ids of its coordinates. -/
abbrev ElemFields := List ℤ

/-- A material of type `"Wire"` or `"Multiwire"`.  The values are those of the last key whose name contains
`"inductance"`, `"capacitance"`, `"resistance"` (jsonParser.py:398-404). -/
structure Wire where
  materialId : ℤ
  inductance : Option JVal := none
  capacitance : Option JVal := none
  resistance : Option JVal := none
  transferImpedance : Option TransferModel := none

/-- A material of type `"Connector"`. -/
structure ConnectorMaterial where
  materialId : ℤ
  connector : Connector
  transferImpedance : Option TransferModel := none
  model : Option RationalModel := none

inductive Material where
  | wire (w : Wire)
  | connector (c : ConnectorMaterial)
  | other

/-- An entry of `"cables"`; an integer `ndiv` is the list of one number. -/
structure Cable where
  name : String
  materialId : ℤ
  initialConnectorId : Option ℤ := none
  endConnectorId : Option ℤ := none
  elemIds : List ℤ
  ndiv : List ℕ

/-- `"nestedElemIds"`: a string of element ids, or a dictionary from element ids to what is inside of them. -/
inductive Nested where
  | ids (l : List ℤ)
  | dict (k : ℕ) (key : Fin k → ℤ) (sub : Fin k → Nested)

structure BundleDesc where
  name : String
  nested : Nested

/-- An entry of `"junctions"` or `"terminations"`: the key `"unitedCoordIds"` or `"coordIds"`. -/
structure Joint where
  name : String
  coordIds : List (List ℤ)

/-- `source["magnitude"]`. -/
structure Magnitude where
  type : String
  amplitude : Option ℝ := none
  riseTime : Option ℝ := none
  fallTime : Option ℝ := none
  f0 : Option ℝ := none
  D : Option ℝ := none
  t0 : Option ℝ := none
  x0 : Option ℝ := none
  s0 : Option ℝ := none
  frequency : Option ℝ := none

structure SourceDesc where
  sourceType : String
  type : String
  elemIds : List ℤ
  cable : Option String := none
  conductor : Option ℕ := none
  magnitude : Magnitude

structure ProbeDesc where
  name : String
  type : String
  elemIds : List ℤ
  cable : Option String := none

structure CableEnd where
  materialId : ℤ
  coordIds : List ℤ

structure Lumped where
  cable : String
  materialId : ℤ
  coordIds : List ℤ
  conductor : ℕ

/-- `self.parsed["model"]`: sections of the file, `none` if absent. -/
structure Json where
  coordinates : Option (List (ℤ × V3)) := none
  elements : Option (List (String × List ElemFields)) := none
  materials : Option (List Material) := none
  cables : Option (List Cable) := none
  bundles : Option (List BundleDesc) := none
  junctions : Option (List Joint) := none
  terminations : Option (List Joint) := none
  sources : Option (List SourceDesc) := none
  probes : Option (List ProbeDesc) := none
  cableEnds : Option (List CableEnd) := none
  lumpedElements : Option (List Lumped) := none

/-- The attributes `_coordinates`, … of the parser (jsonParser.py:15-29). -/
structure File where
  coordinates : List (ℤ × V3) := []
  junctions : List Joint := []
  terminations : List Joint := []
  cables : List Cable := []
  bundles : List BundleDesc := []
  lines : List ElemFields := []
  nodes : List ElemFields := []
  connectors : List ConnectorMaterial := []
  wires : List Wire := []
  probes : List ProbeDesc := []
  sources : List SourceDesc := []
  ends : List CableEnd := []
  lumped : List Lumped := []

/-- `assert "section" in self.parsed["model"].keys()` and the section. -/
def needSection {α : Type} : Option α → Py α
  | some a => .ok a
  | none => .error .AssertionError

/-- jsonParser.py:77-83 `_getCoordinates`. -/
def readCoordinates (l : List (ℤ × V3)) : List (ℤ × V3) := l.foldl (fun d c => dictSet d c.1 c.2) []

/-- jsonParser.py:86-97 `_getLines`, with the names of the sections `"line"` and `"polyline"`, and jsonParser.py:99-109
`_getNodes`, with `"node"`. -/
def readElements (names : List String) (elements : List (String × List ElemFields)) : List ElemFields :=
  (elements.filter fun e => e.1 ∈ names).flatMap Prod.snd

/-- jsonParser.py:14-29 (and 77-171): the attributes of the parser. -/
def Json.read (j : Json) : Py File := do
  let coordinates ← needSection j.coordinates
  let cables ← needSection j.cables
  let bundles ← needSection j.bundles
  let elements ← needSection j.elements
  let materials ← needSection j.materials
  .ok
    { coordinates := readCoordinates coordinates
      junctions := j.junctions.getD []
      terminations := j.terminations.getD []
      cables := cables
      bundles := bundles
      lines := readElements ["line", "polyline"] elements
      nodes := readElements ["node"] elements
      connectors := materials.filterMap fun m => match m with | .connector c => some c | _ => none
      wires := materials.filterMap fun m => match m with | .wire w => some w | _ => none
      probes := j.probes.getD []
      sources := j.sources.getD []
      ends := j.cableEnds.getD []
      lumped := j.lumpedElements.getD [] }

/-! ## Lookups -/

namespace File

variable (F : File)

/-- `self._coordinates[id]`. -/
def coordinate (id : ℤ) : Py V3 := dictGet F.coordinates id

/-- jsonParser.py:674-681 `_getElementOfNode(node_id)`. -/
def elementOfNode (node : ℤ) : Py (ℤ × String) :=
  go F.lines
where
  go : List ElemFields → Py (ℤ × String)
    | [] => .error .Exception
    | e :: l => do
      let first ← pyIndex e 3
      if first = node then
        let id ← pyIndex e 0
        .ok (id, "initial")
      else
        let last ← pyLast e
        if last = node then
          let id ← pyIndex e 0
          .ok (id, "end")
        else go l

/-- `c[side+"ConnectorId"]` (jsonParser.py:686). -/
def connectorIdOf (c : Cable) (side : String) : Py ℤ :=
  pyKey (if side = "initial" then c.initialConnectorId else if side = "end" then c.endConnectorId else none)

/-- jsonParser.py:683-688 `_getConnectorAndCableOnElementSide(el_id, side)`. -/
def connectorAndCableOnSide (el : ℤ) (side : String) : Py (ℤ × String × ℕ) :=
  match F.cables.find? fun c => el ∈ c.elemIds with
  | none => .error .Exception
  | some c => do
    let id ← connectorIdOf c side
    .ok (id, c.name, c.elemIds.idxOf el)

/-- jsonParser.py:668-672 `_JSONside2MTLNside(side)`; the sides are always one of the two. -/
def sideLetter (side : String) : String := if side = "initial" then "S" else "L"

/-- jsonParser.py:659-666 `_getConnectorAndCableInNode(node_id)`. -/
def connectorAndCableInNode (node : ℤ) : Py (Connector × String × ℕ × String) := do
  let (el, side) ← F.elementOfNode node
  let (id, cable, conductor) ← F.connectorAndCableOnSide el side
  match F.connectors.find? fun c => c.materialId = id with
  | none => .error .Exception
  | some c => .ok (c.connector, cable, conductor, sideLetter side)

/-- jsonParser.py:698-703 `_getNodeCoordId(elemId)`; without such a node the message `"…" + elemId` raises
`TypeError`. -/
def nodeCoordId (id : ℤ) : Py ℤ := go F.nodes
where
  go : List ElemFields → Py ℤ
    | [] => .error .TypeError
    | e :: l => do
      let first ← pyIndex e 0
      if first = id then pyLast e else go l

/-- jsonParser.py:705-710 `_getLineElemIdFromCoordId(coordId)`; `TypeError` from the message as above. -/
def lineElemIdFromCoordId (coord : ℤ) : Py ℤ :=
  match F.lines.find? fun e => coord ∈ e.drop 3 with
  | none => .error .TypeError
  | some e => pyIndex e 0

/-- jsonParser.py:712-717 `_getCableWithElemId(elemId)`; `TypeError` from the message as above. -/
def cableWithElemId (id : ℤ) : Py Cable :=
  match F.cables.find? fun c => id ∈ c.elemIds with
  | none => .error .TypeError
  | some c => .ok c

/-- jsonParser.py:380-385 `_getCableFromLineName(name)`. -/
def cableFromLineName (name : String) : Py Cable :=
  match F.cables.find? fun c => c.name = name with
  | none => .error .Exception
  | some c => .ok c

/-- `[cable for cable in self._cables if cable["name"] == name][0]` (jsonParser.py:259, 365, 731). -/
def cableNamed (name : String) : Py Cable := pyIndex (F.cables.filter fun c => c.name = name) 0

/-- `[c for c in self._connectors if c["materialId"] == id][0]` (jsonParser.py:268, 287, 306). -/
def connectorWithId (id : ℤ) : Py ConnectorMaterial := pyIndex (F.connectors.filter fun c => c.materialId = id) 0

/-- jsonParser.py:387-391 `_getWireWithMaterialId(mat_id)`. -/
def wireWithMaterialId (id : ℤ) : Py Wire :=
  match F.wires.find? fun w => w.materialId = id with
  | none => .error .Exception
  | some w => .ok w

/-- jsonParser.py:173-180 `_getTransferImpedance(line)`; `none` is the integer `0`. -/
def transferImpedance (name : String) : Option TransferModel :=
  ((F.cables.filter fun c => c.name = name).flatMap fun c =>
    (F.wires.filter fun w => w.materialId = c.materialId).filterMap Wire.transferImpedance).head?

/-- jsonParser.py:183-189 `_mapElIdsToNames`, the entries whose key is an element. -/
def elemIdsToNames : List (ℤ × String) :=
  F.cables.foldl (fun d c => c.elemIds.foldl (fun d id => dictSet d id c.name) d) []

/-- `self._elemIds_to_cableName[id]`. -/
def cableNameOf (id : ℤ) : Py String := dictGet F.elemIdsToNames id

/-- jsonParser.py:415-421 `_getListOfCoordinates(elemId)`; `none` is Python's `None`. -/
def listOfCoordinates (id : ℤ) : Py (Option (List V3)) := go F.lines
where
  go : List ElemFields → Py (Option (List V3))
    | [] => .ok none
    | e :: l => do
      let first ← pyIndex e 0
      if first = id then do
        let cs ← mapPy F.coordinate (e.drop 3)
        .ok (some cs)
      else go l

end File

/-! ## The graph of a bundle -/

structure Vertex where
  name : ℤ
  level : ℕ
  cable : String

/-- An edge between two vertices, by their names; `Zt = none` is the integer `0`. -/
structure Edge where
  source : ℤ
  target : ℤ
  Zt : Option TransferModel

structure Graph where
  vs : List Vertex := []
  es : List Edge := []

/-- `graph.add_vertex(name, level, cable)`.  igraph finds vertices by name; two vertices of the same name are not
modelled. -/
def Graph.addVertex (g : Graph) (v : Vertex) : Py Graph :=
  if v.name ∈ g.vs.map Vertex.name then .error .NotModelled else .ok { g with vs := g.vs ++ [v] }

/-- A vertex inside of `parent` and the edge to it (jsonParser.py:209-213, 219-221, 224-226). -/
def Graph.addInside (F : File) (parent child : ℤ) (level : ℕ) (g : Graph) : Py Graph := do
  let cable ← F.cableNameOf child
  let g ← g.addVertex { name := child, level := level, cable := cable }
  let parentCable ← F.cableNameOf parent
  .ok { g with es := g.es ++ [{ source := parent, target := child, Zt := F.transferImpedance parentCable }] }

/-- jsonParser.py:204-226 `add_to_graph(graph, parent, nested_dict, level)`.  (The case of a string inside of a dictionary,
218-221, does the same as the call with that string, 223-226.) -/
def Graph.addNested (F : File) : Nested → ℤ → ℕ → Graph → Py Graph
  | .ids l, parent, level, g => l.foldlM (fun g node => Graph.addInside F parent node level g) g
  | .dict k key sub, parent, level, g =>
    (List.finRange k).foldlM (fun g i => do
      let g ← Graph.addInside F parent (key i) level g
      Graph.addNested F (sub i) (key i) (level + 1) g) g

/-- A vertex of level 0. -/
def Graph.addRoot (F : File) (g : Graph) (node : ℤ) : Py Graph := do
  let cable ← F.cableNameOf node
  g.addVertex { name := node, level := 0, cable := cable }

/-- jsonParser.py:202-241 `_buildGraphFromConnections(conn_dict)`. -/
def Graph.build (F : File) : Nested → Py Graph
  | .ids l => l.foldlM (Graph.addRoot F) {}
  | .dict k key sub =>
    (List.finRange k).foldlM (fun g i => do
      let g ← g.addRoot F (key i)
      Graph.addNested F (sub i) (key i) 1 g) {}

/-- `graph.vs[…]` of an end of an edge. -/
def Graph.vertex (g : Graph) (name : ℤ) : Py Vertex :=
  match g.vs.find? fun v => v.name = name with
  | some v => .ok v
  | none => .error .KeyError

/-! ## Sources -/

/-- jsonParser.py:529-579 `_buildSource(source)`: the function of time it returns.  The parameters are read when the
function is called.  `none` is Python's `None`. -/
noncomputable def Magnitude.eval (M : Magnitude) (t : ℝ) : Py (Option ℝ) :=
  if M.type = "trapezoidal" then do
    let A ← pyKey M.amplitude
    let rise ← pyKey M.riseTime
    let fall ← pyKey M.fallTime
    let f0 ← pyKey M.f0
    let D ← pyKey M.D
    let y ← trapezoidalWave t A rise fall f0 D
    .ok (some y)
  else if M.type = "ramp" then do
    let A ← pyKey M.amplitude
    let x0 ← pyKey M.t0
    let y ← rampPulse t A x0
    .ok (some y)
  else if M.type = "gaussian_2" then do
    let A ← pyKey M.amplitude
    let x0 ← pyKey M.x0
    let s0 ← pyKey M.s0
    let y ← gaussian2 t A x0 s0
    .ok (some y)
  else if M.type = "gaussian" then do
    let x0 ← pyKey M.x0
    let s0 ← pyKey M.s0
    let y ← gaussian t x0 s0
    .ok (some y)
  else if M.type = "sin_sq" then do
    let A ← pyKey M.amplitude
    let w ← pyKey M.frequency
    let y ← sinSqPulse t A w
    .ok (some y)
  else if M.type = "sin" then do
    let A ← pyKey M.amplitude
    let w ← pyKey M.frequency
    .ok (some (sinPulse t A w))
  else if M.type = "exp" then do
    let A ← pyKey M.amplitude
    let x0 ← pyKey M.t0
    let y ← wExp t A x0
    .ok (some y)
  else .ok none

open Classical in
/-- The function as a real function of time, if it has a value at all times. -/
noncomputable def Magnitude.function (M : Magnitude) : Py (ℝ → ℝ) :=
  if h : ∃ f : ℝ → ℝ, ∀ t, M.eval t = .ok (some (f t)) then .ok h.choose else .error .NotModelled

/-- jsonParser.py:581-587 `_getTerminalSourceInNode(node)`: `none` is the integer `0`. -/
noncomputable def File.terminalSource (F : File) (node : ℤ) : Py (Option (ℝ → ℝ)) :=
  go (F.sources.filter fun s => s.sourceType = "TerminalSource")
where
  /-- the loop over the node elements for one source -/
  inner (id : Py ℤ) : List ElemFields → Py Bool
    | [] => .ok false
    | n :: l => do
      let first ← pyIndex n 0
      let id' ← id
      if first = id' then
        let last ← pyLast n
        if last = node then .ok true else inner id l
      else inner id l
  go : List SourceDesc → Py (Option (ℝ → ℝ))
    | [] => .ok none
    | s :: l => do
      if ← inner (pyIndex s.elemIds 0) F.nodes then
        let f ← s.magnitude.function
        .ok (some f)
      else go l

/-! ## Lines and bundles -/

/-- `np.array(x)` of an entry of the file (a number gives an array without dimensions, which only fits nothing). -/
def JVal.array : JVal → Arg
  | .float _ => .vec []
  | .int _ => .vec []
  | .vec a => .vec a
  | .mat r c a => .mat r c a

/-- An entry passed on as it is: Python floats are accepted, integers and lists are not. -/
def JVal.plain : JVal → Arg
  | .float x => .scalar x
  | _ => .other

/-- `np.array(R)*np.eye(n)`: broadcast to `n × n`. -/
def JVal.timesEye (n : ℕ) : JVal → Py Arg
  | .float x => .ok (.mat n n fun i j => if i = j then x else 0)
  | .int k => .ok (.mat n n fun i j => if i = j then (k : ℝ) else 0)
  | .vec a =>
    if a.length = n then .ok (.mat n n fun i j => if i = j then a.getD j 0 else 0)
    else if a.length = 1 then .ok (.mat n n fun i j => if i = j then a.getD 0 0 else 0)
    else if n = 1 then .error .NotModelled
    else .error .ValueError
  | .mat r c a =>
    if r = n ∧ c = n then .ok (.mat n n fun i j => if i = j then a i j else 0) else .error .NotModelled

/-- jsonParser.py:397-409: the arguments `l`, `c`, `r` of the line. -/
def Wire.args (w : Wire) : Py (Arg × Arg × Arg) :=
  let L := w.inductance.getD (.float 0)
  let C := w.capacitance.getD (.float 0)
  let R := w.resistance.getD (.float 0)
  match L with
  | .vec a => do
    let r ← R.timesEye a.length
    .ok (L.array, C.array, r)
  | .mat n _ _ => do
    let r ← R.timesEye n
    .ok (L.array, C.array, r)
  | _ => .ok (L.plain, C.plain, R.plain)

/-- jsonParser.py:393-413 `_buildMTLfromLine(line)`.  `None` has no attribute `size` (mtl.py:88). -/
noncomputable def File.buildLine (p : ℕ) (F : File) (name : String) : Py (AnyLine p) := do
  let cable ← F.cableFromLineName name
  let el ← pyIndex cable.elemIds 0
  let positions ← F.listOfCoordinates el
  let w ← F.wireWithMaterialId cable.materialId
  let (l, c, r) ← w.args
  match positions with
  | none => .error .AttributeError
  | some pos => MTL.new p l c r (.scalar 0) 1 pos cable.ndiv (.scalar 0) (.scalar 0) cable.name

variable {p : ℕ}

/-- jsonParser.py:263-278 `_addLumpedElement(line)`.  (A conductor number out of range raises `IndexError`, here before the
position is examined.) -/
noncomputable def File.addLumped (F : File) (L : AnyLine p) : Py (AnyLine p) :=
  if F.lumped = [] then .ok L
  else do
    let e ← pyIndex (F.lumped.filter fun e => e.cable = L.2.name) 0
    let c ← F.connectorWithId e.materialId
    match c.model with
    | none => .error .Exception
    | some M => do
      let ps ← mapPy F.coordinate e.coordIds
      let position ← pyIndex ps 0
      if h : e.conductor < L.1 then do
        let s ← L.2.addDispersiveConnector position ⟨e.conductor, h⟩ M
        .ok ⟨L.1, s⟩
      else .error .IndexError

/-- The body of the loop of `_addConnectorsResistance` for one cable and one end (jsonParser.py:284-290). -/
noncomputable def File.addEndResistance (F : File) (c : Cable) (L : AnyLine p) (e : CableEnd) : Py (AnyLine p) := do
  let node ← pyIndex e.coordIds 0
  let (el, _) ← F.elementOfNode node
  if el ∈ c.elemIds then
    let x ← F.coordinate node
    let conn ← F.connectorWithId e.materialId
    let R ← pyKey conn.connector.resistance
    let s ← L.2.setResistanceInRegion (.list x) (.list x) (c.elemIds.idxOf el) R
    .ok ⟨L.1, s⟩
  else .ok L

/-- jsonParser.py:281-290 `_addConnectorsResistance(line)`. -/
noncomputable def File.addEndResistances (F : File) (L : AnyLine p) : Py (AnyLine p) :=
  (F.cables.filter fun c => c.name = L.2.name).foldlM (fun L c => F.ends.foldlM (F.addEndResistance c) L) L

/-- A bundle with the lines of its levels (the attribute `levels`, mtl.py:620). -/
structure PBundle (p : ℕ) where
  bundle : AnyBundle p
  levels : List (List (AnyLine p))

/-- The names of the lines of a level. -/
def lineNames (lines : List (AnyLine p)) : List String := lines.map fun L => L.2.name

/-- jsonParser.py:244-260 `_findConductorNumberInLevel(graph, node, bundle)`. -/
def File.conductorNumber (F : File) (v : Vertex) (B : PBundle p) : Py ℕ := do
  let lines ← pyIndex B.levels v.level
  let before := ((lines.takeWhile fun L => L.2.name ≠ v.cable).map Sigma.fst).sum
  let cable ← F.cableNamed v.cable
  if v.name ∈ cable.elemIds then .ok (before + cable.elemIds.idxOf v.name) else .error .ValueError

/-- A change of the simulated bundle. -/
def PBundle.change (B : PBundle p) (f : ∀ {n}, MTLD n p → Py (MTLD n p)) : Py (PBundle p) := do
  let b ← f B.bundle.2
  .ok { B with bundle := ⟨_, b⟩ }

/-- jsonParser.py:293-299: one edge of the graph.  The integer `0` has no attribute `keys` (dispersive.py:161). -/
noncomputable def File.addEdge (F : File) (g : Graph) (B : PBundle p) (e : Edge) : Py (PBundle p) := do
  let s ← g.vertex e.source
  let t ← g.vertex e.target
  let a ← F.conductorNumber s B
  let b ← F.conductorNumber t B
  match e.Zt with
  | none => do
    pyAssert (adjacentLevels s.level t.level)
    .error .AttributeError
  | some Z => B.change fun bundle => bundle.addTransferImpedance s.level [a] t.level [b] Z

/-- jsonParser.py:304-315: one edge that leaves the element `el`, for an end of a cable. -/
noncomputable def File.setEndOnEdge (F : File) (g : Graph) (side : String) (c : CableEnd) (B : PBundle p) (e : Edge) :
    Py (PBundle p) := do
  let conn ← F.connectorWithId c.materialId
  let Z ← pyKey conn.transferImpedance
  let s ← g.vertex e.source
  let t ← g.vertex e.target
  let a ← F.conductorNumber s B
  let b ← F.conductorNumber t B
  B.change fun bundle => bundle.setConnectorTransferImpedance side s.level [a] t.level [b] Z

/-- jsonParser.py:301-315: one end of a cable. -/
noncomputable def File.setEnd (F : File) (g : Graph) (B : PBundle p) (c : CableEnd) : Py (PBundle p) := do
  let node ← pyIndex c.coordIds 0
  let (el, side) ← F.elementOfNode node
  (g.es.filter fun e => e.source = el).foldlM (F.setEndOnEdge g side c) B

/-- jsonParser.py:292-315 `_setBundleTransferImpedance(bundle, graph)`. -/
noncomputable def File.setTransferImpedances (F : File) (g : Graph) (B : PBundle p) : Py (PBundle p) := do
  let B ← g.es.foldlM (F.addEdge g) B
  F.ends.foldlM (F.setEnd g) B

/-- The names of the cables of a level, in the order of the vertices. -/
def Graph.cablesAt (g : Graph) (level : ℕ) : List String :=
  (g.vs.filter fun v => v.level = level).map Vertex.cable

/-- `max([v["level"] for v in graph.vs])+1` (jsonParser.py:330). -/
def Graph.levels (g : Graph) : Py ℕ :=
  if g.vs = [] then .error .ValueError else .ok ((g.vs.map Vertex.level).foldl max 0 + 1)

/-- One line of a level, with its resistances and lumped elements (jsonParser.py:333-336). -/
noncomputable def File.finishedLine (p : ℕ) (F : File) (name : String) : Py (AnyLine p) := do
  let L ← F.buildLine p name
  let L ← F.addEndResistances L
  F.addLumped L

/-- The attributes `bundles`, `_name_to_mtl`, `_name_to_bundle` (the name of the bundle), `networks` and `probes` (the
position of the probe in its bundle) of the parser. -/
structure Parsed (p : ℕ) where
  file : File
  bundles : List (PBundle p) := []
  nameToLine : List (String × AnyLine p) := []
  nameToBundle : List (String × String) := []
  networks : List NetworkD := []
  probes : List (String × ℕ × ℕ) := []

/-- jsonParser.py:324-351: one bundle. -/
noncomputable def Parsed.addBundle (order : List String → List String) (P : Parsed p) (d : BundleDesc) :
    Py (Parsed p) := do
  let g ← Graph.build P.file d.nested
  let k ← g.levels
  let levels ← mapPy (fun i => mapPy (P.file.finishedLine p) (order (g.cablesAt i))) (List.range k)
  let b ← MTLD.new levels d.name
  let B ← P.file.setTransferImpedances g { bundle := b, levels := levels }
  .ok
    { P with
      bundles := P.bundles ++ [B]
      nameToLine := levels.flatten.foldl (fun d L => dictSet d L.2.name L) P.nameToLine
      nameToBundle := levels.flatten.foldl (fun m L => dictSet m L.2.name d.name) P.nameToBundle }

/-- jsonParser.py:719-726 `_getBundleWithCable(cable)`, as the position of the bundle; a dictionary has no attribute
`name`. -/
def Parsed.bundleWithCable (P : Parsed p) (name : String) : Py ℕ :=
  match P.bundles.findIdx? fun B => name ∈ lineNames B.levels.flatten with
  | some k => .ok k
  | none => .error .AttributeError

/-- A change of the bundle at a position. -/
def Parsed.changeBundle (P : Parsed p) (k : ℕ) (f : ∀ {n}, MTLD n p → Py (MTLD n p)) : Py (Parsed p) := do
  let B ← pyIndex P.bundles k
  let B' ← B.change f
  .ok { P with bundles := P.bundles.set k B' }

/-- jsonParser.py:362-378: one distributed source. -/
noncomputable def Parsed.addSource (P : Parsed p) (s : SourceDesc) : Py (Parsed p) := do
  let name ← pyKey s.cable
  let cable ← P.file.cableNamed name
  let k ← P.bundleWithCable cable.name
  let conductor := s.conductor.getD 0
  if s.type = "localized efield drive" ∨ s.type = "Planewave" then do
    let e0 ← pyIndex s.elemIds 0
    let n0 ← P.file.nodeCoordId e0
    let x0 ← P.file.coordinate n0
    let e1 ← pyIndex s.elemIds 1
    let n1 ← P.file.nodeCoordId e1
    let x1 ← P.file.coordinate n1
    let f ← s.magnitude.function
    P.changeBundle k fun {n} b =>
      if h : conductor < n then b.addLocalizedField (.list x0) (.list x1) ⟨conductor, h⟩ f s.type
      else .error .IndexError
  else .ok P

/-- jsonParser.py:361-378 `_addSources`. -/
noncomputable def Parsed.addSources (P : Parsed p) : Py (Parsed p) :=
  (P.file.sources.filter fun s => s.sourceType = "DistributedSource").foldlM Parsed.addSource P

/-- jsonParser.py:354-358 `_getBundleFromElemId(elemId)`. -/
def Parsed.bundleFromElemId (P : Parsed p) (id : ℤ) : Py ℕ := do
  let c ← P.file.nodeCoordId id
  let el ← P.file.lineElemIdFromCoordId c
  let cable ← P.file.cableWithElemId el
  P.bundleWithCable cable.name

/-- jsonParser.py:729-735: one probe. -/
noncomputable def Parsed.addProbe (P : Parsed p) (d : ProbeDesc) : Py (Parsed p) := do
  let k ← (match d.cable with
    | some name => do
      let cable ← P.file.cableNamed name
      P.bundleWithCable cable.name
    | none => do
      let id ← pyIndex d.elemIds 0
      P.bundleFromElemId id : Py ℕ)
  let id ← pyIndex d.elemIds 0
  let c ← P.file.nodeCoordId id
  let x ← P.file.coordinate c
  let B ← pyIndex P.bundles k
  let P' ← P.changeBundle k fun b => b.addProbe (.list x) d.type
  .ok { P' with probes := dictSet P'.probes d.name (k, B.bundle.2.probes.length) }

/-- jsonParser.py:728-735 `_addProbes`. -/
noncomputable def Parsed.addProbes (P : Parsed p) : Py (Parsed p) := P.file.probes.foldlM Parsed.addProbe P

/-! ## Networks -/

open Classical in
/-- jsonParser.py:427-436 `_getNetworkTerminationList`, jsonParser.py:589-598 `_getNetworkJunctionList` (the same code with
another key): the joints with the same first coordinate, as a dictionary from coordinates to lists of joints. -/
noncomputable def File.groupStep (F : File) (d : List (V3 × List Joint)) (t : Joint) : Py (List (V3 × List Joint)) := do
  let cs ← pyIndex t.coordIds 0
  let c ← pyIndex cs 0
  let x ← F.coordinate c
  match d.find? fun e => e.1 = x with
  | some e => .ok (dictSet d x (e.2 ++ [t]))
  | none => .ok (dictSet d x [t])

/-- The lists of joints, in the order of first appearance. -/
noncomputable def File.groupJoints (F : File) (ts : List Joint) : Py (List (List Joint)) := do
  let d ← ts.foldlM F.groupStep []
  .ok (d.map Prod.snd)

/-- jsonParser.py:438-443 `_getLevelOfCable(cable_name)`. -/
def Parsed.levelOfCable (P : Parsed p) (name : String) : Py ℕ :=
  match P.bundles.findSome? fun B => B.levels.findIdx? fun lines => name ∈ lineNames lines with
  | some k => .ok k
  | none => .error .Exception

/-- The entries of the lists `d["nodes"]`, `d["connectors"]`, `d["conductors"]`, `d["sources"]` for one coordinate
(jsonParser.py:467-470, 623-626). -/
structure Pin where
  node : ℤ
  connector : Connector
  conductor : ℕ
  source : Option (ℝ → ℝ)

/-- The variables of the loops over the coordinates of one joint: `description` by the name of the line, `connections`,
and `bundle_level`. -/
structure JointBuild (p : ℕ) where
  description : List (String × LineConnections p) := []
  groups : List (List Pin) := []
  level : ℕ := 0

/-- jsonParser.py:456-466, 611-621: one coordinate.  In a junction a node that is in the description already is not added
again (`once`); the comparison of the whole connection there amounts to that of the node. -/
noncomputable def Parsed.describe (P : Parsed p) (once : Bool) (desc : List (String × LineConnections p)) (c : ℤ) :
    Py (List (String × LineConnections p) × ℕ × Pin) := do
  let (conn, cable, conductor, side) ← P.file.connectorAndCableInNode c
  let source ← P.file.terminalSource c
  let level ← P.levelOfCable cable
  let line ← dictGet P.nameToLine cable
  let bundle ← dictGet P.nameToBundle cable
  let entry : LineConnections p :=
    match desc.find? fun e => e.1 = cable with
    | some e => e.2
    | none => { line := line, connections := [], side := side, bundleName := bundle }
  let connections :=
    if once ∧ c ∈ entry.connections.map Connection.id then entry.connections
    else entry.connections ++ [{ id := c, conductor := conductor, connector := conn }]
  .ok (dictSet desc cable { entry with connections := connections }, level, ⟨c, conn, conductor, source⟩)

/-- The loop over the coordinates of one group of a joint. -/
noncomputable def Parsed.describeGroup (P : Parsed p) (once : Bool) (B : JointBuild p) (coords : List ℤ) :
    Py (JointBuild p) := do
  let r ← coords.foldlM (fun (r : JointBuild p × List Pin) c => do
    let (desc, level, pin) ← P.describe once r.1.description c
    .ok ({ r.1 with description := desc, level := level }, r.2 ++ [pin])) (B, [])
  .ok { r.1 with groups := r.1.groups ++ [r.2] }

/-- The description of the network of one joint, its groups of pins, and its level (jsonParser.py:451-471, 606-628). -/
noncomputable def Parsed.describeJoint (P : Parsed p) (once : Bool) (t : Joint) : Py (JointBuild p) :=
  t.coordIds.foldlM (P.describeGroup once) {}

variable {N S : ℕ}

/-- jsonParser.py:477-492: the termination of a single node. -/
noncomputable def Network.terminateSingle (nw : Network N S) (e : Pin) : Py (Network N S) :=
  if e.connector.connectorType = "Conn_short" then nw.shortToGround e.node
  else if e.connector.connectorType = "Conn_sRLC" ∨ e.connector.connectorType = "Conn_R" then do
    let R ← pyKey e.connector.resistance
    nw.connectToGround e.node R e.source
  else if e.connector.connectorType = "Conn_C" then do
    let C ← pyKey e.connector.capacitance
    nw.connectToGroundC e.node C e.source
  else if e.connector.connectorType = "Conn_LCpRs" then do
    let R ← pyKey e.connector.resistance
    let L ← pyKey e.connector.inductance
    let C ← pyKey e.connector.capacitance
    nw.connectToGroundLCpRs e.node R L C e.source
  else .ok nw

/-- `vector[conductor]` or a default if there is no such vector (jsonParser.py:498-509). -/
def vectorEntry (v : Option (List ℝ)) (conductor : ℕ) (default : ℝ) : Py ℝ :=
  match v with
  | some l => pyIndex l conductor
  | none => .ok default

/-- jsonParser.py:496-519: a node is terminated with entry `conductor` of a connector, and a source. -/
noncomputable def Network.terminateWith (nw : Network N S) (node : ℤ) (conductor : ℕ) (c : Connector)
    (source : Py (Option (ℝ → ℝ))) : Py (Network N S) :=
  if c.connectorType = "MultiwireConnector" then do
    let R ← vectorEntry c.resistanceVector conductor 0
    let C ← vectorEntry c.capacitanceVector conductor (10 ^ 22)
    let L ← vectorEntry c.inductanceVector conductor 0
    let ts ← pyKey c.connections
    let type ← pyIndex ts conductor
    if type = "Conn_short" then nw.shortToGround node
    else if type = "Conn_R" ∨ type = "Conn_sRLC" then do
      let f ← source
      nw.connectToGround node R f
    else if type = "Conn_LCpRs" then do
      let f ← source
      nw.connectToGroundLCpRs node R L C f
    else if type = "Conn_C" then do
      let f ← source
      nw.connectToGroundC node C f
    else .ok nw
  else .ok nw

/-- jsonParser.py:494-519: one node of a group of several; connectors and sources are taken at the position `conductor`
of the group. -/
noncomputable def Network.terminateMulti (group : List Pin) (nw : Network N S) (e : Pin) : Py (Network N S) := do
  let other ← pyIndex group e.conductor
  nw.terminateWith e.node e.conductor other.connector (.ok other.source)

/-- jsonParser.py:476-519: one group of nodes. -/
noncomputable def Network.terminate (nw : Network N S) (group : List Pin) : Py (Network N S) :=
  match group with
  | [] => .ok nw
  | [e] => nw.terminateSingle e
  | _ => group.foldlM (Network.terminateMulti group) nw

/-- The resistance a connector contributes to a junction (jsonParser.py:638-648). -/
def junctionResistance (c : Connector) (conductor : ℕ) : Py ℝ :=
  if c.connectorType = "Conn_sRLC" ∨ c.connectorType = "Conn_R" then pyKey c.resistance
  else if c.connectorType = "MultiwireConnector" then do
    let ts ← pyKey c.connections
    let type ← pyIndex ts conductor
    if type = "Conn_R" ∨ type = "Conn_sRLC" then do
      let v ← pyKey c.resistanceVector
      pyIndex v conductor
    else .ok 0
  else .ok 0

/-- `add_t_functions` of two sources (utils.py:13-25): `0` or a function of `t`. -/
def addSources : Option (ℝ → ℝ) → Option (ℝ → ℝ) → Option (ℝ → ℝ)
  | none, none => none
  | none, some g => some g
  | some f, none => some f
  | some f, some g => some fun t => f t + g t

open Classical in
/-- jsonParser.py:632-653: one pair of nodes of a junction. -/
noncomputable def Network.join (nw : Network N S) (group : List Pin) : Py (Network N S) :=
  match group with
  | [e0, e1] => do
    let R0 ← junctionResistance e0.connector e0.conductor
    let R1 ← junctionResistance e1.connector e1.conductor
    if R1 + R0 = 0 then nw.shortNodes e0.node e1.node
    else nw.connectNodes e0.node e1.node (R0 + R1) (addSources e0.source e1.source)
  | _ => .error .ValueError

/-- The network of one joint and its level; `f` connects one group of nodes. -/
noncomputable def Parsed.jointNetwork (P : Parsed p) (once : Bool)
    (f : ∀ {N S}, Network N S → List Pin → Py (Network N S)) (t : Joint) : Py (ℕ × AnyNetwork) := do
  let B ← P.describeJoint once t
  let nw ← Network.new (B.description.map Prod.snd)
  let nw' ← B.groups.foldlM (fun nw g => f nw g) nw.2.2
  .ok (B.level, ⟨_, _, nw'⟩)

/-- `networkd[bundle_level] = network` for the joints of one position (jsonParser.py:449-526, 602-655). -/
noncomputable def Parsed.jointNetworks (P : Parsed p) (once : Bool)
    (f : ∀ {N S}, Network N S → List Pin → Py (Network N S)) (ts : List Joint) : Py NetworkD :=
  ts.foldlM (fun (d : NetworkD) t => do
    let r ← P.jointNetwork once f t
    .ok (dictSet d r.1 r.2)) []

/-- jsonParser.py:446-527 `_buildTerminations`. -/
noncomputable def Parsed.buildTerminations (P : Parsed p) : Py (List NetworkD) := do
  let gs ← P.file.groupJoints P.file.terminations
  mapPy (P.jointNetworks false fun nw g => nw.terminate g) gs

/-- jsonParser.py:601-657 `_buildJunctions`. -/
noncomputable def Parsed.buildJunctions (P : Parsed p) : Py (List NetworkD) := do
  let gs ← P.file.groupJoints P.file.junctions
  mapPy (P.jointNetworks true fun nw g => nw.join g) gs

/-- jsonParser.py:423-424 `_buildNetworks`. -/
noncomputable def Parsed.buildNetworks (P : Parsed p) : Py (Parsed p) := do
  let js ← P.buildJunctions
  let ts ← P.buildTerminations
  .ok { P with networks := js ++ ts }

/-- jsonParser.py:318-352 `_buildBundles`. -/
noncomputable def Parsed.buildBundles (order : List String → List String) (P : Parsed p) : Py (Parsed p) :=
  P.file.bundles.foldlM (Parsed.addBundle order) P

/-- jsonParser.py:12-35 `Parser.__init__(filename)`. -/
noncomputable def Parsed.new (p : ℕ) (order : List String → List String) (j : Json) : Py (Parsed p) := do
  let F ← j.read
  let P ← Parsed.buildBundles order { file := F }
  let P ← P.addSources
  let P ← P.addProbes
  P.buildNetworks

/-- The manager a run of the parser sets up (jsonParser.py:38-46). -/
noncomputable def Parsed.manager (P : Parsed p) (dt : ℝ) : Py (MTLN p) := do
  let M ← (P.bundles.map fun B => B.bundle).foldlM (fun (M : MTLN p) (b : AnyBundle p) =>
    M.addBundle (if dt = 0 then b else ⟨b.1, b.2.withDt dt⟩)) {}
  let M ← P.networks.foldlM MTLN.addNetwork M
  .ok (if dt = 0 then M else { M with dt := dt })

/-- The parser after a run: its bundles and networks are the objects of the manager. -/
def Parsed.after (P : Parsed p) (M : MTLN p) : Parsed p :=
  { P with
    bundles := P.bundles.zipWith (fun B b => { B with bundle := b }) M.bundles
    networks := M.networks }

/-- jsonParser.py:37-47 `Parser.run(finalTime, dt)`. -/
noncomputable def Parsed.run (P : Parsed p) (finalTime dt : ℝ) : Py (Parsed p) := do
  let M ← P.manager dt
  let M ← M.runUntil finalTime 0
  .ok (P.after M)

/-- jsonParser.py:49-61 `Parser.runWithExternalField(finalTime, dt, field, distances)`. -/
noncomputable def Parsed.runWithField (P : Parsed p) (finalTime dt : ℝ) (E : Field) (D : Distances) :
    Py (Parsed p) := do
  let M ← P.manager dt
  let M ← M.addExternalField E D
  let M ← M.runUntil finalTime 0
  .ok (P.after M)

/-- jsonParser.py:63-75 `Parser.runWithLocalizedExternalField(finalTime, dt, bundle_name, field, distances,
field_localization)`. -/
noncomputable def Parsed.runWithLocalizedField (P : Parsed p) (finalTime dt : ℝ) (bundle : String) (E : Field)
    (D : Distances) (start stop : V3) : Py (Parsed p) := do
  let M ← P.manager dt
  let M ← M.addLocalizedExternalField bundle E D start stop
  let M ← M.runUntil finalTime 0
  .ok (P.after M)

end Mtln
