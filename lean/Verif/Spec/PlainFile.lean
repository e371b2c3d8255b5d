import Verif.Model.Parser
import Verif.Spec.Program

/-!
# Vocabulary for statements about files of cables without shields
-/

namespace Mtln

variable {p : ℕ}

/-- A connector of resistors and capacitors only, none of them negative. -/
structure Connector.IsRC (c : Connector) : Prop where
  resistance : ∀ R, c.resistance = some R → 0 ≤ R
  resistances : ∀ v, c.resistanceVector = some v → ∀ R ∈ v, 0 ≤ R
  capacitance : ∀ C, c.capacitance = some C → 0 ≤ C
  capacitances : ∀ v, c.capacitanceVector = some v → ∀ C ∈ v, 0 ≤ C
  type : c.connectorType ≠ "Conn_LCpRs"
  types : ∀ ts, c.connections = some ts → "Conn_LCpRs" ∉ ts

/-- The coordinate is the end of conductor `k` of the cable on the side `"S"` or `"L"`. -/
def File.EndAt (F : File) (coord : ℤ) (cable : String) (k : ℕ) (side : String) : Prop :=
  ∃ x, F.connectorAndCableInNode coord = .ok (x, cable, k, side)

/-- The position of a joint: that of its first coordinate. -/
def File.JointAt (F : File) (t : Joint) (x : V3) : Prop :=
  ∃ c cs r, t.coordIds = (c :: cs) :: r ∧ F.coordinate c = .ok x

/-- A joint takes a cable by one of its sides, every conductor of it once. -/
structure File.JointComplete (p : ℕ) (F : File) (t : Joint) : Prop where
  side : ∀ c ∈ t.coordIds.flatten, ∀ c' ∈ t.coordIds.flatten, ∀ cable k k' s s', F.EndAt c cable k s →
    F.EndAt c' cable k' s' → s = s' ∧ (k = k' → c = c')
  all : ∀ c ∈ t.coordIds.flatten, ∀ cable k s L, F.EndAt c cable k s → F.finishedLine p cable = .ok L →
    ∀ k' < L.1, ∃ c' ∈ t.coordIds.flatten, ∃ s', F.EndAt c' cable k' s'

/-- A file of cables without shields, each one in a bundle of its own, with proper lines, resistors and capacitors as connectors,
junctions at different positions, terminations at different positions, and no end of a cable in two of them. -/
structure File.Plain (p : ℕ) (F : File) : Prop where
  bundles : ∀ d ∈ F.bundles, ∃ ids cable, d.nested = .ids ids ∧ ids ≠ [] ∧ ∀ id ∈ ids, F.cableNameOf id = .ok cable
  names : (F.bundles.map BundleDesc.name).Nodup
  cables : F.bundles.Pairwise fun d d' => ∀ ids ids', d.nested = .ids ids → d'.nested = .ids ids' →
    ∀ id ∈ ids, ∀ id' ∈ ids', F.cableNameOf id ≠ F.cableNameOf id'
  lines : ∀ name L, F.finishedLine p name = .ok L → L.2.Proper
  probes : ∀ q ∈ F.probes, q.type = "voltage" ∨ q.type = "current"
  connectors : ∀ m ∈ F.connectors, m.connector.IsRC
  junctions : F.junctions.Pairwise fun t t' => ¬ ∃ x, F.JointAt t x ∧ F.JointAt t' x
  terminations : F.terminations.Pairwise fun t t' => ¬ ∃ x, F.JointAt t x ∧ F.JointAt t' x
  complete : ∀ t ∈ F.junctions ++ F.terminations, F.JointComplete p t
  once : (F.junctions ++ F.terminations).Pairwise fun t t' => ∀ c ∈ t.coordIds.flatten, ∀ c' ∈ t'.coordIds.flatten,
    ∀ cable k k' s s', F.EndAt c cable k s → F.EndAt c' cable k' s' → s ≠ s'

/-- A resistance per unit length of a file without negative entries on the diagonal. -/
def JVal.NonNeg : JVal → Prop
  | .float x => 0 ≤ x
  | .int k => 0 ≤ k
  | .vec a => ∀ x ∈ a, 0 ≤ x
  | .mat _ _ a => ∀ i, 0 ≤ a i i

/-- A wire with positive inductance and capacitance, or with symmetric positive definite matrices, and resistances that are not
negative. -/
structure Wire.IsPhysical (w : Wire) : Prop where
  lc : (∃ x y, w.inductance = some (.float x) ∧ w.capacitance = some (.float y) ∧ 0 < x ∧ 0 < y) ∨
    ∃ n A B, w.inductance = some (.mat n n A) ∧ w.capacitance = some (.mat n n B) ∧
      SPD (.of fun i j : Fin n => A i j) ∧ SPD (.of fun i j : Fin n => B i j)
  r : ∀ R, w.resistance = some R → R.NonNeg

/-- Cables of physical wires, with the same number of cells on every segment, segments of positive length, no lumped elements,
and resistances at their ends for single conductors only. -/
structure File.PhysicalCables (F : File) : Prop where
  wires : ∀ w ∈ F.wires, w.IsPhysical
  cells : ∀ c ∈ F.cables, ∃ d > 0, ∀ x ∈ c.ndiv, x = d
  segments : ∀ c ∈ F.cables, ∀ id ps, c.elemIds[0]? = some id → F.listOfCoordinates id = .ok (some ps) → ps.IsChain (· ≠ ·)
  lumped : F.lumped = []
  ends : F.ends = [] ∨ (∀ w ∈ F.wires, ∃ x, w.inductance = some (.float x)) ∧
    ∀ m ∈ F.connectors, ∀ R, m.connector.resistance = some R → 0 ≤ R

/-- All sources of the file are functions of a kind. -/
def File.SourcesIn (F : File) (W : Set (ℝ → ℝ)) : Prop :=
  ∀ s ∈ F.sources, ∀ f : ℝ → ℝ, (∀ t, s.magnitude.eval t = .ok (some (f t))) → f ∈ W

/-- A connector that puts a resistance or a short circuit between a single conductor and the ground. -/
def Connector.Grounds (c : Connector) : Prop :=
  c.connectorType = "Conn_short" ∨
    (c.connectorType = "Conn_R" ∨ c.connectorType = "Conn_sRLC") ∧ ∃ R, c.resistance = some R ∧ R ≠ 0

/-- A connector that does so for entry `k` of several conductors. -/
def Connector.GroundsAt (c : Connector) (k : ℕ) : Prop :=
  c.connectorType = "MultiwireConnector" ∧ ∃ ts, c.connections = some ts ∧
    (ts[k]? = some "Conn_short" ∨ (ts[k]? = some "Conn_R" ∨ ts[k]? = some "Conn_sRLC") ∧
      ∃ v R, c.resistanceVector = some v ∧ v[k]? = some R ∧ R ≠ 0)

/-- The coordinate `c` of a group of a termination is connected with the ground: alone by its connector, with others by the
connector of the coordinate that comes at the place of its conductor. -/
def File.GroundsIn (F : File) (group : List ℤ) (c : ℤ) : Prop :=
  (group = [c] ∧ ∃ x cable k s, F.connectorAndCableInNode c = .ok (x, cable, k, s) ∧ x.Grounds) ∨
    (2 ≤ group.length ∧ ∃ cable k s c' x' cable' k' s', F.EndAt c cable k s ∧ group[k]? = some c' ∧
      F.connectorAndCableInNode c' = .ok (x', cable', k', s') ∧ x'.GroundsAt k)

/-- Every cable of a bundle has a termination that connects all its conductors at one side with the ground. -/
def File.Grounded (F : File) : Prop :=
  ∀ d ∈ F.bundles, ∀ ids, d.nested = .ids ids → ∀ id ∈ ids, ∀ cable, F.cableNameOf id = .ok cable →
    ∃ t ∈ F.terminations, (∃ c ∈ t.coordIds.flatten, ∃ k s, F.EndAt c cable k s) ∧
      ∀ group ∈ t.coordIds, ∀ c ∈ group, ∀ k s, F.EndAt c cable k s → F.GroundsIn group c

/-! ## Files whose references can be resolved -/

/-- The cable is in a bundle. -/
def File.Bundled (F : File) (cable : String) : Prop :=
  ∃ d ∈ F.bundles, ∃ ids, d.nested = .ids ids ∧ ∃ id ∈ ids, F.cableNameOf id = .ok cable

/-- The connector has the entries that tell the components at conductor `k`. -/
def Connector.HasEntry (c : Connector) (k : ℕ) : Prop :=
  (c.connectorType = "Conn_sRLC" → c.inductance ≠ none ∧ c.capacitance ≠ none) ∧
    (c.connectorType = "MultiwireConnector" → ∃ ts, c.connections = some ts ∧ k < ts.length)

/-- The connector has the values needed to terminate a single conductor with the source `s`: a source needs a resistance that is
not zero. -/
def Connector.Terminates (c : Connector) (s : Option (ℝ → ℝ)) : Prop :=
  (c.connectorType = "Conn_R" ∨ c.connectorType = "Conn_sRLC" → ∃ R, c.resistance = some R ∧ (R = 0 → s = none)) ∧
    (c.connectorType = "Conn_C" → c.capacitance ≠ none)

/-- The connector has the values needed to terminate conductor `k` with the source `s`. -/
def Connector.TerminatesAt (c : Connector) (k : ℕ) (s : Option (ℝ → ℝ)) : Prop :=
  c.connectorType = "MultiwireConnector" →
    (∀ v, c.resistanceVector = some v → k < v.length) ∧ (∀ v, c.capacitanceVector = some v → k < v.length) ∧
    (∀ v, c.inductanceVector = some v → k < v.length) ∧ ∃ ts type, c.connections = some ts ∧ ts[k]? = some type ∧
      (type = "Conn_R" ∨ type = "Conn_sRLC" → s = none ∨ ∃ v R, c.resistanceVector = some v ∧ v[k]? = some R ∧ R ≠ 0)

/-- The connector has the values needed to join conductor `k` with another one. -/
def Connector.Joins (c : Connector) (k : ℕ) : Prop :=
  (c.connectorType = "Conn_R" ∨ c.connectorType = "Conn_sRLC" → c.resistance ≠ none) ∧
    (c.connectorType = "MultiwireConnector" → ∃ ts type, c.connections = some ts ∧ ts[k]? = some type ∧
      (type = "Conn_R" ∨ type = "Conn_sRLC" → ∃ v, c.resistanceVector = some v ∧ k < v.length))

/-- The coordinates of a joint are ends of conductors of cables in bundles. -/
structure File.JointUsable (p : ℕ) (F : File) (t : Joint) : Prop where
  position : ∃ x, F.JointAt t x
  ends : ∀ c ∈ t.coordIds.flatten, 0 ≤ c ∧ ∃ x cable k s, F.connectorAndCableInNode c = .ok (x, cable, k, s) ∧ F.Bundled cable ∧
    x.HasEntry k ∧ ∀ L, F.finishedLine p cable = .ok L → k < L.1

/-- The pairs of a junction have the values they need. -/
def File.JunctionUsable (F : File) (t : Joint) : Prop :=
  ∀ g ∈ t.coordIds, g.length = 2 ∧ ∀ c ∈ g, ∀ x cable k s, F.connectorAndCableInNode c = .ok (x, cable, k, s) → x.Joins k

/-- The groups of a termination have the values they need, and no coordinate is in it twice. -/
structure File.TerminationUsable (F : File) (t : Joint) : Prop where
  once : t.coordIds.flatten.Nodup
  single : ∀ c, [c] ∈ t.coordIds → ∀ x cable k s f, F.connectorAndCableInNode c = .ok (x, cable, k, s) →
    F.terminalSource c = .ok f → x.Terminates f
  several : ∀ g ∈ t.coordIds, 2 ≤ g.length → ∀ c ∈ g, ∀ cable k s, F.EndAt c cable k s → ∃ c', g[k]? = some c' ∧
    ∀ x cable k' s f, F.connectorAndCableInNode c' = .ok (x, cable, k', s) → F.terminalSource c' = .ok f → x.TerminatesAt k f

/-- A probe is on a cable of a bundle. -/
def File.ProbeUsable (p : ℕ) (F : File) (q : ProbeDesc) : Prop :=
  ∃ id c x cable, q.elemIds[0]? = some id ∧ F.nodeCoordId id = .ok c ∧ F.coordinate c = .ok x ∧ F.Bundled cable ∧
    (∀ name, q.cable = some name → name = cable ∧ ∃ c ∈ F.cables, c.name = name) ∧
    (q.cable = none → ∃ el C, F.lineElemIdFromCoordId c = .ok el ∧ F.cableWithElemId el = .ok C ∧ C.name = cable) ∧
    ∀ L, F.finishedLine p cable = .ok L → ∃ k < L.2.m, ∃ t : ℝ, 0 ≤ t ∧ t ≤ 1 ∧ x = L.2.u k + t • (L.2.u (k + 1) - L.2.u k)

/-- Everything the file refers to is there. -/
structure File.Usable (p : ℕ) (F : File) : Prop where
  ids : ∀ d ∈ F.bundles, ∀ ids, d.nested = .ids ids → ids.Nodup
  lines : ∀ cable, F.Bundled cable → ∃ L, F.finishedLine p cable = .ok L
  cells : ∀ c ∈ F.cables, ∃ d > 0, ∀ x ∈ c.ndiv, x = d
  ends : ∀ e ∈ F.ends, ∃ c x, e.coordIds[0]? = some c ∧ F.elementOfNode c = .ok x
  nodes : ∀ e ∈ F.nodes, e ≠ []
  fields : ∀ s ∈ F.sources, s.sourceType ≠ "DistributedSource"
  sources : ∀ s ∈ F.sources, s.sourceType = "TerminalSource" → s.elemIds ≠ [] ∧ ∃ f : ℝ → ℝ, ∀ t, s.magnitude.eval t = .ok (some (f t))
  probes : ∀ q ∈ F.probes, F.ProbeUsable p q
  joints : ∀ t ∈ F.junctions ++ F.terminations, F.JointUsable p t
  junctions : ∀ t ∈ F.junctions, F.JunctionUsable t
  terminations : ∀ t ∈ F.terminations, F.TerminationUsable t

/-- A wire whose resistance has the shape of its inductance. -/
def Wire.Fits (w : Wire) : Prop :=
  ((∃ x, w.inductance = some (.float x)) ∧ (w.resistance = none ∨ ∃ z, w.resistance = some (.float z))) ∨
    ∃ n A, n ≠ 0 ∧ w.inductance = some (.mat n n A) ∧
      (w.resistance = none ∨ (∃ z, w.resistance = some (.float z)) ∨ ∃ R, w.resistance = some (.mat n n R))

end Mtln
