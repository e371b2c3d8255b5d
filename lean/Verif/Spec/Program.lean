import Verif.Spec.Energy
import Verif.Spec.ManagerEnergy
import Verif.Model.Construct
import Verif.Model.Field
import Verif.Spec.Network
import Verif.Spec.NetworkBuild
import Verif.Spec.Run

/-!
# Vocabulary for statements about whole programs

A program builds lines, bundles of lines, networks at the ends of the lines, and a manager of all of them.
-/

namespace Mtln

open Matrix

variable {n p : ℕ}

/-- A line as the constructor makes it from physical data: a mesh of cells of positive lengths, uniform symmetric
positive definite inductances and capacitances, dissipative symmetric resistances and conductances, no connectors with
poles, and the automatic time step. -/
structure MTL.Proper (s : MTL n p) : Prop where
  cells : 0 < s.m
  mesh : ∀ k < s.m, s.dun k = norm3 (s.u (k + 1) - s.u k)
  dun : ∀ k < s.m, 0 < s.dun k
  l : ∀ k < s.m, SPD (s.l k)
  c : ∀ k ≤ s.m, s.c k = s.c 0
  c_spd : SPD (s.c 0)
  r : ∀ k < s.m, Dissipative (s.r k + s.conn.d k) ∧ (s.r k + s.conn.d k)ᵀ = s.r k + s.conn.d k
  g : ∀ k ≤ s.m, Dissipative (s.g k) ∧ (s.g k)ᵀ = s.g k
  e : ∀ k < s.m, Dissipative (s.conn.e k) ∧ (s.conn.e k)ᵀ = s.conn.e k
  q1 : ∀ k < s.m, ∀ a b, s.conn.q1 k a b = none
  q2 : ∀ k < s.m, ∀ a b, s.conn.q2 k a b = none
  q3 : ∀ k < s.m, ∀ a b, s.conn.q3 k a b = none
  dt : maxTimestep s.m s.dun s.l s.c = .ok s.dt

/-! ## Programs -/

/-- What a program does to a bundle after building it. -/
inductive BundleCall where
  /-- `bundle.add_probe(position, type)` -/
  | probe (position : Pos) (type : String)
  /-- `bundle.add_localized_longitudinal_field(start, end, conductor, magnitude, type)` -/
  | field (start stop : Pos) (conductor : ℕ) (magnitude : ℝ → ℝ) (type : String)
  /-- `bundle.add_external_field(field, distances, localization)` -/
  | external (F : Field) (D : Distances) (loc : Option (V3 × V3))

/-- The method a call names. -/
noncomputable def BundleCall.run (b : MTLD n p) : BundleCall → Py (MTLD n p)
  | .probe x t => b.addProbe x t
  | .field x y c f t => if h : c < n then b.addLocalizedField x y ⟨c, h⟩ f t else .error .IndexError
  | .external F D loc => b.addExternalField F D loc

/-- A bundle of a program: its name, one line for each level, and the calls after its construction. -/
structure BundlePlan (p : ℕ) where
  name : String
  lines : List (AnyLine p)
  calls : List BundleCall

/-- Build the bundle. -/
noncomputable def BundlePlan.make (B : BundlePlan p) : Py (AnyBundle p) := do
  let b ← MTLD.new (B.lines.map fun L => [L]) B.name
  let b' ← B.calls.foldlM (fun b c => BundleCall.run b c) b.2
  .ok ⟨b.1, b'⟩

/-- A network of a program: its level, the ends of lines it connects, and the components between them. -/
structure NetPlan (p : ℕ) where
  level : ℕ
  lines : List (LineConnections p)
  calls : List Call

/-- Build the network. -/
noncomputable def NetPlan.make (N : NetPlan p) : Py (ℕ × AnyNetwork) := do
  let nw ← Network.new N.lines
  let nw' ← nw.2.2.calls N.calls
  .ok (N.level, ⟨nw.1, nw.2.1, nw'⟩)

/-- A program: bundles and, for each place where bundles meet, networks of different levels. -/
structure Program (p : ℕ) where
  bundles : List (BundlePlan p)
  networks : List (List (NetPlan p))

/-- Build the manager. -/
noncomputable def Program.make (P : Program p) : Py (MTLN p) := do
  let bs ← mapPy BundlePlan.make P.bundles
  let nws ← mapPy (mapPy NetPlan.make) P.networks
  MTLN.new bs nws

/-- Every conductor of the line has one connection. -/
def LineConnections.Complete (d : LineConnections p) : Prop :=
  (d.connections.map Connection.conductor).Perm (List.range d.line.1)

/-- All ends of lines that the networks of a program connect, with their levels. -/
def Program.items (P : Program p) : List (ℕ × LineConnections p) :=
  P.networks.flatten.flatMap fun N => N.lines.map fun d => (N.level, d)

/-- Components without inductances, of positive resistance and nonnegative capacitance. -/
def Call.IsRC (c : Call) : Prop :=
  (match c with
    | .groundLCpRs .. => False
    | .groundC _ C _ => 0 ≤ C
    | _ => True) ∧ c.Positive

/-- What programs have to respect: proper lines; the ends that networks connect are those of lines of bundles, of the same
level, with all their conductors; no end is connected twice; components are resistors and capacitors, and those to ground
come before the branches at the same nodes. -/
structure Program.WellFormed (P : Program p) : Prop where
  lines : ∀ B ∈ P.bundles, ∀ L ∈ B.lines, L.2.Proper
  probes : ∀ B ∈ P.bundles, ∀ x t, .probe x t ∈ B.calls → t = "voltage" ∨ t = "current"
  complete : ∀ x ∈ P.items, x.2.Complete
  attached : ∀ x ∈ P.items, ∃ B ∈ P.bundles, B.name = x.2.bundleName ∧ B.lines[x.1]? = some x.2.line
  distinct : (P.items.map fun x => (x.2.bundleName, x.1, x.2.end')).Nodup
  elements : ∀ N ∈ P.networks.flatten, ∀ c ∈ N.calls, c.IsRC
  order : ∀ N ∈ P.networks.flatten,
    N.calls.Pairwise fun c c' => c.IsBranch → ¬ c'.IsBranch → ∀ id ∈ c.nodes, id ∉ c'.nodes

/-- A node that resistors connect with the ground. -/
inductive NetPlan.Grounded (N : NetPlan p) : ℤ → Prop
  | ground {id R Vt} (h : .ground id R Vt ∈ N.calls) : N.Grounded id
  | shortGround {id} (h : .shortGround id ∈ N.calls) : N.Grounded id
  | branch {id id' R Vt} (h : .branch id id' R Vt ∈ N.calls) (g : N.Grounded id) : N.Grounded id'
  | branch' {id id' R Vt} (h : .branch id id' R Vt ∈ N.calls) (g : N.Grounded id') : N.Grounded id
  | short {id id'} (h : .short id id' ∈ N.calls) (g : N.Grounded id) : N.Grounded id'
  | short' {id id'} (h : .short id id' ∈ N.calls) (g : N.Grounded id') : N.Grounded id

/-- Resistors connect all conductors at one end of each bundle with the ground. -/
def Program.Grounded (P : Program p) : Prop :=
  ∀ B ∈ P.bundles, ∃ side : Side, ∀ level L, B.lines[level]? = some L → ∃ N ∈ P.networks.flatten, N.level = level ∧
    ∃ d ∈ N.lines, d.bundleName = B.name ∧ d.end' = side ∧ ∀ c ∈ d.connections, N.Grounded c.id

/-- The voltage source of a component. -/
def Call.source : Call → Option (ℝ → ℝ)
  | .ground _ _ Vt => Vt
  | .groundLCpRs _ _ _ _ Vt => Vt
  | .groundC _ _ Vt => Vt
  | .shortGround _ => none
  | .branch _ _ _ Vt => Vt
  | .short _ _ => none

/-- All voltage sources and localized fields of a program, and the transverse fields at the ends of its lines, are of a kind;
there are no other external fields. -/
structure Program.SourcesIn (P : Program p) (W : Set (ℝ → ℝ)) : Prop where
  fields : ∀ B ∈ P.bundles, ∀ c ∈ B.calls, match c with
    | .probe .. => True
    | .field _ _ _ f _ => f ∈ W
    | .external .. => False
  ends : ∀ x ∈ P.items, ∀ k a, x.2.line.2.eT k a ∈ W
  voltages : ∀ N ∈ P.networks.flatten, ∀ c ∈ N.calls, ∀ f, c.source = some f → f ∈ W

end Mtln
