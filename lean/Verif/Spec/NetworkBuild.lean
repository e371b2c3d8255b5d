import Verif.Model.Network

/-! # Vocabulary for statements about the constructor of networks -/

namespace Mtln

variable {p : ℕ}

/-- The connections of an item of the description in the order of their conductors. -/
def LineConnections.ordered (d : LineConnections p) : List Connection :=
  d.connections.insertionSort fun a b => a.conductor ≤ b.conductor

/-- The end of the line named by an item of the description. -/
def LineConnections.end' (d : LineConnections p) : Side := if d.side = "S" then .S else .L

/-- What a node says about its origin. -/
def Node.origin (d : Node) : ℤ × String × ℕ × Side × String := (d.id, d.lineName, d.lineIndex, d.side, d.bundleName)

/-- The origin of the node made for a connection. -/
def LineConnections.origin (d : LineConnections p) (c : Connection) : ℤ × String × ℕ × Side × String :=
  (c.id, d.line.2.name, c.conductor, d.end', d.bundleName)

end Mtln
