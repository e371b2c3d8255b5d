import Verif.Model.Network

/-!
# The number of state variables of a list of connections (networks.py:74-93)

The function is not called by the package.
-/

namespace Mtln

open Classical in
/-- One pass of the loop of networks.py:76-92, for the connection at the given position of the list. -/
noncomputable def stateVarsAt (c : Connector) (position : ℕ) : Py ℕ :=
  if c.connectorType = "Conn_sRLC" then
    match c.inductance, c.capacitance with
    | some L, some C => .ok ((if L ≠ 0 then 1 else 0) + (if C < 10 ^ 22 then 1 else 0))
    | _, _ => .error .KeyError
  else if c.connectorType = "Conn_C" then .ok 1
  else if c.connectorType = "MultiwireConnector" then
    match c.connections with
    | none => .error .KeyError
    | some l =>
      match l[position]? with
      | none => .error .IndexError
      | some t => .ok (if t = "Conn_C" then 1 else if t = "Conn_LCpRs" then 2 else 0)
  else .ok 0

/-- networks.py:74-93 `Network._get_number_of_state_vars(connections)`. -/
noncomputable def numberOfStateVars (connections : List Connection) : Py ℕ :=
  connections.zipIdx.foldlM (fun total e => do
    let k ← stateVarsAt e.1.connector e.2
    .ok (total + k)) 0

end Mtln
