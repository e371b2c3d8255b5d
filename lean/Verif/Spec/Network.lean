import Verif.Model.Manager

/-! # Vocabulary for statements about networks -/

namespace Mtln

variable {N S p : ℕ}

/-- The matrices for the time step `dt` are computed and up to date: computing them again changes nothing. -/
def Network.Prepared (dt : ℝ) (nw : Network N S) : Prop := nw.computeVTerms dt = .ok nw

/-- Kirchhoff's current law at the nodes, discretised: the charging current of the half cells at the line ends, twice,
is the sum of the currents from the network into the nodes at the old and the new time, minus twice the line currents.
`v'`, `X'` are the new node voltages and state variables. -/
def Network.NodeEquations (nw : Network N S) (time dt : ℝ) (v' : Fin N → ℝ) (X' : Fin S → ℝ) : Prop :=
  let s := fun (t : ℝ) a => nw.vSources a t
  let e := fun (t : ℝ) a => (nw.nodes a).eT t
  (1 / dt) • nw.dxc.mulVec (v' - nw.v) =
    nw.P1.mulVec (v' + nw.v) + nw.O.mulVec (X' + nw.X) + nw.Ps.mulVec (s time + s (time - dt))
      + (1 / dt) • nw.Q1.mulVec (v' - nw.vPrev) + (1 / dt) • nw.Qs.mulVec (s time - s (time - 2 * dt))
      - (2 : ℝ) • nw.i - (1 / dt) • nw.dxc.mulVec (e time - e (time - dt))

/-- The state equation, by the implicit Euler method. -/
def Network.StateEquations (nw : Network N S) (time dt : ℝ) (v' : Fin N → ℝ) (X' : Fin S → ℝ) : Prop :=
  X' = nw.X + dt • (nw.M.mulVec X' + nw.N1.mulVec v' + nw.Ns.mulVec fun a => nw.vSources a time)

/-- A call of one of the methods that connect nodes. -/
inductive Call where
  | ground (node : ℤ) (R : ℝ) (Vt : Option (ℝ → ℝ))
  | groundLCpRs (node : ℤ) (R L C : ℝ) (Vt : Option (ℝ → ℝ))
  | groundC (node : ℤ) (C : ℝ) (Vt : Option (ℝ → ℝ))
  | shortGround (node : ℤ)
  | branch (node1 node2 : ℤ) (R : ℝ) (Vt : Option (ℝ → ℝ))
  | short (node1 node2 : ℤ)

/-- The call on a network. -/
noncomputable def Network.call (nw : Network N S) : Call → Py (Network N S)
  | .ground node R Vt => nw.connectToGround node R Vt
  | .groundLCpRs node R L C Vt => nw.connectToGroundLCpRs node R L C Vt
  | .groundC node C Vt => nw.connectToGroundC node C Vt
  | .shortGround node => nw.shortToGround node
  | .branch node1 node2 R Vt => nw.connectNodes node1 node2 R Vt
  | .short node1 node2 => nw.shortNodes node1 node2

/-- A sequence of calls. -/
noncomputable def Network.calls (nw : Network N S) (l : List Call) : Py (Network N S) := l.foldlM Network.call nw

/-- The nodes a call names. -/
def Call.nodes : Call → List ℤ
  | .ground node _ _ => [node]
  | .groundLCpRs node _ _ _ _ => [node]
  | .groundC node _ _ => [node]
  | .shortGround node => [node]
  | .branch node1 node2 _ _ => [node1, node2]
  | .short node1 node2 => [node1, node2]

/-- Calls that connect two nodes. -/
def Call.IsBranch : Call → Prop
  | .branch .. => True
  | .short .. => True
  | _ => False

/-- The resistances of a call are positive. -/
def Call.Positive : Call → Prop
  | .ground _ R _ => 0 < R
  | .groundLCpRs _ R _ _ _ => 0 < R
  | .groundC .. => True
  | .shortGround _ => True
  | .branch _ _ R _ => 0 < R
  | .short .. => True

/-- No source is given. -/
def Call.Unsourced : Call → Prop
  | .ground _ _ Vt => Vt = none
  | .groundLCpRs _ _ _ _ Vt => Vt = none
  | .groundC _ _ Vt => Vt = none
  | .shortGround _ => True
  | .branch _ _ _ Vt => Vt = none
  | .short .. => True

end Mtln
