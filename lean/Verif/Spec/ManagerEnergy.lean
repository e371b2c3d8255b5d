import Verif.Spec.Energy
import Verif.Spec.Manager
import Verif.Spec.Network
import Verif.Lemmas.Bundle
import Verif.Lemmas.ManagerRun

/-!
# Specification: the energy of a manager

The energy of the bundles away from their ends, plus the energy of the half cells at their ends, which the networks
account for, plus the energy of their capacitors.
-/

namespace Mtln

open Matrix

variable {n p N S : ℕ}

/-- Weight one for the nodes between the ends, zero for the ends. -/
def innerWeight (m k : ℕ) : ℝ := if k = 0 ∨ k = m then 0 else 1

/-- Twice the energy of a bundle without the half cells at its ends. -/
noncomputable def MTLD.innerEnergy (b : MTLD n p) : ℝ := b.asLine.energyW (innerWeight b.m)

/-- Twice the energy of the half cells at the nodes of a network. -/
noncomputable def Network.cellEnergy (nw : Network N S) : ℝ := nw.v ⬝ᵥ (nw.dxc *ᵥ nw.v) / 2

/-- Twice the energy of the capacitors of a network, at the mean of the last two voltages. -/
noncomputable def Network.capEnergy (nw : Network N S) : ℝ := -((nw.v + nw.vPrev) ⬝ᵥ (nw.Q1 *ᵥ (nw.v + nw.vPrev))) / 4

/-- Twice the energy of a network. -/
noncomputable def Network.energy (nw : Network N S) : ℝ := nw.cellEnergy + nw.capEnergy

/-- Twice the energy of all networks. -/
noncomputable def netsEnergy (nws : List NetworkD) : ℝ :=
  (nws.map fun nwd => (nwd.map fun e => e.2.2.2.energy).sum).sum

/-- Twice the energy of everything a manager holds. -/
noncomputable def MTLN.energy (M : MTLN p) : ℝ :=
  (M.bundles.map fun b => b.2.innerEnergy).sum + netsEnergy M.networks

/-- The voltage of an end of a conductor of a bundle; zero if there is no such end. -/
noncomputable def endV (bs : List (AnyBundle p)) (x : End) : ℝ :=
  match findBundle bs x.bundle with
  | some b => if h : x.row < b.1 then b.2.v (x.side.node b.2.m) ⟨x.row, h⟩ else 0
  | none => 0

/-- The current out of a network into an end of a conductor of a bundle; zero if there is no such end. -/
noncomputable def endI (bs : List (AnyBundle p)) (x : End) : ℝ :=
  match findBundle bs x.bundle with
  | some b => if h : x.row < b.1 then x.side.factor * b.2.i (x.side.cell b.2.m) ⟨x.row, h⟩ else 0
  | none => 0

/-- A network of resistors and capacitors: the resistors dissipate, the capacitors store energy. -/
structure Network.RC (nw : Network N S) : Prop where
  Q1_symm : nw.Q1ᵀ = nw.Q1
  Q1 : ∀ v, v ⬝ᵥ (nw.Q1 *ᵥ v) ≤ 0
  O : nw.O = 0
  dxc : nw.dxcᵀ = nw.dxc
  P1 : ∀ v, v ⬝ᵥ (nw.P1 *ᵥ v) ≤ 0

/-- A manager of passive bundles and networks of resistors and capacitors: the bundles have distinct names, the manager's time step and
passive data, and no two nodes are attached to the same end. -/
structure MTLN.Passive (M : MTLN p) : Prop where
  names : (M.bundles.map fun b => b.2.name).Nodup
  bundles : ∀ b ∈ M.bundles, b.2.asLine.Passive ∧ b.2.dt = M.dt
  networks : ∀ nwd ∈ M.networks, ∀ e ∈ nwd, e.2.2.2.RC
  ends : ((allNodes M.networks).map Node.end').Nodup

/-- The networks know the voltages and currents of the ends their nodes are attached to, and every end without a node
has voltage zero (it keeps it). -/
structure MTLN.Linked (M : MTLN p) : Prop where
  v : ∀ nwd ∈ M.networks, ∀ e ∈ nwd, ∀ a, e.2.2.2.v a = endV M.bundles (e.2.2.2.nodes a).end'
  i : ∀ nwd ∈ M.networks, ∀ e ∈ nwd, ∀ a, e.2.2.2.i a = endI M.bundles (e.2.2.2.nodes a).end'
  free : ∀ x, x ∉ (allNodes M.networks).map Node.end' → endV M.bundles x = 0

/-- All coefficients are computed for the time step. -/
structure MTLN.Ready (M : MTLN p) : Prop where
  bundles : ∀ b ∈ M.bundles, ∀ lr cg, b.2.lr = some lr → b.2.cg = some cg →
    updateLr b.2.m b.2.dt b.2.dun b.2.l b.2.r b.2.tz = .ok lr ∧ updateCg b.2.m b.2.dt b.2.dun b.2.c b.2.g = .ok cg
  networks : ∀ nwd ∈ M.networks, ∀ e ∈ nwd, e.2.2.2.Prepared M.dt

end Mtln
