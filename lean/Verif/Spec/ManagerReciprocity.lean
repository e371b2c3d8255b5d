import Verif.Spec.ManagerCircuit

/-!
# Specification: sources of managers as currents into nodes and voltages in cells
-/

namespace Mtln

open Matrix

variable {n p N S : ℕ}

/-- Resistances and conductances are symmetric (like inductances and capacitances of passive managers). -/
structure MTLN.Symmetric (M : MTLN p) : Prop where
  r : ∀ b ∈ M.bundles, ∀ k < b.2.m, (b.2.r k + b.2.tz.d k)ᵀ = b.2.r k + b.2.tz.d k
  g : ∀ b ∈ M.bundles, ∀ k ≤ b.2.m, (b.2.g k)ᵀ = b.2.g k
  P1 : ∀ nwd ∈ M.networks, ∀ e ∈ nwd, (e.2.2.2.P1)ᵀ = e.2.2.2.P1

/-- The currents the sources and fields of a network deliver to its nodes in a step: through the resistors and capacitors
the sources are in series with, and through the capacitances of the half cells. -/
noncomputable def Network.norton (nw : Network N S) (dt t : ℝ) : Fin N → ℝ :=
  (1 / 2 : ℝ) • nw.Ps *ᵥ ((fun a => nw.vSources a t) + fun a => nw.vSources a (t - dt)) +
    (1 / (2 * dt)) • nw.Qs *ᵥ ((fun a => nw.vSources a t) - fun a => nw.vSources a (t - 2 * dt)) -
    (1 / (2 * dt)) • nw.dxc *ᵥ ((fun a => (nw.nodes a).eT t) - fun a => (nw.nodes a).eT (t - dt))

/-- The currents a changing transverse field delivers to an inner node. -/
noncomputable def MTLD.injected (b : MTLD n p) (dt t : ℝ) (k : ℕ) : Col n :=
  -(((b.dun (k - 1) + b.dun k) / 2) • ((1 / dt) • (b.c k *ᵥ fun a => b.eT k a t - b.eT k a (t - dt)) +
    (1 / 2 : ℝ) • (b.g k *ᵥ fun a => b.eT k a t - b.eT k a (t - dt))))

/-- The voltages the fields put into a cell. -/
noncomputable def MTLD.induced (b : MTLD n p) (dt t : ℝ) (k : ℕ) : Col n :=
  -(fun a => b.eT (k + 1) a t - b.eT k a t) +
    b.dun k • ((1 / 2 : ℝ) • ((fun a => b.eL k a (t + dt / 2)) + fun a => b.eL k a (t - dt / 2)))

/-- The currents the sources of a manager deliver in the step at `t`, each times the voltage another state has at its node. -/
noncomputable def MTLN.shunt (M : MTLN p) (bs : List (AnyBundle p)) (t : ℝ) : ℝ :=
  (M.networks.map fun nwd => (nwd.map fun e =>
    ∑ a, e.2.2.2.norton M.dt t a * endV bs (e.2.2.2.nodes a).end').sum).sum +
  (M.bundles.map fun b => ∑ k ∈ Finset.Ico 1 b.2.m, ∑ a : Fin b.1, b.2.injected M.dt t k a * nodeV bs b.2.name k a).sum

/-- The voltages the fields of a manager put into its cells in the step at `t`, each times the current another state has in
the cell. -/
noncomputable def MTLN.series (M : MTLN p) (bs : List (AnyBundle p)) (t : ℝ) : ℝ :=
  (M.bundles.map fun b => ∑ k ∈ Finset.range b.2.m, ∑ a : Fin b.1, b.2.induced M.dt t k a * cellI bs b.2.name k a).sum

/-- What the sources of a manager in a step and before do to the voltages and currents of another sequence of states. -/
noncomputable def MTLN.reaction (M : MTLN p) (A : ℕ → MTLN p) (q : ℕ) : ℝ :=
  ∑ j ∈ Finset.range (q + 1), M.shunt (A j).bundles (M.time + ((q - j : ℕ) : ℝ) * M.dt) -
    ∑ j ∈ Finset.range q, M.series (A j).bundles (M.time + ((q - 1 - j : ℕ) : ℝ) * M.dt)

/-- The only source is a voltage `w` that reaches the node attached to the end `x` through the conductance `g`. -/
structure MTLN.OneSource (M : MTLN p) (x : End) (g : ℝ) (w : ℝ → ℝ) : Prop where
  node : x ∈ (allNodes M.networks).map Node.end'
  source : ∀ nwd ∈ M.networks, ∀ e ∈ nwd, ∀ t, e.2.2.2.Ps *ᵥ (fun a => e.2.2.2.vSources a t) =
    (fun a => if (e.2.2.2.nodes a).end' = x then g * w t else 0) ∧ e.2.2.2.Qs *ᵥ (fun a => e.2.2.2.vSources a t) = 0
  fields : ∀ b ∈ M.bundles, ∀ t, (∀ k a, b.2.eL k a t = 0) ∧ ∀ k a, b.2.eT k a t = 0
  ends : ∀ nwd ∈ M.networks, ∀ e ∈ nwd, ∀ a t, (e.2.2.2.nodes a).eT t = 0

end Mtln
