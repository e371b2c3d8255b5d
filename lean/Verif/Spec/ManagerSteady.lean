import Verif.Spec.ManagerEnergy

/-!
# Specification: the direct current circuit of a manager

The resistances of the cells, the conductances of the inner nodes and the resistors of the networks, with sources and
fields as they are at a time `t`.
-/

namespace Mtln

open Matrix

variable {n p N S : ℕ}

/-- Voltages and currents of a bundle between its ends solve the circuit. -/
structure MTLD.DC (b : MTLD n p) (t : ℝ) : Prop where
  cell : ∀ k < b.m, (b.v (k + 1) - b.v k) + (fun a => b.eT (k + 1) a t - b.eT k a t) =
    b.dun k • ((fun a => b.eL k a t) - (b.r k + b.tz.d k) *ᵥ b.i k)
  node : ∀ k, 0 < k → k < b.m → b.i k - b.i (k - 1) = -(((b.dun (k - 1) + b.dun k) / 2) • (b.g k *ᵥ b.v k))

/-- Voltages and currents of a network solve the circuit: the currents through its elements are those into the lines, and
state variables, if there are any that act on the nodes, are at rest. -/
structure Network.DC (nw : Network N S) (t : ℝ) : Prop where
  node : nw.P1 *ᵥ nw.v + nw.O *ᵥ nw.X + nw.Ps *ᵥ (fun a => nw.vSources a t) = nw.i
  state : nw.O ≠ 0 → nw.M *ᵥ nw.X + nw.N1 *ᵥ nw.v + nw.Ns *ᵥ (fun a => nw.vSources a t) = 0

/-- Voltages and currents of a manager solve the circuit. -/
structure MTLN.DC (M : MTLN p) (t : ℝ) : Prop where
  bundles : ∀ b ∈ M.bundles, b.2.DC t
  networks : ∀ nwd ∈ M.networks, ∀ e ∈ nwd, e.2.2.2.DC t

/-- Bundles have distinct names and at least one cell, no two nodes are attached to the same end, and the networks know
the voltages and currents of the ends their nodes are attached to. -/
structure MTLN.Attached (M : MTLN p) : Prop where
  names : (M.bundles.map fun b => b.2.name).Nodup
  cells : ∀ b ∈ M.bundles, b.2.m ≠ 0
  ends : ((allNodes M.networks).map Node.end').Nodup
  v : ∀ nwd ∈ M.networks, ∀ e ∈ nwd, ∀ a, e.2.2.2.v a = endV M.bundles (e.2.2.2.nodes a).end'
  i : ∀ nwd ∈ M.networks, ∀ e ∈ nwd, ∀ a, e.2.2.2.i a = endI M.bundles (e.2.2.2.nodes a).end'

/-- The networks have the same voltages as in the step before. -/
def MTLN.Settled (M : MTLN p) : Prop := ∀ nwd ∈ M.networks, ∀ e ∈ nwd, e.2.2.2.vPrev = e.2.2.2.v

/-- Transfer impedances and connectors are resistances and inductances. -/
def MTLN.Lumped (M : MTLN p) : Prop := ∀ b ∈ M.bundles, ∀ k < b.2.m,
  b.2.tz.q1sum k = 0 ∧ b.2.tz.q2sum k = 0 ∧ ∀ a c, b.2.tz.q3 k a c = none

/-- From the time `t₀` on sources and fields do not change. -/
structure MTLN.ConstantFrom (M : MTLN p) (t₀ : ℝ) : Prop where
  bundles : ∀ b ∈ M.bundles, ∀ t, t₀ ≤ t → (∀ k x, b.2.eL k x t = b.2.eL k x t₀) ∧ ∀ k x, b.2.eT k x t = b.2.eT k x t₀
  networks : ∀ nwd ∈ M.networks, ∀ e ∈ nwd, ∀ t, t₀ ≤ t →
    (∀ x, e.2.2.2.vSources x t = e.2.2.2.vSources x t₀) ∧ ∀ x, (e.2.2.2.nodes x).eT t = (e.2.2.2.nodes x).eT t₀

/-- The same voltages and currents. -/
structure MTLD.SameFields (b b' : MTLD n p) : Prop where
  v : ∀ k ≤ b.m, b'.v k = b.v k
  i : ∀ k < b.m, b'.i k = b.i k

/-- The same for bundles of some size. -/
inductive SameBundle : AnyBundle p → AnyBundle p → Prop
  | mk {n : ℕ} {b b' : MTLD n p} : b.SameFields b' → SameBundle ⟨n, b⟩ ⟨n, b'⟩

/-- The same state variables, as far as they act on the nodes. -/
inductive SameLevel : ℕ × AnyNetwork → ℕ × AnyNetwork → Prop
  | mk {l N S : ℕ} {nw nw' : Network N S} : (nw.O ≠ 0 → nw'.X = nw.X) → SameLevel (l, ⟨N, S, nw⟩) (l, ⟨N, S, nw'⟩)

/-- The same voltages and currents in all bundles, and the same state variables in all networks. -/
structure MTLN.SameState (M M' : MTLN p) : Prop where
  bundles : List.Forall₂ SameBundle M.bundles M'.bundles
  networks : List.Forall₂ (List.Forall₂ SameLevel) M.networks M'.networks

end Mtln
