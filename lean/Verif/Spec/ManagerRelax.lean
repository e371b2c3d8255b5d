import Verif.Spec.ManagerReciprocity

/-!
# Specification: managers whose resistors reach every bundle
-/

namespace Mtln

open Matrix

variable {p : ℕ}

/-- Ends of conductors whose voltage the resistors of the networks determine, directly or through the bundles. -/
inductive MTLN.Quiet (M : MTLN p) : End → Prop
  /-- An end without a node has voltage zero. -/
  | free {x : End} (h : x ∉ (allNodes M.networks).map Node.end') : M.Quiet x
  /-- Without current in the resistors of a network, and without voltage at the nodes `T`, there is no voltage at `a`. -/
  | resistors {nwd : NetworkD} (hn : nwd ∈ M.networks) {e : ℕ × AnyNetwork} (he : e ∈ nwd) (T : Finset (Fin e.2.1))
      (a : Fin e.2.1) (hT : ∀ b ∈ T, M.Quiet (e.2.2.2.nodes b).end')
      (h : ∀ v, e.2.2.2.P1 *ᵥ v = 0 → (∀ b ∈ T, v b = 0) → v a = 0) : M.Quiet (e.2.2.2.nodes a).end'
  /-- From one end of a bundle to the other: the conductors end in nodes whose voltages are determined, and so are those
  of the nodes that capacitors connect them with. -/
  | along {b : AnyBundle p} (hb : b ∈ M.bundles) (side side' : Side) (c : Fin b.1)
      (hq : ∀ c : Fin b.1, M.Quiet ⟨b.2.name, c, side⟩)
      (hc : ∀ c : Fin b.1, (⟨b.2.name, c, side⟩ : End) ∈ (allNodes M.networks).map Node.end')
      (hQ : ∀ c : Fin b.1, ∀ nwd ∈ M.networks, ∀ e ∈ nwd, ∀ a, (e.2.2.2.nodes a).end' = ⟨b.2.name, c, side⟩ →
        ∀ a', e.2.2.2.Q1 a a' ≠ 0 → M.Quiet (e.2.2.2.nodes a').end') : M.Quiet ⟨b.2.name, c, side'⟩

/-- One end of the bundle belongs to nodes whose voltages the resistors determine. -/
def MTLN.Drained (M : MTLN p) (b : AnyBundle p) : Prop := ∃ side : Side, ∀ c : Fin b.1, M.Quiet ⟨b.2.name, c, side⟩ ∧
  (⟨b.2.name, c, side⟩ : End) ∈ (allNodes M.networks).map Node.end' ∧
  ∀ nwd ∈ M.networks, ∀ e ∈ nwd, ∀ a, (e.2.2.2.nodes a).end' = ⟨b.2.name, c, side⟩ →
    ∀ a', e.2.2.2.Q1 a a' ≠ 0 → M.Quiet (e.2.2.2.nodes a').end'

/-- The resistors reach every bundle, directly or through other bundles; their matrices are symmetric. -/
structure MTLN.Dissipates (M : MTLN p) : Prop where
  P1 : ∀ nwd ∈ M.networks, ∀ e ∈ nwd, (e.2.2.2.P1)ᵀ = e.2.2.2.P1
  bundles : ∀ b ∈ M.bundles, M.Drained b

end Mtln
