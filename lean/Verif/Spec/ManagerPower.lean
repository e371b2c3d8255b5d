import Verif.Spec.ManagerAC
import Verif.Spec.ManagerReciprocity

/-!
# Specification: sources, power and losses in the circuit of a manager for alternating current
-/

namespace Mtln

open Matrix

variable {n p N S : ℕ}

/-- The currents the sources and fields of a network deliver to its nodes. -/
noncomputable def Network.acNorton (nw : Network N S) (dt θ : ℝ) (E F : Fin N → ℂ) : Fin N → ℂ :=
  Real.cos (θ / 2) • (cx nw.Ps *ᵥ E) + (1 / (2 * dt)) • (cx nw.Qs *ᵥ (lag θ • E)) - (1 / (2 * dt)) • (cx nw.dxc *ᵥ (turn θ • F))

/-- The currents the transverse field delivers to an inner node. -/
noncomputable def MTLD.acInjected (b : MTLD n p) (θ : ℝ) (F : ℕ → Fin n → ℂ) (k : ℕ) : Fin n → ℂ :=
  -(((b.dun (k - 1) + b.dun k) / 2) • ((1 / b.dt) • (cx (b.c k) *ᵥ (turn θ • F k)) + (1 / 2 : ℝ) • (cx (b.g k) *ᵥ (turn θ • F k))))

/-- The voltages the fields put into a cell. -/
noncomputable def MTLD.acInduced (b : MTLD n p) (θ : ℝ) (F H : ℕ → Fin n → ℂ) (k : ℕ) : Fin n → ℂ :=
  -(F (k + 1) - F k) + b.dun k • (Real.cos (θ / 2) • H k)

/-- What the sources of a manager do to other voltages and currents. -/
noncomputable def MTLN.acReaction (M : MTLN p) (θ : ℝ) (amp : (ℝ → ℝ) → ℂ) (V I : String → ℕ → ℕ → ℂ) : ℂ :=
  (M.networks.map fun nwd => (nwd.map fun e =>
    e.2.2.2.acNorton M.dt θ (fun a => amp (e.2.2.2.vSources a)) (fun a => amp (e.2.2.2.nodes a).eT) ⬝ᵥ
      fun a => acEndV M.bundles V (e.2.2.2.nodes a).end').sum).sum +
  (M.bundles.map fun b =>
    ∑ k ∈ Finset.Ico 1 b.2.m, b.2.acInjected θ (fun k a => amp (b.2.eT k a)) k ⬝ᵥ (fun a : Fin b.1 => V b.2.name k a) -
    ∑ k ∈ Finset.range b.2.m, b.2.acInduced θ (fun k a => amp (b.2.eT k a)) (fun k a => amp (b.2.eL k a)) k ⬝ᵥ
      fun a : Fin b.1 => I b.2.name k a).sum

/-- Twice the mean power that the sinusoidal voltages or currents `X` leave in the conductances or resistances `A`. -/
noncomputable def acMean (A : Mat n) (X : Fin n → ℂ) : ℝ := (star X ⬝ᵥ (cx A *ᵥ X)).re

/-- Twice the mean power that the sources and fields deliver. -/
noncomputable def MTLN.acSupply (M : MTLN p) (θ : ℝ) (amp : (ℝ → ℝ) → ℂ) (V I : String → ℕ → ℕ → ℂ) : ℝ :=
  (M.networks.map fun nwd => (nwd.map fun e => ((star fun a => acEndV M.bundles V (e.2.2.2.nodes a).end') ⬝ᵥ
    e.2.2.2.acNorton M.dt θ (fun a => amp (e.2.2.2.vSources a)) (fun a => amp (e.2.2.2.nodes a).eT)).re).sum).sum +
  (M.bundles.map fun b =>
    ∑ k ∈ Finset.Ico 1 b.2.m, ((star fun a : Fin b.1 => V b.2.name k a) ⬝ᵥ b.2.acInjected θ (fun k a => amp (b.2.eT k a)) k).re +
    ∑ k ∈ Finset.range b.2.m, ((star fun a : Fin b.1 => I b.2.name k a) ⬝ᵥ
      b.2.acInduced θ (fun k a => amp (b.2.eT k a)) (fun k a => amp (b.2.eL k a)) k).re).sum

/-- Twice the mean power that the resistances and conductances of the bundles and the resistors of the networks take, and what the
capacitors of the networks take: their difference over two steps makes each of them a capacitor with a conductance. -/
noncomputable def MTLN.acLoss (M : MTLN p) (θ : ℝ) (V I : String → ℕ → ℕ → ℂ) : ℝ :=
  (M.networks.map fun nwd => (nwd.map fun e =>
    Real.cos (θ / 2) * acMean (-e.2.2.2.P1) (fun a => acEndV M.bundles V (e.2.2.2.nodes a).end') +
    Real.sin θ * Real.sin (θ / 2) / M.dt * acMean (-e.2.2.2.Q1) (fun a => acEndV M.bundles V (e.2.2.2.nodes a).end')).sum).sum +
  (M.bundles.map fun b => Real.cos (θ / 2) * (∑ k ∈ Finset.Ico 1 b.2.m, (b.2.dun (k - 1) + b.2.dun k) / 2 *
      acMean (b.2.g k) (fun a : Fin b.1 => V b.2.name k a) +
    ∑ k ∈ Finset.range b.2.m, b.2.dun k * acMean (b.2.r k + b.2.tz.d k) (fun a : Fin b.1 => I b.2.name k a))).sum

/-- The only sources are currents of the amplitude `J` into the node attached to the end `x`. -/
structure MTLN.OneDrive (M : MTLN p) (θ : ℝ) (amp : (ℝ → ℝ) → ℂ) (x : End) (J : ℂ) : Prop where
  node : x ∈ (allNodes M.networks).map Node.end'
  source : ∀ nwd ∈ M.networks, ∀ e ∈ nwd, e.2.2.2.acNorton M.dt θ (fun a => amp (e.2.2.2.vSources a)) (fun a => amp (e.2.2.2.nodes a).eT) =
    fun a => if (e.2.2.2.nodes a).end' = x then J else 0
  fields : ∀ b ∈ M.bundles, (∀ k a, amp (b.2.eL k a) = 0) ∧ ∀ k a, amp (b.2.eT k a) = 0

end Mtln
