import Verif.Lemmas.Phasor
import Verif.Spec.ManagerEnergy

/-!
# Specification: the circuit of a manager for alternating current

Complex amplitudes of voltages and currents by the name of the bundle, the node or cell, and the row of the conductor; `θ` is the
phase of a time step and `amp` gives the complex amplitude of every source and field.
-/

namespace Mtln

open Matrix

variable {n p N S : ℕ}

/-- The telegrapher's equations between the ends of a bundle, with `turn θ / dt` for the imaginary unit times the angular frequency. -/
structure MTLD.AC (b : MTLD n p) (θ : ℝ) (F H V I : ℕ → Fin n → ℂ) : Prop where
  cell : ∀ k < b.m, b.dun k • ((1 / b.dt) • (cx (b.l k + b.tz.e k) *ᵥ (turn θ • I k)) +
    Real.cos (θ / 2) • (cx (b.r k + b.tz.d k) *ᵥ I k)) =
      -(V (k + 1) - V k) - (F (k + 1) - F k) + b.dun k • (Real.cos (θ / 2) • H k)
  node : ∀ k, 0 < k → k < b.m → ((b.dun (k - 1) + b.dun k) / 2) • ((1 / b.dt) • (cx (b.c k) *ᵥ (turn θ • V k)) +
    Real.cos (θ / 2) • (cx (b.g k) *ᵥ V k)) = -(I k - I (k - 1)) - ((b.dun (k - 1) + b.dun k) / 2) •
      ((1 / b.dt) • (cx (b.c k) *ᵥ (turn θ • F k)) + (1 / 2 : ℝ) • (cx (b.g k) *ᵥ (turn θ • F k)))

/-- The factor of the capacitors of networks: the difference over two steps, half a step late. -/
noncomputable def lag (θ : ℝ) : ℂ := turn (2 * θ) * Complex.exp (-(θ / 2) * Complex.I)

/-- Kirchhoff's current law in a network of resistors and capacitors: the currents `I` into the lines and into the half cells at their ends
are those through the elements. -/
def Network.AC (nw : Network N S) (dt θ : ℝ) (E F V I : Fin N → ℂ) : Prop :=
  I + (1 / (2 * dt)) • (cx nw.dxc *ᵥ (turn θ • (V + F))) = Real.cos (θ / 2) • (cx nw.P1 *ᵥ V + cx nw.Ps *ᵥ E) +
    (1 / (2 * dt)) • (cx nw.Q1 *ᵥ (lag θ • V) + cx nw.Qs *ᵥ (lag θ • E))

/-- The amplitude of the voltage of an end; zero if there is no such end. -/
noncomputable def acEndV (bs : List (AnyBundle p)) (V : String → ℕ → ℕ → ℂ) (x : End) : ℂ :=
  match findBundle bs x.bundle with
  | some b => if x.row < b.1 then V x.bundle (x.side.node b.2.m) x.row else 0
  | none => 0

/-- The amplitude of the current out of a network into an end; zero if there is no such end. -/
noncomputable def acEndI (bs : List (AnyBundle p)) (I : String → ℕ → ℕ → ℂ) (x : End) : ℂ :=
  match findBundle bs x.bundle with
  | some b => if x.row < b.1 then x.side.factor * I x.bundle (x.side.cell b.2.m) x.row else 0
  | none => 0

/-- The circuit of a manager for alternating current. -/
structure MTLN.AC (M : MTLN p) (θ : ℝ) (amp : (ℝ → ℝ) → ℂ) (V I : String → ℕ → ℕ → ℂ) : Prop where
  bundles : ∀ b ∈ M.bundles, b.2.AC θ (fun k a => amp (b.2.eT k a)) (fun k a => amp (b.2.eL k a)) (fun k a => V b.2.name k a)
    (fun k a => I b.2.name k a)
  networks : ∀ nwd ∈ M.networks, ∀ e ∈ nwd, e.2.2.2.AC M.dt θ (fun a => amp (e.2.2.2.vSources a)) (fun a => amp (e.2.2.2.nodes a).eT)
    (fun a => acEndV M.bundles V (e.2.2.2.nodes a).end') (fun a => acEndI M.bundles I (e.2.2.2.nodes a).end')
  free : ∀ x, x ∉ (allNodes M.networks).map Node.end' → acEndV M.bundles V x = 0

end Mtln
