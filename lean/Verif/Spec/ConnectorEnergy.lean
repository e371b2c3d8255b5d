import Verif.Spec.Energy
import Verif.Spec.Impedance

/-! # Specification: the energy of lines with passive dispersive connectors -/

namespace Mtln

open Matrix

variable {n p : ℕ}

/-- The impedance of a resistance, an inductance, and circuits of a resistance in parallel with a capacitance (positive residues) or
with an inductance (negative residues), all in series. -/
structure RationalModel.Foster (M : RationalModel) : Prop where
  prop : 0 ≤ M.prop
  cte : ∑ q ∈ Finset.range M.polesReal.length, max 0 (M.residuesReal.getD q 0 / M.polesReal.getD q 0) ≤ M.cte
  poles : ∀ q < M.polesReal.length, M.polesReal.getD q 0 < 0 ∧ M.polesImag.getD q 0 = 0
  residues : ∀ q < M.polesReal.length, M.residuesReal.getD q 0 ≠ 0 ∧ M.residuesImag.getD q 0 = 0

/-- The inductance that one real pole appears to have, because its memory is half a time step late; negative for slow poles with
positive residues. -/
noncomputable def poleLag (pole residue h : ℝ) : ℝ :=
  h * (residue / -pole / 2 * ((1 + Real.exp (pole * h) + 2 * Real.exp (pole * h) ^ 2) / (1 + Real.exp (pole * h))
    - 2 * ((1 - Real.exp (pole * h)) / (-pole * h))))

/-- The apparent inductance of all poles of a model. -/
noncomputable def RationalModel.lag (M : RationalModel) (h : ℝ) : ℝ :=
  ∑ q ∈ Finset.range M.polesReal.length, poleLag (M.polesReal.getD q 0) (M.residuesReal.getD q 0) h

/-- The energy (twice) stored in the memory `y` of one real pole at the current `x`. -/
noncomputable def poleStore (pole residue h x y : ℝ) : ℝ :=
  let E := Real.exp (pole * h)
  let c := residue / -pole * (1 - E)
  (1 + E) / (2 * (if 0 < residue then c * E else -c)) * (y - c / (1 + E) * x) ^ 2

/-- The energy (twice) of a model in a cell of the given length. -/
noncomputable def RationalModel.stored (M : RationalModel) (len h x : ℝ) (phi : Poles p) : ℝ :=
  (M.prop + M.lag h) * x ^ 2
    + h * ∑ q : Fin p, poleStore (M.polesReal.getD q 0) (M.residuesReal.getD q 0) h x (len * (phi q).re)

/-- Twice the energy of the scheme with models in its cells, with nodal weights. -/
noncomputable def MTL.energyWith (s : MTL n p) (f : ℕ → Fin n → Option RationalModel) (w : ℕ → ℝ) : ℝ :=
  s.electric w + ∑ k ∈ Finset.range s.m, (s.dun k * (s.i k ⬝ᵥ (s.l k *ᵥ s.i k))
      + ∑ c, (f k c).elim 0 fun M => M.stored (s.dun k) s.dt (s.i k c) (s.phi k c))
    + s.dt * ∑ k ∈ Finset.range s.m, s.i k ⬝ᵥ (s.v (k + 1) - s.v k)

end Mtln
