import Verif.Model.LineApi
import Mathlib.Analysis.SpecialFunctions.ExpDeriv

/-! # Impedances of rational models and the voltage drops of connectors -/

namespace Mtln

open Matrix
open scoped ComplexConjugate

variable {n p : ℕ}

/-- The impedance of a rational model at the complex frequency `s`: `cte + prop s + Σ residue / (s - pole)`. -/
noncomputable def RationalModel.impedance (M : RationalModel) (s : ℂ) : ℂ :=
  M.cte + M.prop * s + ∑ q ∈ Finset.range M.polesReal.length, M.residue 1 q / (s - M.pole q)

/-- The impedance for real signals, the mean of `Z(s)` and the conjugate of `Z` at the conjugate of `s`.  If poles and residues
come in conjugate pairs it is `Z(s)`. -/
noncomputable def RationalModel.seen (M : RationalModel) (s : ℂ) : ℂ := (M.impedance s + conj (M.impedance (conj s))) / 2

/-- The voltage along cell `k` of conductor `c` in a step at the time `t`, with the new voltages `v`, in which the currents of the
cell change from `old` to `new`, that the inductance and the resistance of the line and the fields leave over. -/
noncomputable def MTL.extraDrop (s : MTL n p) (v : ℕ → Col n) (new old : Col n) (t : ℝ) (k : ℕ) (c : Fin n) : ℝ :=
  -(v (k + 1) c - v k c) - (s.eT (k + 1) c t - s.eT k c t)
    + s.dun k * ((s.eL k c (t + s.dt / 2) + s.eL k c (t - s.dt / 2)) / 2)
    - s.dun k * ((s.l k *ᵥ (new - old)) c / s.dt + (s.r k *ᵥ (new + old)) c / 2)

/-- `for x, c, M in items: line.add_dispersive_connector(x, c, M)`. -/
noncomputable def MTL.addConnectors (s : MTL n p) (items : List (V3 × Fin n × RationalModel)) : Py (MTL n p) :=
  items.foldlM (fun s e => s.addDispersiveConnector e.1 e.2.1 e.2.2) s

/-- The model placed in each cell and conductor by these calls. -/
noncomputable def placed (u : ℕ → V3) (m : ℕ) (items : List (V3 × Fin n × RationalModel)) : ℕ → Fin n → Option RationalModel :=
  items.foldl (fun f e k c => if k = nearest u m e.1 ∧ c = e.2.1 then some e.2.2 else f k c) fun _ _ => none

/-- The circuit for direct current of a line with models in its cells: each model is a resistance `Z(0)`. -/
structure MTL.DCWith (s : MTL n p) (f : ℕ → Fin n → Option RationalModel) (V0 V1 : Col n) (v i : ℕ → Col n) : Prop where
  cell : ∀ k < s.m, ∀ c, v (k + 1) c - v k c = -(s.dun k * (s.r k *ᵥ i k) c)
    - ((f k c).elim 0 fun M => (M.impedance 0).re) * i k c
  node : ∀ k, 0 < k → k < s.m → i k - i (k - 1) = -(((s.dun (k - 1) + s.dun k) / 2) • (s.g k *ᵥ v k))
  first : v 0 = V0 - s.zs *ᵥ (i 0 + (s.dun 0 / 2) • (s.g 0 *ᵥ v 0))
  last : v s.m = V1 + s.zl *ᵥ (i (s.m - 1) - (s.dun (s.m - 1) / 2) • (s.g s.m *ᵥ v s.m))

end Mtln
