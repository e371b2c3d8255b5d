import Verif.Spec.Impedance
import Verif.Model.Bundle

/-! # Transfer impedances: what is induced, and the impedance of the model -/

namespace Mtln

open Matrix

variable {n p : ℕ}

/-- The transfer impedance of the user's model at the complex frequency `s`, per unit length. -/
noncomputable def TransferModel.impedance (Z : TransferModel) (s : ℂ) : ℂ :=
  Z.toRationalModel.impedance s / (Z.factor.getD 1 : ℝ)

/-- The voltage along cell `k` of conductor `x` in a step at the time `t`, with the new voltages `v`, in which the currents of the
cell change from `old` to `new`, that the inductance and the resistance of the bundle and the fields leave over. -/
noncomputable def MTLD.extraDrop (b : MTLD n p) (v : ℕ → Col n) (new old : Col n) (t dt : ℝ) (k : ℕ) (x : Fin n) : ℝ :=
  -(v (k + 1) x - v k x) - (b.eT (k + 1) x t - b.eT k x t)
    + b.dun k * ((b.eL k x (t + dt / 2) + b.eL k x (t - dt / 2)) / 2)
    - b.dun k * ((b.l k *ᵥ (new - old)) x / b.dt + (b.r k *ᵥ (new + old)) x / 2)

/-- No dispersive element yet. -/
structure Disp.Empty (D : Disp n p) : Prop where
  q1 : ∀ k x y, D.q1 k x y = none
  q2 : ∀ k x y, D.q2 k x y = none
  q3 : ∀ k x y, D.q3 k x y = none
  d : ∀ k x y, D.d k x y = 0
  e : ∀ k x y, D.e k x y = 0
  sum1 : D.q1sum = vSum D.q1
  sum2 : D.q2sum = vSum D.q2

end Mtln
