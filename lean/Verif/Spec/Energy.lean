import Verif.Spec.Equations
import Verif.Spec.Relations

/-!
# Specification: stored energy, passive data

The energy of the leapfrog scheme: electric energy of the half cells around every node, magnetic energy of
every cell, and the product of current and voltage difference which accounts for the half-step offset between
currents and voltages (the currents stored with the voltages of time `t` belong to `t + dt/2`).
-/

namespace Mtln

open Matrix

variable {n p : ℕ}

/-- The matrix dissipates: `x · A x ≥ 0` for all `x` (symmetry is not required). -/
def Dissipative (A : Mat n) : Prop := ∀ x : Col n, 0 ≤ x ⬝ᵥ (A *ᵥ x)

/-- Symmetric positive definite. -/
structure SPD (A : Mat n) : Prop where
  symm : Aᵀ = A
  pos : ∀ x : Col n, x ≠ 0 → 0 < x ⬝ᵥ (A *ᵥ x)

/-- Electric energy (twice): half a cell's capacitance on either side of every node, node `k` weighted
with `w k` (`w = 1` for the physical energy). -/
noncomputable def MTL.electric (s : MTL n p) (w : ℕ → ℝ) : ℝ :=
  ∑ k ∈ Finset.range s.m, s.dun k / 2 *
    (w k * (s.v k ⬝ᵥ (s.c k *ᵥ s.v k)) + w (k + 1) * (s.v (k + 1) ⬝ᵥ (s.c (k + 1) *ᵥ s.v (k + 1))))

/-- Magnetic energy (twice): the inductance of every cell, connectors included. -/
noncomputable def MTL.magnetic (s : MTL n p) : ℝ :=
  ∑ k ∈ Finset.range s.m, s.dun k * (s.i k ⬝ᵥ ((s.l k + s.conn.e k) *ᵥ s.i k))

/-- Twice the energy of the scheme with nodal weights. -/
noncomputable def MTL.energyW (s : MTL n p) (w : ℕ → ℝ) : ℝ :=
  s.electric w + s.magnetic + s.dt * ∑ k ∈ Finset.range s.m, s.i k ⬝ᵥ (s.v (k + 1) - s.v k)

/-- Twice the energy of the scheme. -/
noncomputable def MTL.energy (s : MTL n p) : ℝ := s.energyW fun _ => 1

/-- The terminal coefficients stored in the line were computed for the time step `τ` (the constructor's;
`set_time_step` and assignments to `dt` do not recompute them). -/
structure MTL.TermFor (s : MTL n p) (τ : ℝ) : Prop where
  det_left : (termF1 τ (s.dun 0) s.zs (s.c 0) (s.g 0)).det ≠ 0
  det_right : (termF1 τ (s.dun (s.m - 1)) s.zl (s.c s.m) (s.g s.m)).det ≠ 0
  left1 : s.left1 = (termF1 τ (s.dun 0) s.zs (s.c 0) (s.g 0))⁻¹ * termF2 τ (s.dun 0) s.zs (s.c 0) (s.g 0)
  left2 : s.left2 = (termF1 τ (s.dun 0) s.zs (s.c 0) (s.g 0))⁻¹
  right1 : s.right1 = (termF1 τ (s.dun (s.m - 1)) s.zl (s.c s.m) (s.g s.m))⁻¹ *
    termF2 τ (s.dun (s.m - 1)) s.zl (s.c s.m) (s.g s.m)
  right2 : s.right2 = (termF1 τ (s.dun (s.m - 1)) s.zl (s.c s.m) (s.g s.m))⁻¹

/-- Nodal weights when the terminal coefficients belong to the time step `τ`: the two end nodes act as if
their half cells were scaled by `dt / τ`. -/
noncomputable def MTL.endWeight (s : MTL n p) (τ : ℝ) : ℕ → ℝ :=
  fun k => if k = 0 ∨ k = s.m then s.dt / τ else 1

/-- A passive line: cells of non-negative length, positive time step, symmetric `L` and `C`, dissipative
resistances, conductances and terminations; connectors without poles (lumped resistance and inductance). -/
structure MTL.Passive (s : MTL n p) : Prop where
  cells : 0 < s.m
  dt_pos : 0 < s.dt
  dun : ∀ k < s.m, 0 ≤ s.dun k
  l : ∀ k < s.m, (s.l k + s.conn.e k)ᵀ = s.l k + s.conn.e k
  c : ∀ k ≤ s.m, (s.c k)ᵀ = s.c k
  r : ∀ k < s.m, Dissipative (s.r k + s.conn.d k)
  g : ∀ k ≤ s.m, Dissipative (s.g k)
  zs : Dissipative s.zs
  zl : Dissipative s.zl
  q1 : ∀ k < s.m, s.conn.q1sum k = 0
  q2 : ∀ k < s.m, s.conn.q2sum k = 0
  q3 : ∀ k < s.m, ∀ a b, s.conn.q3 k a b = none

/-- Data of the stability theorems: uniform symmetric positive definite `C`, symmetric positive definite
inductances, connectors with dissipative inductance, positive cell lengths. -/
structure MTL.Regular (s : MTL n p) (C : Mat n) : Prop where
  c : ∀ k ≤ s.m, s.c k = C
  c_spd : SPD C
  l_spd : ∀ k < s.m, SPD (s.l k)
  e : ∀ k < s.m, Dissipative (s.conn.e k)
  dun : ∀ k < s.m, 0 < s.dun k

end Mtln
