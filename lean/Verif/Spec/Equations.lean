import Verif.Spec.Run

/-!
# Specification: the discretised telegrapher's equations and the boundary conditions

Written as equations between old and new values, independently of how the code solves them.
-/

namespace Mtln

open Matrix

variable {n p : ℕ}

/-- One cell of length `du`: inductance and resistance per unit length (`L`, `R`), lumped per-unit-length
connector (`D`, `E`, recursive convolution `Q1`, `Q2`, history `hist`), voltage difference `dV` along the
cell, difference `dET` of the transverse excitation, longitudinal field `eL` averaged over the step. -/
def CurrentEq (du dt : ℝ) (L R D E Q1 Q2 : Mat n) (iNew iOld hist dV dET eLNow eLPrev : Col n) : Prop :=
  du • ((1 / dt) • ((L + E) *ᵥ (iNew - iOld)) + (1 / 2 : ℝ) • ((R + D) *ᵥ (iNew + iOld))
      + Q1 *ᵥ iNew + Q2 *ᵥ iOld + hist)
    = -dV - dET + du • ((1 / 2 : ℝ) • (eLNow + eLPrev))

/-- One interior node with nodal length `h`: capacitance and conductance per unit length, difference `dI`
of the currents of the two neighbouring cells, change `dET` of the transverse excitation in the step. -/
def VoltageEq (h dt : ℝ) (C G : Mat n) (vNew vOld dI dET : Col n) : Prop :=
  h • ((1 / dt) • (C *ᵥ (vNew - vOld)) + (1 / 2 : ℝ) • (G *ᵥ (vNew + vOld)))
    = -dI - h • ((1 / dt) • (C *ᵥ dET) + (1 / 2 : ℝ) • (G *ᵥ dET))

/-- One end of the line with impedance matrix `Z`, first (last) cell length `du`, source `Vs` at the two
times of the step, current `Iout` leaving the end node into the line: twice the time-averaged Thevenin
equation `v = Vs - Z (Iout + (du/2)(C dv/dt + G v + C dE_T/dt))`. -/
def TerminalEq (du dt : ℝ) (Z C G : Mat n) (vNew vOld VsNow VsPrev Iout dET : Col n) : Prop :=
  vNew + vOld = (VsNow + VsPrev) - Z *ᵥ ((2 : ℝ) • Iout + (du / dt) • (C *ᵥ (vNew - vOld))
    + (du / 2) • (G *ᵥ (vNew + vOld)) + (du / dt) • (C *ᵥ dET))

/-- The terminal coefficients stored in the line belong to its present time step and data. -/
structure MTL.TermConsistent (s : MTL n p) : Prop where
  det_left : (termF1 s.dt (s.dun 0) s.zs (s.c 0) (s.g 0)).det ≠ 0
  det_right : (termF1 s.dt (s.dun (s.m - 1)) s.zl (s.c s.m) (s.g s.m)).det ≠ 0
  left1 : s.left1 = (termF1 s.dt (s.dun 0) s.zs (s.c 0) (s.g 0))⁻¹ *
    termF2 s.dt (s.dun 0) s.zs (s.c 0) (s.g 0)
  left2 : s.left2 = (termF1 s.dt (s.dun 0) s.zs (s.c 0) (s.g 0))⁻¹
  right1 : s.right1 = (termF1 s.dt (s.dun (s.m - 1)) s.zl (s.c s.m) (s.g s.m))⁻¹ *
    termF2 s.dt (s.dun (s.m - 1)) s.zl (s.c s.m) (s.g s.m)
  right2 : s.right2 = (termF1 s.dt (s.dun (s.m - 1)) s.zl (s.c s.m) (s.g s.m))⁻¹

end Mtln
