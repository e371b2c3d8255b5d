import Verif.Model.Py
import Mathlib.Analysis.SpecialFunctions.Trigonometric.Basic

/-!
# Waveforms (waveforms.py)

Numeric waveforms are functions of a real number; Python's booleans in products are 0 and 1.  Division by zero of
Python numbers raises `ZeroDivisionError`.

Symbolic waveforms are SymPy expressions in the symbols `x y z t v`; the model gives the value of the expression for
given values of the symbols, `none` where SymPy evaluates to `nan` or `zoo` (no condition of a `Piecewise` holds, or a
division by zero).
-/

namespace Mtln

open Classical in
/-- A comparison used as a number. -/
noncomputable def ind (P : Prop) : ℝ := if P then 1 else 0

/-- `x % y` for reals (the sign of the divisor), also SymPy's `Mod`. -/
noncomputable def pyMod (x y : ℝ) : ℝ := x - y * ⌊x / y⌋

/-- The values of the symbols of an expression. -/
structure Env where
  x : ℝ
  y : ℝ
  z : ℝ
  t : ℝ
  v : ℝ

open Classical in
/-- `sp.Piecewise`: the value of the first branch whose condition holds. -/
noncomputable def piecewise : List (ℝ × Prop) → Option ℝ
  | [] => none
  | (a, c) :: r => if c then some a else piecewise r

/-- waveforms.py:4-5 `exp(x, A, x0)`. -/
noncomputable def wExp (x A x0 : ℝ) : Py ℝ :=
  if x0 = 0 then .error .ZeroDivisionError else .ok (A * (1 - Real.exp (-x / x0)))

/-- waveforms.py:7-8 `gaussian(x, x0, s0)`. -/
noncomputable def gaussian (x x0 s0 : ℝ) : Py ℝ :=
  if s0 = 0 then .error .ZeroDivisionError else .ok (Real.exp (-(x - x0) ^ 2 / (2 * s0 ^ 2)))

/-- waveforms.py:10-11 `gaussian_2(x, A, x0, s0)`. -/
noncomputable def gaussian2 (x A x0 s0 : ℝ) : Py ℝ :=
  if s0 = 0 then .error .ZeroDivisionError else .ok (A * Real.exp (-((x - x0) / s0) ^ 2))

open Classical in
/-- waveforms.py:13-15 `gaussian_2_sp(A, x0, s0)`. -/
noncomputable def gaussian2Sp (A x0 s0 : ℝ) (e : Env) : Option ℝ :=
  if s0 = 0 then none else some (A * Real.exp (-((e.t - x0) / s0) ^ 2))

/-- waveforms.py:17-18 `square_pulse(x, A, x0)`. -/
noncomputable def squarePulse (x A x0 : ℝ) : ℝ := A * ind (x ≤ x0) * ind (x ≥ 0)

/-- waveforms.py:20-21 `triangle_pulse(x, A, x0)`. -/
noncomputable def trianglePulse (x A x0 : ℝ) : Py ℝ :=
  if x0 = 0 then .error .ZeroDivisionError else .ok (A * (x / x0) * ind (x ≤ x0) * ind (x ≥ 0))

/-- waveforms.py:23-24 `sin_sq_pulse(x, A, w)`. -/
noncomputable def sinSqPulse (x A w : ℝ) : Py ℝ :=
  if w = 0 then .error .ZeroDivisionError
  else .ok (A * Real.sin (w * x) ^ 2 * ind (x ≥ 0) * ind (x < Real.pi / w))

/-- waveforms.py:26-27 `sin_pulse(x, A, w)`. -/
noncomputable def sinPulse (x A w : ℝ) : ℝ := A * Real.sin (w * x)

/-- waveforms.py:34, 49, 61: `cte_time`. -/
noncomputable def cteTime (rise fall f0 D : ℝ) : ℝ := D / f0 - 0.5 * (rise + fall)

/-- waveforms.py:59-67 `trapezoidal_wave(x, A, rise_time, fall_time, f0, D)`. -/
noncomputable def trapezoidalWave (x A rise fall f0 D : ℝ) : Py ℝ := do
  raiseIf (f0 = 0) .ZeroDivisionError
  let modTime := pyMod x (1 / f0)
  let cte := cteTime rise fall f0 D
  let t1 := rise
  let t2 := rise + cte
  let t3 := rise + cte + fall
  raiseIf (rise = 0) .ZeroDivisionError
  raiseIf (fall = 0) .ZeroDivisionError
  .ok (A * (modTime / rise) * ind (modTime ≤ t1) + A * ind (modTime ≥ t1) * ind (modTime ≤ t2)
    + (-A * modTime / fall + A * (rise + cte + fall) / fall) * ind (modTime ≥ t2) * ind (modTime ≤ t3))

open Classical in
/-- waveforms.py:44-57 `trapezoidal_wave_sp(A, rise_time, fall_time, f0, D, v)` and waveforms.py:29-42
`trapezoidal_wave_x_sp`, which has the same text.  The velocity is the argument, not a symbol. -/
noncomputable def trapezoidalSp (A rise fall f0 D v : ℝ) (e : Env) : Option ℝ :=
  let modTime := pyMod (e.t + e.x / v) (1 / f0)
  let cte := cteTime rise fall f0 D
  let t1 := rise
  let t2 := rise + cte
  let t3 := rise + cte + fall
  if f0 = 0 ∨ v = 0 ∨ rise = 0 ∨ fall = 0 then none
  else piecewise [
    (A * (modTime / rise), modTime ≤ t1),
    (A, modTime > t1 ∧ modTime ≤ t2),
    (-A * modTime / fall + A * (rise + cte + fall) / fall, modTime > t2 ∧ modTime ≤ t3),
    (0, modTime ≥ t3)]

/-- waveforms.py:69-70 `ramp_pulse(x, A, x0)`. -/
noncomputable def rampPulse (x A x0 : ℝ) : Py ℝ :=
  if x0 = 0 then .error .ZeroDivisionError
  else .ok (A * (x / x0) * ind (x ≤ x0) * ind (x ≥ 0) + A * ind (x ≥ x0))

open Classical in
/-- waveforms.py:73-76 `ramp_pulse_sp(A, x0)`. -/
noncomputable def rampSp (A x0 : ℝ) (e : Env) : Option ℝ :=
  if x0 = 0 then none else piecewise [(A * (e.t / x0), e.t ≤ x0), (A, e.t ≥ x0)]

open Classical in
/-- waveforms.py:78-91 `ramp_pulse_x_sp(A, x0, v)`, `ramp_pulse_y_sp`, `ramp_pulse_z_sp`: `s` is the coordinate.  The
argument `v` is overwritten by the symbol `v`. -/
noncomputable def rampAlongSp (s : Env → ℝ) (A x0 _v : ℝ) (e : Env) : Option ℝ :=
  if x0 = 0 ∨ e.v = 0 then none
  else piecewise [(A * (e.t / x0), e.t + s e / e.v ≤ x0), (A, e.t + s e / e.v ≥ x0)]

/-- waveforms.py:94-95 `double_exp(t, C, a, b)`. -/
noncomputable def doubleExp (t C a b : ℝ) : ℝ := C * (Real.exp (-a * t) - Real.exp (-b * t))

/-- waveforms.py:97-99 `double_exp_sp(C, a, b)`. -/
noncomputable def doubleExpSp (C a b : ℝ) (e : Env) : Option ℝ :=
  some (C * (Real.exp (-a * e.t) - Real.exp (-b * e.t)))

open Classical in
/-- waveforms.py:101-111 `double_exp_xy_sp(C, a, b)`, `double_exp_yz_sp` (`z`, `y`), `double_exp_xz_sp` (`x`, `z`). -/
noncomputable def doubleExpAlongSp (s₁ s₂ : Env → ℝ) (C a b : ℝ) (e : Env) : Option ℝ :=
  if e.v = 0 then none
  else some (C * (Real.exp (-a * (e.t + s₁ e / e.v + s₂ e / e.v)) - Real.exp (-b * (e.t + s₁ e / e.v + s₂ e / e.v))))

/-- waveforms.py:122-124 `null()`. -/
def nullSp (_ : Env) : Option ℝ := some 0

end Mtln
