import Mathlib.Analysis.SpecialFunctions.Pow.Real
import Mathlib.Analysis.SpecialFunctions.Complex.Log
import Verif.Model.Parser

/-!
# Impedances and the output of vector fits (VF/utils.py)

The functions act on every frequency of an array separately; the model gives the value at one frequency.  Divisions by
zero and powers and roots of negative numbers give `inf` or `nan` in numpy and are not modelled.
-/

namespace Mtln.VF

open Complex

/-- `2*np.pi*f`. -/
noncomputable def omega (f : ℝ) : ℝ := 2 * Real.pi * f

open Classical in
/-- `x/y` of complex numbers. -/
noncomputable def div (x y : ℂ) : Py ℂ := if y = 0 then .error .NotModelled else .ok (x / y)

/-- VF/utils.py:7-8 `Zw(f, f0, R, sigma)`. -/
noncomputable def Zw (f f0 R sigma : ℝ) : Py ℂ := do
  let x ← div (-((f - f0) ^ 2 : ℝ)) ((2 * sigma ^ 2 : ℝ))
  .ok (R * (1 + 2.5 * I) * exp x)

/-- VF/utils.py:10-12 `Y_Zw(f, f0, R, sigma)`. -/
noncomputable def Y_Zw (f f0 R sigma : ℝ) : Py ℂ := do
  let x ← div (-((f - f0) ^ 2 : ℝ)) ((2 * sigma ^ 2 : ℝ))
  div 1 (R * (1 + 2.5 * I) * exp x)

open Classical in
/-- `w**n`. -/
noncomputable def power (w n : ℝ) : Py ℝ :=
  if w < 0 ∨ w = 0 ∧ n < 0 then .error .NotModelled else .ok (w ^ n)

/-- VF/utils.py:14-16 `RLseriesDisp(f, R, L, n)`. -/
noncomputable def RLseriesDisp (f R L n : ℝ) : Py ℂ := do
  let w ← power (omega f) n
  .ok (R + I * w * L)

/-- VF/utils.py:18-20 `Y_RLseriesDisp(f, R, L, n)`. -/
noncomputable def Y_RLseriesDisp (f R L n : ℝ) : Py ℂ := do
  let w ← power (omega f) n
  div 1 (R + I * w * L)

/-- VF/utils.py:23-25 `RLpar(f, R, L)`. -/
noncomputable def RLpar (f R L : ℝ) : Py ℂ := do
  let x ← div R L
  div (I * omega f * R) (I * omega f + x)

/-- VF/utils.py:27-30 `RCpar(f, R, C)`. -/
noncomputable def RCpar (f R C : ℝ) : Py ℂ := do
  let x ← div 1 C
  let y ← div 1 (C * R)
  div x (I * omega f + y)

/-- VF/utils.py:32-37 `epsDebye(f, k, tau)`, the loop from the value `out`. -/
noncomputable def epsDebyeFrom (f : ℝ) (ran : ℝ) : ℂ → List ℝ → List ℝ → Py ℂ
  | out, [], _ => .ok out
  | _, _ :: _, [] => .error .IndexError
  | out, k :: ks, tau :: taus => do
    let x ← div (ran * k) (1 + 2 * Real.pi * I * f * tau)
    epsDebyeFrom f ran (out + x) ks taus

/-- VF/utils.py:32-37 `epsDebye(f, k, tau)`. -/
noncomputable def epsDebye (f : ℝ) (k tau : List ℝ) : Py ℂ := epsDebyeFrom f 1 1 k tau

/-- VF/utils.py:39-46 `epsDebyeErr(f, k, tau, p)`; `u` is the random number at this frequency. -/
noncomputable def epsDebyeErr (f : ℝ) (k tau : List ℝ) (p u : ℝ) : Py ℂ :=
  epsDebyeFrom f (1 + p * 2 / 100 * u - p / 100) 1 k tau

/-- VF/utils.py:55-56 `vfi(f, p, r, i)`. -/
noncomputable def vfi (f : ℝ) (p r : List ℂ) (i : ℕ) : Py ℂ := do
  let ri ← pyIndex r i
  let pi ← pyIndex p i
  div ri (2 * Real.pi * I * f - pi)

/-- VF/utils.py:48-53 `vf(f, p, r)`. -/
noncomputable def vf (f : ℝ) (p r : List ℂ) : Py ℂ :=
  (List.range p.length).foldlM (fun out i => do
    let x ← vfi f p r i
    .ok (out + x)) 0

open Classical in
/-- VF/utils.py:58-60 `z(f, f0, rdc)`; comparisons are 0 and 1 in products. -/
noncomputable def z (f f0 rdc : ℝ) : Py ℂ :=
  if f0 = 0 ∨ f / f0 < 0 then .error .NotModelled
  else .ok (rdc * (1 + I * f / f0) * ind (f ≤ f0) + rdc * (1 + I) * Real.sqrt (f / f0) * ind (f ≥ f0))

/-- The dictionary of one entry of the file `info.json`. -/
structure FitEntry where
  constant : ℝ
  proportional : ℝ
  polesR : List ℝ
  polesI : List ℝ
  residuesR : List ℝ
  residuesI : List ℝ

/-- VF/utils.py:78-104: the dictionary of number `i`. -/
noncomputable def fitEntry (nPoles : ℕ) (constant proportional : Bool) (a b : List ℝ) (p : List ℂ) (r : List (List ℂ))
    (i : ℕ) : Py FitEntry := do
  let c ← if constant then pyIndex a (i * nPoles) else .ok 0
  let d ← if proportional then pyIndex b (i * nPoles) else .ok 0
  let pr ← mapPy (fun j => do
    let x ← pyIndex p j
    let row ← pyIndex r (i * nPoles)
    let y ← pyIndex row j
    .ok (x, y)) (List.range nPoles)
  .ok
    { constant := c
      proportional := d
      polesR := pr.map fun xy => xy.1.re
      polesI := pr.map fun xy => xy.1.im
      residuesR := pr.map fun xy => xy.2.re
      residuesI := pr.map fun xy => xy.2.im }

/-- VF/utils.py:62-106 `serializeJSON(nReal, nCmplx, constant, proportional, a, b, p, r)`: the dictionary that is written to
the file.  `r` holds one row for every pair of ports. -/
noncomputable def serializeJSON (nReal nCmplx : ℕ) (constant proportional : Bool) (a b : List ℝ) (p : List ℂ)
    (r : List (List ℂ)) : Py (List FitEntry) :=
  mapPy (fitEntry (nReal + nCmplx * 2) constant proportional a b p r) (List.range (Nat.sqrt r.length))

end Mtln.VF
