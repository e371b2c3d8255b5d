import Mathlib.Analysis.SpecialFunctions.Exp
import Mathlib.Analysis.SpecialFunctions.Complex.Circle
import Mathlib.LinearAlgebra.Matrix.NonsingularInverse
import Verif.Model.Probe

/-!
# Dispersive elements: recursive convolution (dispersive.py)

`nx` (number of cells) is `m`, conductors are `Fin n`.

Simplification: all rational models added to one line or bundle have the same number `p` of poles.
(In Python every entry of `q1`, `q2`, `q3` is a Python object, the integer `0` or an array with one
complex number per pole; arrays of different lengths that meet in one cell raise a broadcasting error.)
An entry is `none` for the integer `0` and `some a` for an array (or, for transfer impedances, a complex
scalar, which is represented as an array of one pole).
-/

namespace Mtln

/-- Complex values, one per pole. -/
abbrev Poles (p : ℕ) := Fin p → ℂ

/-- An entry of `q1`, `q2` or `q3`: the integer `0` or an array. -/
abbrev QEntry (p : ℕ) := Option (Poles p)

/-- Numeric content of an entry. -/
def QEntry.val {p : ℕ} (q : QEntry p) : Poles p := q.getD 0

/-- `np.sum` of one entry converted to float (`v_sum`, dispersive.py:74-75): the sum over the poles; the
conversion of `np.complex128` to float drops the imaginary part. -/
noncomputable def poleSum {p : ℕ} (a : Poles p) : ℝ := (∑ s, a s).re

/-- The coefficients of `class Dispersive` (dispersive.py:4-72), except the memory `phi`, which is part of
the dynamic state.  `q1 k i j` is `self.q1[k, i, j]`. -/
structure Disp (n p : ℕ) where
  dt : ℝ
  q1 : ℕ → Fin n → Fin n → QEntry p
  q2 : ℕ → Fin n → Fin n → QEntry p
  q3 : ℕ → Fin n → Fin n → QEntry p
  d : ℕ → Matrix (Fin n) (Fin n) ℝ
  e : ℕ → Matrix (Fin n) (Fin n) ℝ
  q1sum : ℕ → Matrix (Fin n) (Fin n) ℝ
  q2sum : ℕ → Matrix (Fin n) (Fin n) ℝ

/-- The memory `phi` (dispersive.py:10-15): `phi k j s` for cell `k`, conductor `j`, pole `s`. -/
abbrev Memory (n p : ℕ) := ℕ → Fin n → Poles p

/-- dispersive.py:5-72 `Dispersive.__init__`. -/
def Disp.new {n p : ℕ} (dt : ℝ) : Disp n p where
  dt := dt
  q1 := fun _ _ _ => none
  q2 := fun _ _ _ => none
  q3 := fun _ _ _ => none
  d := fun _ => 0
  e := fun _ => 0
  q1sum := fun _ => 0
  q2sum := fun _ => 0

/-- dispersive.py:74-75 `v_sum` applied to a whole coefficient array. -/
noncomputable def vSum {n p : ℕ} (q : ℕ → Fin n → Fin n → QEntry p) (k : ℕ) :
    Matrix (Fin n) (Fin n) ℝ := Matrix.of fun i j => poleSum (q k i j).val

/-- dispersive.py:77-79 `update_q3_phi_term`: `q3_phi_term[k] = v_sum(q3[k].dot(phi[k]))`. -/
noncomputable def Disp.q3phi {n p : ℕ} (D : Disp n p) (phi : Memory n p) (k : ℕ) : Col n :=
  fun i => poleSum fun s => ∑ j, (D.q3 k i j).val s * phi k j s

/-- dispersive.py:81-87 `update_phi(i_prev, i_now)`, cell by cell (cells `0 … m-1` exist in Python; the
model uses the same formula for the unused indices). -/
noncomputable def Disp.updatePhi {n p : ℕ} (D : Disp n p) (phi : Memory n p) (iPrev iNow : Grid n) :
    Memory n p :=
  fun k i s =>
    (∑ j, (D.q1 k i j).val s * (iNow k j : ℂ)) + (∑ j, (D.q2 k i j).val s * (iPrev k j : ℂ))
      + ∑ j, (D.q3 k i j).val s * phi k j s

/-! ## Rational models and their coefficients -/

/-- A rational model as given by the user: keys `cte`, `prop`, `poles`, `residues`, each of the latter two
with lists `real` and `imag` (dispersive.py:107-120, 164-177). -/
structure RationalModel where
  cte : ℝ
  prop : ℝ
  polesReal : List ℝ
  polesImag : List ℝ
  residuesReal : List ℝ
  residuesImag : List ℝ

/-- dispersive.py:110-113, 167-170: the four assertions on the lengths. -/
def RationalModel.checkLengths (M : RationalModel) : Py Unit := do
  pyAssert (M.polesReal.length = M.polesImag.length)
  pyAssert (M.residuesReal.length = M.residuesImag.length)
  pyAssert (M.polesReal.length = M.residuesReal.length)
  pyAssert (M.polesImag.length = M.residuesImag.length)

/-- dispersive.py:119, 176: `poles[i] = real[i] + 1j*imag[i]`. -/
noncomputable def RationalModel.pole (M : RationalModel) (s : ℕ) : ℂ :=
  (M.polesReal.getD s 0 : ℂ) + Complex.I * (M.polesImag.getD s 0 : ℂ)

/-- dispersive.py:120, 177: `residues[i] = (real[i] + 1j*imag[i])/scale`. -/
noncomputable def RationalModel.residue (M : RationalModel) (scale : ℝ) (s : ℕ) : ℂ :=
  ((M.residuesReal.getD s 0 : ℂ) + Complex.I * (M.residuesImag.getD s 0 : ℂ)) / (scale : ℂ)

/-- `(residues / poles) * (1 - (np.exp(poles * dt) - 1) / (poles * dt))`
(dispersive.py:134-136, 198-200, 211-213, 270-272, 283-285). -/
noncomputable def coefA (pole residue : ℂ) (dt : ℝ) : ℂ :=
  residue / pole * (1 - (Complex.exp (pole * dt) - 1) / (pole * dt))

/-- `(residues / poles) * (1 / (poles * dt) + np.exp(poles * dt) * (1 - 1 / (poles * dt)))`
(dispersive.py:137-140, 201-204, 214-217, 273-276, 286-289). -/
noncomputable def coefB (pole residue : ℂ) (dt : ℝ) : ℂ :=
  residue / pole * (1 / (pole * dt) + Complex.exp (pole * dt) * (1 - 1 / (pole * dt)))

/-- `np.exp(poles * dt)` (dispersive.py:141, 205, 218, 277, 290). -/
noncomputable def coefE (pole : ℂ) (dt : ℝ) : ℂ := Complex.exp (pole * dt)

/-- Write one entry of a coefficient array indexed by cell, row and column (`q[k, i, j] = x`). -/
def setEntry {n : ℕ} {α : Type*} (q : ℕ → Fin n → Fin n → α) (k : ℕ) (i j : Fin n) (x : α) :
    ℕ → Fin n → Fin n → α :=
  fun k' i' j' => if k' = k ∧ i' = i ∧ j' = j then x else q k' i' j'

/-- Write one entry of a matrix-valued array (`d[k, i, j] = x`). -/
def setMat {n : ℕ} (q : ℕ → Matrix (Fin n) (Fin n) ℝ) (k : ℕ) (i j : Fin n) (x : ℝ) :
    ℕ → Matrix (Fin n) (Fin n) ℝ :=
  fun k' => Matrix.of fun i' j' => if k' = k ∧ i' = i ∧ j' = j then x else q k' i' j'

open Classical in
/-- `assert q[index, conductor, conductor] == 0.0` (dispersive.py:125-127).  The integer `0` passes.  An
array of one pole is compared as a number.  The empty array is falsy (recent numpy raises instead) and an
array of several poles has no truth value (`ValueError`). -/
noncomputable def assertZero {p : ℕ} (q : QEntry p) : Py Unit :=
  match q with
  | none => .ok ()
  | some a =>
    if h : p = 1 then
      pyAssert (a ⟨0, by omega⟩ = 0)
    else if p = 0 then .error .AssertionError else .error .ValueError

open Classical in
/-- dispersive.py:95-144 `DispersiveConnector.add_dispersive_connector(position, conductor, model)` on the
nodes `u 0 … u m`.

* The index error of `self.u[index+1]` for the last node is line 105.
* A cell of length zero, a zero pole or a zero time step make the Python code produce `inf`/`nan`; the
  model reports `NotModelled`.
* The model's pole count must be `p` (see the header), otherwise `NotModelled`.
* `conductor` is a valid index (Python would raise `IndexError` otherwise). -/
noncomputable def Disp.addConnector {n p : ℕ} (D : Disp n p) (u : ℕ → V3) (m : ℕ)
    (position : V3) (conductor : Fin n) (M : RationalModel) : Py (Disp n p) := do
  raiseIf (outOfBox (u 0) (u m) position) .ValueError
  let index := nearest u m position
  raiseIf (index = m) .IndexError
  let du := norm3 fun j => u (index + 1) j - u index j
  raiseIf (du = 0) .NotModelled
  M.checkLengths
  raiseIf (M.polesReal.length ≠ p) .NotModelled
  raiseIf (D.dt = 0 ∨ ∃ s, s < p ∧ M.pole s = 0) .NotModelled
  let c := conductor
  pyAssert (D.d index c c = 0)
  pyAssert (D.e index c c = 0)
  assertZero (D.q1 index c c)
  assertZero (D.q2 index c c)
  assertZero (D.q3 index c c)
  let q1 := setEntry D.q1 index c c
    (some fun s => (D.q1 index c c).val s - coefA (M.pole s) (M.residue du s) D.dt)
  let q2 := setEntry D.q2 index c c
    (some fun s => (D.q2 index c c).val s + coefB (M.pole s) (M.residue du s) D.dt)
  let q3 := setEntry D.q3 index c c
    (some fun s => (D.q3 index c c).val s + coefE (M.pole s) D.dt)
  .ok { D with
    d := setMat D.d index c c (D.d index c c + M.cte / du)
    e := setMat D.e index c c (D.e index c c + M.prop / du)
    q1 := q1
    q2 := q2
    q3 := q3
    q1sum := vSum q1
    q2sum := vSum q2 }

end Mtln
