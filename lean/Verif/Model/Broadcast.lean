import Verif.Model.Dispersive

/-!
# The objects in the arrays of `class Dispersive` (dispersive.py:10-87)

`phi`, `q1`, `q2`, `q3` are numpy arrays of Python objects: each entry is a number or an array with one complex number per pole.
Model/Dispersive takes the entries as vectors of `p` numbers; here the arithmetic of numpy with the objects themselves is modelled.
-/

namespace Mtln

/-- An entry of `phi`, `q1`, `q2` or `q3`: a number or a one-dimensional array. -/
inductive Obj
  | num (z : ℂ)
  | arr (a : List ℂ)

namespace Obj

/-- Arithmetic of numpy with two objects: numbers act on every entry of an array, arrays of one entry are repeated, other arrays of
different lengths raise `ValueError` ("operands could not be broadcast together"). -/
noncomputable def op (f : ℂ → ℂ → ℂ) : Obj → Obj → Py Obj
  | num x, num y => .ok (num (f x y))
  | num x, arr b => .ok (arr (b.map fun y => f x y))
  | arr a, num y => .ok (arr (a.map fun x => f x y))
  | arr a, arr b =>
    if a.length = b.length then .ok (arr (List.zipWith f a b))
    else if a.length = 1 then .ok (arr (b.map fun y => f (a.getD 0 0) y))
    else if b.length = 1 then .ok (arr (a.map fun x => f x (b.getD 0 0)))
    else .error .ValueError

/-- `x * y`. -/
noncomputable def mul : Obj → Obj → Py Obj := op (· * ·)

/-- `x + y`. -/
noncomputable def add : Obj → Obj → Py Obj := op (· + ·)

/-- One product and its sum with those before it. -/
noncomputable def accumulate (t : Obj) (x : Obj × Obj) : Py Obj := do
  let y ← mul x.1 x.2
  add t y

/-- The scalar product of two arrays of objects, as `numpy.dot` computes it: the products, added from left to right. -/
noncomputable def dot : List (Obj × Obj) → Py Obj
  | [] => .ok (num 0)
  | x :: rest => do
    let y ← mul x.1 x.2
    rest.foldlM accumulate y

/-- `np.sum` of an object, converted to a float, which drops the imaginary part (dispersive.py:74-75 `v_sum`). -/
noncomputable def total : Obj → ℝ
  | num z => z.re
  | arr a => a.sum.re

variable {n : ℕ}

/-- One entry of `q[kz].dot(x)`: row `i` of a matrix of objects times a column of objects. -/
noncomputable def rowDot (q : Fin n → Fin n → Obj) (x : Fin n → Obj) (i : Fin n) : Py Obj :=
  dot ((List.finRange n).map fun j => (q i j, x j))

/-- dispersive.py:77-79 `update_q3_phi_term` in one cell: `q3_phi_term[kz][i]`. -/
noncomputable def term (q3 : Fin n → Fin n → Obj) (phi : Fin n → Obj) (i : Fin n) : Py ℝ := do
  let y ← rowDot q3 phi i
  .ok y.total

/-- dispersive.py:81-87 `update_phi(i_prev, i_now)` in one cell: the new `phi[kz][i]`. -/
noncomputable def newPhi (q1 q2 q3 : Fin n → Fin n → Obj) (phi : Fin n → Obj) (iPrev iNow : Fin n → ℝ) (i : Fin n) : Py Obj := do
  let a ← rowDot q1 (fun j => num (iNow j)) i
  let b ← rowDot q2 (fun j => num (iPrev j)) i
  let c ← rowDot q3 phi i
  let ab ← add a b
  add ab c

/-- The object for one conductor of a cell: the number `0`, or the array of one coefficient of each pole of the model placed there. -/
noncomputable def ofModel (coef : RationalModel → ℕ → ℂ) : Option RationalModel → Obj
  | none => num 0
  | some M => arr ((List.range M.polesReal.length).map (coef M))

/-- The objects of a cell in which connectors with the models `f` were placed: diagonal entries; all others are the number `0`. -/
noncomputable def entries (coef : RationalModel → ℕ → ℂ) (f : Fin n → Option RationalModel) (i j : Fin n) : Obj :=
  if i = j then ofModel coef (f i) else num 0

/-- `q1[kz]` after `add_dispersive_connector` with the models `f` in a cell of length `du` (dispersive.py:134-136). -/
noncomputable def q1Of (f : Fin n → Option RationalModel) (du dt : ℝ) : Fin n → Fin n → Obj :=
  entries (fun M s => 0 - coefA (M.pole s) (M.residue du s) dt) f

/-- `q2[kz]` (dispersive.py:137-140). -/
noncomputable def q2Of (f : Fin n → Option RationalModel) (du dt : ℝ) : Fin n → Fin n → Obj :=
  entries (fun M s => 0 + coefB (M.pole s) (M.residue du s) dt) f

/-- `q3[kz]` (dispersive.py:141). -/
noncomputable def q3Of (f : Fin n → Option RationalModel) (dt : ℝ) : Fin n → Fin n → Obj :=
  entries (fun M s => 0 + coefE (M.pole s) dt) f

end Obj

end Mtln
