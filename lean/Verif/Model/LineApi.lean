import Verif.Model.Line

/-!
# The public methods of `MTL` (mtl.py:371-416, 436-443, 508-557)

An exception raised after an attribute was changed leaves the Python object changed; the model only returns
the exception.
-/

namespace Mtln

variable {n p : ℕ}

/-- `stop >= start` for lists of floats: lexicographic. -/
def listGe (stop start : V3) : Prop := stop = start ∨ ∃ j, (∀ i < j, stop i = start i) ∧ start j < stop j

open Classical in
/-- `assert(end >= start)` (mtl.py:375, 401, 965, 982) for positions given as floats or as lists; with an array
the comparison has three truth values, and `assert` of it raises `ValueError`. -/
noncomputable def assertOrdered (start stop : Pos) : Py Unit :=
  match start, stop with
  | .float a, .float b => pyAssert (b ≥ a)
  | .list a, .list b => pyAssert (listGe b a)
  | .float _, .list _ => .error .TypeError
  | .list _, .float _ => .error .TypeError
  | _, _ => .error .ValueError

/-- `x[i1:i2+1][conductor][conductor] = value` on an array `x` of `rows` matrices of size `n`
(mtl.py:391-394, 411-414, 974-977, 992-995): the first `[conductor]` selects a matrix of the slice (the
`conductor`-th after `i1`), the second one a whole row of it. -/
def assignRow (rows : ℕ) (x : ℕ → Mat n) (i1 i2 conductor : ℕ) (value : ℝ) : Py (ℕ → Mat n) :=
  if i1 + conductor ≤ i2 ∧ i1 + conductor < rows ∧ conductor < n then
    .ok fun k => Matrix.of fun a b => if k = i1 + conductor ∧ a.val = conductor then value else x k a b
  else .error .IndexError

/-- The value written: `total / |u[i2] - u[i1]|`, or `total / |du[i1]|` for a single cell.  A division by zero
gives `inf` in numpy: `NotModelled`.  `u` has `m + 1` rows and `du` has `m`. -/
noncomputable def regionValue (m : ℕ) (u du : ℕ → V3) (i1 i2 : ℕ) (total : ℝ) : Py ℝ :=
  if i1 ≠ i2 then
    if m < i1 ∨ m < i2 then .error .IndexError
    else if norm3 (fun j => u i2 j - u i1 j) = 0 then .error .NotModelled
    else .ok (total / norm3 fun j => u i2 j - u i1 j)
  else
    if m ≤ i1 then .error .IndexError
    else if norm3 (du i1) = 0 then .error .NotModelled
    else .ok (total / norm3 (du i1))

/-- mtl.py:375-395 `MTL.set_resistance_in_region(start, end, conductor, resistance)`. -/
noncomputable def MTL.setResistanceInRegion (s : MTL n p) (start stop : Pos) (conductor : ℕ)
    (resistance : ℝ) : Py (MTL n p) := do
  assertOrdered start stop
  let i1 := nearest s.u s.m start.toV3
  let i2 := nearest s.u s.m stop.toV3
  let i1 := if i1 = s.m then i1 - 1 else i1
  let i2 := if i2 = s.m then i2 - 1 else i2
  let value ← regionValue s.m s.u s.du i1 i2 resistance
  let r ← assignRow s.m s.r i1 i2 conductor value
  MTL.updateLrTerms { s with r := r }

/-- mtl.py:372-373 `MTL.set_resistance_at_point`. -/
noncomputable def MTL.setResistanceAtPoint (s : MTL n p) (position : Pos) (conductor : ℕ) (resistance : ℝ) :
    Py (MTL n p) :=
  s.setResistanceInRegion position position conductor resistance

/-- `np.argmin(np.abs(self.u - position))` without an axis (mtl.py:408-409): the index in the *flattened*
array of `3 (m + 1)` coordinates. -/
noncomputable def nearestFlat (u : ℕ → V3) (m : ℕ) (position : V3) : ℕ :=
  argmin (fun q => |u (q / 3) ⟨q % 3, Nat.mod_lt _ (by norm_num)⟩ - position ⟨q % 3, Nat.mod_lt _ (by norm_num)⟩|)
    (3 * m + 2)

/-- mtl.py:400-415 `MTL.add_conductance_in_region(begin, end, conductor, conductance)`. -/
noncomputable def MTL.addConductanceInRegion (s : MTL n p) (start stop : Pos) (conductor : ℕ)
    (conductance : ℝ) : Py (MTL n p) := do
  assertOrdered start stop
  let i1 := nearestFlat s.u s.m start.toV3
  let i2 := nearestFlat s.u s.m stop.toV3
  let value ← regionValue s.m s.u s.du i1 i2 conductance
  let g ← assignRow (s.m + 1) s.g i1 i2 conductor value
  MTL.updateCgTerms { s with g := g }

/-- mtl.py:397-398 `MTL.add_conductance_at_point`. -/
noncomputable def MTL.addConductanceAtPoint (s : MTL n p) (position : Pos) (conductor : ℕ) (conductance : ℝ) :
    Py (MTL n p) :=
  s.addConductanceInRegion position position conductor conductance

/-- mtl.py:436-444 `MTL.add_voltage_source(position, conductor, magnitude)`. -/
noncomputable def MTL.addVoltageSource (s : MTL n p) (position : Pos) (conductor : Fin n)
    (magnitude : ℝ → ℝ) : MTL n p :=
  let index := nearest s.u s.m position.toV3
  { s with vSources := fun k j => if k = index ∧ j = conductor then magnitude else s.vSources k j }

/-- mtl.py:508-518 `MTL.add_probe(position, probe_type)`. -/
noncomputable def MTL.addProbe (s : MTL n p) (position : Pos) (type : String) : Py (MTL n p) := do
  raiseIf (outOfBox (s.u 0) (s.u s.m) position.toV3) .ValueError
  .ok { s with probes := s.probes ++ [Probe.new position.toV3 type s.dt s.u s.m] }

/-- mtl.py:520-537 `MTL.add_port_probe(terminal)`.  For `terminal` 0 and 1 the attribute `self.z`, which no
method of the class ever sets, is read; for other values the local variable `x0` is unset. -/
def MTL.addPortProbe (_s : MTL n p) (terminal : ℕ) : Py (MTL n p) :=
  if terminal = 0 ∨ terminal = 1 then .error .AttributeError else .error .UnboundLocalError

/-- mtl.py:549-555 `MTL.add_dispersive_connector(position, conductor, model)`.  No conversion of floats here:
`position` is an array. -/
noncomputable def MTL.addDispersiveConnector (s : MTL n p) (position : V3) (conductor : Fin n)
    (M : RationalModel) : Py (MTL n p) := do
  let conn ← s.conn.addConnector s.u s.m position conductor M
  .ok { s with conn := conn }

end Mtln
