import Mathlib.MeasureTheory.Integral.IntervalIntegral.Basic
import Mathlib.Analysis.SpecialFunctions.Trigonometric.Inverse
import Mathlib.Analysis.SpecialFunctions.Trigonometric.Arctan
import Verif.Model.Construct
import Verif.Model.Manager
import Verif.Model.Waveforms

/-!
# Incident fields (mtl.py:25-80, 460-506, 846-880, mtln.py:52-61)

A SymPy expression in the symbols `x y z t v` is a function of `Env`; `expr.subs(x, a)` fixes one entry of the
environment, `sp.Integral(expr, (x, a, b))` is the interval integral, and `sp.lambdify(t, expr)` is the function of
`t` that remains.  The numerical quadrature of the lambdified integral is taken to be exact.
-/

namespace Mtln

open Matrix

/-- The attributes of a `Field` object (mtl.py:25-29). -/
structure Field where
  ex : Env → ℝ
  ey : Env → ℝ
  ez : Env → ℝ

/-- The field vector at one place and time. -/
def Field.at (F : Field) (e : Env) : V3 := ![F.ex e, F.ey e, F.ez e]

open Classical in
/-- mtl.py:31-34 `Field.compute_eL_at_segment(du)`.  The division of a zero vector by its norm gives `nan`, which the
assertion then rejects; any other vector has norm 1 after the division. -/
noncomputable def Field.computeEL (F : Field) (du : V3) : Py (Env → ℝ) := do
  pyAssert (norm3 du ≠ 0)
  .ok fun e => F.ex e * (du 0 / norm3 du) + F.ey e * (du 1 / norm3 du) + F.ez e * (du 2 / norm3 du)

/-- The attributes of a `PlaneWave` object after construction (mtl.py:36-52): `ex ey ez` are numbers here, the
components `e_x e_y e_z` exist only after `add_planewave`. -/
structure PlaneWave where
  field : ℝ → ℝ
  polar : ℝ
  azimuth : ℝ
  polarization : ℝ
  ex : ℝ
  ey : ℝ
  ez : ℝ

/-- mtl.py:37-52 `PlaneWave.__init__` with `compute_directions`. -/
noncomputable def PlaneWave.new (field : ℝ → ℝ) (polar azimuth polarization : ℝ) : PlaneWave where
  field := field
  polar := polar
  azimuth := azimuth
  polarization := polarization
  ex := Real.sin polarization * Real.sin polar
  ey := -Real.sin polarization * Real.cos polar * Real.cos azimuth - Real.cos polarization * Real.sin azimuth
  ez := -Real.sin polarization * Real.cos polar * Real.sin azimuth + Real.cos polarization * Real.cos azimuth

/-- mtl.py:54-57 `compute_velocities(v)`.  Where the divisor is `0` numpy gives an infinite velocity, and the only
use of the velocities is `x / vx` (mtl.py:465), which is then `0`, the same as with Lean's `v / 0 = 0`. -/
noncomputable def PlaneWave.velocities (w : PlaneWave) (v : ℝ) : V3 :=
  ![-v / Real.cos w.polar,
    -v / (Real.sin w.polar * Real.cos w.azimuth),
    -v / (Real.sin w.polar * Real.sin w.azimuth)]

/-- mtl.py:465-468: the components of the field of a plane wave with the given phase velocity. -/
noncomputable def PlaneWave.toField (w : PlaneWave) (v : ℝ) : Field :=
  let c := w.velocities v
  let e0 : Env → ℝ := fun e => w.field (e.t - e.x / c 0 - e.y / c 1 - e.z / c 2)
  { ex := fun e => e0 e * w.ex, ey := fun e => e0 e * w.ey, ez := fun e => e0 e * w.ez }

open Classical in
/-- `np.arctan(a / b)` with numpy's infinite quotients; `0 / 0` is `nan`.  A zero divisor counts as `+0.0`. -/
noncomputable def arctanQuot (a b : ℝ) : Py ℝ :=
  if b ≠ 0 then .ok (Real.arctan (a / b))
  else if 0 < a then .ok (Real.pi / 2)
  else if a < 0 then .ok (-(Real.pi / 2))
  else .error .NotModelled

/-- mtl.py:64-65, the inner function `rx`. -/
noncomputable def rotX (θ : ℝ) : Matrix (Fin 3) (Fin 3) ℝ :=
  !![1, 0, 0; 0, Real.cos θ, -Real.sin θ; 0, Real.sin θ, Real.cos θ]

/-- mtl.py:66-67, the inner function `ry`. -/
noncomputable def rotY (θ : ℝ) : Matrix (Fin 3) (Fin 3) ℝ :=
  !![Real.cos θ, 0, Real.sin θ; 0, 1, 0; -Real.sin θ, 0, Real.cos θ]

open Classical in
/-- mtl.py:59-80 `rotate_to_segment(u)`. -/
noncomputable def PlaneWave.rotateToSegment (w : PlaneWave) (u : V3) : Py PlaneWave := do
  let thetax ← arctanQuot (u 1) (u 2)
  let thetay ← arctanQuot (-u 0) (Real.sqrt (u 1 ^ 2 + u 2 ^ 2))
  let F : V3 := ![Real.cos w.polar, Real.sin w.polar * Real.cos w.azimuth, Real.sin w.azimuth * Real.sin w.polar]
  let Fr : V3 := (rotY thetay * rotX thetax) *ᵥ F
  let polar := Real.arccos (Fr 0 / Real.sqrt (Fr 0 ^ 2 + Fr 1 ^ 2 + Fr 2 ^ 2))
  let azimuth := if Fr 1 = 0 ∧ Fr 2 = 0 then 0
    else SignType.sign (Fr 2) * Real.arccos (Fr 1 / Real.sqrt (Fr 1 ^ 2 + Fr 2 ^ 2))
  .ok (PlaneWave.new w.field polar azimuth w.polarization)

/-! ## Adding a field to a line or a bundle -/

/-- The argument `distances`, an array of shape `(rows, cols, 3)`. -/
structure Distances where
  rows : ℕ
  cols : ℕ
  d : ℕ → ℕ → V3

/-- `np.max(vu[nz])`, the largest phase velocity of a cell. -/
noncomputable def maxVelocity {n : ℕ} (l c : ℕ → Mat n) (k : ℕ) : ℝ := sSup (phaseVelocities l c k)

/-- mtl.py:495-496, 869-870: the longitudinal field of a conductor at the offset `d` from a node at `x0`: the
component along the segment at the conductor minus that at the reference. -/
noncomputable def eLAt (E : Env → ℝ) (x0 d du : V3) (v t : ℝ) : ℝ :=
  E ⟨x0 0 + d 0 - 1 / 2 * du 0, x0 1 + d 1 - 1 / 2 * du 1, x0 2 + d 2 - 1 / 2 * du 2, t, v⟩ -
    E ⟨x0 0 - 1 / 2 * du 0, x0 1 - 1 / 2 * du 1, x0 2 - 1 / 2 * du 2, t, v⟩

/-- mtl.py:492-493, 498-501, 503-506 and 866-867, 872-880: the transverse voltage of a conductor at the offset `d` from
`x0`: three integrals along the axes, weighted with the direction cosines of the offset. -/
noncomputable def eTAt (F : Field) (x0 d : V3) (v t : ℝ) : ℝ :=
  let l : V3 := fun j => |d j| / norm3 fun j => |d j|
  l 0 * (∫ s in (x0 0)..(x0 0 + d 0), F.ex ⟨s, x0 1, x0 2, t, v⟩) +
    l 1 * (∫ s in (x0 1)..(x0 1 + d 1), F.ey ⟨x0 0, s, x0 2, t, v⟩) +
    l 2 * (∫ s in (x0 2)..(x0 2 + d 2), F.ez ⟨x0 0, x0 1, s, t, v⟩)

open Classical in
/-- The body shared by `MTL.add_external_field` (mtl.py:484-506) and `MTLD.add_external_field` (mtl.py:857-880):
the conductors `0, …, rows - 1` of a line with `m` cells, the cells `start, …, stop - 1`.  The position used for the
last node is that of the last cell of the loop (`x0, y0, z0` keep their values); if the loop runs over no cell they are
unbound.  A cell without length raises `AssertionError`, a cell number beyond the last cell `IndexError`.  A zero
offset divides by zero (`nan`), and so does a non-positive eigenvalue: `NotModelled`. -/
noncomputable def fieldSources {n : ℕ} (m rows start stop : ℕ) (u du : ℕ → V3) (l c : ℕ → Mat n) (F : Field)
    (D : Distances) (eL eT : Src n) : Py (Src n × Src n) := do
  raiseIf (∃ k < m, ∃ x ∈ eigRe (l k * c (k + 1)), x ≤ 0) .NotModelled
  if rows = 0 then .ok (eL, eT) else
  raiseIf (stop ≤ start) .UnboundLocalError
  pyAssert (∀ k, start ≤ k → k < stop → k < m → norm3 (du k) ≠ 0)
  raiseIf (m < stop) .IndexError
  raiseIf (∃ j < rows, D.d j m = 0 ∨ ∃ k, start ≤ k ∧ k < stop ∧ D.d j k = 0) .NotModelled
  let E : ℕ → Env → ℝ := fun k =>
    match F.computeEL (du k) with
    | .ok E => E
    | .error _ => 0
  .ok (fun k j => if start ≤ k ∧ k < stop ∧ j.val < rows then
          eLAt (E k) (u k) (D.d j k) (du k) (maxVelocity l c k) else eL k j,
       fun k j => if j.val < rows ∧ k = m then eTAt F (u (stop - 1)) (D.d j m) (maxVelocity l c (m - 1))
          else if start ≤ k ∧ k < stop ∧ j.val < rows then eTAt F (u k) (D.d j k) (maxVelocity l c k)
          else eT k j)

variable {n p : ℕ}

/-- mtl.py:471-506 `MTL.add_external_field(field, distances, field_localization)`. -/
noncomputable def MTL.addExternalField (s : MTL n p) (F : Field) (D : Distances) (loc : Option (V3 × V3)) :
    Py (MTL n p) := do
  pyAssert (D.rows = n ∧ D.cols = s.m + 1)
  let start := match loc with
    | none => 0
    | some ab => nearest s.u s.m ab.1
  let stop := match loc with
    | none => s.m
    | some ab => nearest s.u s.m ab.2
  let e ← fieldSources s.m n start stop s.u s.du s.l s.c F D s.eL s.eT
  .ok { s with eL := e.1, eT := e.2 }

open Classical in
/-- mtl.py:460-469 `MTL.add_planewave(pw, distances)`.  The maximum over a line without cells or conductors raises
`ValueError`. -/
noncomputable def MTL.addPlanewave (s : MTL n p) (w : PlaneWave) (D : Distances) : Py (MTL n p) := do
  raiseIf (n = 0 ∨ s.m = 0) .ValueError
  raiseIf (∃ k < s.m, ∃ x ∈ eigRe (s.l k * s.c (k + 1)), x ≤ 0) .NotModelled
  s.addExternalField (w.toField (sSup {v | ∃ k < s.m, v ∈ phaseVelocities s.l s.c k})) D none

/-- mtl.py:846-880 `MTLD.add_external_field(field, distances, field_localization)`: only the conductors of the line of
level 0, and unlike `MTL` the cell after the end of the localization is included. -/
noncomputable def MTLD.addExternalField (b : MTLD n p) (F : Field) (D : Distances) (loc : Option (V3 × V3)) :
    Py (MTLD n p) := do
  let rows := b.inLevel.headD 0
  pyAssert (D.rows = rows ∧ D.cols = b.m + 1)
  let start := match loc with
    | none => 0
    | some ab => nearest b.u b.m ab.1
  let stop := match loc with
    | none => b.m
    | some ab => nearest b.u b.m ab.2 + 1
  let e ← fieldSources b.m rows start stop b.u b.du b.l b.c F D b.eL b.eT
  .ok { b with eL := e.1, eT := e.2 }

/-- mtln.py:56-58 `MTLN.add_external_field(field, distances)`. -/
noncomputable def MTLN.addExternalField (M : MTLN p) (F : Field) (D : Distances) : Py (MTLN p) := do
  let bs ← mapPy (onBundle fun b => b.addExternalField F D none) M.bundles
  .ok { M with bundles := bs }

/-- mtln.py:52-54 `MTLN.add_planewave(pw, distances)`: the class `MTLD` has no method `add_planewave`. -/
def MTLN.addPlanewave (M : MTLN p) (_w : PlaneWave) (_D : Distances) : Py (MTLN p) := do
  let bs ← mapPy (fun _ => .error .AttributeError) M.bundles
  .ok { M with bundles := bs }

/-- mtln.py:60-61 `MTLN.add_localized_external_field(bundle_name, field, distances, field_localization)`. -/
noncomputable def MTLN.addLocalizedExternalField (M : MTLN p) (name : String) (F : Field) (D : Distances)
    (start stop : V3) : Py (MTLN p) := do
  raiseIf (name ∉ M.bundles.map fun b => b.2.name) .KeyError
  let bs ← mapPy (fun b => if b.2.name = name then onBundle (fun b => b.addExternalField F D (some (start, stop))) b
    else .ok b) M.bundles
  .ok { M with bundles := bs }

end Mtln
