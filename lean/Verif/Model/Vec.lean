import Verif.Model.Py

/-!
# Points of space and numpy's `argmin`
-/

namespace Mtln

/-- A numpy array of shape `(3,)`. -/
abbrev V3 := Fin 3 → ℝ

/-- `np.linalg.norm` of a vector of three components. -/
noncomputable def norm3 (x : V3) : ℝ := Real.sqrt (x 0 ^ 2 + x 1 ^ 2 + x 2 ^ 2)

/-- `np.cross` of two vectors of three components. -/
def cross3 (a b : V3) : V3 :=
  ![a 1 * b 2 - a 2 * b 1, a 2 * b 0 - a 0 * b 2, a 0 * b 1 - a 1 * b 0]

/-- `a.dot(b)` for two vectors of three components. -/
def dot3 (a b : V3) : ℝ := a 0 * b 0 + a 1 * b 1 + a 2 * b 2

/-- `np.argmin` of the entries `f 0, …, f N` (that is `N + 1` of them): the first index where the
minimum is reached. -/
noncomputable def argmin (f : ℕ → ℝ) : ℕ → ℕ
  | 0 => 0
  | N + 1 => if f (N + 1) < f (argmin f N) then N + 1 else argmin f N

/-- `np.argmin(np.apply_along_axis(np.linalg.norm, 1, np.abs(u - position)))`, the index of the node of
`u 0, …, u m` nearest to `position` (probes.py:13-14, mtl.py:382-383, 440-441, 479-480, 722-723, 853-854,
971-972, 989-990, dispersive.py:104).  The absolute value is taken componentwise before the norm. -/
noncomputable def nearest (u : ℕ → V3) (m : ℕ) (position : V3) : ℕ :=
  argmin (fun k => norm3 fun j => |u k j - position j|) m

/-- A position argument: the API accepts a plain float `z`, meaning `[0, 0, z]`
(e.g. mtl.py:437-438, 510-511), an array, or a list of three floats (jsonParser.py:82). -/
inductive Pos where
  | float (z : ℝ)
  | array (x : V3)
  | list (x : V3)

/-- `if (type(position) == float): position = np.array([0.0,0.0,position])`. -/
def Pos.toV3 : Pos → V3
  | .float z => ![0, 0, z]
  | .array x => x
  | .list x => x

/-- `np.any(position > u[-1]) or np.any(position < u[0])`
(mtl.py:513, mtl.py:719, dispersive.py:101). -/
def outOfBox (u0 uEnd position : V3) : Prop :=
  (∃ j, position j > uEnd j) ∨ (∃ j, position j < u0 j)

noncomputable instance (u0 uEnd position : V3) : Decidable (outOfBox u0 uEnd position) :=
  Classical.propDecidable _

end Mtln
