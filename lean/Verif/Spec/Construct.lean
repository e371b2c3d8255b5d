import Verif.Model.Construct

/-!
# Specification: legal constructor arguments, meshes
-/

namespace Mtln

/-- `L` and `C` are both floats (one conductor) or both square matrices of the same size. -/
inductive GoodLC : ℕ → Arg → Arg → Prop
  | floats (x y : ℝ) : GoodLC 1 (.scalar x) (.scalar y)
  | matrices (n : ℕ) (a b : ℕ → ℕ → ℝ) : GoodLC n (.mat n n a) (.mat n n b)

/-- `R` (or `G`) is a float, non-zero only for one conductor, or a square matrix of the right size. -/
inductive GoodRG (n : ℕ) : Arg → Prop
  | zero : GoodRG n (.scalar 0)
  | one (x : ℝ) (h : n = 1) : GoodRG n (.scalar x)
  | matrix (a : ℕ → ℕ → ℝ) : GoodRG n (.mat n n a)

/-- `Zs` and `Zl` are both numbers, both vectors of the right length, or both row (column) matrices of the
right length. -/
inductive GoodZ (n : ℕ) : ZArg → ZArg → Prop
  | numbers (x y : ℝ) : GoodZ n (.scalar x) (.scalar y)
  | vectors (a b : List ℝ) (ha : a.length = n) (hb : b.length = n) : GoodZ n (.vec a) (.vec b)
  | row (a b : ℕ → ℕ → ℝ) : GoodZ n (.mat 1 n a) (.mat 1 n b)
  | column (a b : ℕ → ℕ → ℝ) : GoodZ n (.mat n 1 a) (.mat n 1 b)

/-- The matrix a per-unit-length argument stands for: a float fills the whole matrix. -/
def Arg.matrix (n : ℕ) : Arg → Mat n
  | .scalar x => Matrix.of fun _ _ => x
  | .mat _ _ a => Matrix.of fun i j => a i j
  | _ => 0

/-- The impedance a termination argument gives to conductor `i`. -/
def ZArg.value : ZArg → ℕ → ℝ
  | .scalar x, _ => x
  | .vec a, i => a.getD i 0
  | .mat r _ a, i => if r = 1 then a 0 i else a i 0

/-- The polyline through `pos`: `u 0 … u m` starts and ends with it, is contiguous
(`u (k+1) = u k + du k`) and goes through every given position, with `ndiv` cells of equal size between
consecutive ones. -/
structure Subdivides (pos : ℕ → V3) (ndiv : List ℕ) (m : ℕ) (u du : ℕ → V3) : Prop where
  cells : m = ndiv.sum
  first : u 0 = pos 0
  last : u m = pos ndiv.length
  contiguous : ∀ k < m, u (k + 1) = u k + du k
  /-- node `Σ_{j<i} ndiv j` is the `i`-th position -/
  through : ∀ i ≤ ndiv.length, u (ndiv.take i).sum = pos i
  /-- the cells of segment `i` are equal parts of it -/
  equal : ∀ i, (h : i < ndiv.length) → ∀ k < ndiv[i], ∀ j,
    du ((ndiv.take i).sum + k) j = (pos (i + 1) j - pos i j) / ndiv[i]

end Mtln
