import Mathlib.Analysis.Real.Sqrt
import Mathlib.Algebra.Order.Floor.Ring

/-!
# Python exceptions as values

The Python code signals errors by raising exceptions.  A model function that can raise returns
`Py α = Except PyErr α`.  `PyErr.NotModelled` marks inputs on which the real code leaves the exact-real
fragment (division by zero giving `inf`/`nan`, uninitialised memory); no theorem claims anything positive
about such runs.
-/

namespace Mtln

/-- Python exceptions raised by the modelled code. -/
inductive PyErr where
  | AssertionError | ValueError | IndexError | KeyError | TypeError | AttributeError
  | ZeroDivisionError | LinAlgError | UnboundLocalError | Exception | NotModelled
  deriving DecidableEq, Repr

/-- Result of a Python call that may raise. -/
abbrev Py (α : Type*) := Except PyErr α

/-- `assert b` (Python statement). -/
def pyAssert (b : Prop) [Decidable b] : Py Unit :=
  if b then .ok () else .error .AssertionError

/-- `if b: raise e` (Python statement). -/
def raiseIf (b : Prop) [Decidable b] (e : PyErr) : Py Unit :=
  if b then .error e else .ok ()

/-- `f` called `n` times in a row, stopping at the first exception:
`for _ in t: self.step()` (mtl.py:600-601, mtln.py:80-81). -/
def iterPy {α : Type*} (f : α → Py α) : ℕ → α → Py α
  | 0, a => .ok a
  | n + 1, a => f a >>= iterPy f n

/-- Length of `np.arange(0, np.floor(final_time / dt))`
(mtl.py:294-295 `MTL.get_time_range`, mtln.py:40-41 `MTLN.get_time_range`).
`np.arange(0, x)` has `max(0, ceil x)` entries and `floor` is already integral.
`dt = 0` gives an infinite or undefined stop value, which numpy rejects with `ValueError`. -/
noncomputable def timeRangeLen (finalTime dt : ℝ) : Py ℕ :=
  if dt = 0 then .error .ValueError else .ok ⌊finalTime / dt⌋.toNat

end Mtln
