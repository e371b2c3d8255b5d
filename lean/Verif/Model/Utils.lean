import Verif.Model.Py

/-!
# Functions of time (utils.py)

The arguments of `add_t_functions` and `multiply` are Python integers or functions.  A function object carries the
names of its parameters and of its other local variables (`__code__.co_varnames` lists both, parameters first), and
what it computes from one positional argument.  Only functions with exactly one parameter and no defaults can be
called with one argument; the others raise `TypeError` when they are called.
-/

namespace Mtln

/-- A Python function object; `body` is what a call with one positional argument does. -/
structure PyFun where
  params : List String
  locals : List String
  body : ℝ → Py ℝ

/-- `f(t)`: call with one positional argument. -/
def PyFun.call (f : PyFun) (t : ℝ) : Py ℝ :=
  if f.params.length = 1 then f.body t else .error .TypeError

/-- `f.__code__.co_varnames`. -/
def PyFun.varnames (f : PyFun) : List String := f.params ++ f.locals

/-- An argument or a result of `add_t_functions`: an integer or a function. -/
inductive TArg where
  | int (k : ℤ)
  | fn (f : PyFun)

/-- `lambda t : body`. -/
def lambdaT (body : ℝ → Py ℝ) : PyFun := { params := ["t"], locals := [], body := body }

/-- utils.py:13-25 `add_t_functions(f1, f2)`. -/
def addT : TArg → TArg → Py TArg
  | .int _, .int _ => .ok (.int 0)
  | .int _, .fn f2 => do
    pyAssert ("t" ∈ f2.varnames)
    .ok (.fn (lambdaT fun t => f2.call t))
  | .fn f1, .int _ => do
    pyAssert ("t" ∈ f1.varnames)
    .ok (.fn (lambdaT fun t => f1.call t))
  | .fn f1, .fn f2 => do
    pyAssert ("t" ∈ f1.varnames)
    pyAssert ("t" ∈ f2.varnames)
    .ok (.fn (lambdaT fun t => do
      let a ← f1.call t
      let b ← f2.call t
      .ok (a + b)))

/-- utils.py:27-29 `multiply(f, k)`. -/
def mulT (f : PyFun) (k : ℝ) : Py PyFun := do
  pyAssert ("t" ∈ f.varnames)
  .ok (lambdaT fun t => do
    let a ← f.call t
    .ok (k * a))

/-- utils.py:3-11 `SFunction.__call__` and `SFunction.__add__`: no assertion, `summed` takes any arguments. -/
def addS (f1 f2 : PyFun) (t : ℝ) : Py ℝ := do
  let a ← f1.call t
  let b ← f2.call t
  .ok (a + b)

end Mtln
