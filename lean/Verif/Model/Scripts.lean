import Verif.Model.VectorFit

/-!
# The scripts of the vector fits (VF/VF_z.py and VF/VF_eps.py) and the parser's functions that nothing calls

Texts of numbers are the numbers.  The fit itself is done by `skrf` and is not modelled: its results are arguments.  Figures are
not modelled.
-/

namespace Mtln.VF

open Complex

/-- `np.logspace(a, b, n)[i]`. -/
noncomputable def logspace (a b : ℝ) (n i : ℕ) : ℝ := 10 ^ (a + (b - a) * i / (n - 1 : ℝ))

/-- VF_z.py:10, VF_eps.py:9 `freq`. -/
noncomputable def freqs (a b : ℝ) (n : ℕ) : List ℝ := (List.range n).map (logspace a b n)

/-- VF_z.py:42-45: one line of the file `4portZ.s4p`. -/
def fourPortRow (fq : ℝ) (imp1 imp2 imp3 imp4 : ℂ) : List ℝ :=
  [fq, imp1.re, imp1.im, 0, 0, 0, 0, 0, 0,
    0, 0, imp2.re, imp2.im, 0, 0, 0, 0,
    0, 0, 0, 0, imp3.re, imp3.im, 0, 0,
    0, 0, 0, 0, 0, 0, imp4.re, imp4.im]

/-- VF_z.py:40-46: the lines of the file; `zip` ends with the shortest list. -/
def fourPortFile : List ℂ → List ℂ → List ℂ → List ℂ → List ℝ → List (List ℝ)
  | a :: as, b :: bs, c :: cs, d :: ds, fq :: fqs => fourPortRow fq a b c d :: fourPortFile as bs cs ds fqs
  | _, _, _, _, _ => []

/-- VF_z.py:6-15: the file that the script writes. -/
noncomputable def zFile : Py (List (List ℝ)) := do
  let z1 ← mapPy (fun f => Y_RLseriesDisp f 10 (10 ^ (-8 : ℤ)) 1) (freqs 5 7 500)
  let z2 ← mapPy (fun f => Y_RLseriesDisp f 10 (10 ^ (-8 : ℤ)) 1) (freqs 5 7 500)
  let z3 ← mapPy (fun f => Y_RLseriesDisp f 10 (10 ^ (-8 : ℤ)) 1) (freqs 5 7 500)
  let z4 ← mapPy (fun f => Y_RLseriesDisp f 10 (10 ^ (-8 : ℤ)) 1) (freqs 5 7 500)
  .ok (fourPortFile z1 z2 z3 z4 (freqs 5 7 500))

/-- VF_eps.py:23-24: one line of the file `1port_err.s1p`. -/
def onePortRow (e : ℂ) (fq : ℝ) : List ℝ := [fq, e.re, e.im]

/-- VF_eps.py:7-8. -/
noncomputable def epsTau : List ℝ := [10 ^ (-3 : ℤ), 10 ^ (-4 : ℤ), 10 ^ (-5 : ℤ), 10 ^ (-6 : ℤ), 10 ^ (-9 : ℤ)]

@[inherit_doc epsTau] noncomputable def epsK : List ℝ := [10, 100, 0.1, 10, 100]

/-- VF_eps.py:7-25: the file that the script writes, with the random numbers `u`. -/
noncomputable def epsFile (u : ℝ → ℝ) : Py (List (List ℝ)) := do
  let eps ← mapPy (fun f => epsDebyeErr f epsK epsTau 0 (u f)) (freqs 1 12 400)
  .ok (List.zipWith onePortRow eps (freqs 1 12 400))

/-- VF_eps.py:45 `-1/vf.poles`. -/
noncomputable def printedTau (poles : List ℂ) : Py (List ℂ) := mapPy (fun p => div (-1) p) poles

/-- VF_eps.py:47 `-vf.residues/vf.poles`, one row. -/
noncomputable def printedK (poles residues : List ℂ) : Py (List ℂ) :=
  if residues.length = poles.length then mapPy (fun rp => div (-rp.1) rp.2) (residues.zip poles) else .error .ValueError

end Mtln.VF

namespace Mtln

/-- A value of a JSON document, as far as `_f` looks at it: a dictionary with its values, or something else. -/
inductive FVal where
  | dict : List (String × FVal) → FVal
  | other : FVal

/-- What a call of `_f` returns: nothing, or Python's function `input`. -/
inductive FResult where
  | nothing : FResult
  | input : FResult
deriving DecidableEq

/-- jsonParser.py:191-199 `_f(inp)`, without the list `out`, which is not returned. -/
def getF : List FVal → FResult
  | [] => .nothing
  | .dict _ :: l => getF l
  | .other :: _ => .input

/-- An entry of `"junctions"`, with the keys `"name"` and `"unitedCoordIds"`. -/
structure NamedJunction where
  name : Option String
  coords : Option (List ℤ)

/-- jsonParser.py:691-696 `_getNodesInJunction(junctionName)`. -/
def nodesInJunction (name : String) : List NamedJunction → Py (List ℤ)
  | [] => .error .Exception
  | j :: js =>
    match j.name with
    | none => .error .KeyError
    | some s =>
      if s = name then
        match j.coords with
        | none => .error .KeyError
        | some c => .ok c
      else nodesInJunction name js

/-- jsonParser.py:129-133 `_getFields`; `none` is a file without `"model"`, `some none` a model without `"fields"`. -/
def getFields {α : Type} : Option (Option (List α)) → Py (List α)
  | none => .error .AssertionError
  | some none => .ok []
  | some (some l) => .ok l

end Mtln
