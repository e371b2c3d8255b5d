import Verif.Model.Parser
import Mathlib.Data.Nat.Digits.Defs

/-!
# The text of elements and coordinates (jsonParser.py)

The elements and coordinates of a file are strings of fields separated by blanks, which the parser splits again in every
look-up.  Sometimes it converts a field to a number and sometimes it compares it with the text of a number.  A string is a
list of characters.  Simplifications:

* `int` and `float` of texts with underscores or characters beyond ASCII, and of `inf` and `nan`, are not modelled.
* A number is an exact real number.
-/

namespace Mtln.Text

/-- White space of `str.split()`. -/
def space (c : Char) : Bool :=
  let k := c.toNat
  (9 ≤ k ∧ k ≤ 13) ∨ (28 ≤ k ∧ k ≤ 32) ∨ k = 0x85 ∨ k = 0xa0 ∨ k = 0x1680 ∨ (0x2000 ≤ k ∧ k ≤ 0x200a) ∨ k = 0x2028 ∨ k = 0x2029 ∨
    k = 0x202f ∨ k = 0x205f ∨ k = 0x3000

/-- The loop of `str.split()`, with the characters of the current field in reverse order. -/
def splitFrom : List Char → List Char → List (List Char)
  | [], [] => []
  | [], c :: cs => [(c :: cs).reverse]
  | c :: s, cur =>
    if space c then
      if cur = [] then splitFrom s [] else cur.reverse :: splitFrom s []
    else splitFrom s (c :: cur)

/-- `s.split()`. -/
def split (s : List Char) : List (List Char) := splitFrom s []

/-- A decimal digit. -/
def digit (c : Char) : Bool := 48 ≤ c.toNat ∧ c.toNat ≤ 57

/-- A character whose meaning in numbers is not modelled. -/
def strange (c : Char) : Bool := c = '_' ∨ 128 ≤ c.toNat

/-- The value of a text of digits. -/
def digitsValue (s : List Char) : ℕ := s.foldl (fun v c => 10 * v + (c.toNat - 48)) 0

/-- `int(s)` of a text of digits. -/
def natOf (s : List Char) : Py ℕ :=
  if s.any strange then .error .NotModelled
  else if s ≠ [] ∧ s.all digit then .ok (digitsValue s)
  else .error .ValueError

/-- `int(s)` of a text without blanks. -/
def int : List Char → Py ℤ
  | '-' :: s => do
    let k ← natOf s
    .ok (-(k : ℤ))
  | '+' :: s => do
    let k ← natOf s
    .ok k
  | s => do
    let k ← natOf s
    .ok k

/-- The decimal notation of a natural number. -/
def natStr (k : ℕ) : List Char := if k = 0 then ['0'] else (Nat.digits 10 k).reverse.map fun d => Char.ofNat (48 + d)

/-- `str(k)`. -/
def str (k : ℤ) : List Char := if k < 0 then '-' :: natStr k.natAbs else natStr k.natAbs

/-- The digits before and after the point. -/
def mantissa (s : List Char) : Py (List Char × List Char) :=
  match s.span (· ≠ '.') with
  | (a, []) => .ok (a, [])
  | (a, _ :: b) => .ok (a, b)

/-- `float(s)` of a text without blanks and without a sign. -/
noncomputable def unsignedFloat (s : List Char) : Py ℝ := do
  let (m, e) := s.span fun c => c ≠ 'e' ∧ c ≠ 'E'
  let (a, b) ← mantissa m
  let v ← natOf (a ++ b)
  let x ← match e with
    | [] => .ok 0
    | _ :: e => int e
  .ok ((v : ℝ) / 10 ^ b.length * (10 : ℝ) ^ x)

/-- The texts of infinities and of "not a number". -/
def special (s : List Char) : Bool :=
  let l := s.map Char.toLower
  l = "inf".toList ∨ l = "infinity".toList ∨ l = "nan".toList

/-- A text without its sign. -/
def unsigned : List Char → List Char
  | '-' :: t => t
  | '+' :: t => t
  | t => t

/-- `float(s)` of a text without blanks. -/
noncomputable def float (s : List Char) : Py ℝ :=
  if special (unsigned s) then .error .NotModelled
  else do
    let x ← unsignedFloat (unsigned s)
    .ok (if s.head? = some '-' then -x else x)

/-- One row of the coordinates (jsonParser.py:81-82): its id and its position. -/
noncomputable def coordinate (row : List Char) : Py (ℤ × V3) := do
  let id ← pyIndex (split row) 0
  let id ← int id
  let x ← pyIndex (split row) 1
  let x ← float x
  let y ← pyIndex (split row) 2
  let y ← float y
  let z ← pyIndex (split row) 3
  let z ← float z
  .ok (id, ![x, y, z])

/-- jsonParser.py:77-83 `_getCoordinates`, the loop. -/
noncomputable def readCoordinates (rows : List (List Char)) : Py (List (ℤ × V3)) :=
  rows.foldlM (fun d row => do
    let c ← coordinate row
    .ok (dictSet d c.1 c.2)) []

/-- jsonParser.py:674-681 `_getElementOfNode(node_id)`. -/
def elementOfNode (node : ℤ) : List (List Char) → Py (ℤ × String)
  | [] => .error .Exception
  | e :: l => do
    let first ← pyIndex (split e) 3
    if first = str node then
      let id ← pyIndex (split e) 0
      let id ← int id
      .ok (id, "initial")
    else
      let last ← pyLast (split e)
      if last = str node then
        let id ← pyIndex (split e) 0
        let id ← int id
        .ok (id, "end")
      else elementOfNode node l

/-- jsonParser.py:698-703 `_getNodeCoordId(elemId)`; `TypeError` from the message. -/
def nodeCoordId (id : ℤ) : List (List Char) → Py ℤ
  | [] => .error .TypeError
  | e :: l => do
    let first ← pyIndex (split e) 0
    let first ← int first
    if first = id then
      let last ← pyLast (split e)
      int last
    else nodeCoordId id l

/-- jsonParser.py:705-710 `_getLineElemIdFromCoordId(coordId)`; `TypeError` from the message. -/
def lineElemIdFromCoordId (coord : ℤ) : List (List Char) → Py ℤ
  | [] => .error .TypeError
  | e :: l =>
    if str coord ∈ (split e).drop 3 then do
      let id ← pyIndex (split e) 0
      int id
    else lineElemIdFromCoordId coord l

/-- jsonParser.py:415-421 `_getListOfCoordinates(elemId)`, with the dictionary of the coordinates; `none` is Python's `None`. -/
def listOfCoordinates (coordinates : List (ℤ × V3)) (id : ℤ) : List (List Char) → Py (Option (List V3))
  | [] => .ok none
  | e :: l => do
    let first ← pyIndex (split e) 0
    let first ← int first
    if first = id then do
      let cs ← mapPy (fun c => do
        let c ← int c
        dictGet coordinates c) ((split e).drop 3)
      .ok (some cs)
    else listOfCoordinates coordinates id l

/-- jsonParser.py:583-585: whether a node element has the id of the first element of a source and is at the node. -/
def isAtNode (node : ℤ) (id : Py ℤ) : List (List Char) → Py Bool
  | [] => .ok false
  | n :: l => do
    let first ← pyIndex (split n) 0
    let first ← int first
    let id' ← id
    if first = id' then
      let last ← pyLast (split n)
      let last ← int last
      if last = node then .ok true else isAtNode node id l
    else isAtNode node id l

/-- jsonParser.py:581-587 `_getTerminalSourceInNode(node)`: the source, `none` is the integer `0`. -/
def terminalSource (node : ℤ) (nodes : List (List Char)) : List SourceDesc → Py (Option SourceDesc)
  | [] => .ok none
  | s :: l => do
    if ← isAtNode node (pyIndex s.elemIds 0) nodes then .ok (some s) else terminalSource node nodes l

end Mtln.Text
