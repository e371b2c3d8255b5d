import Verif.Model.Text

/-! # Texts of fields separated by blanks, and numbers written in decimal notation -/

namespace Mtln.Text

/-- The text consists of these fields, with blanks before, between and after them. -/
inductive Fields : List Char → List (List Char) → Prop
  | nil {b : List Char} (blank : ∀ c ∈ b, space c) : Fields b []
  | cons {b t s : List Char} {ts : List (List Char)} (blank : ∀ c ∈ b, space c) (nonempty : t ≠ []) (field : ∀ c ∈ t, ¬ space c)
      (separated : ∀ c, s.head? = some c → space c) (rest : Fields s ts) : Fields (b ++ t ++ s) (t :: ts)

/-- A row of a file in which the ids are written as Python writes them. -/
def Row (row : List Char) (ids : List ℤ) : Prop := Fields row (ids.map str)

/-- A number in decimal notation: sign, digits, fraction and exponent. -/
structure Decimal where
  negative : Bool
  whole : List (Fin 10)
  fraction : List (Fin 10)
  exponent : Option ℤ

/-- The text of digits. -/
def digitText (l : List (Fin 10)) : List Char := l.map fun d : Fin 10 => Char.ofNat (48 + (d : ℕ))

/-- The text of a number in decimal notation. -/
def Decimal.text (d : Decimal) : List Char :=
  (if d.negative then ['-'] else []) ++ digitText d.whole ++ (if d.fraction = [] then [] else '.' :: digitText d.fraction)
    ++ d.exponent.elim [] fun k => 'e' :: str k

/-- The value of digits. -/
def digitSum : List (Fin 10) → ℕ
  | [] => 0
  | d :: l => d * 10 ^ l.length + digitSum l

/-- The value of a number in decimal notation. -/
noncomputable def Decimal.value (d : Decimal) : ℝ :=
  (if d.negative then -1 else 1) * (digitSum d.whole + digitSum d.fraction / 10 ^ d.fraction.length) * (10 : ℝ) ^ (d.exponent.getD 0)

end Mtln.Text
