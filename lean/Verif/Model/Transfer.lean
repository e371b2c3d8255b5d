import Verif.Model.Dispersive

/-!
# Transfer impedances (dispersive.py:147-293, class `TransferImpedance`)
-/

namespace Mtln

variable {n p : ℕ}

/-- A transfer impedance as given by the user: a rational model, an optional `factor` and a `direction`
(dispersive.py:160-189, 233-261). -/
structure TransferModel extends RationalModel where
  factor : Option ℝ
  direction : String

/-- `np.abs(out_level - in_level) == 1` (dispersive.py:158, 231). -/
def adjacentLevels (a b : ℕ) : Prop := a = b + 1 ∨ b = a + 1

instance (a b : ℕ) : Decidable (adjacentLevels a b) := inferInstanceAs (Decidable (_ ∨ _))

/-- `sum(levels[0:level])` (dispersive.py:183-184, 255-256; networks.py:284): the number of conductors in the
levels before the given one. -/
def conductorsBefore (levels : List ℕ) (level : ℕ) : ℕ := (levels.take level).sum

/-- The pole used in cell `k` when the array of poles is added to the column `q[:, j, i]` of `nx` cells
(dispersive.py:197-205, 210-218): one pole is broadcast to all cells, `nx` poles are distributed, one per cell. -/
def poleInCell (nPoles k : ℕ) : ℕ := if nPoles = 1 then 0 else k

/-- One pair of conductors of `add_transfer_impedance` (dispersive.py:195-205 with `row = j`, `col = i`;
dispersive.py:208-218 with `row = i`, `col = j`): `d[:, row, col] -= d`, `e[:, row, col] -= e`, and the
coefficients of the poles are added to the columns of `q1`, `q2`, `q3`.

* An index out of range raises `IndexError`.
* numpy raises `ValueError` when the number of poles is neither 1 nor the number of cells.
* The sums are complex *scalars*; together with arrays of several poles in other entries numpy would broadcast
  them, which is not modelled (`p ≠ 1`), nor are zero poles or a zero time step. -/
noncomputable def Disp.addTransferPair (D : Disp n p) (nx row col : ℕ) (d e : ℝ) (nPoles : ℕ)
    (pole res : ℕ → ℂ) : Py (Disp n p) :=
  if h : row < n ∧ col < n then
    let a : Fin n := ⟨row, h.1⟩
    let b : Fin n := ⟨col, h.2⟩
    let D1 : Disp n p :=
      { D with
        d := fun k => Matrix.of fun x y => if x = a ∧ y = b then D.d k x y - d else D.d k x y
        e := fun k => Matrix.of fun x y => if x = a ∧ y = b then D.e k x y - e else D.e k x y }
    if nPoles = 0 then .ok D1
    else if nPoles ≠ 1 ∧ nPoles ≠ nx then .error .ValueError
    else if p ≠ 1 then .error .NotModelled
    else
      let P : ℕ → ℂ := fun k => pole (poleInCell nPoles k)
      let R : ℕ → ℂ := fun k => res (poleInCell nPoles k)
      .ok { D1 with
        q1 := fun k x y => if x = a ∧ y = b then
          some fun s => (D.q1 k x y).val s + coefA (P k) (R k) D.dt else D.q1 k x y
        q2 := fun k x y => if x = a ∧ y = b then
          some fun s => (D.q2 k x y).val s - coefB (P k) (R k) D.dt else D.q2 k x y
        q3 := fun k x y => if x = a ∧ y = b then
          some fun s => (D.q3 k x y).val s - coefE (P k) D.dt else D.q3 k x y }
  else .error .IndexError

/-- The body of the double loop (dispersive.py:194-218): `direction == ("in" or "both")` is
`direction == "in"` and `direction == ("out" or "both")` is `direction == "out"`, since a non-empty string is
true.  The direction `"both"` (or any other string) does nothing. -/
noncomputable def Disp.transferBody (D : Disp n p) (nx i j : ℕ) (d e : ℝ) (nPoles : ℕ) (pole res : ℕ → ℂ)
    (direction : String) : Py (Disp n p) :=
  if direction = "in" then D.addTransferPair nx j i d e nPoles pole res
  else if direction = "out" then D.addTransferPair nx i j d e nPoles pole res
  else .ok D

/-- `for i in range_out: for j in range_in: …` as a left fold over the pairs. -/
def forPairs {α : Type} (f : α → ℕ → ℕ → Py α) (out inn : List ℕ) (a : α) : Py α :=
  (out.flatMap fun i => inn.map fun j => (i, j)).foldlM (fun a ij => f a ij.1 ij.2) a

open Classical in
/-- dispersive.py:151-221 `TransferImpedance.add_transfer_impedance(levels, out_level, out_level_conductors,
in_level, in_level_conductors, transfer_impedance)`, on `nx` cells. -/
noncomputable def Disp.addTransferImpedance (D : Disp n p) (nx : ℕ) (levels : List ℕ) (outLevel : ℕ)
    (outC : List ℕ) (inLevel : ℕ) (inC : List ℕ) (Z : TransferModel) : Py (Disp n p) := do
  pyAssert (adjacentLevels outLevel inLevel)
  let factor := Z.factor.getD 1
  raiseIf (factor = 0) .ZeroDivisionError
  let d := Z.cte / factor
  let e := Z.prop / factor
  Z.checkLengths
  let nPoles := Z.polesReal.length
  if d = 0 ∧ e = 0 ∧ nPoles = 0 then .ok D
  else do
    raiseIf (D.dt = 0 ∨ ∃ s, s < nPoles ∧ Z.pole s = 0) .NotModelled
    let out := outC.map (conductorsBefore levels outLevel + ·)
    let inn := inC.map (conductorsBefore levels inLevel + ·)
    let D ← forPairs (fun D i j => D.transferBody nx i j d e nPoles Z.pole (Z.residue factor) Z.direction)
      out inn D
    .ok { D with q1sum := vSum D.q1, q2sum := vSum D.q2 }

/-- One pair of conductors of `set_transfer_impedance_at_index` (dispersive.py:267-277, 280-290): the entries of
one cell are *replaced*.  Here the whole array of poles is stored in the entry. -/
noncomputable def Disp.setTransferPair (D : Disp n p) (row col cell : ℕ) (d e : ℝ) (nPoles : ℕ)
    (pole res : ℕ → ℂ) : Py (Disp n p) :=
  if h : row < n ∧ col < n then
    let a : Fin n := ⟨row, h.1⟩
    let b : Fin n := ⟨col, h.2⟩
    let D1 : Disp n p := { D with d := setMat D.d cell a b (-d), e := setMat D.e cell a b (-e) }
    if nPoles = 0 then .ok D1
    else if nPoles ≠ p then .error .NotModelled
    else
      .ok { D1 with
        q1 := setEntry D.q1 cell a b (some fun s => coefA (pole s) (res s) D.dt)
        q2 := setEntry D.q2 cell a b (some fun s => -coefB (pole s) (res s) D.dt)
        q3 := setEntry D.q3 cell a b (some fun s => -coefE (pole s) D.dt) }
  else .error .IndexError

/-- dispersive.py:266-290, body of the double loop of `set_transfer_impedance_at_index`. -/
noncomputable def Disp.setTransferBody (D : Disp n p) (cell i j : ℕ) (d e : ℝ) (nPoles : ℕ)
    (pole res : ℕ → ℂ) (direction : String) : Py (Disp n p) :=
  if direction = "in" then D.setTransferPair j i cell d e nPoles pole res
  else if direction = "out" then D.setTransferPair i j cell d e nPoles pole res
  else .ok D

open Classical in
/-- dispersive.py:223-293 `TransferImpedance.set_transfer_impedance_at_index`; `cell` is the (non-negative)
index of the cell. -/
noncomputable def Disp.setTransferImpedanceAt (D : Disp n p) (levels : List ℕ) (outLevel : ℕ)
    (outC : List ℕ) (inLevel : ℕ) (inC : List ℕ) (cell : ℕ) (Z : TransferModel) : Py (Disp n p) := do
  pyAssert (adjacentLevels outLevel inLevel)
  let factor := Z.factor.getD 1
  raiseIf (factor = 0) .ZeroDivisionError
  let d := Z.cte / factor
  let e := Z.prop / factor
  Z.checkLengths
  let nPoles := Z.polesReal.length
  if d = 0 ∧ e = 0 ∧ nPoles = 0 then .ok D
  else do
    raiseIf (D.dt = 0 ∨ ∃ s, s < nPoles ∧ Z.pole s = 0) .NotModelled
    let out := outC.map (conductorsBefore levels outLevel + ·)
    let inn := inC.map (conductorsBefore levels inLevel + ·)
    let D ← forPairs (fun D i j => D.setTransferBody cell i j d e nPoles Z.pole (Z.residue factor) Z.direction)
      out inn D
    .ok { D with q1sum := vSum D.q1, q2sum := vSum D.q2 }

end Mtln
