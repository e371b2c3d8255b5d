import Verif.Model.LineApi
import Verif.Model.Transfer

/-!
# Bundles of lines: `MTLD` (mtl.py:604-996)

A bundle is a list of levels, each a list of lines.  In Python `levels` is a dictionary; the model takes the list
of its values and assumes that the keys are `0, 1, …` in this order (as in all uses in the repository).
-/

namespace Mtln

variable {n p : ℕ}

/-- The attributes of an `MTLD` object (mtl.py:608-709).  The attribute `time` stays 0 and is not used by the
manager `MTLN`; `v_sources` is never used. -/
structure MTLD (n p : ℕ) where
  name : String
  m : ℕ
  u : ℕ → V3
  du : ℕ → V3
  dun : ℕ → ℝ
  l : ℕ → Mat n
  c : ℕ → Mat n
  r : ℕ → Mat n
  g : ℕ → Mat n
  dt : ℝ
  v : Grid n
  i : Grid n
  phi : Memory n p
  probes : List (Probe n)
  /-- the attribute `transfer_impedance` -/
  tz : Disp n p
  eL : Src n
  eT : Src n
  /-- the attribute `conductors_in_level` -/
  inLevel : List ℕ
  lr : Option (LR n)
  cg : Option (CG n)

/-- A line with some number of conductors. -/
abbrev AnyLine (p : ℕ) := Σ n, MTL n p

/-- `linalg.block_diag` applied repeatedly (mtl.py:650-664): entry `(i, j)` of the block-diagonal matrix with the
given blocks, `z` outside of the blocks. -/
def blockEntry {α : Type} (z : α) : List (Σ n, Fin n → Fin n → α) → ℕ → ℕ → α
  | [], _, _ => z
  | ⟨n, A⟩ :: rest, i, j =>
    if hi : i < n then
      if hj : j < n then A ⟨i, hi⟩ ⟨j, hj⟩ else z
    else if j < n then z
    else blockEntry z rest (i - n) (j - n)

/-- The block-diagonal matrix of one matrix attribute of the lines. -/
def blockMat (N : ℕ) (lines : List (AnyLine p)) (f : ∀ {n}, MTL n p → ℕ → Mat n) (k : ℕ) : Mat N :=
  Matrix.of fun a b => blockEntry 0 (lines.map fun L => ⟨L.1, fun i j => f L.2 k i j⟩) a b

/-- The block-diagonal array of one coefficient array of the connectors of the lines. -/
def blockQ (N : ℕ) (lines : List (AnyLine p)) (f : ∀ {n}, MTL n p → ℕ → Fin n → Fin n → QEntry p) (k : ℕ)
    (a b : Fin N) : QEntry p :=
  blockEntry none (lines.map fun L => ⟨L.1, f L.2 k⟩) a b

/-- mtl.py:619, 647-648: the smallest of `1e10` and the time steps of the lines. -/
noncomputable def minDt (lines : List (AnyLine p)) : ℝ :=
  lines.foldl (fun d L => if L.2.dt < d then L.2.dt else d) (10 ^ 10)

/-- The number of conductors of all lines. -/
def totalConductors (lines : List (AnyLine p)) : ℕ := (lines.map Sigma.fst).sum

/-- `np.array_equal(self.u, line.u)` (mtl.py:642). -/
def SameMesh (m : ℕ) (u : ℕ → V3) (L : AnyLine p) : Prop := L.2.m = m ∧ ∀ k ≤ m, L.2.u k = u k

/-- The bundle the constructor builds from its lines, the first of which is `first`. -/
noncomputable def MTLD.assemble (first : AnyLine p) (levels : List (List (AnyLine p))) (name : String) :
    MTLD (totalConductors levels.flatten) p where
  name := name
  m := first.2.m
  u := first.2.u
  du := first.2.du
  dun := first.2.dun
  l := blockMat _ levels.flatten MTL.l
  c := blockMat _ levels.flatten MTL.c
  r := blockMat _ levels.flatten MTL.r
  g := blockMat _ levels.flatten MTL.g
  dt := minDt levels.flatten
  v := fun _ => 0
  i := fun _ => 0
  phi := fun _ _ => 0
  probes := []
  tz :=
    { dt := minDt levels.flatten
      q1 := blockQ _ levels.flatten fun L => L.conn.q1
      q2 := blockQ _ levels.flatten fun L => L.conn.q2
      q3 := blockQ _ levels.flatten fun L => L.conn.q3
      d := blockMat _ levels.flatten fun L => L.conn.d
      e := blockMat _ levels.flatten fun L => L.conn.e
      q1sum := vSum (blockQ _ levels.flatten fun L => L.conn.q1)
      q2sum := vSum (blockQ _ levels.flatten fun L => L.conn.q2) }
  eL := fun _ _ _ => 0
  eT := fun _ _ _ => 0
  inLevel := levels.map fun lines => (lines.map Sigma.fst).sum
  lr := none
  cg := none

open Classical in
/-- mtl.py:608-709 `MTLD.__init__(levels, name)`.  All lines are of type `MTL` (mtl.py:641). -/
noncomputable def MTLD.new (levels : List (List (AnyLine p))) (name : String) : Py (Σ n, MTLD n p) :=
  match levels with
  | [] => .error .KeyError
  | [first] :: _ =>
    if ∀ L ∈ levels.flatten, SameMesh first.2.m first.2.u L then
      .ok ⟨_, MTLD.assemble first levels name⟩
    else .error .AssertionError
  | _ :: _ => .error .AssertionError

/-! ## Time stepping -/

/-- mtl.py:805-817 `MTLD.update_lr_terms`. -/
noncomputable def MTLD.updateLrTerms (b : MTLD n p) : Py (MTLD n p) := do
  let lr ← updateLr b.m b.dt b.dun b.l b.r b.tz
  .ok { b with lr := some lr }

/-- mtl.py:819-833 `MTLD.update_cg_terms`. -/
noncomputable def MTLD.updateCgTerms (b : MTLD n p) : Py (MTLD n p) := do
  let cg ← updateCg b.m b.dt b.dun b.c b.g
  .ok { b with cg := some cg }

/-- mtl.py:896-910 `MTLD.update_sources(time, dt)`. -/
noncomputable def MTLD.sample (b : MTLD n p) (time dt : ℝ) : Sampled n :=
  sampleSources (fun _ _ _ => 0) b.eL b.eT time dt

/-- `update_sources` and `advance_voltage` (mtl.py:896-915), with the clock and step of the manager
(mtln.py:94-97). -/
noncomputable def MTLD.stepVoltage (time dt : ℝ) (b : MTLD n p) : Py (MTLD n p) :=
  match b.cg with
  | some cg => .ok { b with v := advanceVoltage b.m cg (b.sample time dt) b.v b.i }
  | none => .error .AttributeError

/-- mtl.py:918-931 `MTLD.advance_current`, with the sources sampled in the same step.  As in `MTL`, `i_prev` is
an alias of the array that is overwritten. -/
noncomputable def MTLD.stepCurrent (time dt : ℝ) (b : MTLD n p) : Py (MTLD n p) :=
  match b.lr with
  | some lr =>
    let i' := advanceCurrent b.m lr b.dun (b.tz.q3phi b.phi) (b.sample time dt) b.v b.i
    .ok { b with i := i', phi := b.tz.updatePhi b.phi i' i' }
  | none => .error .AttributeError

/-! ## Methods -/

/-- utils.py:31-39 `point_in_line(point, start, end)`. -/
noncomputable def pointInLine (point start stop : V3) : Prop :=
  norm3 (cross3 (start - stop) (start - point)) < 1 / 10 ^ 6 ∧
    norm3 (start - point) ≤ norm3 (start - stop) ∧ norm3 (stop - point) ≤ norm3 (start - stop)

/-- Starting points of the segments tested by `MTLD.add_probe` (mtl.py:783, 790): partial sums of `du`. -/
def segmentStart (u0 : V3) (du : ℕ → V3) : ℕ → V3
  | 0 => u0
  | k + 1 => segmentStart u0 du k + du k

open Classical in
/-- mtl.py:779-802 `MTLD.add_probe(position, probe_type)`.  After the loop the last `du` is used once more, starting
from the end of the line (mtl.py:792-794).  A bundle without cells is not modelled. -/
noncomputable def MTLD.addProbe (b : MTLD n p) (position : Pos) (type : String) : Py (MTLD n p) := do
  raiseIf (b.m = 0) .NotModelled
  let x := position.toV3
  let s := segmentStart (b.u 0) b.du
  raiseIf (¬ ((∃ k < b.m, pointInLine x (s k) (s k + b.du k)) ∨
    pointInLine x (s b.m) (s b.m + b.du (b.m - 1)))) .ValueError
  .ok { b with probes := b.probes ++ [Probe.new x type b.dt b.u b.m] }

/-- mtl.py:933-942 `MTLD.add_transfer_impedance`. -/
noncomputable def MTLD.addTransferImpedance (b : MTLD n p) (outLevel : ℕ) (outC : List ℕ) (inLevel : ℕ)
    (inC : List ℕ) (Z : TransferModel) : Py (MTLD n p) := do
  let tz ← b.tz.addTransferImpedance b.m b.inLevel outLevel outC inLevel inC Z
  .ok { b with tz := tz }

/-- mtl.py:944-962 `MTLD.set_connector_transfer_impedance(side, …)`: cell `0` or the last cell. -/
noncomputable def MTLD.setConnectorTransferImpedance (b : MTLD n p) (side : String) (outLevel : ℕ)
    (outC : List ℕ) (inLevel : ℕ) (inC : List ℕ) (Z : TransferModel) : Py (MTLD n p) := do
  let cell ← (if side = "initial" then .ok 0 else if side = "end" then .ok (b.m - 1) else .error .Exception : Py ℕ)
  let tz ← b.tz.setTransferImpedanceAt b.inLevel outLevel outC inLevel inC cell Z
  .ok { b with tz := tz }

/-- mtl.py:964-979 `MTLD.set_resistance_in_region(start, end, conductor, resistance)`: unlike `MTL`, the node
indices are not clamped to the last cell. -/
noncomputable def MTLD.setResistanceInRegion (b : MTLD n p) (start stop : Pos) (conductor : ℕ)
    (resistance : ℝ) : Py (MTLD n p) := do
  assertOrdered start stop
  let i1 := nearest b.u b.m start.toV3
  let i2 := nearest b.u b.m stop.toV3
  let value ← regionValue b.m b.u b.du i1 i2 resistance
  let r ← assignRow b.m b.r i1 i2 conductor value
  MTLD.updateLrTerms { b with r := r }

/-- mtl.py:981-996 `MTLD.add_conductance_in_region(start, end, conductor, conductance)`. -/
noncomputable def MTLD.addConductanceInRegion (b : MTLD n p) (start stop : Pos) (conductor : ℕ)
    (conductance : ℝ) : Py (MTLD n p) := do
  assertOrdered start stop
  let i1 := nearest b.u b.m start.toV3
  let i2 := nearest b.u b.m stop.toV3
  let value ← regionValue b.m b.u b.du i1 i2 conductance
  let g ← assignRow (b.m + 1) b.g i1 i2 conductor value
  MTLD.updateCgTerms { b with g := g }

/-! ## Localized longitudinal fields -/

/-- A Python dictionary from integers to floats, in insertion order. -/
abbrev Factors := List (ℤ × ℝ)

/-- `source_factor[index] = x`. -/
def Factors.set (d : Factors) (index : ℤ) (x : ℝ) : Factors :=
  if index ∈ d.map Prod.fst then d.map fun e => if e.1 = index then (index, x) else e
  else d ++ [(index, x)]

open Classical in
/-- mtl.py:729-748: the correction at the start position, with `si` the index of the nearest node. -/
noncomputable def startFactor (u du : ℕ → V3) (m : ℕ) (start : V3) (si : ℕ) (d : Factors) : Py Factors :=
  let dist := norm3 (start - u si)
  if dist > 1 / 10 ^ 10 ∧ si ≠ 0 then
    if si = m then .error .IndexError
    else
      let x := start - u si
      let prev := norm3 (cross3 (du (si - 1)) x) < 1 / 10 ^ 10
      let curr := norm3 (cross3 (du si) x) < 1 / 10 ^ 10
      let fPrev := d.set (si - 1) (dist / norm3 (du (si - 1)))
      let fCurr := d.set si (1 - dist / norm3 (du si))
      if norm3 (du (si - 1)) = 0 ∨ norm3 (du si) = 0 then .error .NotModelled
      else if prev ∧ curr then
        if dot3 x (du si) < 0 then .ok fPrev
        else if dot3 x (du si) > 0 then .ok fCurr
        else .ok d
      else if prev then .ok fPrev
      else if curr then .ok fCurr
      else .ok d
  else .ok d

open Classical in
/-- mtl.py:750-771: the correction at the end position, with `ei` the index of the nearest node.  For `ei = 0` the
index `ei - 1` is `-1`, the last cell. -/
noncomputable def endFactor (u du : ℕ → V3) (m : ℕ) (stop : V3) (ei : ℕ) (d : Factors) : Py Factors :=
  let dist := norm3 (stop - u ei)
  if dist > 1 / 10 ^ 10 then
    if ei = m then .error .IndexError
    else
      let x := stop - u ei
      let duPrev := if ei = 0 then du (m - 1) else du (ei - 1)
      let prev := norm3 (cross3 duPrev x) < 1 / 10 ^ 10
      let curr := norm3 (cross3 (du ei) x) < 1 / 10 ^ 10
      let fPrev := (d.set (ei - 1) (1 - dist / norm3 duPrev)).set ei 0
      let fCurr := d.set ei (dist / norm3 (du ei))
      if norm3 duPrev = 0 ∨ norm3 (du ei) = 0 then .error .NotModelled
      else if prev ∧ curr then
        if dot3 x (du ei) < 0 then .ok fPrev
        else if dot3 x (du ei) > 0 then .ok fCurr
        else .ok d
      else if prev then .ok fPrev
      else if curr then .ok fCurr
      else .ok d
  else .ok d

/-- mtl.py:725-771: the dictionary `source_factor`. -/
noncomputable def sourceFactors (u du : ℕ → V3) (m : ℕ) (start stop : V3) : Py Factors := do
  let si := nearest u m start
  let ei := nearest u m stop
  let d : Factors := (List.range (ei - si)).map fun k => ((si + k : ℕ), 1)
  let d ← startFactor u du m start si d
  endFactor u du m stop ei d

/-- The column of an index in an array of `m` columns: negative indices count from the end. -/
def cellOfIndex (m : ℕ) (index : ℤ) : Py ℕ :=
  if 0 ≤ index ∧ index < m then .ok index.toNat
  else if index < 0 ∧ 0 ≤ index + m then .ok (index + m).toNat
  else .error .IndexError

/-- `self.e_L[conductor, index] = add(self.e_L[conductor, index], multiply(magnitude, factor))` (mtl.py:773-777);
`add` and `multiply` (utils.py:13-29) for functions of `t`. -/
def addWeighted (m : ℕ) (conductor : Fin n) (magnitude : ℝ → ℝ) (eL : Src n) (index : ℤ) (factor : ℝ) :
    Py (Src n) := do
  let cell ← cellOfIndex m index
  .ok fun k j t => if k = cell ∧ j = conductor then eL k j t + factor * magnitude t else eL k j t

/-- mtl.py:712-777 `MTLD.add_localized_longitudinal_field(start, end, conductor, magnitude, source_type)`.
(`"Planewave"` with equal indices would divide by zero, which numpy turns into `inf`.) -/
noncomputable def MTLD.addLocalizedField (b : MTLD n p) (start stop : Pos) (conductor : Fin n)
    (magnitude : ℝ → ℝ) (type : String) : Py (MTLD n p) := do
  raiseIf (outOfBox (b.u 0) (b.u b.m) start.toV3) .ValueError
  raiseIf (outOfBox (b.u 0) (b.u b.m) stop.toV3) .ValueError
  let d ← sourceFactors b.u b.du b.m start.toV3 stop.toV3
  let si := nearest b.u b.m start.toV3
  let ei := nearest b.u b.m stop.toV3
  raiseIf (type = "Planewave" ∧ d ≠ [] ∧ ei = si) .NotModelled
  let scale : ℝ := if type = "Planewave" then (ei : ℝ) - si else 1
  let eL ← d.foldlM (fun eL (e : ℤ × ℝ) => addWeighted b.m conductor magnitude eL e.1 (e.2 / scale)) b.eL
  .ok { b with eL := eL }

end Mtln
