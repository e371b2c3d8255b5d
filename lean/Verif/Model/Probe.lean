import Verif.Model.Vec

/-!
# Probes (probes.py:5-47)
-/

namespace Mtln

/-- A column of a voltage or current array: one value per conductor. -/
abbrev Col (n : ℕ) := Fin n → ℝ

/-- A voltage or current array.  Python stores `v` with shape `(conductor, node)`; the model is
node-major, `v k j` is conductor `j` at node `k`.  Only indices below the number of nodes (cells) are
meaningful, `m + 1` resp. `m` of them, where `m` is stored in the line. -/
abbrev Grid (n : ℕ) := ℕ → Col n

/-- The attribute `val` of a probe (probes.py:10, 22, 39, 42-45).
* `empty`: the initial `np.array([])`, shape `(0,)`;
* `view`: the probe was appended to while `val` was still the initial array: `self.val = new_values`
  (probes.py:43) keeps a numpy *view* of the column of the live array `v` (or `i`), so its content is
  whatever the line holds now;
* `rows`: an ordinary two-dimensional array owned by the probe. -/
inductive ProbeVal (n : ℕ) where
  | empty
  | view
  | rows (r : List (Col n))

/-- probes.py:5-17 `Probe.__init__`: attributes of a probe. -/
structure Probe (n : ℕ) where
  type : String
  t : List ℝ
  val : ProbeVal n
  position : V3
  index : ℕ
  dt : ℝ
  currentFrame : ℕ

/-- probes.py:6-17 `Probe.__init__(position, type, dt, u)`; `u` has the nodes `0 … m`. -/
noncomputable def Probe.new {n : ℕ} (position : V3) (type : String) (dt : ℝ) (u : ℕ → V3) (m : ℕ) :
    Probe n where
  type := type
  t := []
  val := .empty
  position := position
  index := nearest u m position
  dt := dt
  currentFrame := 0

/-- probes.py:19-22 `Probe.resize_frames(num_frames, num_conductors)`; the number of conductors is the
type parameter `n`. -/
def Probe.resizeFrames {n : ℕ} (numFrames : ℕ) (p : Probe n) : Probe n :=
  { p with
    currentFrame := 0
    t := List.replicate numFrames 0
    val := .rows (List.replicate numFrames 0) }

/-- probes.py:36-47 `Probe.__save_frame(time, new_values)`.
In the `vstack` branch a `view` is copied by numpy at that moment, and since the view shows the same live
column that is being appended, the copied first row equals `newValues`.
(`self.val[frame] = …` on a `view` or on the initial `val` cannot happen: `t` and `val` are resized
together and `t` is empty for them; the model leaves `val` unchanged there.) -/
def Probe.saveFrame {n : ℕ} (p : Probe n) (time : ℝ) (newValues : Col n) : Probe n :=
  if p.currentFrame < p.t.length then
    { p with
      t := p.t.set p.currentFrame time
      val := match p.val with
        | .rows r => .rows (r.set p.currentFrame newValues)
        | x => x
      currentFrame := p.currentFrame + 1 }
  else
    { p with
      t := p.t ++ [time]
      val := match p.val with
        | .empty => .view
        | .view => .rows [newValues, newValues]
        | .rows r => .rows (r ++ [newValues])
      currentFrame := p.currentFrame + 1 }

/-- The column a probe reads: probes.py:25-26 for voltages, probes.py:29-32 for currents, where a probe
at the last node reads the last cell (`i` has `m` columns). -/
def Probe.column {n : ℕ} (p : Probe n) (m : ℕ) (v i : Grid n) : Col n :=
  if p.type = "voltage" then v p.index
  else if p.index = m then i (p.index - 1) else i p.index

/-- The time stamp a probe writes: probes.py:26 for voltages, probes.py:28 for currents. -/
noncomputable def Probe.stamp {n : ℕ} (p : Probe n) (t : ℝ) : ℝ :=
  if p.type = "voltage" then t else t + p.dt / 2

/-- probes.py:24-34 `Probe.update(t, v, i)`; `m` is `i.shape[1]`. -/
noncomputable def Probe.update {n : ℕ} (m : ℕ) (t : ℝ) (v i : Grid n) (p : Probe n) : Py (Probe n) :=
  if p.type = "voltage" ∨ p.type = "current" then
    .ok (p.saveFrame (p.stamp t) (p.column m v i))
  else .error .ValueError

/-- What a user sees in `probe.val` (a list of rows, a live `view` shows the current column). -/
def Probe.rowsSeen {n : ℕ} (p : Probe n) (m : ℕ) (v i : Grid n) : List (Col n) :=
  match p.val with
  | .empty => []
  | .view => [p.column m v i]
  | .rows r => r

/-- `for p in probes: p.update(time, v, i)` (mtl.py:300-302, mtln.py:49-50). -/
noncomputable def updateProbes {n : ℕ} (m : ℕ) (t : ℝ) (v i : Grid n) :
    List (Probe n) → Py (List (Probe n))
  | [] => .ok []
  | p :: ps => do
    let p' ← p.update m t v i
    let ps' ← updateProbes m t v i ps
    .ok (p' :: ps')

end Mtln
