import Verif.Model.Dispersive

/-!
# The transmission line `MTL` (mtl.py:82-601): time stepping

The update formulas of `MTL` (mtl.py:348-434) and `MTLD` (mtl.py:805-930) are textually the same, so the
model states them once (`updateLr`, `updateCg`, `advanceVoltage`, `advanceCurrent`).

Arrays: a line has `m` cells (`0 … m-1`) and `m + 1` nodes (`0 … m`).  `du_norm[k]` is always a multiple of
the identity (mtl.py:117, 671); the model stores the factor `dun k`.
-/

namespace Mtln

/-- A square matrix over the conductors. -/
abbrev Mat (n : ℕ) := Matrix (Fin n) (Fin n) ℝ

/-- `i_term`, `v_diff` (mtl.py:354-355, 816-817). -/
structure LR (n : ℕ) where
  iTerm : ℕ → Mat n
  vDiff : ℕ → Mat n

/-- `v_term`, `i_diff` (mtl.py:368-369, 832-833). -/
structure CG (n : ℕ) where
  vTerm : ℕ → Mat n
  iDiff : ℕ → Mat n

/-- `F1` of `update_lr_terms` (mtl.py:350, 807-809). -/
noncomputable def lrF1 {n p : ℕ} (dt : ℝ) (dun : ℕ → ℝ) (l r : ℕ → Mat n) (D : Disp n p) (k : ℕ) : Mat n :=
  dun k • ((1 / dt) • l k + (0.5 : ℝ) • D.d k + (1 / dt) • D.e k + (0.5 : ℝ) • r k + D.q1sum k)

/-- `F2` of `update_lr_terms` (mtl.py:351, 810-812). -/
noncomputable def lrF2 {n p : ℕ} (dt : ℝ) (dun : ℕ → ℝ) (l r : ℕ → Mat n) (D : Disp n p) (k : ℕ) : Mat n :=
  dun k • ((1 / dt) • l k - (0.5 : ℝ) • D.d k + (1 / dt) • D.e k - (0.5 : ℝ) • r k - D.q2sum k)

open Classical in
/-- mtl.py:348-355 `MTL.update_lr_terms`, mtl.py:805-817 `MTLD.update_lr_terms`.
`np.linalg.inv` raises `LinAlgError` if the matrix of some cell is singular. -/
noncomputable def updateLr {n p : ℕ} (m : ℕ) (dt : ℝ) (dun : ℕ → ℝ) (l r : ℕ → Mat n) (D : Disp n p) :
    Py (LR n) :=
  if dt = 0 then .error .NotModelled
  else if ∃ k, k < m ∧ (lrF1 dt dun l r D k).det = 0 then .error .LinAlgError
  else .ok
    { iTerm := fun k => (lrF1 dt dun l r D k)⁻¹ * lrF2 dt dun l r D k
      vDiff := fun k => (lrF1 dt dun l r D k)⁻¹ }

/-- The nodal cell length of `update_cg_terms` (mtl.py:359-363, 821-825): the mean of the two neighbouring
cells, the length of the only neighbour at the ends. -/
noncomputable def nodalLength (m : ℕ) (dun : ℕ → ℝ) (k : ℕ) : ℝ :=
  if k = 0 then dun 0 else if k < m then 0.5 * (dun k + dun (k - 1)) else dun (m - 1)

/-- `F1` of `update_cg_terms` (mtl.py:365, 827). -/
noncomputable def cgF1 {n : ℕ} (m : ℕ) (dt : ℝ) (dun : ℕ → ℝ) (c g : ℕ → Mat n) (k : ℕ) : Mat n :=
  nodalLength m dun k • ((1 / dt) • c k + (1 / 2 : ℝ) • g k)

/-- `F2` of `update_cg_terms` (mtl.py:366, 828). -/
noncomputable def cgF2 {n : ℕ} (m : ℕ) (dt : ℝ) (dun : ℕ → ℝ) (c g : ℕ → Mat n) (k : ℕ) : Mat n :=
  nodalLength m dun k • ((1 / dt) • c k - (1 / 2 : ℝ) • g k)

open Classical in
/-- mtl.py:357-369 `MTL.update_cg_terms`, mtl.py:819-833 `MTLD.update_cg_terms`. -/
noncomputable def updateCg {n : ℕ} (m : ℕ) (dt : ℝ) (dun : ℕ → ℝ) (c g : ℕ → Mat n) : Py (CG n) :=
  if dt = 0 then .error .NotModelled
  else if ∃ k, k ≤ m ∧ (cgF1 m dt dun c g k).det = 0 then .error .LinAlgError
  else .ok
    { vTerm := fun k => (cgF1 m dt dun c g k)⁻¹ * cgF2 m dt dun c g k
      iDiff := fun k => (cgF1 m dt dun c g k)⁻¹ }

/-- A source or field: one function of time per node (cell) and conductor. -/
abbrev Src (n : ℕ) := ℕ → Fin n → ℝ → ℝ

/-- The sampled sources (mtl.py:306-324, 328-346, 883-910). -/
structure Sampled (n : ℕ) where
  vNow : Grid n
  vPrev : Grid n
  eLNow : Grid n
  eLPrev : Grid n
  eTNow : Grid n
  eTPrev : Grid n

/-- mtl.py:304-346 `MTL.update_sources`, mtl.py:881-910 `MTLD.update_sources` (which has no `v_sources`
part: the model passes zero there). -/
noncomputable def sampleSources {n : ℕ} (vS eL eT : Src n) (time dt : ℝ) : Sampled n where
  vNow := fun k j => vS k j time
  vPrev := fun k j => vS k j (time - dt)
  eLNow := fun k j => eL k j (time + dt / 2)
  eLPrev := fun k j => eL k j (time - dt / 2)
  eTNow := fun k j => eT k j time
  eTPrev := fun k j => eT k j (time - dt)

/-- mtl.py:418-421 `MTL.advance_voltage`, mtl.py:912-915 `MTLD.advance_voltage`:
`v[:, 1:-1] = …`, the end nodes keep their value. -/
noncomputable def advanceVoltage {n : ℕ} (m : ℕ) (cg : CG n) (src : Sampled n) (v i : Grid n) : Grid n :=
  fun k =>
    if 0 < k ∧ k < m then
      (cg.vTerm k).mulVec (v k) - (cg.iDiff k).mulVec (i k - i (k - 1)) - (src.eTNow k - src.eTPrev k)
    else v k

/-- mtl.py:427-431 (`MTL.advance_current`), mtl.py:921-925 (`MTLD.advance_current`): the new currents;
`q3phi` is `q3_phi_term`. -/
noncomputable def advanceCurrent {n : ℕ} (m : ℕ) (lr : LR n) (dun : ℕ → ℝ) (q3phi : Grid n)
    (src : Sampled n) (v i : Grid n) : Grid n :=
  fun k =>
    if k < m then
      (lr.iTerm k).mulVec (i k)
        - (lr.vDiff k).mulVec ((v (k + 1) - v k) + (src.eTNow (k + 1) - src.eTNow k)
            - (dun k / 2) • (src.eLNow k + src.eLPrev k))
        - (lr.vDiff k).mulVec (dun k • q3phi k)
    else i k

/-- The attributes of an `MTL` object (mtl.py:86-170).  `lr` and `cg` are `none` until the corresponding
`update_*_terms` method was called (the attributes `v_diff`, `i_diff` do not exist before). -/
structure MTL (n p : ℕ) where
  name : String
  /-- number of cells, `self.u.shape[0] - 1` -/
  m : ℕ
  u : ℕ → V3
  du : ℕ → V3
  dun : ℕ → ℝ
  l : ℕ → Mat n
  c : ℕ → Mat n
  r : ℕ → Mat n
  g : ℕ → Mat n
  zs : Mat n
  zl : Mat n
  dt : ℝ
  time : ℝ
  v : Grid n
  i : Grid n
  phi : Memory n p
  probes : List (Probe n)
  conn : Disp n p
  vSources : Src n
  eL : Src n
  eT : Src n
  left1 : Mat n
  left2 : Mat n
  right1 : Mat n
  right2 : Mat n
  lr : Option (LR n)
  cg : Option (CG n)

variable {n p : ℕ}

/-- mtl.py:348-355 `MTL.update_lr_terms`. -/
noncomputable def MTL.updateLrTerms (s : MTL n p) : Py (MTL n p) := do
  let lr ← updateLr s.m s.dt s.dun s.l s.r s.conn
  .ok { s with lr := some lr }

/-- mtl.py:357-369 `MTL.update_cg_terms`. -/
noncomputable def MTL.updateCgTerms (s : MTL n p) : Py (MTL n p) := do
  let cg ← updateCg s.m s.dt s.dun s.c s.g
  .ok { s with cg := some cg }

/-- The matrix inverted in `compute_terminal_terms` (mtl.py:249-251, 259-261, 266-268, 276-278). -/
noncomputable def termF1 (dt du : ℝ) (z c g : Mat n) : Mat n :=
  (du / dt) • (z * c) + (du / 2) • (z * g) + 1

/-- The second factor of `left_port_term_1` (mtl.py:253-255, 270-272). -/
noncomputable def termF2 (dt du : ℝ) (z c g : Mat n) : Mat n :=
  (du / dt) • (z * c) - (du / 2) • (z * g) - 1

/-- mtl.py:246-279 `MTL.compute_terminal_terms`. -/
noncomputable def MTL.computeTerminalTerms (s : MTL n p) : Py (MTL n p) := do
  raiseIf (s.dt = 0) .NotModelled
  let a := termF1 s.dt (s.dun 0) s.zs (s.c 0) (s.g 0)
  let b := termF1 s.dt (s.dun (s.m - 1)) s.zl (s.c s.m) (s.g s.m)
  raiseIf (a.det = 0) .LinAlgError
  raiseIf (b.det = 0) .LinAlgError
  .ok { s with
    left1 := a⁻¹ * termF2 s.dt (s.dun 0) s.zs (s.c 0) (s.g 0)
    left2 := a⁻¹
    right1 := b⁻¹ * termF2 s.dt (s.dun (s.m - 1)) s.zl (s.c s.m) (s.g s.m)
    right2 := b⁻¹ }

/-- mtl.py:304-324 `MTL.update_sources()`: samples at the line's own time. -/
noncomputable def MTL.sample (s : MTL n p) : Sampled n :=
  sampleSources s.vSources s.eL s.eT s.time s.dt

/-- mtl.py:558-566 `MTL.advance_left_terminal`: `v[:, 0] = …`. -/
noncomputable def MTL.advanceLeftTerminal (s : MTL n p) (src : Sampled n) (v i : Grid n) : Grid n :=
  Function.update v 0 (s.left1.mulVec (v 0)
    + s.left2.mulVec (-((2 : ℝ) • s.zs.mulVec (i 0)) + (src.vNow 0 + src.vPrev 0)
        - (s.dun 0 / s.dt) • (s.zs * s.c 0).mulVec (src.eTNow 0 - src.eTPrev 0)))

/-- mtl.py:569-577 `MTL.advance_right_terminal`: `v[:, -1] = …`. -/
noncomputable def MTL.advanceRightTerminal (s : MTL n p) (src : Sampled n) (v i : Grid n) : Grid n :=
  Function.update v s.m (s.right1.mulVec (v s.m)
    + s.right2.mulVec ((2 : ℝ) • s.zl.mulVec (i (s.m - 1)) + (src.vNow s.m + src.vPrev s.m)
        - (s.dun (s.m - 1) / s.dt) • (s.zl * s.c s.m).mulVec (src.eTNow s.m - src.eTPrev s.m)))

/-- The part of `MTL.step` that precedes the probes (mtl.py:581-588).
In `advance_current` (mtl.py:424-434) `i_prev = self.i` is an alias, not a copy, and `self.i[:, :] = …`
writes in place: when `update_phi(i_prev, i_now)` is called both arguments are the *new* currents. -/
noncomputable def MTL.advanceFields (lr : LR n) (cg : CG n) (s : MTL n p) : MTL n p :=
  let src := s.sample
  let v1 := s.advanceLeftTerminal src s.v s.i
  let v2 := advanceVoltage s.m cg src v1 s.i
  let v3 := s.advanceRightTerminal src v2 s.i
  let i' := advanceCurrent s.m lr s.dun (s.conn.q3phi s.phi) src v3 s.i
  { s with v := v3, i := i', phi := s.conn.updatePhi s.phi i' i', time := s.time + s.dt }

/-- mtl.py:580-589 `MTL.step`. -/
noncomputable def MTL.step (s : MTL n p) : Py (MTL n p) :=
  match s.lr, s.cg with
  | some lr, some cg => do
    let s' := s.advanceFields lr cg
    let ps ← updateProbes s'.m s'.time s'.v s'.i s'.probes
    .ok { s' with probes := ps }
  | _, _ => .error .AttributeError

/-- mtl.py:592-601 `MTL.run_until(finalTime)`. -/
noncomputable def MTL.runUntil (finalTime : ℝ) (s : MTL n p) : Py (MTL n p) := do
  let N ← timeRangeLen finalTime s.dt
  let s ← s.updateLrTerms
  let s ← s.updateCgTerms
  let s := { s with probes := s.probes.map (Probe.resizeFrames N) }
  iterPy MTL.step N s

/-- mtl.py:291-292 `MTL.set_time_step(NDT, final_time)`; division by `NDT = 0` is a Python
`ZeroDivisionError` for the usual Python numbers. -/
noncomputable def MTL.setTimeStep (NDT finalTime : ℝ) (s : MTL n p) : Py (MTL n p) := do
  raiseIf (NDT = 0) .ZeroDivisionError
  .ok { s with dt := finalTime / NDT }

/-- mtl.py:542-547 `MTL.create_clean_copy`: a deep copy with `v`, `i` and `time` reset; everything else,
including the probes and the memory of the connectors, is copied.  A probe holding a live view of `v`
or `i` becomes, in the copy, the owner of an array with the values at the time of copying. -/
noncomputable def MTL.createCleanCopy (s : MTL n p) : MTL n p :=
  { s with
    v := fun _ => 0
    i := fun _ => 0
    time := 0
    probes := s.probes.map fun q => match q.val with
      | .view => { q with val := .rows [q.column s.m s.v s.i] }
      | _ => q }

end Mtln
