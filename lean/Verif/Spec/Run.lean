import Verif.Model.Line

/-!
# Specification: what a run of a line is

A run of `MTL.run_until` is a finite sequence of states, each obtained from the previous one by
`MTL.step`, starting with freshly computed coefficients and empty, preallocated probes.
-/

namespace Mtln

variable {n p : ℕ}

/-- `MTL.run_until T` takes the line `s` to `s'` in `N` steps through the states `tr 0, …, tr N`. -/
structure RunTrace (s : MTL n p) (T : ℝ) (s' : MTL n p) (N : ℕ) (tr : ℕ → MTL n p) : Prop where
  /-- the number of steps is the number of whole time steps in `T` -/
  len : N = ⌊T / s.dt⌋.toNat
  /-- only coefficients and probes differ from `s` when the first step begins -/
  start : ∃ lr cg, updateLr s.m s.dt s.dun s.l s.r s.conn = .ok lr ∧
      updateCg s.m s.dt s.dun s.c s.g = .ok cg ∧
      tr 0 = { s with lr := some lr, cg := some cg, probes := s.probes.map (Probe.resizeFrames N) }
  step : ∀ j < N, (tr j).step = .ok (tr (j + 1))
  final : tr N = s'

/-- The coefficients stored in the line are the ones the code computes from its present data. -/
structure MTL.Fresh (s : MTL n p) (lr : LR n) (cg : CG n) : Prop where
  lr_eq : s.lr = some lr
  cg_eq : s.cg = some cg
  lr_ok : updateLr s.m s.dt s.dun s.l s.r s.conn = .ok lr
  cg_ok : updateCg s.m s.dt s.dun s.c s.g = .ok cg

/-- The same line up to its dynamic state (voltages, currents, memory, clock, probes). -/
structure MTL.SameConfig (s s' : MTL n p) : Prop where
  m : s'.m = s.m
  u : s'.u = s.u
  du : s'.du = s.du
  dun : s'.dun = s.dun
  l : s'.l = s.l
  c : s'.c = s.c
  r : s'.r = s.r
  g : s'.g = s.g
  zs : s'.zs = s.zs
  zl : s'.zl = s.zl
  dt : s'.dt = s.dt
  conn : s'.conn = s.conn
  vSources : s'.vSources = s.vSources
  eL : s'.eL = s.eL
  eT : s'.eT = s.eT
  left1 : s'.left1 = s.left1
  left2 : s'.left2 = s.left2
  right1 : s'.right1 = s.right1
  right2 : s'.right2 = s.right2

/-- A probe type the code knows (probes.py:25-34). -/
def Probe.Valid (q : Probe n) : Prop := q.type = "voltage" ∨ q.type = "current"

end Mtln
