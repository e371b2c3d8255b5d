import Verif.Spec.Energy
import Mathlib.Analysis.Calculus.ContDiff.Operations

/-! # Specification: smooth solutions of the telegrapher's equations of several conductors, uniform lines -/

namespace Mtln

open Matrix

variable {n p : ℕ}

/-- A uniform line of length `D` with sources at its two ends and neither connectors nor external fields. -/
structure MTL.Uniform (s : MTL n p) (D : ℝ) (L C R G Zs Zl : Mat n) (Vs Vl : ℝ → Col n) : Prop where
  cells : 0 < s.m
  dt_pos : 0 < s.dt
  dun : ∀ k < s.m, s.dun k = D / s.m
  l : ∀ k < s.m, s.l k = L
  c : ∀ k ≤ s.m, s.c k = C
  r : ∀ k < s.m, s.r k = R
  g : ∀ k ≤ s.m, s.g k = G
  conn : ∃ δ, s.conn = Disp.new δ
  zs : s.zs = Zs
  zl : s.zl = Zl
  source : ∀ t a, s.vSources 0 a t = Vs t a
  load : ∀ t a, s.vSources s.m a t = Vl t a
  eL : ∀ k x t, s.eL k x t = 0
  eT : ∀ k x t, s.eT k x t = 0

/-- Physical data of a line: symmetric positive definite inductances and capacitances, dissipative resistances and
conductances, symmetric dissipative impedances at the ends. -/
structure LineData (L C R G Zs Zl : Mat n) : Prop where
  l : SPD L
  c : SPD C
  r : Dissipative R
  g : Dissipative G
  zs : Dissipative Zs
  zl : Dissipative Zl
  zsT : Zsᵀ = Zs
  zlT : Zlᵀ = Zl

/-- A three times continuously differentiable solution `V x t`, `I x t` of the telegrapher's equations
`∂V/∂x + L ∂I/∂t + R I = 0`, `∂I/∂x + C ∂V/∂t + G V = 0` on a line of length `D`, with the boundary conditions
`V = Vs - Zs I` at its beginning and `V = Vl + Zl I` at its end, at rest until `t0`. -/
structure SmoothSolution (D : ℝ) (L C R G Zs Zl : Mat n) (Vs Vl : ℝ → Col n) (t0 : ℝ) (V I : ℝ → ℝ → Col n) : Prop where
  smoothV : ∀ a, ContDiff ℝ 3 fun q : ℝ × ℝ => V q.1 q.2 a
  smoothI : ∀ a, ContDiff ℝ 3 fun q : ℝ × ℝ => I q.1 q.2 a
  eqV : ∀ x t, 0 ≤ x → x ≤ D → ∀ a,
    deriv (fun x => V x t a) x + (L *ᵥ fun b => deriv (fun t => I x t b) t) a + (R *ᵥ I x t) a = 0
  eqI : ∀ x t, 0 ≤ x → x ≤ D → ∀ a,
    deriv (fun x => I x t a) x + (C *ᵥ fun b => deriv (fun t => V x t b) t) a + (G *ᵥ V x t) a = 0
  first : ∀ t, V 0 t = Vs t - Zs *ᵥ I 0 t
  last : ∀ t, V D t = Vl t + Zl *ᵥ I D t
  rest : ∀ x t, 0 ≤ x → x ≤ D → t ≤ t0 → V x t = 0 ∧ I x t = 0

end Mtln
