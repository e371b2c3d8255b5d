import Verif.Spec.Run

/-!
# Specification: relations between lines

Used to state superposition, causality, locality and time invariance as relations between runs of two or
three lines.
-/

namespace Mtln

variable {n p : ℕ}

/-- Two lines made of the same hardware: mesh, matrices, terminations, time step and coefficients agree.
State, clock, sources and probes may differ. -/
structure MTL.SameMedium (s t : MTL n p) : Prop where
  m : t.m = s.m
  dun : t.dun = s.dun
  l : t.l = s.l
  c : t.c = s.c
  r : t.r = s.r
  g : t.g = s.g
  zs : t.zs = s.zs
  zl : t.zl = s.zl
  dt : t.dt = s.dt
  conn : t.conn = s.conn
  left1 : t.left1 = s.left1
  left2 : t.left2 = s.left2
  right1 : t.right1 = s.right1
  right2 : t.right2 = s.right2

/-- Voltages, currents and dispersive memory of `s₃` are `a` times those of `s₁` plus `b` times those of
`s₂`, at every node, cell, conductor and pole. -/
structure StateComb (a b : ℝ) (s₁ s₂ s₃ : MTL n p) : Prop where
  v : ∀ k x, s₃.v k x = a * s₁.v k x + b * s₂.v k x
  i : ∀ k x, s₃.i k x = a * s₁.i k x + b * s₂.i k x
  phi : ∀ k x σ, s₃.phi k x σ = a * s₁.phi k x σ + b * s₂.phi k x σ

/-- The same for the sources and external fields, at every time. -/
structure SourceComb (a b : ℝ) (s₁ s₂ s₃ : MTL n p) : Prop where
  vS : ∀ k x t, s₃.vSources k x t = a * s₁.vSources k x t + b * s₂.vSources k x t
  eL : ∀ k x t, s₃.eL k x t = a * s₁.eL k x t + b * s₂.eL k x t
  eT : ∀ k x t, s₃.eT k x t = a * s₁.eT k x t + b * s₂.eT k x t

/-- Voltages, currents and memory are all zero. -/
structure MTL.AtRest (s : MTL n p) : Prop where
  v : ∀ k, s.v k = 0
  i : ∀ k, s.i k = 0
  phi : ∀ k x, s.phi k x = 0

/-- All sources and external fields are zero at all times. -/
structure MTL.Unexcited (s : MTL n p) : Prop where
  vS : ∀ k x t, s.vSources k x t = 0
  eL : ∀ k x t, s.eL k x t = 0
  eT : ∀ k x t, s.eT k x t = 0

/-- Same voltages, currents and memory. -/
structure MTL.SameState (s t : MTL n p) : Prop where
  v : t.v = s.v
  i : t.i = s.i
  phi : t.phi = s.phi

end Mtln
