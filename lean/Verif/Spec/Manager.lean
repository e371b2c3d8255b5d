import Verif.Model.Manager

/-! # Vocabulary for statements about managers: superposition and rest -/

namespace Mtln

variable {n p N S : ℕ}

/-- Three lists of the same length, related entry by entry. -/
inductive All3 {α : Type} (R : α → α → α → Prop) : List α → List α → List α → Prop
  | nil : All3 R [] [] []
  | cons {a b c : α} {l l' l'' : List α} : R a b c → All3 R l l' l'' → All3 R (a :: l) (b :: l') (c :: l'')

/-- Two bundles made of the same hardware. -/
structure MTLD.SameHardware (s t : MTLD n p) : Prop where
  name : t.name = s.name
  m : t.m = s.m
  dun : t.dun = s.dun
  l : t.l = s.l
  c : t.c = s.c
  r : t.r = s.r
  g : t.g = s.g
  dt : t.dt = s.dt
  tz : t.tz = s.tz

/-- State and fields of `s₃` are `a` times those of `s₁` plus `b` times those of `s₂`; the hardware is the same. -/
structure MTLD.Comb (a b : ℝ) (s₁ s₂ s₃ : MTLD n p) : Prop where
  hw₂ : s₁.SameHardware s₂
  hw₃ : s₁.SameHardware s₃
  v : ∀ k x, s₃.v k x = a * s₁.v k x + b * s₂.v k x
  i : ∀ k x, s₃.i k x = a * s₁.i k x + b * s₂.i k x
  phi : ∀ k x σ, s₃.phi k x σ = a * s₁.phi k x σ + b * s₂.phi k x σ
  eL : ∀ k x t, s₃.eL k x t = a * s₁.eL k x t + b * s₂.eL k x t
  eT : ∀ k x t, s₃.eT k x t = a * s₁.eT k x t + b * s₂.eT k x t

/-- The same for bundles of some size. -/
inductive BundleComb (a b : ℝ) : AnyBundle p → AnyBundle p → AnyBundle p → Prop
  | mk {n : ℕ} {s₁ s₂ s₃ : MTLD n p} : MTLD.Comb a b s₁ s₂ s₃ → BundleComb a b ⟨n, s₁⟩ ⟨n, s₂⟩ ⟨n, s₃⟩

/-- Two networks with the same nodes and components. -/
structure Network.SameHardware (s t : Network N S) : Prop where
  bundleName : ∀ a, (t.nodes a).bundleName = (s.nodes a).bundleName
  lineIndex : ∀ a, (t.nodes a).lineIndex = (s.nodes a).lineIndex
  side : ∀ a, (t.nodes a).side = (s.nodes a).side
  dx : ∀ a, (t.nodes a).dx = (s.nodes a).dx
  cSize : t.cSize = s.cSize
  c : t.c = s.c
  P1 : t.P1 = s.P1
  Ps : t.Ps = s.Ps
  Q1 : t.Q1 = s.Q1
  Qs : t.Qs = s.Qs
  M : t.M = s.M
  N1 : t.N1 = s.N1
  Ns : t.Ns = s.Ns
  O : t.O = s.O

/-- State, sources and fields of `s₃` are `a` times those of `s₁` plus `b` times those of `s₂`. -/
structure Network.Comb (a b : ℝ) (s₁ s₂ s₃ : Network N S) : Prop where
  hw₂ : s₁.SameHardware s₂
  hw₃ : s₁.SameHardware s₃
  v : ∀ x, s₃.v x = a * s₁.v x + b * s₂.v x
  vPrev : ∀ x, s₃.vPrev x = a * s₁.vPrev x + b * s₂.vPrev x
  i : ∀ x, s₃.i x = a * s₁.i x + b * s₂.i x
  X : ∀ x, s₃.X x = a * s₁.X x + b * s₂.X x
  vS : ∀ x t, s₃.vSources x t = a * s₁.vSources x t + b * s₂.vSources x t
  eT : ∀ x t, (s₃.nodes x).eT t = a * (s₁.nodes x).eT t + b * (s₂.nodes x).eT t

/-- The same for networks of some size in a tiered network. -/
inductive LevelComb (a b : ℝ) : ℕ × AnyNetwork → ℕ × AnyNetwork → ℕ × AnyNetwork → Prop
  | mk {l N S : ℕ} {s₁ s₂ s₃ : Network N S} :
    Network.Comb a b s₁ s₂ s₃ → LevelComb a b (l, ⟨N, S, s₁⟩) (l, ⟨N, S, s₂⟩) (l, ⟨N, S, s₃⟩)

/-- State and excitation of `M₃` are `a` times those of `M₁` plus `b` times those of `M₂`; the hardware and the clock are
the same. -/
structure MTLN.Comb (a b : ℝ) (M₁ M₂ M₃ : MTLN p) : Prop where
  dt₂ : M₂.dt = M₁.dt
  dt₃ : M₃.dt = M₁.dt
  time₂ : M₂.time = M₁.time
  time₃ : M₃.time = M₁.time
  bundles : All3 (BundleComb a b) M₁.bundles M₂.bundles M₃.bundles
  networks : All3 (All3 (LevelComb a b)) M₁.networks M₂.networks M₃.networks

/-- Everything is zero: voltages, currents, memory, states of components. -/
structure MTLN.AtRest (M : MTLN p) : Prop where
  bundles : ∀ b ∈ M.bundles, (∀ k x, b.2.v k x = 0) ∧ (∀ k x, b.2.i k x = 0) ∧ ∀ k x σ, b.2.phi k x σ = 0
  networks : ∀ nwd ∈ M.networks, ∀ e ∈ nwd, (∀ x, e.2.2.2.v x = 0) ∧ (∀ x, e.2.2.2.vPrev x = 0) ∧
    (∀ x, e.2.2.2.i x = 0) ∧ ∀ x, e.2.2.2.X x = 0

/-- There are no sources and no external fields. -/
structure MTLN.Unexcited (M : MTLN p) : Prop where
  bundles : ∀ b ∈ M.bundles, (∀ k x t, b.2.eL k x t = 0) ∧ ∀ k x t, b.2.eT k x t = 0
  networks : ∀ nwd ∈ M.networks, ∀ e ∈ nwd, (∀ x t, e.2.2.2.vSources x t = 0) ∧ ∀ x t, (e.2.2.2.nodes x).eT t = 0

/-- From the time `t₀` on there are no sources and no external fields. -/
structure MTLN.SilentFrom (M : MTLN p) (t₀ : ℝ) : Prop where
  bundles : ∀ b ∈ M.bundles, ∀ t, t₀ ≤ t → (∀ k x, b.2.eL k x t = 0) ∧ ∀ k x, b.2.eT k x t = 0
  networks : ∀ nwd ∈ M.networks, ∀ e ∈ nwd, ∀ t, t₀ ≤ t →
    (∀ x, e.2.2.2.vSources x t = 0) ∧ ∀ x, (e.2.2.2.nodes x).eT t = 0

/-- All sources and external fields stay below `S`. -/
structure MTLN.ExcitedBelow (M : MTLN p) (S : ℝ) : Prop where
  bundles : ∀ b ∈ M.bundles, ∀ t, (∀ k x, |b.2.eL k x t| ≤ S) ∧ ∀ k x, |b.2.eT k x t| ≤ S
  networks : ∀ nwd ∈ M.networks, ∀ e ∈ nwd, ∀ t, (∀ x, |e.2.2.2.vSources x t| ≤ S) ∧ ∀ x, |(e.2.2.2.nodes x).eT t| ≤ S

end Mtln
