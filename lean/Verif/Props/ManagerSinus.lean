import Verif.Props.ManagerPeriodic

/-! # The frequency response of managers: C175 -/

namespace Mtln

open Matrix Filter

variable {n p N S : ℕ}

/-- A run depends on the time through the number of steps. -/
theorem MTLN.run_grid {M : MTLN p} {dt : ℝ} (hdt : 0 < M.runDt dt) (T : ℝ) :
    M.runUntil T dt = M.runUntil (⌊T / M.runDt dt⌋.toNat * M.runDt dt) dt := by
  have : timeRangeLen (⌊T / M.runDt dt⌋.toNat * M.runDt dt) (M.overrideDt dt).dt = timeRangeLen T (M.overrideDt dt).dt := by
    show timeRangeLen (⌊T / (M.overrideDt dt).dt⌋.toNat * (M.overrideDt dt).dt) (M.overrideDt dt).dt = _
    have h0 : (M.overrideDt dt).dt ≠ 0 := hdt.ne'
    unfold timeRangeLen
    rw [if_neg h0, if_neg h0, mul_div_assoc, div_self h0, mul_one, Int.floor_natCast, Int.toNat_natCast]
  unfold MTLN.runUntil MTLN.start
  dsimp only
  rw [this]

section

variable {M : MTLN p} {dt : ℝ}

/-- Two sequences that turn into each other, and fade, vanish. -/
theorem turning_zero {x y : ℕ → ℝ} {c s : ℝ} (hcs : c ^ 2 + s ^ 2 = 1) (hx : ∀ j, x (j + 1) = c * x j + s * y j)
    (hy : ∀ j, y (j + 1) = c * y j - s * x j) (fx : Tendsto x atTop (nhds 0)) (fy : Tendsto y atTop (nhds 0)) (j : ℕ) :
    x j = 0 ∧ y j = 0 := by
  have hconst : ∀ r, x (j + r) ^ 2 + y (j + r) ^ 2 = x j ^ 2 + y j ^ 2 := by
    intro r
    induction r with
    | zero => rfl
    | succ r ih =>
      rw [← ih, show j + (r + 1) = j + r + 1 by ring, hx, hy]
      linear_combination (x (j + r) ^ 2 + y (j + r) ^ 2) * hcs
  have hlim : Tendsto (fun r : ℕ => x (j + r) ^ 2 + y (j + r) ^ 2) atTop (nhds (0 ^ 2 + 0 ^ 2)) := by
    have ha : Tendsto (fun r : ℕ => j + r) atTop atTop := tendsto_atTop_mono (fun r => Nat.le_add_left r j) tendsto_id
    exact ((fx.comp ha).pow 2).add ((fy.comp ha).pow 2)
  simp only [hconst] at hlim
  have := tendsto_nhds_unique tendsto_const_nhds hlim
  constructor <;> nlinarith [sq_nonneg (x j), sq_nonneg (y j)]

theorem MTLN.echoes_turned (hM : M.Damped dt) (hl : M.Linked) {c s : ℝ} (hcs : c ^ 2 + s ^ 2 = 1) :
    ∀ d₁ ∈ MTLN.echoes hM hl, ∀ d₂ ∈ MTLN.echoes hM hl, ∃ x ∈ MTLN.echoes hM hl, ∃ y ∈ MTLN.echoes hM hl,
      (∀ j q, x (j + 1) q - c * x j q - s * y j q = d₁ j q) ∧ ∀ j q, y (j + 1) q - c * y j q + s * x j q = d₂ j q := by
  haveI := MTLN.echoes_finite hM hl
  obtain ⟨σ, hσ⟩ : ∃ σ : MTLN.echoes hM hl →ₗ[ℝ] MTLN.echoes hM hl, ∀ x j q, (σ x).1 j q = x.1 (j + 1) q - x.1 j q :=
    ⟨(echoShift 1).restrict (MTLN.echoes_shift hM hl 1), fun x j q => rfl⟩
  obtain ⟨τ, hτ⟩ : ∃ τ : (MTLN.echoes hM hl × MTLN.echoes hM hl) →ₗ[ℝ] (MTLN.echoes hM hl × MTLN.echoes hM hl),
      ∀ z, τ z = (σ z.1 + (1 - c) • z.1 - s • z.2, σ z.2 + (1 - c) • z.2 + s • z.1) :=
    ⟨LinearMap.prod (σ ∘ₗ LinearMap.fst ℝ _ _ + (1 - c) • LinearMap.fst ℝ _ _ - s • LinearMap.snd ℝ _ _)
      (σ ∘ₗ LinearMap.snd ℝ _ _ + (1 - c) • LinearMap.snd ℝ _ _ + s • LinearMap.fst ℝ _ _), fun z => rfl⟩
  have v1 : ∀ z j q, (τ z).1.1 j q = z.1.1 (j + 1) q - c * z.1.1 j q - s * z.2.1 j q := by
    intro z j q
    rw [hτ]
    show (σ z.1).1 j q + (1 - c) * z.1.1 j q - s * z.2.1 j q = _
    rw [hσ]; ring
  have v2 : ∀ z j q, (τ z).2.1 j q = z.2.1 (j + 1) q - c * z.2.1 j q + s * z.1.1 j q := by
    intro z j q
    rw [hτ]
    show (σ z.2).1 j q + (1 - c) * z.2.1 j q + s * z.1.1 j q = _
    rw [hσ]; ring
  have hfade : ∀ x ∈ MTLN.echoes hM hl, ∀ q, Tendsto (fun j => x j q) atTop (nhds 0) := by
    rintro x ⟨B, b1, b2, b3⟩ q
    have := (b1.remade.damped hM).fades b2 (b1.mute_silent 0) (q := q) (by rw [b1.remade.places]; exact q.2)
    simpa only [← b3] using this
  have hinj : Function.Injective τ := by
    rw [← LinearMap.ker_eq_bot, LinearMap.ker_eq_bot']
    rintro ⟨⟨x, hx⟩, ⟨y, hy⟩⟩ hz
    have e1 : ∀ j q, x (j + 1) q = c * x j q + s * y j q := fun j q => by
      have := v1 (⟨x, hx⟩, ⟨y, hy⟩) j q
      rw [hz] at this
      have : (0 : ℝ) = x (j + 1) q - c * x j q - s * y j q := this
      linarith
    have e2 : ∀ j q, y (j + 1) q = c * y j q - s * x j q := fun j q => by
      have := v2 (⟨x, hx⟩, ⟨y, hy⟩) j q
      rw [hz] at this
      have : (0 : ℝ) = y (j + 1) q - c * y j q + s * x j q := this
      linarith
    have key : ∀ j q, x j q = 0 ∧ y j q = 0 := fun j q =>
      turning_zero hcs (x := fun j => x j q) (y := fun j => y j q) (fun j => e1 j q) (fun j => e2 j q) (hfade x hx q) (hfade y hy q) j
    exact Prod.ext (Subtype.ext (funext fun j => funext fun q => (key j q).1)) (Subtype.ext (funext fun j => funext fun q => (key j q).2))
  have hsurj := LinearMap.injective_iff_surjective.1 hinj
  intro d₁ h₁ d₂ h₂
  obtain ⟨z, hz⟩ := hsurj (⟨d₁, h₁⟩, ⟨d₂, h₂⟩)
  refine ⟨z.1.1, z.1.2, z.2.1, z.2.2, fun j q => ?_, fun j q => ?_⟩
  · rw [← v1, hz]
  · rw [← v2, hz]

/-- With two sets of sources that turn into each other from step to step, there are starts from which all readings do. -/
theorem MTLN.Damped.turning_start (hM : M.Damped dt) (hl : M.Linked) {c s : ℝ} (hcs : c ^ 2 + s ^ 2 = 1) {φ ψ : (ℝ → ℝ) → ℝ → ℝ}
    (hφ : ∀ f t, φ f (t + M.dt) = c * φ f t + s * ψ f t) (hψ : ∀ f t, ψ f (t + M.dt) = c * ψ f t - s * φ f t) :
    ∃ A Q, M.Redriven (fun f g => g = φ f) A ∧ M.Redriven (fun f g => g = ψ f) Q ∧ A.Linked ∧ Q.Linked ∧
      (∀ j, ∀ q ∈ Places M.bundles, A.wave dt (j + 1) q = c * A.wave dt j q + s * Q.wave dt j q) ∧
      ∀ j, ∀ q ∈ Places M.bundles, Q.wave dt (j + 1) q = c * Q.wave dt j q - s * A.wave dt j q := by
  have a1 := M.redriven φ
  have q1 := M.redriven ψ
  have al := M.redrive_linked φ hl
  have ql := M.redrive_linked ψ hl
  generalize M.redrive φ = A at *
  generalize M.redrive ψ = Q at *
  have dA := a1.remade.damped hM
  have dQ := q1.remade.damped hM
  obtain ⟨A', a2, al', a3⟩ := dA.ahead al 1
  obtain ⟨Q', q2, ql', q3⟩ := dQ.ahead ql 1
  have a2 : M.Redriven (fun f g => g = fun t => φ f (t + M.dt)) A' := a1.trans (fun f g h hg hh => by
    rw [hh, hg, a1.dt]; funext t; rw [Nat.cast_one, one_mul]) a2
  have q2 : M.Redriven (fun f g => g = fun t => ψ f (t + M.dt)) Q' := q1.trans (fun f g h hg hh => by
    rw [hh, hg, q1.dt]; funext t; rw [Nat.cast_one, one_mul]) q2
  have dA' := a2.remade.damped hM
  have dQ' := q2.remade.damped hM
  obtain ⟨E, e1, e2⟩ := a1.superposed (a := c) (b := s) (ρ₃ := fun f g => g = fun t => c * φ f t + s * ψ f t)
    (fun f g h hg hh => by rw [hg, hh]) q1
  obtain ⟨F, f1, f2⟩ := q1.superposed (a := c) (b := -s) (ρ₃ := fun f g => g = fun t => c * ψ f t + -s * φ f t)
    (fun f g h hg hh => by rw [hg, hh]) a1
  have dE := e2.remade.damped hM
  have dF := f2.remade.damped hM
  have el := e1.linked a1.remade q1.remade e2.remade al ql
  have fl := f1.linked q1.remade a1.remade f2.remade ql al
  obtain ⟨G, g1, g2⟩ := a2.superposed (a := 1) (b := -1) (ρ₃ := Mute) (fun f g h hg hh => by
    rw [hg, hh]; funext t; show 1 * φ f (t + M.dt) + -1 * (c * φ f t + s * ψ f t) = 0; rw [hφ]; ring) e2
  obtain ⟨H, h1, h2⟩ := q2.superposed (a := 1) (b := -1) (ρ₃ := Mute) (fun f g h hg hh => by
    rw [hg, hh]; funext t; show 1 * ψ f (t + M.dt) + -1 * (c * ψ f t + -s * φ f t) = 0; rw [hψ]; ring) f2
  have dG := g2.remade.damped hM
  have dH := h2.remade.damped hM
  obtain ⟨x, ⟨X, x1, x2, x3⟩, y, ⟨Y, y1, y2, y3⟩, w1, w2⟩ := MTLN.echoes_turned hM hl hcs
    (fun j (q : Places M.bundles) => G.wave dt j q) ⟨G, g2, g1.linked a2.remade e2.remade g2.remade al' el, fun _ _ => rfl⟩
    (fun j (q : Places M.bundles) => H.wave dt j q) ⟨H, h2, h1.linked q2.remade f2.remade h2.remade ql' fl, fun _ _ => rfl⟩
  have dX := x1.remade.damped hM
  have dY := y1.remade.damped hM
  obtain ⟨U, u1, u2⟩ := a1.superposed (a := 1) (b := -1) (ρ₃ := fun f g => g = φ f) (fun f g h hg hh => by
    rw [hg, hh]; funext t; show 1 * φ f t + -1 * 0 = φ f t; ring) x1
  obtain ⟨V, v1, v2⟩ := q1.superposed (a := 1) (b := -1) (ρ₃ := fun f g => g = ψ f) (fun f g h hg hh => by
    rw [hg, hh]; funext t; show 1 * ψ f t + -1 * 0 = ψ f t; ring) y1
  have dU := u2.remade.damped hM
  have dV := v2.remade.damped hM
  have hg : ∀ j, ∀ q ∈ Places M.bundles, G.wave dt j q = A.wave dt (j + 1) q - c * A.wave dt j q - s * Q.wave dt j q := fun j q hq => by
    rw [g1.wave dA' dE dG, e1.wave dA dQ dE, a3 j q (by rw [a1.remade.places]; exact hq)]; ring
  have hh : ∀ j, ∀ q ∈ Places M.bundles, H.wave dt j q = Q.wave dt (j + 1) q - c * Q.wave dt j q + s * A.wave dt j q := fun j q hq => by
    rw [h1.wave dQ' dF dH, f1.wave dQ dA dF, q3 j q (by rw [q1.remade.places]; exact hq)]; ring
  refine ⟨U, V, u2, v2, u1.linked a1.remade x1.remade u2.remade al x2, v1.linked q1.remade y1.remade v2.remade ql y2,
    fun j q hq => ?_, fun j q hq => ?_⟩
  · have := w1 j ⟨q, hq⟩
    rw [x3, x3, y3] at this
    simp only [hg j q hq] at this
    simp only [u1.wave dA dX dU, v1.wave dQ dY dV]
    linarith
  · have := w2 j ⟨q, hq⟩
    rw [x3, y3, y3] at this
    simp only [hh j q hq] at this
    simp only [u1.wave dA dX dU, v1.wave dQ dY dV]
    linarith

end

/-- Sequences that turn into each other are sinusoids. -/
theorem turning_form {x y : ℕ → ℝ} {θ : ℝ} (hx : ∀ j, x (j + 1) = Real.cos θ * x j + Real.sin θ * y j)
    (hy : ∀ j, y (j + 1) = Real.cos θ * y j - Real.sin θ * x j) (j : ℕ) :
    x j = x 0 * Real.cos (j * θ) + y 0 * Real.sin (j * θ) ∧ y j = y 0 * Real.cos (j * θ) - x 0 * Real.sin (j * θ) := by
  induction j with
  | zero => simp
  | succ j ih =>
    rw [hx, hy, ih.1, ih.2, show ((j + 1 : ℕ) : ℝ) * θ = j * θ + θ by push_cast; ring, Real.cos_add, Real.sin_add]
    constructor <;> ring

/-- A sinusoid of angular frequency `ω`, of any amplitude and phase, from `t₀` on. -/
def Tone (ω t₀ : ℝ) (f : ℝ → ℝ) : Prop := ∃ a b, ∀ t ≥ t₀, f t = a * Real.cos (ω * t) + b * Real.sin (ω * t)

/-- Voltages and currents of a run are sinusoids of angular frequency `ω` at the times of the steps, up to `ε`. -/
def MTLN.Sinus (M : MTLN p) (dt ω ε T : ℝ) (V V' I I' : String → ℕ → ℕ → ℝ) : Prop :=
  ∀ M', M.runUntil T dt = .ok M' → ∀ b ∈ M'.bundles, ∀ t : ℝ, t = ⌊T / M.runDt dt⌋.toNat * M.runDt dt →
    (∀ k ≤ b.2.m, ∀ a : Fin b.1, |b.2.v k a - (V b.2.name k a * Real.cos (ω * t) + V' b.2.name k a * Real.sin (ω * t))| ≤ ε) ∧
    ∀ k < b.2.m, ∀ a : Fin b.1, |b.2.i k a - (I b.2.name k a * Real.cos (ω * t) + I' b.2.name k a * Real.sin (ω * t))| ≤ ε

/-- **C175.** A manager of passive bundles and networks of resistors and capacitors that work with the capacitances of the
bundles, with time steps below the automatic ones, where the resistors reach every bundle, and with sources and fields that are
sinusoids of the same angular frequency from some time on, each with its own amplitude and phase: there is a manager with the
same hardware and, from that time on, the same sources, whose voltages and currents are exact sinusoids of that frequency from
the start, and the runs of the given manager approach it. -/
theorem C175_steady (M : MTLN p) (dt t₀ ω : ℝ) (hdt : 0 < M.runDt dt) (hp : (M.overrideDt dt).Passive)
    (hl : (M.overrideDt dt).Linked) (hm : (M.overrideDt dt).Matched)
    (hs : ∀ b ∈ (M.overrideDt dt).bundles, b.2.Stable) (hd : (M.overrideDt dt).Dissipates) (hst : M.Startable dt)
    (hsrc : (M.overrideDt dt).Sources (Tone ω t₀)) :
    ∃ C V V' I I', (M.overrideDt dt).Redriven (fun f g => ∀ t ≥ t₀, g t = f t) C ∧ C.Linked ∧ C.Startable dt ∧
      (∀ T, C.Sinus dt ω 0 T V V' I I') ∧ M.Approach C dt := by
  classical
  have hN : (M.overrideDt dt).Damped dt := ⟨M.override_twice dt, hst.override, hdt, hp, hm, hs, hd⟩
  have hrun : ∀ T, M.runUntil T dt = (M.overrideDt dt).runUntil T dt := fun T => (M.run_override T dt).symm
  have hΘ : M.runDt dt = (M.overrideDt dt).dt := rfl
  unfold MTLN.Approach
  simp only [hrun]
  rw [hΘ] at hdt
  generalize M.overrideDt dt = N at *
  -- the sinusoids of the sources
  obtain ⟨α, hα⟩ : ∃ α : (ℝ → ℝ) → ℝ × ℝ, ∀ f, Tone ω t₀ f → ∀ t ≥ t₀, f t = (α f).1 * Real.cos (ω * t) + (α f).2 * Real.sin (ω * t) := by
    refine ⟨fun f => if h : Tone ω t₀ f then (h.choose, h.choose_spec.choose) else 0, fun f h t ht => ?_⟩
    simp only [dif_pos h]
    exact h.choose_spec.choose_spec t ht
  obtain ⟨A, Q, a1, q1, al, ql, w1, w2⟩ := hN.turning_start hl (c := Real.cos (ω * N.dt)) (s := Real.sin (ω * N.dt))
    (Real.cos_sq_add_sin_sq _) (φ := fun f t => (α f).1 * Real.cos (ω * t) + (α f).2 * Real.sin (ω * t))
    (ψ := fun f t => (α f).2 * Real.cos (ω * t) - (α f).1 * Real.sin (ω * t))
    (fun f t => by rw [mul_add, Real.cos_add, Real.sin_add]; ring) fun f t => by rw [mul_add, Real.cos_add, Real.sin_add]; ring
  have na : N.Redriven (fun f g => ∀ t ≥ t₀, g t = f t) A :=
    a1.imp_sources (fun f g hf hg t ht => by rw [hg]; exact (hα f hf t ht).symm) hsrc
  have dA := na.remade.damped hN
  obtain ⟨B, b1, b2⟩ := (MTLN.Redriven.refl N).superposed (a := 1) (b := -1) (ρ₃ := fun _ g => ∀ t ≥ t₀, g t = 0) (fun f g h hg hh t ht => by
    show 1 * g t + -1 * h t = 0
    rw [hg, hh t ht]; ring) na
  have hnear := near_runs hN.over hN.startable hN.pos hN.passive hN.matched hN.stable hN.dissipates b2.remade
    (b1.linked (MTLN.Redriven.refl N).remade na.remade b2.remade hl al) b2.silent b1
  refine ⟨A, fun s k a => A.wave dt 0 (true, s, k, a), fun s k a => Q.wave dt 0 (true, s, k, a),
    fun s k a => A.wave dt 0 (false, s, k, a), fun s k a => Q.wave dt 0 (false, s, k, a), na, al, dA.startable, fun T => ?_, hnear⟩
  rintro A' hA' b hb _ rfl
  obtain ⟨n1, p1⟩ := dA.after hA'
  have hrd : A.runDt dt = A.dt := dA.runDt
  rw [MTLN.run_grid (by rw [hrd, na.dt]; exact hdt), hrd] at hA'
  have hw := MTLN.wave_eq hA'
  have hform : ∀ q ∈ Places N.bundles, ∀ j : ℕ, A.wave dt j q =
      A.wave dt 0 q * Real.cos (ω * (j * A.dt)) + Q.wave dt 0 q * Real.sin (ω * (j * A.dt)) := by
    intro q hq j
    rw [show ω * (j * A.dt) = j * (ω * N.dt) by rw [na.dt]; ring]
    exact (turning_form (x := fun j => A.wave dt j q) (y := fun j => Q.wave dt j q) (fun j => w1 j q hq) (fun j => w2 j q hq) j).1
  have hplaces : Places A'.bundles = Places N.bundles := by rw [p1, na.remade.places]
  rw [hrd]
  refine ⟨fun k hk a => ?_, fun k hk a => ?_⟩
  · have hq : (true, b.2.name, k, (a : ℕ)) ∈ Places N.bundles := by
      rw [← hplaces]; exact ⟨_, hb, rfl, a.2, .inl ⟨rfl, hk⟩⟩
    rw [← reading_node n1 hb k a, ← hw, hform _ hq, sub_self, abs_zero]
  · have hq : (false, b.2.name, k, (a : ℕ)) ∈ Places N.bundles := by
      rw [← hplaces]; exact ⟨_, hb, rfl, a.2, .inr ⟨rfl, hk⟩⟩
    rw [← reading_cell n1 hb k a, ← hw, hform _ hq, sub_self, abs_zero]

/-- **C175.** Under the same conditions every run ends, and every voltage and every current approaches a sinusoid of the
frequency of the sources. -/
theorem C175_response (M : MTLN p) (dt t₀ ω : ℝ) (hdt : 0 < M.runDt dt) (hp : (M.overrideDt dt).Passive)
    (hl : (M.overrideDt dt).Linked) (hm : (M.overrideDt dt).Matched)
    (hs : ∀ b ∈ (M.overrideDt dt).bundles, b.2.Stable) (hd : (M.overrideDt dt).Dissipates) (hst : M.Startable dt)
    (hsrc : (M.overrideDt dt).Sources (Tone ω t₀)) :
    (∀ T, ∃ M', M.runUntil T dt = .ok M') ∧ ∃ V V' I I', ∀ ε > 0, ∃ T₀, ∀ T ≥ T₀, M.Sinus dt ω ε T V V' I I' := by
  obtain ⟨C, V, V', I, I', c1, -, c3, c4, c5⟩ := C175_steady M dt t₀ ω hdt hp hl hm hs hd hst hsrc
  refine ⟨hst.run, V, V', I, I', fun ε hε => ?_⟩
  obtain ⟨T₀, hT⟩ := c5 ε hε
  refine ⟨T₀, fun T hTT M' hM' b hb t ht => ?_⟩
  obtain ⟨C', hC'⟩ := c3.run T
  obtain ⟨b', hb', hbb⟩ := forall₂_mem_left (hT T hTT M' C' hM' hC') b hb
  have hrd : C.runDt dt = M.runDt dt := by
    have h : (M.overrideDt dt).overrideDt dt = M.overrideDt dt := M.override_twice dt
    have := c1.remade.over h
    show (C.overrideDt dt).dt = (M.overrideDt dt).dt
    rw [this, c1.dt]
  have hx := c4 T C' hC' b' hb' t (by rw [hrd]; exact ht)
  obtain ⟨c, rfl, e1, e2, h1, h2⟩ := hbb
  refine ⟨fun k hk a => ?_, fun k hk a => ?_⟩
  · have h3 := hx.1 k (hk.trans_eq e1.symm) a
    rw [← e2, ← sub_eq_zero.1 (abs_nonpos_iff.1 h3)]
    exact h1 k hk a
  · have h3 := hx.2 k (hk.trans_eq e1.symm) a
    rw [← e2, ← sub_eq_zero.1 (abs_nonpos_iff.1 h3)]
    exact h2 k hk a

/-- A sinusoid that fades has no amplitude. -/
theorem sinus_zero {X Y θ : ℝ} (hθ : Real.sin θ ≠ 0) (h : Tendsto (fun j : ℕ => X * Real.cos (j * θ) + Y * Real.sin (j * θ)) atTop (nhds 0)) :
    X = 0 ∧ Y = 0 := by
  have hs := h.comp (tendsto_add_atTop_nat 1)
  have hy : Tendsto (fun j : ℕ => Y * Real.cos (j * θ) - X * Real.sin (j * θ)) atTop (nhds 0) := by
    have := (hs.sub (h.const_mul (Real.cos θ))).const_mul (Real.sin θ)⁻¹
    rw [mul_zero, sub_zero, mul_zero] at this
    refine this.congr fun j => ?_
    simp only [Function.comp]
    rw [show ((j + 1 : ℕ) : ℝ) * θ = j * θ + θ by push_cast; ring, Real.cos_add, Real.sin_add]
    field_simp
    ring
  have := turning_zero (x := fun j : ℕ => X * Real.cos (j * θ) + Y * Real.sin (j * θ))
    (y := fun j : ℕ => Y * Real.cos (j * θ) - X * Real.sin (j * θ)) (Real.cos_sq_add_sin_sq θ)
    (fun j => by rw [show ((j + 1 : ℕ) : ℝ) * θ = j * θ + θ by push_cast; ring, Real.cos_add, Real.sin_add]; ring)
    (fun j => by rw [show ((j + 1 : ℕ) : ℝ) * θ = j * θ + θ by push_cast; ring, Real.cos_add, Real.sin_add]; ring) h hy 0
  simpa using this

/-- **C175, uniqueness.** The amplitudes of voltages and currents are determined by the runs, unless the time step is a multiple of half a
period. -/
theorem C175_unique {M : MTLN p} {dt ω : ℝ} (hdt : 0 < M.runDt dt) (hst : M.Startable dt) (hω : Real.sin (ω * M.runDt dt) ≠ 0)
    {V V' I I' W W' J J' : String → ℕ → ℕ → ℝ} (h : ∀ ε > 0, ∃ T₀, ∀ T ≥ T₀, M.Sinus dt ω ε T V V' I I')
    (h' : ∀ ε > 0, ∃ T₀, ∀ T ≥ T₀, M.Sinus dt ω ε T W W' J J') :
    ∀ b ∈ M.bundles, (∀ k ≤ b.2.m, ∀ a < b.1, W b.2.name k a = V b.2.name k a ∧ W' b.2.name k a = V' b.2.name k a) ∧
      ∀ k < b.2.m, ∀ a < b.1, J b.2.name k a = I b.2.name k a ∧ J' b.2.name k a = I' b.2.name k a := by
  intro b hb
  have hbo : ∃ b' ∈ (M.overrideDt dt).bundles, b'.2.name = b.2.name ∧ b'.2.m = b.2.m ∧ b'.1 = b.1 := by
    unfold MTLN.overrideDt
    split
    · exact ⟨_, List.mem_map.2 ⟨b, hb, rfl⟩, rfl, rfl, rfl⟩
    · exact ⟨b, hb, rfl, rfl, rfl⟩
  obtain ⟨b', hb', x1, x2, x3⟩ := hbo
  have hrun : ∀ T, ∃ M', M.runUntil T dt = .ok M' ∧ ∃ c ∈ M'.bundles, c.2.name = b.2.name ∧ c.2.m = b.2.m ∧ c.1 = b.1 := by
    intro T
    obtain ⟨M', hM'⟩ := hst.run T
    obtain ⟨c, hc, hr⟩ := forall₂_mem_left (MTLN.run_free hM') b' hb'
    obtain ⟨v, i, phi, pr, lr, cg, rfl⟩ := hr
    exact ⟨M', hM', _, hc, x1, x2, x3⟩
  have key : ∀ (X X' Y Y' : ℝ), (∀ ε > 0, ∃ T₀, ∀ T ≥ T₀, ∃ z : ℝ, ∀ t : ℝ, t = ⌊T / M.runDt dt⌋.toNat * M.runDt dt →
      |z - (X * Real.cos (ω * t) + X' * Real.sin (ω * t))| ≤ ε ∧ |z - (Y * Real.cos (ω * t) + Y' * Real.sin (ω * t))| ≤ ε) →
      Y = X ∧ Y' = X' := by
    intro X X' Y Y' hz
    have : Y - X = 0 ∧ Y' - X' = 0 := by
      refine sinus_zero hω ?_
      rw [Metric.tendsto_atTop]
      intro ε hε
      obtain ⟨T₀, hT⟩ := hz (ε / 3) (by positivity)
      refine ⟨⌈T₀ / M.runDt dt⌉₊, fun j hj => ?_⟩
      have hTj : T₀ ≤ j * M.runDt dt := by
        rw [← div_le_iff₀ hdt]; exact (Nat.le_ceil _).trans (by exact_mod_cast hj)
      obtain ⟨z, hz⟩ := hT _ hTj
      have hj' : ⌊(j : ℝ) * M.runDt dt / M.runDt dt⌋.toNat = j := by
        rw [mul_div_assoc, div_self hdt.ne', mul_one, Int.floor_natCast, Int.toNat_natCast]
      obtain ⟨h1, h2⟩ := hz (j * M.runDt dt) (by rw [hj'])
      rw [Real.dist_eq, sub_zero]
      rw [show ω * (j * M.runDt dt) = j * (ω * M.runDt dt) by ring] at h1 h2
      have h1 := abs_le.1 h1
      have h2 := abs_le.1 h2
      rw [abs_lt]
      constructor <;> nlinarith [h1.1, h1.2, h2.1, h2.2]
    exact ⟨by linarith [this.1], by linarith [this.2]⟩
  refine ⟨fun k hk a ha => key _ _ _ _ fun ε hε => ?_, fun k hk a ha => key _ _ _ _ fun ε hε => ?_⟩
  · obtain ⟨T₀, hT⟩ := h ε hε
    obtain ⟨T₁, hT'⟩ := h' ε hε
    refine ⟨max T₀ T₁, fun T hTT => ?_⟩
    obtain ⟨M', hM', c, hc, y1, y2, y3⟩ := hrun T
    refine ⟨c.2.v k ⟨a, y3 ▸ ha⟩, fun t ht => ?_⟩
    have e1 := (hT T ((le_max_left _ _).trans hTT) M' hM' c hc t ht).1 k (by rw [y2]; exact hk) ⟨a, y3 ▸ ha⟩
    have e2 := (hT' T ((le_max_right _ _).trans hTT) M' hM' c hc t ht).1 k (by rw [y2]; exact hk) ⟨a, y3 ▸ ha⟩
    rw [y1] at e1 e2
    exact ⟨e1, e2⟩
  · obtain ⟨T₀, hT⟩ := h ε hε
    obtain ⟨T₁, hT'⟩ := h' ε hε
    refine ⟨max T₀ T₁, fun T hTT => ?_⟩
    obtain ⟨M', hM', c, hc, y1, y2, y3⟩ := hrun T
    refine ⟨c.2.i k ⟨a, y3 ▸ ha⟩, fun t ht => ?_⟩
    have e1 := (hT T ((le_max_left _ _).trans hTT) M' hM' c hc t ht).2 k (by rw [y2]; exact hk) ⟨a, y3 ▸ ha⟩
    have e2 := (hT' T ((le_max_right _ _).trans hTT) M' hM' c hc t ht).2 k (by rw [y2]; exact hk) ⟨a, y3 ▸ ha⟩
    rw [y1] at e1 e2
    exact ⟨e1, e2⟩

/-- The sinusoids of an angular frequency, from a time on. -/
def tones (ω t₀ : ℝ) : Submodule ℝ (ℝ → ℝ) where
  carrier := {f | Tone ω t₀ f}
  add_mem' := fun ⟨a, b, hf⟩ ⟨a', b', hg⟩ => ⟨a + a', b + b', fun t ht => by simp only [Pi.add_apply, hf t ht, hg t ht]; ring⟩
  zero_mem' := ⟨0, 0, fun _ _ => by simp⟩
  smul_mem' := fun c f ⟨a, b, hf⟩ => ⟨c * a, c * b, fun t ht => by simp only [Pi.smul_apply, hf t ht, smul_eq_mul]; ring⟩

/-- **C175, programs.** From the program alone: with resistors to ground and sinusoidal sources of one frequency, every voltage
and every current approaches a sinusoid of that frequency. -/
theorem C175_program {Pr : Program p} {M : MTLN p} (h : Pr.make = .ok M) (hw : Pr.WellFormed) (hg : Pr.Grounded) {dt t₀ ω : ℝ}
    (h0 : 0 < dt) (hlt : ∀ B ∈ Pr.bundles, ∀ L ∈ B.lines, dt < L.2.dt) (hs : Pr.SourcesIn {f | Tone ω t₀ f}) :
    (∀ T, ∃ M', M.runUntil T dt = .ok M') ∧ ∃ V V' I I', ∀ ε > 0, ∃ T₀, ∀ T ≥ T₀, M.Sinus dt ω ε T V V' I I' := by
  obtain ⟨hd, -, hl, hp, hm, -, hst⟩ := C159_program h hw h0
  have hdt : 0 < M.runDt dt := by rw [hd]; exact h0
  obtain ⟨h1, h2⟩ := C159_sources (tones ω t₀) h hs dt
  exact C175_response M dt t₀ ω hdt hp hl hm (hst hlt) (C159_dissipates h hw hg h0) (C159_startable h hw h0)
    ⟨fun b hb => ⟨fun k x => (h1 b hb).1.1 k x, fun k x => (h1 b hb).2.1 k x⟩,
      fun nwd hn e he => ⟨fun x => (h2 nwd hn e he).1 x, fun x => (h2 nwd hn e he).2 x⟩⟩

/-- Non-vacuity of C175: the demo line with a sinusoidal source of any period. -/
theorem demoDriven_sinus {dt Θ : ℝ} (h0 : 0 < dt) (h1 : dt < 1) : ∃ V V' I I', ∀ ε > 0, ∃ T₀, ∀ T ≥ T₀,
    (demoDriven dt (sineSource 5 Θ)).Sinus dt (2 * Real.pi / Θ) ε T V V' I I' := by
  obtain ⟨hD, hl, hrd, hsrc⟩ := demoDriven_hyps h0 h1 (sineSource 5 Θ)
  generalize demoDriven dt (sineSource 5 Θ) = M at *
  have := C175_response M dt 0 (2 * Real.pi / Θ) (by rw [hrd]; exact h0)
  rw [hD.over] at this
  refine (this hD.passive hl hD.matched hD.stable hD.dissipates hD.startable (hsrc.imp fun f hf => ?_)).2
  refine ⟨0, 5, fun t ht => ?_⟩
  rw [hf, sineSource, if_pos ht, show 2 * Real.pi / Θ * t = 2 * Real.pi * (t / Θ) by ring]
  ring

end Mtln
