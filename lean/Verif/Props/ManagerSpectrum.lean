import Verif.Lemmas.ManagerPulse

/-! # Spectra of the responses of managers to pulses: C184 -/

namespace Mtln

open Matrix Filter Topology

variable {n p N S : ℕ}

/-! ## A sinusoid that swells with the samples of a source -/

/-- The spectrum of a source from `K + 1` samples: `∑ f(t₀ + j dt) exp(-iω(t₀ + j dt))`. -/
noncomputable def pulseSpectrum (ω t₀ dt : ℝ) (K : ℕ) (f : ℝ → ℝ) : ℂ :=
  ∑ j ∈ Finset.range (K + 1), Complex.exp ((-(ω * (t₀ + j * dt)) : ℝ) * Complex.I) * (f (t₀ + j * dt) : ℂ)

/-- The sinusoid whose amplitude is the spectrum of the samples so far. -/
noncomputable def swell (ω t₀ dt : ℝ) (f : ℝ → ℝ) (t : ℝ) : ℂ := Complex.exp ((ω * t : ℝ) * Complex.I) *
  ∑ j ∈ Finset.range (⌊(t - t₀) / dt⌋ + 1).toNat, Complex.exp ((-(ω * (t₀ + j * dt)) : ℝ) * Complex.I) * (f (t₀ + j * dt) : ℂ)

section

variable {ω t₀ dt : ℝ}

theorem swell_zero (t : ℝ) : swell ω t₀ dt 0 t = 0 := by
  unfold swell
  rw [Finset.sum_eq_zero fun j _ => by simp, mul_zero]

theorem swell_before (hdt : 0 < dt) (f : ℝ → ℝ) {t : ℝ} (ht : t < t₀) : swell ω t₀ dt f t = 0 := by
  have : ⌊(t - t₀) / dt⌋ < 0 := Int.floor_lt.2 (by rw [Int.cast_zero]; exact div_neg_of_neg_of_pos (by linarith) hdt)
  unfold swell
  rw [Int.toNat_of_nonpos (by omega), Finset.range_zero, Finset.sum_empty, mul_zero]

theorem swell_at (hdt : 0 < dt) (f : ℝ → ℝ) (z : ℤ) : swell ω t₀ dt f (t₀ + z * dt) = Complex.exp ((ω * (t₀ + z * dt) : ℝ) * Complex.I) *
    ∑ j ∈ Finset.range (z + 1).toNat, Complex.exp ((-(ω * (t₀ + j * dt)) : ℝ) * Complex.I) * (f (t₀ + j * dt) : ℂ) := by
  unfold swell
  rw [show (t₀ + z * dt - t₀) / dt = z by field_simp; ring, Int.floor_intCast]

/-- At the times of the samples. -/
theorem swell_step (hdt : 0 < dt) {f : ℝ → ℝ} (hf : ∀ t < t₀, f t = 0) (z : ℤ) :
    swell ω t₀ dt f (t₀ + z * dt) = Complex.exp ((ω * dt : ℝ) * Complex.I) * swell ω t₀ dt f (t₀ + z * dt - dt) + (f (t₀ + z * dt) : ℂ) := by
  have e1 : t₀ + z * dt - dt = t₀ + ((z - 1 : ℤ) : ℝ) * dt := by push_cast; ring
  rw [e1, swell_at hdt, swell_at hdt]
  rcases lt_or_ge z 0 with hz | hz
  · rw [Int.toNat_of_nonpos (by omega), Int.toNat_of_nonpos (by omega), Finset.range_zero, Finset.sum_empty, hf]
    · simp
    · have : (z : ℝ) < 0 := by exact_mod_cast hz
      nlinarith
  · obtain ⟨m, rfl⟩ := Int.eq_ofNat_of_zero_le hz
    rw [show ((m : ℤ) + 1).toNat = m + 1 by omega, show ((m : ℤ) - 1 + 1).toNat = m by omega, Finset.sum_range_succ, mul_add, ← mul_assoc,
      ← Complex.exp_add, ← mul_assoc, ← Complex.exp_add]
    push_cast
    congr 1
    · congr 2; ring
    · rw [show (ω : ℂ) * (t₀ + m * dt) * Complex.I + -(ω * (t₀ + m * dt)) * Complex.I = 0 by ring, Complex.exp_zero, one_mul]

/-- After the last sample. -/
theorem swell_after (hdt : 0 < dt) {f : ℝ → ℝ} {K : ℕ} (hf : ∀ t > t₀ + K * dt, f t = 0) :
    HasAmplitude ω (t₀ + K * dt) (fun t => (swell ω t₀ dt f t).re) (pulseSpectrum ω t₀ dt K f) := by
  intro t ht
  have h1 : (K : ℤ) ≤ ⌊(t - t₀) / dt⌋ := Int.le_floor.2 (by rw [le_div_iff₀ hdt]; push_cast; linarith)
  have hK : K + 1 ≤ (⌊(t - t₀) / dt⌋ + 1).toNat := by omega
  dsimp only
  unfold swell pulseSpectrum
  rw [mul_comm, ← Finset.sum_subset (Finset.range_mono hK) fun j _ hj => ?_]
  rw [Finset.mem_range, not_lt] at hj
  rw [hf, Complex.ofReal_zero, mul_zero]
  have : (K : ℝ) + 1 ≤ j := by exact_mod_cast hj
  nlinarith

/-- Sums whose real parts, turned on, approach a sinusoid. -/
theorem spectrum_limit {θ α : ℝ} (hθ : Real.sin θ ≠ 0) {X : ℕ → ℝ} (hX : Tendsto X atTop (𝓝 0)) {D : ℕ → ℂ}
    (hD : ∀ j, D (j + 1) = Complex.exp ((θ : ℂ) * Complex.I) * D j + (X (j + 1) : ℂ)) {z : ℂ}
    (h : Tendsto (fun j => (D j).re - (z * Complex.exp (((α + j * θ : ℝ) : ℂ) * Complex.I)).re) atTop (𝓝 0)) :
    Tendsto (fun j : ℕ => Complex.exp ((-(j * θ) : ℝ) * Complex.I) * D j) atTop (𝓝 (z * Complex.exp ((α : ℂ) * Complex.I))) := by
  obtain ⟨P, hP⟩ : ∃ P : ℕ → ℂ, P = fun j => D j - z * Complex.exp (((α + j * θ : ℝ) : ℂ) * Complex.I) := ⟨_, rfl⟩
  have p0 : Tendsto (fun j => (P j).re) atTop (𝓝 0) := by rw [hP]; exact h
  have p1 : ∀ j, P (j + 1) = Complex.exp ((θ : ℂ) * Complex.I) * P j + (X (j + 1) : ℂ) := by
    intro j
    rw [hP]
    dsimp only
    rw [hD, show (((α + (j + 1 : ℕ) * θ : ℝ) : ℂ) * Complex.I) = (θ : ℂ) * Complex.I + ((α + j * θ : ℝ) : ℂ) * Complex.I by push_cast; ring,
      Complex.exp_add]
    ring
  have p2 : ∀ j, Real.sin θ * (P j).im = Real.cos θ * (P j).re - (P (j + 1)).re + X (j + 1) := by
    intro j
    rw [p1, Complex.add_re, Complex.mul_re, Complex.exp_ofReal_mul_I_re, Complex.exp_ofReal_mul_I_im, Complex.ofReal_re]
    ring
  have p3 : Tendsto (fun j => (P j).im) atTop (𝓝 0) := by
    have : Tendsto (fun j => (Real.cos θ * (P j).re - (P (j + 1)).re + X (j + 1)) / Real.sin θ) atTop (𝓝 ((Real.cos θ * 0 - 0 + 0) / Real.sin θ)) :=
      (((p0.const_mul _).sub (p0.comp (tendsto_add_atTop_nat 1))).add (hX.comp (tendsto_add_atTop_nat 1))).div_const _
    rw [show (Real.cos θ * 0 - 0 + 0) / Real.sin θ = 0 by simp] at this
    refine this.congr fun j => ?_
    rw [← p2, mul_div_assoc, mul_comm, div_mul_cancel₀ _ hθ]
  have p4 : Tendsto P atTop (𝓝 0) := by
    have := ((Complex.continuous_ofReal.tendsto 0).comp p0).add (((Complex.continuous_ofReal.tendsto 0).comp p3).mul_const Complex.I)
    simp only [Complex.ofReal_zero, zero_mul, add_zero] at this
    exact this.congr fun j => Complex.re_add_im _
  rw [tendsto_iff_norm_sub_tendsto_zero]
  rw [tendsto_zero_iff_norm_tendsto_zero] at p4
  refine p4.congr fun j => ?_
  have e : Complex.exp ((-(j * θ) : ℝ) * Complex.I) * D j - z * Complex.exp ((α : ℂ) * Complex.I) =
      Complex.exp ((-(j * θ) : ℝ) * Complex.I) * P j := by
    rw [hP]
    dsimp only
    rw [mul_sub, mul_left_comm, ← Complex.exp_add]
    congr 3
    push_cast; ring
  rw [e, norm_mul, Complex.norm_exp_ofReal_mul_I, one_mul]

end

/-! ## Managers with other sources -/

theorem MTLN.redrive_redrive (M : MTLN p) (φ ψ : (ℝ → ℝ) → ℝ → ℝ) : (M.redrive φ).redrive ψ = M.redrive fun f => ψ (φ f) := by
  simp only [MTLN.redrive, List.map_map, Function.comp_def]

/-- The amplitudes of other sources in the circuit for alternating current. -/
theorem MTLN.redrive_ac {M : MTLN p} {φ : (ℝ → ℝ) → ℝ → ℝ} {θ : ℝ} {amp amp' : (ℝ → ℝ) → ℂ} {V I : String → ℕ → ℕ → ℂ}
    (h : M.Sources fun f => amp' (φ f) = amp f) : (M.redrive φ).AC θ amp' V I ↔ M.AC θ amp V I := by
  have hb : ∀ b ∈ M.bundles, (fun k a => amp' (φ (b.2.eT k a))) = (fun k a => amp (b.2.eT k a)) ∧
      (fun k a => amp' (φ (b.2.eL k a))) = fun k a => amp (b.2.eL k a) := fun b hb =>
    ⟨funext fun k => funext fun a => (h.bundles b hb).2 k a, funext fun k => funext fun a => (h.bundles b hb).1 k a⟩
  have hn : ∀ nwd ∈ M.networks, ∀ e ∈ nwd, (fun a => amp' (φ (e.2.2.2.vSources a))) = (fun a => amp (e.2.2.2.vSources a)) ∧
      (fun a => amp' (φ (e.2.2.2.nodes a).eT)) = fun a => amp (e.2.2.2.nodes a).eT := fun nwd hn e he =>
    ⟨funext fun a => (h.networks nwd hn e he).1 a, funext fun a => (h.networks nwd hn e he).2 a⟩
  have hV : acEndV (M.redrive φ).bundles V = acEndV M.bundles V := funext fun x => (acEnd_redriven (M.redriven φ).bundles V x).1
  have hI : acEndI (M.redrive φ).bundles I = acEndI M.bundles I := funext fun x => (acEnd_redriven (M.redriven φ).bundles I x).2
  have hends : (allNodes (M.redrive φ).networks).map Node.end' = (allNodes M.networks).map Node.end' := (M.redriven φ).remade.ends
  constructor
  · intro hac
    refine ⟨fun b h' => ?_, fun nwd h' e he => ?_, fun x hx => ?_⟩
    · have := hac.bundles _ (List.mem_map.2 ⟨b, h', rfl⟩)
      dsimp only at this
      rw [(hb b h').1, (hb b h').2] at this
      exact ⟨this.cell, this.node⟩
    · have := hac.networks _ (List.mem_map.2 ⟨nwd, h', rfl⟩) _ (List.mem_map.2 ⟨e, he, rfl⟩)
      dsimp only at this
      rw [(hn nwd h' e he).1, (hn nwd h' e he).2, hV, hI] at this
      exact this
    · have := hac.free x (by rw [hends]; exact hx)
      rwa [hV] at this
  · intro hac
    refine ⟨fun b h' => ?_, fun nwd h' e he => ?_, fun x hx => ?_⟩
    · obtain ⟨b, g', rfl⟩ := List.mem_map.1 h'
      dsimp only
      rw [(hb b g').1, (hb b g').2]
      have := hac.bundles b g'
      exact ⟨this.cell, this.node⟩
    · obtain ⟨nwd, g', rfl⟩ := List.mem_map.1 h'
      obtain ⟨e, ge, rfl⟩ := List.mem_map.1 he
      dsimp only
      rw [(hn nwd g' e ge).1, (hn nwd g' e ge).2, hV, hI]
      exact hac.networks nwd g' e ge
    · rw [hV]
      exact hac.free x (by rw [← hends]; exact hx)

/-- The amplitude of a sinusoid. -/
noncomputable def amplitudeOf (ω t₀ : ℝ) (f : ℝ → ℝ) : ℂ := open Classical in if h : ∃ z, HasAmplitude ω t₀ f z then h.choose else 0

theorem HasAmplitude.unique {ω t₀ dt : ℝ} {f : ℝ → ℝ} {z w : ℂ} (hdt : 0 < dt) (hω : Real.sin (ω * dt) ≠ 0) (hz : HasAmplitude ω t₀ f z)
    (hw : HasAmplitude ω t₀ f w) : z = w := by
  refine sub_eq_zero.1 (amplitude_zero (α := ω * t₀) hω fun ε hε => ⟨0, fun j _ => ?_⟩)
  have h1 := hz (t₀ + j * dt) (by have : 0 ≤ j * dt := by positivity
                                  linarith)
  have h2 := hw (t₀ + j * dt) (by have : 0 ≤ j * dt := by positivity
                                  linarith)
  rw [show ω * t₀ + j * (ω * dt) = ω * (t₀ + j * dt) by ring, sub_mul, Complex.sub_re, ← h1, ← h2, sub_self, abs_zero]
  exact hε.le

theorem amplitudeOf_eq {ω t₀ dt : ℝ} {f : ℝ → ℝ} {z : ℂ} (hdt : 0 < dt) (hω : Real.sin (ω * dt) ≠ 0) (hz : HasAmplitude ω t₀ f z) :
    amplitudeOf ω t₀ f = z := by
  unfold amplitudeOf
  rw [dif_pos ⟨z, hz⟩]
  exact HasAmplitude.unique hdt hω (Exists.choose_spec ⟨z, hz⟩) hz

section

variable {M A B C : MTLN p} {dt : ℝ}

/-- Sources that are, when they are sampled, sums of others. -/
theorem MTLN.Damped.wave_comb {D : (ℝ → ℝ) → Prop} (hM : M.Damped dt) (hl : M.Linked) (hr : M.AtRest)
    (heL : ∀ b ∈ M.bundles, ∀ k x, b.2.eL k x = 0) (hD : M.Sources D) {φ₀ φ₁ φ₂ : (ℝ → ℝ) → ℝ → ℝ} {a b c : ℝ}
    (h : ∀ f, D f → ∀ j : ℕ, φ₀ f (M.time + (j - 2) * M.dt) = a * φ₁ f (M.time + (j - 2) * M.dt) + b * φ₂ f (M.time + (j - 2) * M.dt)
      + c * f (M.time + (j - 2) * M.dt)) (h0 : φ₀ 0 = 0) (h1 : φ₁ 0 = 0) (h2 : φ₂ 0 = 0) (j : ℕ) :
    ∀ q ∈ Places M.bundles, (M.redrive φ₀).wave dt j q =
      a * (M.redrive φ₁).wave dt j q + b * (M.redrive φ₂).wave dt j q + c * M.wave dt j q := by
  have d1 := (M.redriven φ₁).remade.damped hM
  have d2 := (M.redriven φ₂).remade.damped hM
  have l1 := M.redrive_linked φ₁ hl
  have l2 := M.redrive_linked φ₂ hl
  obtain ⟨P, p1, p2⟩ := (M.redriven φ₁).superposed (a := a) (b := b) (ρ₃ := fun f g => g = fun t => a * φ₁ f t + b * φ₂ f t)
    (fun f g k hg hk => by rw [hg, hk]) (M.redriven φ₂)
  have lP := p1.linked (M.redriven φ₁).remade (M.redriven φ₂).remade p2.remade l1 l2
  have rP := p1.rest (hr.redrive φ₁) (hr.redrive φ₂)
  have dP := p2.remade.damped hM
  obtain ⟨Q, q1, q2⟩ := p2.superposed (a := 1) (b := c) (ρ₃ := fun f g => g = fun t => 1 * (a * φ₁ f t + b * φ₂ f t) + c * f t)
    (fun f g k hg hk => by rw [hg, hk]) (MTLN.Redriven.refl M)
  have lQ := q1.linked p2.remade (MTLN.Redriven.refl M).remade q2.remade lP hl
  intro q hq
  rw [hM.same_samples (M.redriven φ₀) q2 (M.redrive_linked φ₀ hl) lQ (hr.redrive φ₀) (q1.rest rP hr) heL hD (fun f g k hf hg hk => ?_) j q hq,
    q1.wave dP hM (q2.remade.damped hM), p1.wave d1 d2 dP]
  · ring
  · subst hg hk
    refine ⟨fun i => by dsimp only; rw [h f hf]; ring, fun e => ?_⟩
    subst e
    funext t
    rw [h0, h1, h2]
    simp

/-- The amplitude at a place. -/
def ampAt (V I : String → ℕ → ℕ → ℂ) (q : Bool × String × ℕ × ℕ) : ℂ :=
  if q.1 then V q.2.1 q.2.2.1 q.2.2.2 else I q.2.1 q.2.2.1 q.2.2.2

/-- By how many steps the values at a place are late. -/
noncomputable def lateAt (q : Bool × String × ℕ × ℕ) : ℝ := if q.1 then 1 else 1 / 2

theorem MTLN.Damped.settled {ω : ℝ} {V I : String → ℕ → ℕ → ℂ} (hA : A.Damped dt) (h : A.Settles dt ω V I) {q : Bool × String × ℕ × ℕ}
    (hq : q ∈ Places A.bundles) : Tendsto (fun j : ℕ => A.wave dt j q -
      (ampAt V I q * Complex.exp (((ω * (A.time - A.dt * lateAt q) + j * (ω * A.dt) : ℝ) : ℂ) * Complex.I)).re) atTop (𝓝 0) := by
  rw [Metric.tendsto_atTop]
  intro ε hε
  obtain ⟨T₀, hT⟩ := h (ε / 2) (by positivity)
  refine ⟨⌈T₀ / A.dt⌉₊, fun j hj => ?_⟩
  have hTj : T₀ ≤ j * A.dt := by
    rw [← div_le_iff₀ hA.pos]; exact (Nat.le_ceil _).trans (by exact_mod_cast hj)
  obtain ⟨A', hA'⟩ := hA.startable.run (j * A.dt)
  obtain ⟨n1, n2⟩ := hA.after hA'
  obtain ⟨-, -, m1, m2⟩ := C02_time_step A A' _ dt hA'
  rw [hA.steps, hA.runDt] at m2
  rw [hA.runDt] at m1
  rw [MTLN.wave_eq hA', Real.dist_eq, sub_zero]
  refine lt_of_le_of_lt ?_ (half_lt_self hε)
  obtain ⟨w, name, k, a⟩ := q
  rw [← n2] at hq
  obtain ⟨b, hb, h1, h2, h3⟩ := hq
  simp only at h1 h2 h3
  subst h1
  have := hT _ hTj A' hA' b hb
  rcases h3 with ⟨rfl, h3⟩ | ⟨rfl, h3⟩
  · have h4 := reading_node n1 hb k ⟨a, h2⟩
    simp only at h4
    rw [h4]
    have := this.1 k h3 ⟨a, h2⟩
    rw [m1, m2] at this
    unfold ampAt lateAt
    rw [if_pos rfl, if_pos rfl, show ω * (A.time - A.dt * 1) + j * (ω * A.dt) = ω * (A.time + j * A.dt - A.dt) by ring]
    exact this
  · have h4 := reading_cell n1 hb k ⟨a, h2⟩
    simp only at h4
    rw [h4]
    have := this.2 k h3 ⟨a, h2⟩
    rw [m1, m2] at this
    unfold ampAt lateAt
    rw [if_neg (by simp), if_neg (by simp), show ω * (A.time - A.dt * (1 / 2)) + j * (ω * A.dt) = ω * (A.time + j * A.dt - A.dt / 2) by ring]
    exact this

/-- What a pulse is: the source acts for `K` steps. -/
def PulseFor (t₀ dt : ℝ) (K : ℕ) (f : ℝ → ℝ) : Prop := (∀ t < t₀, f t = 0) ∧ ∀ t > t₀ + K * dt, f t = 0

/-- The spectrum of what a manager shows after a pulse. -/
theorem MTLN.Damped.spectrum {ω : ℝ} {K : ℕ} (hM : M.Damped dt) (hl : M.Linked) (hr : M.AtRest)
    (heL : ∀ b ∈ M.bundles, ∀ k x, b.2.eL k x = 0) (hD : M.Sources (PulseFor M.time M.dt K)) (hω : Real.sin (ω * M.dt) ≠ 0)
    {V I : String → ℕ → ℕ → ℂ} (hac : M.AC (ω * M.dt) (pulseSpectrum ω M.time M.dt K) V I) {q : Bool × String × ℕ × ℕ}
    (hq : q ∈ Places M.bundles) : Tendsto (fun J : ℕ => ∑ j ∈ Finset.range (J + 1),
      Complex.exp ((-(ω * (M.time + j * M.dt - M.dt * lateAt q)) : ℝ) * Complex.I) * (M.wave dt j q : ℂ)) atTop (𝓝 (ampAt V I q)) := by
  have hdt := hM.pos
  obtain ⟨φ, hφ⟩ : ∃ φ : (ℝ → ℝ) → ℝ → ℝ, φ = fun f t => (swell ω M.time M.dt f t).re := ⟨_, rfl⟩
  obtain ⟨ψ, hψ⟩ : ∃ ψ : (ℝ → ℝ) → ℝ → ℝ, ψ = fun f t => (swell ω M.time M.dt f t).im := ⟨_, rfl⟩
  have dφ := (M.redriven φ).remade.damped hM
  have dψ := (M.redriven ψ).remade.damped hM
  have lφ := M.redrive_linked φ hl
  have lψ := M.redrive_linked ψ hl
  have silent : ∀ {χ : (ℝ → ℝ) → ℝ → ℝ}, (∀ f, ∀ t < M.time, χ f t = 0) → (M.redrive χ).Silent := by
    intro χ hχ
    refine ⟨fun b hb => ?_, fun nwd hn e he => ?_⟩
    · obtain ⟨b, hb', rfl⟩ := List.mem_map.1 hb
      exact ⟨fun k _ x t ht => hχ _ t ht, fun k _ x t ht => hχ _ t ht⟩
    · obtain ⟨nwd, hn', rfl⟩ := List.mem_map.1 hn
      obtain ⟨e, he', rfl⟩ := List.mem_map.1 he
      exact ⟨fun x t ht => hχ _ t ht, fun x t ht => hχ _ t ht⟩
  have sφ : (M.redrive φ).Silent := silent fun f t ht => by rw [hφ]; simp [swell_before hdt f ht]
  have sψ : (M.redrive ψ).Silent := silent fun f t ht => by rw [hψ]; simp [swell_before hdt f ht]
  have del : ∀ {χ : (ℝ → ℝ) → ℝ → ℝ}, (M.redrive χ).Silent → ∀ j,
      (M.redrive fun f t => χ f (t - M.dt)).wave dt (j + 1) q = (M.redrive χ).wave dt j q := by
    intro χ hχ j
    have := ((M.redriven χ).remade.damped hM).delayed (hr.redrive χ) hχ j q (by rw [(M.redriven χ).remade.places]; exact hq)
    rwa [MTLN.redrive_redrive] at this
  have time : ∀ j : ℕ, M.time + ((j : ℝ) - 2) * M.dt = M.time + ((j - 2 : ℤ) : ℝ) * M.dt := fun j => by push_cast; ring
  have step1 : ∀ j, (M.redrive φ).wave dt (j + 1) q = Real.cos (ω * M.dt) * (M.redrive φ).wave dt j q +
      -Real.sin (ω * M.dt) * (M.redrive ψ).wave dt j q + 1 * M.wave dt (j + 1) q := by
    intro j
    rw [← del sφ j, ← del sψ j]
    refine hM.wave_comb hl hr heL hD (fun f hf i => ?_) ?_ ?_ ?_ (j + 1) q hq
    · rw [hφ, hψ, time]
      dsimp only
      rw [swell_step hdt hf.1, Complex.add_re, Complex.mul_re, Complex.exp_ofReal_mul_I_re, Complex.exp_ofReal_mul_I_im, Complex.ofReal_re]
      ring
    all_goals first | rw [hφ] | rw [hψ]
    all_goals funext t; simp [swell_zero]
  have step2 : ∀ j, (M.redrive ψ).wave dt (j + 1) q = Real.sin (ω * M.dt) * (M.redrive φ).wave dt j q +
      Real.cos (ω * M.dt) * (M.redrive ψ).wave dt j q + 0 * M.wave dt (j + 1) q := by
    intro j
    rw [← del sφ j, ← del sψ j]
    refine hM.wave_comb hl hr heL hD (fun f hf i => ?_) ?_ ?_ ?_ (j + 1) q hq
    · rw [hφ, hψ, time]
      dsimp only
      rw [swell_step hdt hf.1, Complex.add_im, Complex.mul_im, Complex.exp_ofReal_mul_I_re, Complex.exp_ofReal_mul_I_im, Complex.ofReal_im]
      ring
    all_goals first | rw [hφ] | rw [hψ]
    all_goals funext t; simp [swell_zero]
  obtain ⟨D, hDD⟩ : ∃ D : ℕ → ℂ, D = fun j => (⟨(M.redrive φ).wave dt j q, (M.redrive ψ).wave dt j q⟩ : ℂ) := ⟨_, rfl⟩
  have D0 : D 0 = 0 := by
    rw [hDD]
    exact Complex.ext (dφ.wave_rest lφ (hr.redrive φ) q) (dψ.wave_rest lψ (hr.redrive ψ) q)
  have D1 : ∀ j, D (j + 1) = Complex.exp (((ω * M.dt : ℝ) : ℂ) * Complex.I) * D j + (M.wave dt (j + 1) q : ℂ) := by
    intro j
    rw [hDD]
    refine Complex.ext ?_ ?_
    · simp only [Complex.add_re, Complex.mul_re, Complex.exp_ofReal_mul_I_re, Complex.exp_ofReal_mul_I_im, Complex.ofReal_re]
      rw [step1]; ring
    · simp only [Complex.add_im, Complex.mul_im, Complex.exp_ofReal_mul_I_re, Complex.exp_ofReal_mul_I_im, Complex.ofReal_im]
      rw [step2]; ring
  have hX : Tendsto (fun j => M.wave dt j q) atTop (𝓝 0) := by
    refine hM.fades hl (t₀ := M.time + (K + 1) * M.dt) ⟨fun b hb t ht => ?_, fun nwd hn e he t ht => ?_⟩ hq
    · have ht' : M.time + K * M.dt < t := by nlinarith
      exact ⟨fun k x => ((hD.bundles b hb).1 k x).2 t ht', fun k x => ((hD.bundles b hb).2 k x).2 t ht'⟩
    · have ht' : M.time + K * M.dt < t := by nlinarith
      exact ⟨fun x => ((hD.networks nwd hn e he).1 x).2 t ht', fun x => ((hD.networks nwd hn e he).2 x).2 t ht'⟩
  have hamp : M.Sources fun f => HasAmplitude ω (M.time + K * M.dt) (φ f) (pulseSpectrum ω M.time M.dt K f) :=
    hD.imp fun f hf => by rw [hφ]; exact swell_after hdt hf.2
  have hac' : (M.redrive φ).AC (ω * M.dt) (amplitudeOf ω (M.time + K * M.dt)) V I :=
    (MTLN.redrive_ac (hamp.imp fun f hf => amplitudeOf_eq hdt hω hf)).2 hac
  have hset : (M.redrive φ).Settles dt ω V I := by
    refine C182_settles (M.redrive φ) dt (M.time + K * M.dt) ω (amplitudeOf ω (M.time + K * M.dt)) (by rw [dφ.runDt]; exact hdt) ?_ ?_ ?_ ?_ ?_
      dφ.startable ?_ (by rw [dφ.over, dφ.runDt]; exact hac')
    all_goals rw [dφ.over]
    · exact dφ.passive
    · exact lφ
    · exact dφ.matched
    · exact dφ.stable
    · exact dφ.dissipates
    · refine (M.redriven φ).sources (D := fun f => HasAmplitude ω (M.time + K * M.dt) (φ f) (pulseSpectrum ω M.time M.dt K f)) ?_ hamp
      rintro f g rfl hf
      rw [amplitudeOf_eq hdt hω hf]
      exact hf
  have hs := dφ.settled hset (q := q) (by rw [(M.redriven φ).remade.places]; exact hq)
  have lim := spectrum_limit (θ := ω * M.dt) (α := ω * (M.time - M.dt * lateAt q)) hω hX D1 (z := ampAt V I q) (by rw [hDD]; exact hs)
  have lim2 := lim.const_mul (Complex.exp ((-(ω * (M.time - M.dt * lateAt q)) : ℝ) * Complex.I))
  rw [mul_left_comm, ← Complex.exp_add, show ((-(ω * (M.time - M.dt * lateAt q)) : ℝ) : ℂ) * Complex.I +
    ((ω * (M.time - M.dt * lateAt q) : ℝ) : ℂ) * Complex.I = 0 by push_cast; ring, Complex.exp_zero, mul_one] at lim2
  refine lim2.congr fun J => ?_
  rw [← mul_assoc, ← Complex.exp_add]
  induction J with
  | zero =>
    rw [D0, mul_zero, zero_add, Finset.sum_range_one, hM.wave_rest hl hr, Complex.ofReal_zero, mul_zero]
  | succ J ih =>
    rw [Finset.sum_range_succ, ← ih, D1, mul_add, ← mul_assoc, ← Complex.exp_add]
    congr 1
    · congr 2
      push_cast; ring
    · congr 2
      push_cast; ring

end

/-- **C184.** A manager at rest of passive bundles and networks of resistors and capacitors, with time steps below the automatic ones,
where the resistors reach every bundle, after sources that act for `K` steps.  The sums `∑ v exp(-iωt)` and `∑ i exp(-iωt)` over the
steps of the runs tend to the solution of the circuit of the manager for alternating current, with the sums `∑ e exp(-iωt)` over
the sources as their amplitudes. -/
theorem C184_spectrum (M : MTLN p) (dt ω : ℝ) (K : ℕ) (hdt : 0 < M.runDt dt) (hp : (M.overrideDt dt).Passive)
    (hl : (M.overrideDt dt).Linked) (hm : (M.overrideDt dt).Matched)
    (hs : ∀ b ∈ (M.overrideDt dt).bundles, b.2.Stable) (hd : (M.overrideDt dt).Dissipates) (hst : M.Startable dt) (hr : M.AtRest)
    (heL : ∀ b ∈ (M.overrideDt dt).bundles, ∀ k x, b.2.eL k x = 0)
    (hsrc : (M.overrideDt dt).Sources (PulseFor M.time (M.runDt dt) K)) (hω : Real.sin (ω * M.runDt dt) ≠ 0)
    {V I : String → ℕ → ℕ → ℂ} (hac : (M.overrideDt dt).AC (ω * M.runDt dt) (pulseSpectrum ω M.time (M.runDt dt) K) V I)
    {R : ℕ → MTLN p} (hR : ∀ j : ℕ, M.runUntil (j * M.runDt dt) dt = .ok (R j)) :
    ∀ b ∈ (M.overrideDt dt).bundles,
      (∀ k ≤ b.2.m, ∀ a < b.1, Tendsto (fun J : ℕ => ∑ j ∈ Finset.range (J + 1),
        Complex.exp ((-(ω * ((R j).time - (R j).dt)) : ℝ) * Complex.I) * (nodeV (R j).bundles b.2.name k a : ℂ)) atTop (𝓝 (V b.2.name k a))) ∧
      ∀ k < b.2.m, ∀ a < b.1, Tendsto (fun J : ℕ => ∑ j ∈ Finset.range (J + 1),
        Complex.exp ((-(ω * ((R j).time - (R j).dt / 2)) : ℝ) * Complex.I) * (cellI (R j).bundles b.2.name k a : ℂ)) atTop
          (𝓝 (I b.2.name k a)) := by
  have hN : (M.overrideDt dt).Damped dt := ⟨M.override_twice dt, hst.override, hdt, hp, hm, hs, hd⟩
  have hrun : ∀ T, M.runUntil T dt = (M.overrideDt dt).runUntil T dt := fun T => (M.run_override T dt).symm
  have hΘ : M.runDt dt = (M.overrideDt dt).dt := rfl
  have htime : M.time = (M.overrideDt dt).time := by unfold MTLN.overrideDt; split <;> rfl
  have hr' := hr.override dt
  simp only [hrun, hΘ] at hR
  rw [hΘ, htime] at hac hsrc
  rw [hΘ] at hω
  clear hrun hΘ htime hdt hr hst
  generalize M.overrideDt dt = N at *
  have hw : ∀ j q, N.wave dt j q = (R j).reading q := fun j q => congrFun (MTLN.wave_eq (hR j)) q
  have ht : ∀ j, (R j).dt = N.dt ∧ (R j).time = N.time + j * N.dt := by
    intro j
    obtain ⟨-, -, m1, m2⟩ := C02_time_step N (R j) _ dt (hR j)
    rw [hN.steps, hN.runDt] at m2
    rw [hN.runDt] at m1
    exact ⟨m1, m2⟩
  refine fun b hb => ⟨fun k hk a ha => ?_, fun k hk a ha => ?_⟩
  · have := hN.spectrum hl hr' heL hsrc hω hac (q := (true, b.2.name, k, a)) ⟨b, hb, rfl, ha, .inl ⟨rfl, hk⟩⟩
    simp only [ampAt, lateAt, if_true, mul_one] at this
    refine this.congr fun J => Finset.sum_congr rfl fun j _ => ?_
    rw [(ht j).1, (ht j).2, hw]
    rfl
  · have := hN.spectrum hl hr' heL hsrc hω hac (q := (false, b.2.name, k, a)) ⟨b, hb, rfl, ha, .inr ⟨rfl, hk⟩⟩
    simp only [ampAt, lateAt, Bool.false_eq_true, if_false, mul_one_div] at this
    refine this.congr fun J => Finset.sum_congr rfl fun j _ => ?_
    rw [(ht j).1, (ht j).2, hw]
    rfl

/-- **C184, solutions.** The circuit for alternating current with these amplitudes has a solution, and it is unique on the bundles. -/
theorem C184_solution (M : MTLN p) (dt ω : ℝ) (K : ℕ) (hdt : 0 < M.runDt dt) (hp : (M.overrideDt dt).Passive)
    (hl : (M.overrideDt dt).Linked) (hm : (M.overrideDt dt).Matched)
    (hs : ∀ b ∈ (M.overrideDt dt).bundles, b.2.Stable) (hd : (M.overrideDt dt).Dissipates) (hst : M.Startable dt)
    (hsrc : (M.overrideDt dt).Sources (PulseFor M.time (M.runDt dt) K)) (hω : Real.sin (ω * M.runDt dt) ≠ 0) :
    ∃ V I, (M.overrideDt dt).AC (ω * M.runDt dt) (pulseSpectrum ω M.time (M.runDt dt) K) V I ∧
      ∀ W J, (M.overrideDt dt).AC (ω * M.runDt dt) (pulseSpectrum ω M.time (M.runDt dt) K) W J → ∀ b ∈ (M.overrideDt dt).bundles,
        (∀ k ≤ b.2.m, ∀ a < b.1, W b.2.name k a = V b.2.name k a) ∧ ∀ k < b.2.m, ∀ a < b.1, J b.2.name k a = I b.2.name k a := by
  have hN : (M.overrideDt dt).Damped dt := ⟨M.override_twice dt, hst.override, hdt, hp, hm, hs, hd⟩
  have hΘ : M.runDt dt = (M.overrideDt dt).dt := rfl
  rw [hΘ] at hω hdt hsrc ⊢
  generalize M.time = t₀ at *
  clear hΘ hst
  generalize M.overrideDt dt = N at *
  obtain ⟨φ, hφ⟩ : ∃ φ : (ℝ → ℝ) → ℝ → ℝ, φ = fun f t => (swell ω t₀ N.dt f t).re := ⟨_, rfl⟩
  have dφ := (N.redriven φ).remade.damped hN
  have lφ := N.redrive_linked φ hl
  have hamp : N.Sources fun f => HasAmplitude ω (t₀ + K * N.dt) (φ f) (pulseSpectrum ω t₀ N.dt K f) :=
    hsrc.imp fun f hf => by rw [hφ]; exact swell_after hdt hf.2
  have hsrc' : ((N.redrive φ).overrideDt dt).Sources fun f => HasAmplitude ω (t₀ + K * N.dt) f (amplitudeOf ω (t₀ + K * N.dt) f) := by
    rw [dφ.over]
    refine (N.redriven φ).sources (D := fun f => HasAmplitude ω (t₀ + K * N.dt) (φ f) (pulseSpectrum ω t₀ N.dt K f)) ?_ hamp
    rintro f g rfl hf
    rw [amplitudeOf_eq hdt hω hf]
    exact hf
  have hiff := fun V I => MTLN.redrive_ac (V := V) (I := I) (θ := ω * N.dt) (hamp.imp fun f hf => amplitudeOf_eq hdt hω hf)
  have h1 := C182_circuit (N.redrive φ) dt (t₀ + K * N.dt) ω (amplitudeOf ω (t₀ + K * N.dt))
  have h2 := C182_unique (N.redrive φ) dt (t₀ + K * N.dt) ω (amplitudeOf ω (t₀ + K * N.dt))
  rw [dφ.over] at h1 h2 hsrc'
  rw [dφ.runDt] at h1 h2
  obtain ⟨V, I, h, -⟩ := h1 hdt dφ.passive lφ dφ.matched dφ.stable dφ.dissipates dφ.startable hsrc' hω
  refine ⟨V, I, (hiff V I).1 h, fun W J h' b hb => ?_⟩
  have hb' : _ ∈ (N.redrive φ).bundles := List.mem_map_of_mem hb
  have h3 := h2 hdt dφ.passive lφ dφ.matched dφ.stable dφ.dissipates dφ.startable hsrc' hω h ((hiff W J).2 h') _ hb'
  exact h3

/-- The functions that act from a time on for `K` steps. -/
def pulses (t₀ dt : ℝ) (K : ℕ) : Submodule ℝ (ℝ → ℝ) where
  carrier := {f | PulseFor t₀ dt K f}
  add_mem' := fun hf hg => ⟨fun t ht => by simp only [Pi.add_apply, hf.1 t ht, hg.1 t ht, add_zero],
    fun t ht => by simp only [Pi.add_apply, hf.2 t ht, hg.2 t ht, add_zero]⟩
  zero_mem' := ⟨fun _ _ => rfl, fun _ _ => rfl⟩
  smul_mem' := fun c f hf => ⟨fun t ht => by simp only [Pi.smul_apply, hf.1 t ht, smul_zero],
    fun t ht => by simp only [Pi.smul_apply, hf.2 t ht, smul_zero]⟩

/-- **C184, programs.** From the program alone: with resistors to ground, no fields on the bundles and sources that act for `K` steps,
there is a solution of the circuit for alternating current with the spectra of the sources, and the spectra of the voltages and
currents of the runs tend to it. -/
theorem C184_program {Pr : Program p} {M : MTLN p} (h : Pr.make = .ok M) (hw : Pr.WellFormed) (hg : Pr.Grounded) {dt ω : ℝ} {K : ℕ}
    (h0 : 0 < dt) (hlt : ∀ B ∈ Pr.bundles, ∀ L ∈ B.lines, dt < L.2.dt) (hs : Pr.SourcesIn {f | PulseFor 0 dt K f})
    (hc : ∀ B ∈ Pr.bundles, ∀ c ∈ B.calls, match c with | .probe .. => True | _ => False) (hω : Real.sin (ω * dt) ≠ 0) :
    ∃ (R : ℕ → MTLN p) (V I : String → ℕ → ℕ → ℂ), (∀ j : ℕ, M.runUntil (j * dt) dt = .ok (R j)) ∧
      (M.overrideDt dt).AC (ω * dt) (pulseSpectrum ω 0 dt K) V I ∧ ∀ b ∈ (M.overrideDt dt).bundles,
        (∀ k ≤ b.2.m, ∀ a < b.1, Tendsto (fun J : ℕ => ∑ j ∈ Finset.range (J + 1),
          Complex.exp ((-(ω * ((R j).time - (R j).dt)) : ℝ) * Complex.I) * (nodeV (R j).bundles b.2.name k a : ℂ)) atTop
            (𝓝 (V b.2.name k a))) ∧
        ∀ k < b.2.m, ∀ a < b.1, Tendsto (fun J : ℕ => ∑ j ∈ Finset.range (J + 1),
          Complex.exp ((-(ω * ((R j).time - (R j).dt / 2)) : ℝ) * Complex.I) * (cellI (R j).bundles b.2.name k a : ℂ)) atTop
            (𝓝 (I b.2.name k a)) := by
  obtain ⟨hd, -, hl, hp, hm, -, hst⟩ := C159_program h hw h0
  obtain ⟨hr, ht⟩ := C159_rest h hw
  have hdt : 0 < M.runDt dt := by rw [hd]; exact h0
  obtain ⟨h1, h2⟩ := C159_sources (pulses 0 dt K) h hs dt
  have hsrc : (M.overrideDt dt).Sources (PulseFor M.time (M.runDt dt) K) := by
    rw [ht, hd]
    exact ⟨fun b hb => ⟨fun k x => (h1 b hb).1.1 k x, fun k x => (h1 b hb).2.1 k x⟩,
      fun nwd hn e he => ⟨fun x => (h2 nwd hn e he).1 x, fun x => (h2 nwd hn e he).2 x⟩⟩
  have heL : ∀ b ∈ (M.overrideDt dt).bundles, ∀ k x, b.2.eL k x = 0 := by
    intro b hb
    obtain ⟨b0, hb0, rfl⟩ := override_bundle h0.ne' hb
    have h' := h
    simp only [Program.make, bind_ok_iff] at h'
    obtain ⟨bs, g1, nws, g2, g3⟩ := h'
    obtain ⟨-, -, rfl, -, -⟩ := managerNew_ok_iff.1 g3
    obtain ⟨B, hB, hBb⟩ := forall₂_from (mapPy_ok_iff.1 g1) b0 hb0
    have := bundleMake_in ⊥ hBb (fun c hcB => by
      have := hc B hB c hcB
      cases c with
      | probe => trivial
      | field => exact this.elim
      | external => exact this.elim)
    exact fun k x => (Submodule.mem_bot ℝ).1 (this.1.1 k x)
  have hω' : Real.sin (ω * M.runDt dt) ≠ 0 := by rw [hd]; exact hω
  have hstart := C159_startable h hw h0
  have hdis := C159_dissipates h hw hg h0
  obtain ⟨V, I, hac, -⟩ := C184_solution M dt ω K hdt hp hl hm (hst hlt) hdis hstart hsrc hω'
  have hrun : ∀ j : ℕ, ∃ R, M.runUntil (j * M.runDt dt) dt = .ok R := fun j => hstart.run _
  choose R hR using hrun
  have := C184_spectrum M dt ω K hdt hp hl hm (hst hlt) hdis hstart hr heL hsrc hω' hac hR
  rw [hd] at hR
  rw [hd, ht] at hac
  exact ⟨R, V, I, hR, hac, this⟩

/-- The demo line with a resistor and a source that is 1 V for three steps at its left end, short at the right end. -/
noncomputable def demoStruck (dt : ℝ) : MTLN 0 :=
  ((demoDirect 0).overrideDt dt).redrive fun f t => f 0 * if 0 ≤ t ∧ t ≤ 3 * dt then 1 else 0

/-- Non-vacuity of C184. -/
theorem demoStruck_spectrum {dt ω : ℝ} (h0 : 0 < dt) (h1 : dt < 1) (hω : Real.sin (ω * dt) ≠ 0) :
    ∃ (R : ℕ → MTLN 0) (V I : String → ℕ → ℕ → ℂ), (∀ j : ℕ, (demoStruck dt).runUntil (j * dt) dt = .ok (R j)) ∧
      (demoStruck dt).AC (ω * dt) (pulseSpectrum ω 0 dt 3) V I ∧
      Tendsto (fun J : ℕ => ∑ j ∈ Finset.range (J + 1),
        Complex.exp ((-(ω * ((R j).time - (R j).dt)) : ℝ) * Complex.I) * (nodeV (R j).bundles "demo" 1 0 : ℂ)) atTop
          (𝓝 (V "demo" 1 0)) := by
  obtain ⟨hD0, hl0, hrd0, -⟩ := demoDriven_hyps h0 h1 0
  have hred : (demoDriven dt 0).Redriven (fun _ _ => True) (demoStruck dt) := by
    unfold demoStruck demoDriven
    refine ⟨rfl, rfl, ?_, ?_⟩
    · rw [demoDirect_override h0]
      exact .cons ⟨_, _, _, _, _, fun _ _ => trivial, fun _ _ => trivial, rfl⟩ .nil
    · rw [demoDirect_override h0]
      exact .cons (.cons ⟨_, _, _, _, _, _, fun _ => trivial, fun _ => trivial, rfl⟩ .nil) .nil
  have hD := hred.remade.damped hD0
  have hpo := demoDirect_poised h0 0
  have hl1 : ((demoDirect 0).overrideDt dt).Linked := by
    refine ⟨hpo.v, hpo.i, fun x _ => ?_⟩
    rw [demoDirect_override h0]
    unfold endV
    split
    · rename_i b hf
      obtain ⟨hb, -⟩ := findBundle_some hf
      obtain rfl := List.mem_singleton.1 hb
      split <;> rfl
    · rfl
  have hl : (demoStruck dt).Linked := MTLN.redrive_linked _ _ hl1
  have hr1 : ((demoDirect 0).overrideDt dt).AtRest := by
    rw [demoDirect_override h0]
    refine ⟨fun b hb => ?_, fun nwd hn e he => ?_⟩
    · obtain rfl := List.mem_singleton.1 hb
      exact ⟨fun _ _ => rfl, fun _ _ => rfl, fun _ _ σ => σ.elim0⟩
    · obtain rfl := List.mem_singleton.1 hn
      obtain rfl := List.mem_singleton.1 he
      exact ⟨fun _ => rfl, fun _ => rfl, fun _ => rfl, fun x => x.elim0⟩
  have hr : (demoStruck dt).AtRest := hr1.redrive _
  have hs1 : ((demoDirect 0).overrideDt dt).Sources fun _ => True :=
    ⟨fun _ _ => ⟨fun _ _ => trivial, fun _ _ => trivial⟩, fun _ _ _ _ => ⟨fun _ => trivial, fun _ => trivial⟩⟩
  have hs : (demoStruck dt).Sources (PulseFor 0 dt 3) := by
    refine (MTLN.redriven _ _).sources (D := fun _ => True) (fun f g hg _ => ?_) hs1
    subst hg
    refine ⟨fun t ht => ?_, fun t ht => ?_⟩
    · dsimp only; rw [if_neg (by rintro ⟨h, -⟩; linarith), mul_zero]
    · dsimp only; rw [if_neg (by rintro ⟨-, h⟩; push_cast at ht; linarith), mul_zero]
  have heL : ∀ b ∈ (demoStruck dt).bundles, ∀ k x, b.2.eL k x = 0 := by
    unfold demoStruck
    rw [demoDirect_override h0]
    intro b hb k x
    obtain rfl := List.mem_singleton.1 hb
    funext t
    exact zero_mul _
  have hmem : ∃ b ∈ (demoStruck dt).bundles, b.2.name = "demo" ∧ b.2.m = 2 ∧ b.1 = 1 := by
    unfold demoStruck
    rw [demoDirect_override h0]
    exact ⟨_, List.mem_singleton.2 rfl, rfl, rfl, rfl⟩
  have hrd : (demoStruck dt).runDt dt = dt := hD.runDt.trans (hred.dt.trans (hD0.runDt.symm.trans hrd0))
  have ht : (demoStruck dt).time = 0 := by
    unfold demoStruck
    rw [demoDirect_override h0]
    rfl
  generalize demoStruck dt = M at *
  have h2 := C184_solution M dt ω 3 (by rw [hrd]; exact h0)
  have h3 := C184_spectrum M dt ω 3 (by rw [hrd]; exact h0)
  rw [hD.over, hrd, ht] at h2 h3
  obtain ⟨V, I, hac, -⟩ := h2 hD.passive hl hD.matched hD.stable hD.dissipates hD.startable hs hω
  have hrun : ∀ j : ℕ, ∃ R, M.runUntil (j * dt) dt = .ok R := fun j => hD.startable.run _
  choose R hR using hrun
  obtain ⟨b, hb, b1, b2, b3⟩ := hmem
  have := (h3 hD.passive hl hD.matched hD.stable hD.dissipates hD.startable hr heL hs hω hac hR b hb).1 1 (by omega) 0 (by omega)
  rw [b1] at this
  exact ⟨R, V, I, hR, hac, this⟩

end Mtln
