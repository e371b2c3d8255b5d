import Verif.Lemmas.ManagerDriven
import Verif.Props.ManagerSinus

/-! # The circuit of a manager for alternating current: C182 -/

namespace Mtln

open Matrix Filter

variable {n p N S : ℕ}

theorem find_redriven {ρ : (ℝ → ℝ) → (ℝ → ℝ) → Prop} {bs bs' : List (AnyBundle p)} (h : List.Forall₂ (RedrivenBundle ρ) bs bs') (name : String) :
    (findBundle bs name = none ∧ findBundle bs' name = none) ∨ ∃ b b', findBundle bs name = some b ∧
      findBundle bs' name = some b' ∧ RedrivenBundle ρ b b' := by
  induction h with
  | nil => exact .inl ⟨rfl, rfl⟩
  | @cons b b' l l' hr _ ih =>
    have hn : b'.2.name = b.2.name := by obtain ⟨_, _, _, _, _, _, _, rfl⟩ := hr; rfl
    unfold findBundle at ih ⊢
    by_cases e : b.2.name = name
    · right
      refine ⟨b, b', ?_, ?_, hr⟩
      · simp [e]
      · simp [hn, e]
    · rw [List.find?_cons_of_neg (by simpa using e), List.find?_cons_of_neg (by simpa [hn] using e)]
      exact ih

theorem acEnd_redriven {ρ : (ℝ → ℝ) → (ℝ → ℝ) → Prop} {bs bs' : List (AnyBundle p)} (h : List.Forall₂ (RedrivenBundle ρ) bs bs')
    (V : String → ℕ → ℕ → ℂ) (x : End) : acEndV bs' V x = acEndV bs V x ∧ acEndI bs' V x = acEndI bs V x := by
  unfold acEndV acEndI
  rcases find_redriven h x.bundle with ⟨e, e'⟩ | ⟨b, b', e, e', v, i, phi, eL, eT, -, -, rfl⟩
  · rw [e, e']; exact ⟨rfl, rfl⟩
  · rw [e, e']; exact ⟨rfl, rfl⟩

theorem HasAmplitude.tone {ω t₀ : ℝ} {f : ℝ → ℝ} {z : ℂ} (h : HasAmplitude ω t₀ f z) : Tone ω t₀ f :=
  ⟨z.re, -z.im, fun t ht => by
    rw [h t ht, Complex.mul_re, Complex.exp_ofReal_mul_I_re, Complex.exp_ofReal_mul_I_im]; ring⟩

/-- Every sinusoid has an amplitude. -/
theorem Tone.amplitude {ω t₀ : ℝ} {f : ℝ → ℝ} (h : Tone ω t₀ f) : ∃ z, HasAmplitude ω t₀ f z := by
  obtain ⟨a, b, h⟩ := h
  refine ⟨⟨a, -b⟩, fun t ht => ?_⟩
  rw [h t ht, Complex.mul_re, Complex.exp_ofReal_mul_I_re, Complex.exp_ofReal_mul_I_im]
  ring

/-- The complex amplitude of a sinusoid in the time since `t₀`, with the phase `φ` in `t₀`. -/
noncomputable def amplitude (x y φ : ℝ) : ℂ := ⟨x, -y⟩ * Complex.exp ((-φ : ℝ) * Complex.I)

theorem amplitude_re (x y φ α : ℝ) :
    (amplitude x y φ * Complex.exp (((φ + α : ℝ) : ℂ) * Complex.I)).re = x * Real.cos α + y * Real.sin α := by
  have : amplitude x y φ * Complex.exp (((φ + α : ℝ) : ℂ) * Complex.I) = ⟨x, -y⟩ * Complex.exp (α * Complex.I) := by
    unfold amplitude
    rw [mul_assoc, ← Complex.exp_add]
    congr 2
    push_cast; ring
  rw [this, Complex.mul_re, Complex.exp_ofReal_mul_I_re, Complex.exp_ofReal_mul_I_im]
  ring

/-- Runs approach the sinusoids with the complex amplitudes `V` and `I`: the voltages belong to the time before the last step, the
currents to the middle of the last step. -/
def MTLN.Settles (M : MTLN p) (dt ω : ℝ) (V I : String → ℕ → ℕ → ℂ) : Prop := ∀ ε > 0, ∃ T₀, ∀ T ≥ T₀, ∀ M', M.runUntil T dt = .ok M' →
  ∀ b ∈ M'.bundles,
    (∀ k ≤ b.2.m, ∀ a : Fin b.1, |b.2.v k a - (V b.2.name k a * Complex.exp (((ω * (M'.time - M'.dt) : ℝ) : ℂ) * Complex.I)).re| ≤ ε) ∧
    ∀ k < b.2.m, ∀ a : Fin b.1, |b.2.i k a - (I b.2.name k a * Complex.exp (((ω * (M'.time - M'.dt / 2) : ℝ) : ℂ) * Complex.I)).re| ≤ ε

/-- The trace of a manager whose runs are sinusoids. -/
theorem sinus_tones {C : MTLN p} {tr : ℕ → MTLN p} {dt ω : ℝ} {V V' I I' : String → ℕ → ℕ → ℝ} (ho : C.overrideDt dt = C) (h : Endless C tr)
    (htw : ∀ j, ∃ T M', C.runUntil T dt = .ok M' ∧ (tr j).Twin M') (hs : ∀ T, C.Sinus dt ω 0 T V V' I I') :
    Endless.Tones C tr ω (fun s k a => amplitude (V s k a) (V' s k a) (ω * C.time - ω * C.dt))
      (fun s k a => amplitude (I s k a) (I' s k a) (ω * C.time - ω * C.dt / 2)) := by
  have key : ∀ j, ∀ b ∈ C.bundles, ∃ α : ℝ, α = ω * ((tr j).time - C.time) ∧
      (∀ k ≤ b.2.m, ∀ a : Fin b.1, nodeV (tr j).bundles b.2.name k a = V b.2.name k a * Real.cos α + V' b.2.name k a * Real.sin α) ∧
      ∀ k < b.2.m, ∀ a : Fin b.1, cellI (tr j).bundles b.2.name k a = I b.2.name k a * Real.cos α + I' b.2.name k a * Real.sin α := by
    intro j b hb
    obtain ⟨T, M', hM', htwin⟩ := htw j
    obtain ⟨c, hc, ⟨v, i, phi, probes, lr, cg, hf⟩, hn⟩ := h.at hb j
    obtain ⟨c', hc', q, hq, rfl⟩ := forall₂_mem_left htwin.bundles _ hc
    have htime := (C02_time_step C M' T dt hM').2.2.2
    rw [htwin.time] at htime
    have hx := hs T M' hM' _ hc' _ rfl
    have hm : c.m = b.2.m := by simp only [Sigma.mk.injEq, heq_eq_eq, true_and] at hf; rw [hf]
    refine ⟨_, rfl, fun k hk a => ?_, fun k hk a => ?_⟩
    · have h3 := hx.1 k (by show k ≤ c.m; rw [hm]; exact hk) a
      have h4 := sub_eq_zero.1 (abs_nonpos_iff.1 h3)
      rw [← congrFun (h.col hc hn k).1 a, htime, add_sub_cancel_left, ← hn]
      exact h4
    · have h3 := hx.2 k (by show k < c.m; rw [hm]; exact hk) a
      have h4 := sub_eq_zero.1 (abs_nonpos_iff.1 h3)
      rw [← congrFun (h.col hc hn k).2 a, htime, add_sub_cancel_left, ← hn]
      exact h4
  refine ⟨fun j b hb k hk a => ?_, fun j b hb k hk a => ?_⟩
  · obtain ⟨α, hα, h1, -⟩ := key j b hb
    rw [h1 k hk a, show ω * (tr j).time - ω * C.dt = (ω * C.time - ω * C.dt) + α by rw [hα]; ring, amplitude_re]
  · obtain ⟨α, hα, -, h1⟩ := key j b hb
    rw [h1 k hk a, show ω * (tr j).time - ω * C.dt / 2 = (ω * C.time - ω * C.dt / 2) + α by rw [hα]; ring, amplitude_re]

/-- **C182.** A manager of passive bundles and networks of resistors and capacitors, with time steps below the automatic ones,
where the resistors reach every bundle, and with sources and fields that are sinusoids of the same angular frequency with the
complex amplitudes `amp` from some time on; the time step is no multiple of half a period.  Then the circuit of the manager for
alternating current has a solution, and the runs settle on the sinusoids with its amplitudes. -/
theorem C182_circuit (M : MTLN p) (dt t₀ ω : ℝ) (amp : (ℝ → ℝ) → ℂ) (hdt : 0 < M.runDt dt) (hp : (M.overrideDt dt).Passive)
    (hl : (M.overrideDt dt).Linked) (hm : (M.overrideDt dt).Matched)
    (hs : ∀ b ∈ (M.overrideDt dt).bundles, b.2.Stable) (hd : (M.overrideDt dt).Dissipates) (hst : M.Startable dt)
    (hsrc : (M.overrideDt dt).Sources fun f => HasAmplitude ω t₀ f (amp f)) (hω : Real.sin (ω * M.runDt dt) ≠ 0) :
    ∃ V I, (M.overrideDt dt).AC (ω * M.runDt dt) amp V I ∧ M.Settles dt ω V I := by
  obtain ⟨C, V, V', I, I', c1, c2, c3, c4, c5⟩ := C175_steady M dt t₀ ω hdt hp hl hm hs hd hst
    ⟨fun b hb => ⟨fun k x => ((hsrc.bundles b hb).1 k x).tone, fun k x => ((hsrc.bundles b hb).2 k x).tone⟩,
      fun nwd hn e he => ⟨fun x => ((hsrc.networks nwd hn e he).1 x).tone, fun x => ((hsrc.networks nwd hn e he).2 x).tone⟩⟩
  have ho : C.overrideDt dt = C := c1.remade.over (M.override_twice dt)
  have hrd : C.runDt dt = M.runDt dt := by
    show (C.overrideDt dt).dt = (M.overrideDt dt).dt
    rw [ho, c1.dt]
  have hCdt : C.dt = M.runDt dt := c1.dt
  have hpos : 0 < C.dt := by rw [hCdt]; exact hdt
  have hpC : C.Passive := c1.remade.passive hp
  obtain ⟨tr, htr, -, htw⟩ := c3.endless (by rw [hrd]; exact hdt) (by rw [ho]; exact hpC) (by rw [ho]; exact c2)
  rw [ho] at htr
  have hT := sinus_tones ho htr htw c4
  have hM : ∀ b ∈ C.bundles, 0 < b.2.m := fun b hb => (hpC.bundles b hb).1.cells
  have hlump : C.Lumped := fun b hb k hk =>
    ⟨(hpC.bundles b hb).1.q1 k hk, (hpC.bundles b hb).1.q2 k hk, (hpC.bundles b hb).1.q3 k hk⟩
  have hω' : Real.sin (ω * C.dt) ≠ 0 := by rw [hCdt]; exact hω
  have htime : C.time = M.time := by
    rw [c1.time]
    unfold MTLN.overrideDt
    split <;> rfl
  obtain ⟨A, hA⟩ : ∃ A : String → ℕ → ℕ → ℂ, A = fun s k a => amplitude (V s k a) (V' s k a) (ω * C.time - ω * C.dt) := ⟨_, rfl⟩
  obtain ⟨B, hB⟩ : ∃ B : String → ℕ → ℕ → ℂ, B = fun s k a => amplitude (I s k a) (I' s k a) (ω * C.time - ω * C.dt / 2) := ⟨_, rfl⟩
  rw [← hA, ← hB] at hT
  have hamp : ∀ {f g : ℝ → ℝ} {z : ℂ}, HasAmplitude ω t₀ f z → (∀ t ≥ t₀, g t = f t) → HasAmplitude ω t₀ g z :=
    fun hf hg t ht => (hg t ht).trans (hf t ht)
  refine ⟨A, B, ⟨fun b hb => ?_, fun nwd hn e he => ?_, fun x hx => ?_⟩, fun ε hε => ?_⟩
  · obtain ⟨b', hb', v, i, phi, eL, eT, r1, r2, rfl⟩ := forall₂_mem_left c1.bundles b hb
    have := htr.bundle_ac hT hlump hpos hω' hb' (F := fun k a => amp (b.2.eT k a)) (H := fun k a => amp (b.2.eL k a))
      (fun k a => hamp ((hsrc.bundles b hb).2 k a) (r2 k a)) (fun k a => hamp ((hsrc.bundles b hb).1 k a) (r1 k a))
    rw [hCdt] at this
    exact ⟨this.cell, this.node⟩
  · obtain ⟨nwd', hn', hr⟩ := forall₂_mem_left c1.networks nwd hn
    obtain ⟨e', he', v, vP, i, X, vS, eT, r1, r2, rfl⟩ := forall₂_mem_left hr e he
    have := htr.network_ac hM hT hpos hω' hn' he' (hp.networks nwd hn e he).O (E := fun a => amp (e.2.2.2.vSources a))
      (F := fun a => amp (e.2.2.2.nodes a).eT) (fun a => hamp ((hsrc.networks nwd hn e he).1 a) (r1 a))
      (fun a => hamp ((hsrc.networks nwd hn e he).2 a) (r2 a))
    rw [hCdt] at this
    simp only [fun x => (acEnd_redriven c1.bundles A x).1, fun x => (acEnd_redriven c1.bundles B x).2] at this
    exact this
  · have := htr.free_ac hM hT hω' x (by rw [c1.remade.ends]; exact hx)
    rwa [(acEnd_redriven c1.bundles A x).1] at this
  · obtain ⟨T₀, hT₀⟩ := c5 ε hε
    refine ⟨T₀, fun T hTT M' hM' b hb => ?_⟩
    obtain ⟨C', hC'⟩ := c3.run T
    obtain ⟨b', hb', hbb⟩ := forall₂_mem_left (hT₀ T hTT M' C' hM' hC') b hb
    obtain ⟨-, -, d1, d2⟩ := C02_time_step M M' T dt hM'
    obtain ⟨t, ht⟩ : ∃ t : ℝ, t = ⌊T / M.runDt dt⌋.toNat * M.runDt dt := ⟨_, rfl⟩
    rw [← ht] at d2
    have hx := c4 T C' hC' b' hb' t (by rw [hrd]; exact ht)
    obtain ⟨c, rfl, e1, e2, h1, h2⟩ := hbb
    refine ⟨fun k hk a => ?_, fun k hk a => ?_⟩
    · have h3 := hx.1 k (hk.trans_eq e1.symm) a
      rw [hA, d1, d2, ← hCdt, show ω * (M.time + t - C.dt) = (ω * C.time - ω * C.dt) + ω * t by rw [htime]; ring, amplitude_re, ← e2,
        ← sub_eq_zero.1 (abs_nonpos_iff.1 h3)]
      exact h1 k hk a
    · have h3 := hx.2 k (hk.trans_eq e1.symm) a
      rw [hB, d1, d2, ← hCdt, show ω * (M.time + t - C.dt / 2) = (ω * C.time - ω * C.dt / 2) + ω * t by rw [htime]; ring, amplitude_re, ← e2,
        ← sub_eq_zero.1 (abs_nonpos_iff.1 h3)]
      exact h2 k hk a

/-- A manager with sinusoidal sources in the state of given amplitudes. -/
noncomputable def MTLN.toned (M : MTLN p) (ω : ℝ) (amp : (ℝ → ℝ) → ℂ) (V I : String → ℕ → ℕ → ℂ) : MTLN p :=
  { M with
    bundles := M.bundles.map fun b => ⟨b.1, { b.2 with
      v := fun k => phasor (ω * M.time - ω * M.dt) fun a => V b.2.name k a
      i := fun k => phasor (ω * M.time - ω * M.dt / 2) fun a => I b.2.name k a
      eL := fun k a t => phasor (ω * t) (fun a => amp (b.2.eL k a)) a
      eT := fun k a t => phasor (ω * t) (fun a => amp (b.2.eT k a)) a }⟩
    networks := M.networks.map fun nwd => nwd.map fun e => (e.1, ⟨e.2.1, e.2.2.1, { e.2.2.2 with
      v := phasor (ω * M.time - ω * M.dt) fun a => acEndV M.bundles V (e.2.2.2.nodes a).end'
      vPrev := phasor (ω * M.time - 2 * (ω * M.dt)) fun a => acEndV M.bundles V (e.2.2.2.nodes a).end'
      i := phasor (ω * M.time - ω * M.dt / 2) fun a => acEndI M.bundles I (e.2.2.2.nodes a).end'
      vSources := fun a t => phasor (ω * t) (fun a => amp (e.2.2.2.vSources a)) a
      nodes := fun a => { e.2.2.2.nodes a with eT := fun t => phasor (ω * t) (fun a => amp (e.2.2.2.nodes a).eT) a } }⟩) }

section

variable (M : MTLN p) (ω : ℝ) (amp : (ℝ → ℝ) → ℂ) (V I : String → ℕ → ℕ → ℂ)

theorem MTLN.toned_redriven : M.Redriven (fun f g => ∀ t, g t = (amp f * Complex.exp (((ω * t : ℝ) : ℂ) * Complex.I)).re)
    (M.toned ω amp V I) :=
  ⟨rfl, rfl, forall₂_map_of (fun _ => ⟨_, _, _, _, _, fun _ _ _ => rfl, fun _ _ _ => rfl, rfl⟩) _,
    forall₂_map_of (fun _ => forall₂_map_of (fun _ => ⟨_, _, _, _, _, _, fun _ _ => rfl, fun _ _ => rfl, rfl⟩) _) _⟩

theorem MTLN.toned_driven (h : M.AC (ω * M.dt) amp V I) : (M.toned ω amp V I).Driven ω V I := by
  have hr := M.toned_redriven ω amp V I
  refine ⟨fun b hb => ?_, fun nwd hn e he => ?_, fun x hx => ?_⟩
  · obtain ⟨b0, hb0, rfl⟩ := List.mem_map.1 hb
    have := h.bundles b0 hb0
    exact ⟨fun k a => amp (b0.2.eT k a), fun k a => amp (b0.2.eL k a), fun k t => rfl, fun k t => rfl, ⟨this.cell, this.node⟩⟩
  · obtain ⟨nwd0, hn0, rfl⟩ := List.mem_map.1 hn
    obtain ⟨e0, he0, rfl⟩ := List.mem_map.1 he
    have := h.networks nwd0 hn0 e0 he0
    refine ⟨fun a => amp (e0.2.2.2.vSources a), fun a => amp (e0.2.2.2.nodes a).eT, fun t => rfl, fun t => rfl, ?_⟩
    simp only [fun x => (acEnd_redriven hr.bundles V x).1, fun x => (acEnd_redriven hr.bundles I x).2]
    exact this
  · rw [(acEnd_redriven hr.bundles V x).1]
    exact h.free x (by rw [← hr.remade.ends]; exact hx)

/-- The ends of the bundles in the state of the amplitudes. -/
theorem MTLN.toned_ends (hn : (M.bundles.map fun b => b.2.name).Nodup) (x : End) :
    endV (M.toned ω amp V I).bundles x = (acEndV M.bundles V x * Complex.exp (((ω * M.time - ω * M.dt : ℝ) : ℂ) * Complex.I)).re ∧
    endI (M.toned ω amp V I).bundles x = (acEndI M.bundles I x * Complex.exp (((ω * M.time - ω * M.dt / 2 : ℝ) : ℂ) * Complex.I)).re := by
  have hfind : findBundle (M.toned ω amp V I).bundles x.bundle = (findBundle M.bundles x.bundle).map fun b => ⟨b.1, { b.2 with
      v := fun k => phasor (ω * M.time - ω * M.dt) fun a => V b.2.name k a
      i := fun k => phasor (ω * M.time - ω * M.dt / 2) fun a => I b.2.name k a
      eL := fun k a t => phasor (ω * t) (fun a => amp (b.2.eL k a)) a
      eT := fun k a t => phasor (ω * t) (fun a => amp (b.2.eT k a)) a }⟩ := by
    unfold findBundle MTLN.toned
    rw [List.find?_map]
    rfl
  unfold endV endI acEndV acEndI
  rw [hfind]
  cases hf : findBundle M.bundles x.bundle with
  | none => simp
  | some b =>
    obtain ⟨hb, hname⟩ := findBundle_some hf
    by_cases hrow : x.row < b.1
    · simp only [Option.map_some, hrow, dif_pos, if_true, hname]
      refine ⟨rfl, ?_⟩
      rw [mul_assoc, Complex.re_ofReal_mul]
      rfl
    · simp [hrow]

theorem MTLN.toned_linked (h : M.AC (ω * M.dt) amp V I) (hn : (M.bundles.map fun b => b.2.name).Nodup) : (M.toned ω amp V I).Linked := by
  refine ⟨fun nwd hnw e he a => ?_, fun nwd hnw e he a => ?_, fun x hx => ?_⟩
  · obtain ⟨nwd0, hn0, rfl⟩ := List.mem_map.1 hnw
    obtain ⟨e0, he0, rfl⟩ := List.mem_map.1 he
    rw [(M.toned_ends ω amp V I hn _).1]
    rfl
  · obtain ⟨nwd0, hn0, rfl⟩ := List.mem_map.1 hnw
    obtain ⟨e0, he0, rfl⟩ := List.mem_map.1 he
    rw [(M.toned_ends ω amp V I hn _).2]
    rfl
  · rw [(M.toned_ends ω amp V I hn x).1, h.free x (by rw [← (M.toned_redriven ω amp V I).remade.ends]; exact hx), zero_mul, Complex.zero_re]

/-- The start of a run is in phase. -/
theorem MTLN.toned_start {dt T : ℝ} {k : ℕ} {B : MTLN p} (hn : (M.bundles.map fun b => b.2.name).Nodup)
    (ho : (M.toned ω amp V I).overrideDt dt = M.toned ω amp V I) (hs : (M.toned ω amp V I).start T dt = .ok (k, B)) :
    (M.toned ω amp V I).InPhase ω V I B := by
  have hr := M.toned_redriven ω amp V I
  have hnames : ((M.toned ω amp V I).bundles.map fun b => b.2.name).Nodup := by rw [hr.remade.names]; exact hn
  obtain ⟨h1, h2, h3, h4⟩ := MTLN.start_rel hs
  rw [ho] at h1 h2 h3 h4
  have hBn : (B.bundles.map fun b => b.2.name).Nodup := by
    rw [show B.bundles.map (fun b => b.2.name) = (M.toned ω amp V I).bundles.map fun b => b.2.name from ?_]
    · exact hnames
    · have := h1
      generalize (M.toned ω amp V I).bundles = L, B.bundles = L' at this
      induction this with
      | nil => rfl
      | @cons b b' l l' hb _ ih =>
        obtain ⟨lr, cg, pr, -, -, rfl⟩ := hb
        simp only [List.map_cons, ih]
  have htime : B.time = M.time := h3
  refine ⟨fun b hb k hk => ?_, fun b hb k hk => ?_, fun nwd hnw e he => ?_⟩
  · obtain ⟨b', hb', lr, cg, pr, -, -, rfl⟩ := forall₂_mem_left h1 b hb
    obtain ⟨b0, hb0, rfl⟩ := List.mem_map.1 hb
    rw [htime]
    exact funext fun a => nodeV_eq hBn hb' k a
  · obtain ⟨b', hb', lr, cg, pr, -, -, rfl⟩ := forall₂_mem_left h1 b hb
    obtain ⟨b0, hb0, rfl⟩ := List.mem_map.1 hb
    rw [htime]
    exact funext fun a => cellI_eq hBn hb' k a
  · obtain ⟨nwd', hn', hl⟩ := forall₂_right_mem h2 nwd hnw
    obtain ⟨e', he', nw', hc, rfl⟩ := forall₂_right_mem hl e he
    obtain ⟨nwd0, hn0, rfl⟩ := List.mem_map.1 hn'
    obtain ⟨e0, he0, rfl⟩ := List.mem_map.1 he'
    unfold Network.computeVTerms at hc
    simp only [bind_ok_iff, raiseIf_ok_iff, Except.ok.injEq] at hc
    obtain ⟨_, -, _, -, rfl⟩ := hc
    rw [htime]
    simp only [fun x => (acEnd_redriven hr.bundles V x).1]
    rfl

end

/-- **C182, every solution.** The runs settle on every solution of the circuit for alternating current, for every time step below the
automatic ones. -/
theorem C182_settles (M : MTLN p) (dt t₀ ω : ℝ) (amp : (ℝ → ℝ) → ℂ) (hdt : 0 < M.runDt dt) (hp : (M.overrideDt dt).Passive)
    (hl : (M.overrideDt dt).Linked) (hm : (M.overrideDt dt).Matched)
    (hs : ∀ b ∈ (M.overrideDt dt).bundles, b.2.Stable) (hd : (M.overrideDt dt).Dissipates) (hst : M.Startable dt)
    (hsrc : (M.overrideDt dt).Sources fun f => HasAmplitude ω t₀ f (amp f)) {V I : String → ℕ → ℕ → ℂ}
    (hac : (M.overrideDt dt).AC (ω * M.runDt dt) amp V I) : M.Settles dt ω V I := by
  have hN : (M.overrideDt dt).Damped dt := ⟨M.override_twice dt, hst.override, hdt, hp, hm, hs, hd⟩
  have hrun : ∀ T, M.runUntil T dt = (M.overrideDt dt).runUntil T dt := fun T => (M.run_override T dt).symm
  have hΘ : M.runDt dt = (M.overrideDt dt).dt := rfl
  unfold MTLN.Settles
  simp only [hrun]
  rw [hΘ] at hdt hac
  generalize M.overrideDt dt = N at *
  have hr := N.toned_redriven ω amp V I
  have hA : N.Redriven (fun f g => ∀ t ≥ t₀, g t = f t) (N.toned ω amp V I) :=
    hr.imp_sources (fun f g hf hg t ht => by rw [hg, hf t ht]) hsrc
  have al := N.toned_linked ω amp V I hac hp.names
  have hD := N.toned_driven ω amp V I hac
  have hstart := fun T k B => N.toned_start ω amp V I (dt := dt) (T := T) (k := k) (B := B) hp.names (hr.remade.over hN.over)
  have dA := hA.remade.damped hN
  generalize N.toned ω amp V I = A at *
  obtain ⟨B, b1, b2⟩ := (MTLN.Redriven.refl N).superposed (a := 1) (b := -1) (ρ₃ := fun _ g => ∀ t ≥ t₀, g t = 0) (fun f g h hg hh t ht => by
    show 1 * g t + -1 * h t = 0
    rw [hg, hh t ht]; ring) hA
  have hnear := near_runs hN.over hN.startable hN.pos hN.passive hN.matched hN.stable hN.dissipates b2.remade
    (b1.linked (MTLN.Redriven.refl N).remade hA.remade b2.remade hl al) b2.silent b1
  intro ε hε
  obtain ⟨T₀, hT₀⟩ := hnear ε hε
  refine ⟨T₀, fun T hTT M' hM' b hb => ?_⟩
  obtain ⟨A', hA'⟩ := dA.startable.run T
  have hAo := dA.over
  obtain ⟨tr, htr, ⟨k0, h0⟩, -⟩ := dA.startable.endless (by rw [dA.runDt]; exact dA.pos) (by rw [hAo]; exact dA.passive) (by rw [hAo]; exact al)
  rw [hAo] at htr
  obtain ⟨M0, g1, g2⟩ := runUntil_iter.1 hA'
  obtain ⟨M0', g3, g4⟩ := MTLN.start_twin h0 T
  obtain ⟨-, rfl⟩ := Prod.mk.inj (Except.ok.inj (g1.symm.trans g3))
  have hit : ∀ j i, iterPy MTLN.step j (tr i) = .ok (tr (i + j)) := by
    intro j
    induction j with
    | zero => intro i; rfl
    | succ j ih =>
      intro i
      simp only [iterPy, bind_ok_iff]
      exact ⟨tr (i + 1), htr.step i, by rw [ih, show i + 1 + j = i + (j + 1) by omega]⟩
  obtain ⟨A'', e1, e2⟩ := g4.iter (hit ⌊T / A.runDt dt⌋.toNat 0)
  obtain rfl := Except.ok.inj (g2.symm.trans e1)
  rw [Nat.zero_add] at e2
  have hph := htr.in_phase dA.passive hD (hstart _ _ _ h0) ⌊T / A.runDt dt⌋.toNat
  obtain ⟨-, -, m1, m2⟩ := C02_time_step N M' T dt hM'
  have hrN : N.runDt dt = N.dt := by unfold MTLN.runDt; rw [hN.over]
  have hrA : A.runDt dt = N.dt := by rw [dA.runDt, hr.dt]
  have htime : (tr ⌊T / A.runDt dt⌋.toNat).time = M'.time := by
    rw [htr.time, hrA, m2, hrN, hr.time, hr.dt]
  obtain ⟨b', hb', c, rfl, n1, n2, n3, n4⟩ := forall₂_mem_left (hT₀ T hTT M' A' hM' hA') b hb
  obtain ⟨d, hd', q, -, hdc⟩ := forall₂_right_mem e2.bundles _ hb'
  obtain ⟨a0, ha0, v, i, phi, probes, lr, cg, rfl⟩ := forall₂_right_mem (htr.bundles _) d hd'
  obtain ⟨nb, b⟩ := b
  simp only [Sigma.mk.injEq] at hdc
  obtain ⟨rfl, hdc⟩ := hdc
  obtain rfl := eq_of_heq hdc
  have hcol := htr.col (b := a0) hd' rfl
  constructor
  · intro k hk a
    have := congrFun (hph.v a0 ha0 k (by rw [← n1] at hk; exact hk)) a
    rw [← congrFun (hcol k).1 a] at this
    have h5 := n3 k hk a
    rw [show ω * (M'.time - M'.dt) = ω * (tr ⌊T / A.runDt dt⌋.toNat).time - ω * A.dt by rw [htime, m1, hrN, hr.dt]; ring]
    rw [← n2]
    refine le_of_eq_of_le ?_ h5
    congr 2
    exact this.symm
  · intro k hk a
    have := congrFun (hph.i a0 ha0 k (by rw [← n1] at hk; exact hk)) a
    rw [← congrFun (hcol k).2 a] at this
    have h5 := n4 k hk a
    rw [show ω * (M'.time - M'.dt / 2) = ω * (tr ⌊T / A.runDt dt⌋.toNat).time - ω * A.dt / 2 by rw [htime, m1, hrN, hr.dt]; ring]
    rw [← n2]
    refine le_of_eq_of_le ?_ h5
    congr 2
    exact this.symm

/-- An amplitude whose sinusoid disappears in the end is zero, unless the time step is a multiple of half a period. -/
theorem amplitude_zero {z : ℂ} {α θ : ℝ} (hθ : Real.sin θ ≠ 0)
    (h : ∀ ε > 0, ∃ J : ℕ, ∀ j : ℕ, J ≤ j → |(z * Complex.exp (((α + j * θ : ℝ) : ℂ) * Complex.I)).re| ≤ ε) : z = 0 := by
  have hz : (z * Complex.exp ((α : ℂ) * Complex.I)).re = 0 ∧ -(z * Complex.exp ((α : ℂ) * Complex.I)).im = 0 := by
    refine sinus_zero hθ ?_
    rw [Metric.tendsto_atTop]
    intro ε hε
    obtain ⟨J, hJ⟩ := h (ε / 2) (by positivity)
    refine ⟨J, fun j hj => ?_⟩
    have := hJ j hj
    rw [show ((α + j * θ : ℝ) : ℂ) * Complex.I = (α : ℂ) * Complex.I + ((j * θ : ℝ) : ℂ) * Complex.I by push_cast; ring, Complex.exp_add,
      ← mul_assoc, Complex.mul_re, Complex.exp_ofReal_mul_I_re, Complex.exp_ofReal_mul_I_im] at this
    rw [Real.dist_eq, sub_zero, neg_mul, ← sub_eq_add_neg]
    linarith
  have h0 : z * Complex.exp ((α : ℂ) * Complex.I) = 0 := Complex.ext hz.1 (by rw [Complex.zero_im]; linarith [hz.2])
  exact (mul_eq_zero.1 h0).resolve_right (Complex.exp_ne_zero _)

/-- **C182, amplitudes.** The amplitudes on which runs settle are determined by the manager. -/
theorem C182_amplitudes {M : MTLN p} {dt ω : ℝ} (hdt : 0 < M.runDt dt) (hst : M.Startable dt) (hω : Real.sin (ω * M.runDt dt) ≠ 0)
    {V I W J : String → ℕ → ℕ → ℂ} (h : M.Settles dt ω V I) (h' : M.Settles dt ω W J) :
    ∀ b ∈ M.bundles, (∀ k ≤ b.2.m, ∀ a < b.1, W b.2.name k a = V b.2.name k a) ∧
      ∀ k < b.2.m, ∀ a < b.1, J b.2.name k a = I b.2.name k a := by
  intro b hb
  have hbo : ∃ b' ∈ (M.overrideDt dt).bundles, b'.2.name = b.2.name ∧ b'.2.m = b.2.m ∧ b'.1 = b.1 := by
    unfold MTLN.overrideDt
    split
    · exact ⟨_, List.mem_map.2 ⟨b, hb, rfl⟩, rfl, rfl, rfl⟩
    · exact ⟨b, hb, rfl, rfl, rfl⟩
  obtain ⟨b', hb', x1, x2, x3⟩ := hbo
  have key : ∀ (x y : ℂ) (α : ℝ), (∀ ε > 0, ∃ T₀, ∀ T ≥ T₀, ∀ M', M.runUntil T dt = .ok M' → ∀ c ∈ M'.bundles, c.2.name = b.2.name →
      c.2.m = b.2.m → c.1 = b.1 → ∃ r : ℝ, |r - (x * Complex.exp (((ω * (M'.time - M'.dt * α) : ℝ) : ℂ) * Complex.I)).re| ≤ ε ∧
        |r - (y * Complex.exp (((ω * (M'.time - M'.dt * α) : ℝ) : ℂ) * Complex.I)).re| ≤ ε) → y = x := by
    intro x y α hz
    refine sub_eq_zero.1 (amplitude_zero (α := ω * (M.time - M.runDt dt * α)) hω fun ε hε => ?_)
    obtain ⟨T₀, hT⟩ := hz (ε / 2) (by positivity)
    refine ⟨⌈T₀ / M.runDt dt⌉₊, fun j hj => ?_⟩
    have hTj : T₀ ≤ j * M.runDt dt := by
      rw [← div_le_iff₀ hdt]; exact (Nat.le_ceil _).trans (by exact_mod_cast hj)
    have hj' : ⌊(j : ℝ) * M.runDt dt / M.runDt dt⌋.toNat = j := by
      rw [mul_div_assoc, div_self hdt.ne', mul_one, Int.floor_natCast, Int.toNat_natCast]
    obtain ⟨M', hM'⟩ := hst.run (j * M.runDt dt)
    obtain ⟨c, hc, hr⟩ := forall₂_mem_left (MTLN.run_free hM') b' hb'
    obtain ⟨v, i, phi, pr, lr, cg, rfl⟩ := hr
    obtain ⟨r, r1, r2⟩ := hT _ hTj M' hM' _ hc x1 x2 x3
    obtain ⟨-, -, m1, m2⟩ := C02_time_step M M' _ dt hM'
    rw [m1, m2, hj', show ω * (M.time + j * M.runDt dt - M.runDt dt * α) = ω * (M.time - M.runDt dt * α) + j * (ω * M.runDt dt) by ring]
      at r1 r2
    rw [sub_mul, Complex.sub_re]
    have r1 := abs_le.1 r1
    have r2 := abs_le.1 r2
    rw [abs_le]
    constructor <;> linarith [r1.1, r1.2, r2.1, r2.2]
  refine ⟨fun k hk a ha => key _ _ 1 fun ε hε => ?_, fun k hk a ha => key _ _ (1 / 2) fun ε hε => ?_⟩
  · obtain ⟨T₀, hT⟩ := h ε hε
    obtain ⟨T₁, hT'⟩ := h' ε hε
    refine ⟨max T₀ T₁, fun T hTT M' hM' c hc y1 y2 y3 => ⟨c.2.v k ⟨a, by rw [y3]; exact ha⟩, ?_⟩⟩
    rw [mul_one, ← y1]
    exact ⟨(hT T ((le_max_left _ _).trans hTT) M' hM' c hc).1 k (by rw [y2]; exact hk) ⟨a, by rw [y3]; exact ha⟩,
      (hT' T ((le_max_right _ _).trans hTT) M' hM' c hc).1 k (by rw [y2]; exact hk) ⟨a, by rw [y3]; exact ha⟩⟩
  · obtain ⟨T₀, hT⟩ := h ε hε
    obtain ⟨T₁, hT'⟩ := h' ε hε
    refine ⟨max T₀ T₁, fun T hTT M' hM' c hc y1 y2 y3 => ⟨c.2.i k ⟨a, by rw [y3]; exact ha⟩, ?_⟩⟩
    rw [mul_one_div, ← y1]
    exact ⟨(hT T ((le_max_left _ _).trans hTT) M' hM' c hc).2 k (by rw [y2]; exact hk) ⟨a, by rw [y3]; exact ha⟩,
      (hT' T ((le_max_right _ _).trans hTT) M' hM' c hc).2 k (by rw [y2]; exact hk) ⟨a, by rw [y3]; exact ha⟩⟩

/-- **C182, uniqueness.** Two solutions of the circuit for alternating current agree on every bundle. -/
theorem C182_unique (M : MTLN p) (dt t₀ ω : ℝ) (amp : (ℝ → ℝ) → ℂ) (hdt : 0 < M.runDt dt) (hp : (M.overrideDt dt).Passive)
    (hl : (M.overrideDt dt).Linked) (hm : (M.overrideDt dt).Matched)
    (hs : ∀ b ∈ (M.overrideDt dt).bundles, b.2.Stable) (hd : (M.overrideDt dt).Dissipates) (hst : M.Startable dt)
    (hsrc : (M.overrideDt dt).Sources fun f => HasAmplitude ω t₀ f (amp f)) (hω : Real.sin (ω * M.runDt dt) ≠ 0)
    {V I W J : String → ℕ → ℕ → ℂ} (h : (M.overrideDt dt).AC (ω * M.runDt dt) amp V I)
    (h' : (M.overrideDt dt).AC (ω * M.runDt dt) amp W J) :
    ∀ b ∈ M.bundles, (∀ k ≤ b.2.m, ∀ a < b.1, W b.2.name k a = V b.2.name k a) ∧
      ∀ k < b.2.m, ∀ a < b.1, J b.2.name k a = I b.2.name k a :=
  C182_amplitudes hdt hst hω (C182_settles M dt t₀ ω amp hdt hp hl hm hs hd hst hsrc h)
    (C182_settles M dt t₀ ω amp hdt hp hl hm hs hd hst hsrc h')

/-- **C182, programs.** From the program alone: with resistors to ground and sinusoidal sources of one frequency, the circuit for
alternating current has a solution, the runs settle on it, and every other solution agrees with it on the bundles. -/
theorem C182_program {Pr : Program p} {M : MTLN p} (h : Pr.make = .ok M) (hw : Pr.WellFormed) (hg : Pr.Grounded) {dt t₀ ω : ℝ}
    (h0 : 0 < dt) (hlt : ∀ B ∈ Pr.bundles, ∀ L ∈ B.lines, dt < L.2.dt) (hs : Pr.SourcesIn {f | Tone ω t₀ f})
    (amp : (ℝ → ℝ) → ℂ) (hamp : ∀ f, Tone ω t₀ f → HasAmplitude ω t₀ f (amp f)) (hω : Real.sin (ω * dt) ≠ 0) :
    (∀ T, ∃ M', M.runUntil T dt = .ok M') ∧ ∃ V I, ((M.overrideDt dt).AC (ω * dt) amp V I ∧ M.Settles dt ω V I) ∧
      ∀ W J, (M.overrideDt dt).AC (ω * dt) amp W J → ∀ b ∈ M.bundles, (∀ k ≤ b.2.m, ∀ a < b.1, W b.2.name k a = V b.2.name k a) ∧
        ∀ k < b.2.m, ∀ a < b.1, J b.2.name k a = I b.2.name k a := by
  obtain ⟨hd, -, hl, hp, hm, -, hst⟩ := C159_program h hw h0
  have hdt : 0 < M.runDt dt := by rw [hd]; exact h0
  obtain ⟨h1, h2⟩ := C159_sources (tones ω t₀) h hs dt
  have hsrc : (M.overrideDt dt).Sources fun f => HasAmplitude ω t₀ f (amp f) :=
    ⟨fun b hb => ⟨fun k x => hamp _ ((h1 b hb).1.1 k x), fun k x => hamp _ ((h1 b hb).2.1 k x)⟩,
      fun nwd hn e he => ⟨fun x => hamp _ ((h2 nwd hn e he).1 x), fun x => hamp _ ((h2 nwd hn e he).2 x)⟩⟩
  have hω' : Real.sin (ω * M.runDt dt) ≠ 0 := by rw [hd]; exact hω
  obtain ⟨V, I, a1, a2⟩ := C182_circuit M dt t₀ ω amp hdt hp hl hm (hst hlt) (C159_dissipates h hw hg h0) (C159_startable h hw h0) hsrc hω'
  refine ⟨(C159_startable h hw h0).run, V, I, ⟨by rw [hd] at a1; exact a1, a2⟩, fun W J hWJ => ?_⟩
  exact C182_unique M dt t₀ ω amp hdt hp hl hm (hst hlt) (C159_dissipates h hw hg h0) (C159_startable h hw h0) hsrc hω' a1
    (by rw [hd]; exact hWJ)

/-- Non-vacuity of C182: the demo line with a sinusoidal source. -/
theorem demoDriven_ac {dt Θ : ℝ} (h0 : 0 < dt) (h1 : dt < 1) (hΘ : Real.sin (2 * Real.pi / Θ * dt) ≠ 0) :
    ∃ V I, (demoDriven dt (sineSource 5 Θ)).AC (2 * Real.pi / Θ * dt) (fun _ => ⟨0, -5⟩) V I ∧
      (demoDriven dt (sineSource 5 Θ)).Settles dt (2 * Real.pi / Θ) V I := by
  obtain ⟨hD, hl, hrd, hsrc⟩ := demoDriven_hyps h0 h1 (sineSource 5 Θ)
  generalize demoDriven dt (sineSource 5 Θ) = M at *
  have := C182_circuit M dt 0 (2 * Real.pi / Θ) (fun _ => ⟨0, -5⟩) (by rw [hrd]; exact h0)
  rw [hD.over, hrd] at this
  refine this hD.passive hl hD.matched hD.stable hD.dissipates hD.startable (hsrc.imp fun f hf => ?_) hΘ
  intro t ht
  rw [hf, sineSource, if_pos ht, Complex.mul_re, Complex.exp_ofReal_mul_I_re, Complex.exp_ofReal_mul_I_im,
    show 2 * Real.pi / Θ * t = 2 * Real.pi * (t / Θ) by ring]
  ring

end Mtln
