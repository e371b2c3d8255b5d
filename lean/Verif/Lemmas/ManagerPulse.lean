import Verif.Props.ManagerAC

/-! # Managers at rest, and sources that agree at the times at which they are sampled -/

namespace Mtln

open Matrix Filter Topology

variable {n p N S : ℕ}

/-! ## Steps in which nothing acts at the times of the samples -/

/-- A step of a bundle whose fields are zero when they are sampled. -/
theorem MTLD.stepWith_quiet {b b' : MTLD n p} {time dt : ℝ} {ws : List Write} (hp : b.asLine.Passive)
    (hx : ∀ k, (b.sample time dt).eTNow k = 0 ∧ (b.sample time dt).eTPrev k = 0 ∧
      (b.sample time dt).eLNow k = 0 ∧ (b.sample time dt).eLPrev k = 0)
    (hready : ∀ lr cg, b.lr = some lr → b.cg = some cg →
      updateLr b.m b.dt b.dun b.l b.r b.tz = .ok lr ∧ updateCg b.m b.dt b.dun b.c b.g = .ok cg)
    (hs : b.stepWith time dt ws = .ok b') :
    b'.innerEnergy ≤ b.innerEnergy
      + b.dt * ((b'.v 0 + b.v 0) ⬝ᵥ b.i 0 - (b'.v b.m + b.v b.m) ⬝ᵥ b.i (b.m - 1)) := by
  obtain ⟨lr, cg, hlr, hcg, -, rfl⟩ := MTLD.stepWith_ok_iff.1 hs
  obtain ⟨h1, h2⟩ := hready lr cg hlr hcg
  refine inner_energy_step (s := b.asLine) (v' := (b.fieldsWith lr cg time dt ws).v)
    (i' := (b.fieldsWith lr cg time dt ws).i) hp h1 h2 ?_ ?_
  · intro k h0 hk
    rw [MTLD.fieldsWith_v]
    funext j
    rw [MTLD.hit_other]
    · show advanceVoltage b.m cg (b.sample time dt) b.v b.i k j = _
      unfold advanceVoltage
      rw [if_pos ⟨h0, hk⟩, (hx k).1, (hx k).2.1, sub_zero, sub_zero]
      rfl
    · rintro w - ⟨-, hw, -⟩
      have hk' : k < b.m := hk
      cases hside : w.target.side <;> rw [hside] at hw <;> simp only [Side.node] at hw <;> omega
  · intro k hk
    rw [MTLD.fieldsWith_i]
    unfold advanceCurrent
    have hk' : k < b.m := hk
    have h3 : b.tz.q3phi b.phi k = 0 := by
      funext a
      have hq : ∀ a c, b.tz.q3 k a c = none := hp.q3 k hk
      simp [Disp.q3phi, hq, QEntry.val, poleSum]
    rw [if_pos hk', (hx k).1, (hx (k + 1)).1, (hx k).2.2.1, (hx k).2.2.2, h3]
    simp
    rfl

/-- No field along the bundles, and no other source or field at the times of the samples. -/
structure MTLN.Hushed (M : MTLN p) (t₀ : ℝ) : Prop where
  along : ∀ b ∈ M.bundles, ∀ k x t, b.2.eL k x t = 0
  bundles : ∀ b ∈ M.bundles, ∀ k x, ∀ j : ℕ, b.2.eT k x (t₀ + (j - 2) * M.dt) = 0
  networks : ∀ nwd ∈ M.networks, ∀ e ∈ nwd, ∀ x, ∀ j : ℕ, e.2.2.2.vSources x (t₀ + (j - 2) * M.dt) = 0 ∧
    (e.2.2.2.nodes x).eT (t₀ + (j - 2) * M.dt) = 0

theorem MTLN.Hushed.step_energy {M M' : MTLN p} {t₀ : ℝ} (hq : M.Hushed t₀) {j : ℕ} (ht : M.time = t₀ + j * M.dt) (hM : M.Sound)
    (h : M.step = .ok M') : M'.energy ≤ M.energy := by
  have e0 : M.time = t₀ + ((j + 2 : ℕ) - 2) * M.dt := by rw [ht]; push_cast; ring
  have e1 : M.time - M.dt = t₀ + ((j + 1 : ℕ) - 2) * M.dt := by rw [ht]; push_cast; ring
  have e2 : M.time - 2 * M.dt = t₀ + ((j : ℕ) - 2) * M.dt := by rw [ht]; ring
  have := (hM.step_excited h).2 (fun _ => 0) (fun _ => 0) (fun b hb b' _ ws hs => by
      rw [add_zero]
      refine MTLD.stepWith_quiet (hM.passive.bundles b hb).1 (fun k => ⟨?_, ?_, ?_, ?_⟩) (hM.ready.bundles b hb) hs
      · funext x; show b.2.eT k x M.time = 0; rw [e0]; exact hq.bundles b hb k x _
      · funext x; show b.2.eT k x (M.time - M.dt) = 0; rw [e1]; exact hq.bundles b hb k x _
      · funext x; exact hq.along b hb k x _
      · funext x; exact hq.along b hb k x _)
    (fun nwd hn e he nw' hs _ => by
      rw [add_zero]
      have key := Network.advance_excited hM.dt (hM.passive.networks nwd hn e he) (hM.ready.networks nwd hn e he) hs
      have s0 : (fun a => e.2.2.2.vSources a M.time) = 0 := funext fun a => by rw [e0]; exact (hq.networks nwd hn e he a _).1
      have s1 : (fun a => e.2.2.2.vSources a (M.time - M.dt)) = 0 := funext fun a => by rw [e1]; exact (hq.networks nwd hn e he a _).1
      have s2 : (fun a => e.2.2.2.vSources a (M.time - 2 * M.dt)) = 0 := funext fun a => by rw [e2]; exact (hq.networks nwd hn e he a _).1
      have s3 : (fun a => (e.2.2.2.nodes a).eT M.time) = 0 := funext fun a => by rw [e0]; exact (hq.networks nwd hn e he a _).2
      have s4 : (fun a => (e.2.2.2.nodes a).eT (M.time - M.dt)) = 0 := funext fun a => by rw [e1]; exact (hq.networks nwd hn e he a _).2
      have e0 : e.2.2.2.drive M.time M.dt = 0 := by
        unfold Network.drive
        simp only [s0, s1, s2, s3, s4, mulVec_zero, add_zero, sub_zero, smul_zero]
      rw [e0, dotProduct_zero, mul_zero, add_zero] at key
      exact key)
  simpa using this

/-! ## Rest -/

theorem MTLN.AtRest.begun {M B : MTLN p} {T dt : ℝ} {k : ℕ} (h : M.AtRest) (ho : M.overrideDt dt = M) (hs : M.start T dt = .ok (k, B)) :
    B.AtRest := by
  obtain ⟨h1, h2, h3, h4⟩ := MTLN.start_rel hs
  rw [ho] at h1 h2
  refine ⟨fun b hb => ?_, fun nwd hn e he => ?_⟩
  · obtain ⟨b0, hb0, lr, cg, pr, -, -, rfl⟩ := forall₂_right_mem h1 b hb
    exact h.bundles b0 hb0
  · obtain ⟨nwd', hn', hl⟩ := forall₂_right_mem h2 nwd hn
    obtain ⟨e', he', nw', hc, rfl⟩ := forall₂_right_mem hl e he
    unfold Network.computeVTerms at hc
    simp only [bind_ok_iff, raiseIf_ok_iff, Except.ok.injEq] at hc
    obtain ⟨_, -, _, -, rfl⟩ := hc
    exact h.networks nwd' hn' e' he'

theorem MTLN.AtRest.reading {M : MTLN p} (h : M.AtRest) (q : Bool × String × ℕ × ℕ) : M.reading q = 0 := by
  unfold MTLN.reading nodeV cellI
  cases hf : findBundle M.bundles q.2.1 with
  | none => simp
  | some b =>
    obtain ⟨hb, -⟩ := findBundle_some hf
    obtain ⟨h1, h2, -⟩ := h.bundles b hb
    split
    · dsimp only; split
      · exact h1 _ _
      · rfl
    · dsimp only; split
      · exact h2 _ _
      · rfl

theorem MTLN.AtRest.redrive {M : MTLN p} (h : M.AtRest) (φ : (ℝ → ℝ) → ℝ → ℝ) : (M.redrive φ).AtRest := by
  refine ⟨fun b hb => ?_, fun nwd hn e he => ?_⟩
  · obtain ⟨b0, hb0, rfl⟩ := List.mem_map.1 hb
    exact h.bundles b0 hb0
  · obtain ⟨nwd0, hn0, rfl⟩ := List.mem_map.1 hn
    obtain ⟨e0, he0, rfl⟩ := List.mem_map.1 he
    exact h.networks nwd0 hn0 e0 he0

theorem MTLN.Comb.rest {a b : ℝ} {A B C : MTLN p} (h : MTLN.Comb a b A B C) (hA : A.AtRest) (hB : B.AtRest) : C.AtRest := by
  refine ⟨fun c hc => ?_, fun nwd hn e he => ?_⟩
  · obtain ⟨x, hx, y, hy, hr⟩ := h.bundles.pick c hc
    obtain ⟨x1, x2, x3⟩ := hA.bundles x hx
    obtain ⟨y1, y2, y3⟩ := hB.bundles y hy
    obtain ⟨hr⟩ := hr
    refine ⟨fun k z => ?_, fun k z => ?_, fun k z σ => ?_⟩
    · rw [hr.v, x1, y1]; ring
    · rw [hr.i, x2, y2]; ring
    · rw [hr.phi, x3, y3]; simp
  · obtain ⟨nwd₁, h1, nwd₂, h2, hr⟩ := h.networks.pick nwd hn
    obtain ⟨e₁, g1, e₂, g2, hr'⟩ := hr.pick e he
    obtain ⟨x1, x2, x3, x4⟩ := hA.networks _ h1 _ g1
    obtain ⟨y1, y2, y3, y4⟩ := hB.networks _ h2 _ g2
    obtain ⟨hr⟩ := hr'
    refine ⟨fun z => ?_, fun z => ?_, fun z => ?_, fun z => ?_⟩
    · rw [hr.v, x1, y1]; ring
    · rw [hr.vPrev, x2, y2]; ring
    · rw [hr.i, x3, y3]; ring
    · rw [hr.X, x4, y4]; ring

section

variable {M A B C : MTLN p} {dt : ℝ}

/-- A manager at rest on which nothing acts when its sources are sampled stays at rest. -/
theorem MTLN.Damped.quiet_zero (hA : A.Damped dt) (hl : A.Linked) (hr : A.AtRest) (hx : A.Hushed A.time) (j : ℕ) :
    ∀ q ∈ Places A.bundles, A.wave dt j q = 0 := by
  obtain ⟨tr, htr, ⟨k, hk⟩, hrun⟩ := hA.startable.traced (by rw [hA.runDt]; exact hA.pos) (by rw [hA.over]; exact hA.passive)
    (by rw [hA.over]; exact hl)
  rw [hA.over] at htr
  have hwave : ∀ j, A.wave dt j = (tr j).reading := by
    intro j
    obtain ⟨A', hA'⟩ := hA.startable.run (j * A.dt)
    have := hrun _ _ hA'
    rw [hA.steps] at this
    rw [MTLN.wave_eq hA', reading_same this.same]
  have hnames : ∀ j, ((tr j).bundles.map fun b => b.2.name).Nodup := fun j => (htr.sound j).passive.names
  have hplaces : ∀ j, Places (tr j).bundles = Places A.bundles := fun j => places_free (htr.bundles j)
  have hpar : ∀ j, SameParts A (tr j) := fun j => by
    have := (MTLN.start_parts hk).trans (parts_trace (k := j) (fun j _ => htr.step j) j le_rfl)
    rwa [hA.over] at this
  have r0 : (tr 0).AtRest := hr.begun hA.over hk
  have hquiet : ∀ j, (tr j).Hushed A.time := by
    intro j
    refine ⟨fun b hb => ?_, fun b hb => ?_, fun nwd hn e he => ?_⟩
    · obtain ⟨b0, hb0, _, _, _, _, _, _, rfl⟩ := forall₂_right_mem (htr.bundles j) b hb
      exact hx.along b0 hb0
    · obtain ⟨b0, hb0, _, _, _, _, _, _, rfl⟩ := forall₂_right_mem (htr.bundles j) b hb
      rw [htr.dt]
      exact hx.bundles b0 hb0
    · obtain ⟨n0, hn0, hr⟩ := forall₂_right_mem (htr.networks j) nwd hn
      obtain ⟨e0, he0, _, _, _, _, _, rfl⟩ := forall₂_right_mem hr e he
      rw [htr.dt]
      exact hx.networks n0 hn0 e0 he0
  have hE : (tr 0).energy = 0 := by
    rw [((hpar 0).matched hA.matched).energy (htr.sound 0).passive (htr.sound 0).linked]
    have a1 : ((tr 0).bundles.map fun b => b.2.asLine.energy).sum = 0 := by
      refine List.sum_eq_zero fun x hx => ?_
      obtain ⟨b, hb, rfl⟩ := List.mem_map.1 hx
      exact energy_zero (fun k _ => (r0.bundles b hb).1 k) fun k _ => (r0.bundles b hb).2.1 k
    have a2 : capsEnergy (tr 0).networks = 0 := by
      refine List.sum_eq_zero fun x hx => ?_
      obtain ⟨nwd', hn', rfl⟩ := List.mem_map.1 hx
      refine List.sum_eq_zero fun x hx => ?_
      obtain ⟨e', he', rfl⟩ := List.mem_map.1 hx
      obtain ⟨x1, x2, -⟩ := r0.networks nwd' hn' e' he'
      unfold Network.capEnergy
      rw [show e'.2.2.2.v = 0 from funext x1, show e'.2.2.2.vPrev = 0 from funext x2]
      simp
    rw [a1, a2, add_zero]
  have hmono : ∀ j, (tr j).energy ≤ 0 := by
    intro j
    induction j with
    | zero => exact hE.le
    | succ j ih => exact ((hquiet j).step_energy (j := j) (by rw [htr.time, htr.dt]) (htr.sound j) (htr.step j)).trans ih
  obtain ⟨κ, hκ0, hκ⟩ := MTLN.below_sqrt A hA.pos hA.passive hA.matched hA.stable
  intro q hq
  rw [hwave]
  have hb : ∀ ε > 0, |(tr j).reading q| ≤ κ * ε := by
    intro ε hε
    have := hκ (tr j) (hpar _) (htr.sound _) (ε ^ 2) (by positivity) ((hmono j).trans (by positivity))
    rw [Real.sqrt_sq hε.le] at this
    exact reading_le (hnames _) this (by rw [hplaces]; exact hq)
  have : |(tr j).reading q| ≤ 0 := by
    refine le_of_forall_pos_le_add fun δ hδ => ?_
    refine (hb (δ / (κ + 1)) (by positivity)).trans ?_
    rw [zero_add, mul_div_assoc', div_le_iff₀ (by positivity)]
    nlinarith
  exact abs_nonpos_iff.1 this

theorem MTLN.Damped.wave_rest (hA : A.Damped dt) (hl : A.Linked) (hr : A.AtRest) (q : Bool × String × ℕ × ℕ) : A.wave dt 0 q = 0 := by
  obtain ⟨tr, htr, ⟨k, hk⟩, hrun⟩ := hA.startable.traced (by rw [hA.runDt]; exact hA.pos) (by rw [hA.over]; exact hA.passive)
    (by rw [hA.over]; exact hl)
  obtain ⟨A', hA'⟩ := hA.startable.run ((0 : ℕ) * A.dt)
  have := hrun _ _ hA'
  rw [hA.steps] at this
  rw [MTLN.wave_eq hA', reading_same this.same]
  exact (hr.begun hA.over hk).reading q

/-- Two managers at rest show the same if their sources agree when they are sampled. -/
theorem MTLN.Damped.same_samples {ρ₁ ρ₂ : (ℝ → ℝ) → (ℝ → ℝ) → Prop} {D : (ℝ → ℝ) → Prop} (hM : M.Damped dt) (hA : M.Redriven ρ₁ A)
    (hB : M.Redriven ρ₂ B) (lA : A.Linked) (lB : B.Linked) (rA : A.AtRest) (rB : B.AtRest)
    (heL : ∀ b ∈ M.bundles, ∀ k x, b.2.eL k x = 0) (hD : M.Sources D)
    (h : ∀ f g h, D f → ρ₁ f g → ρ₂ f h → (∀ j : ℕ, g (M.time + (j - 2) * M.dt) = h (M.time + (j - 2) * M.dt)) ∧ (f = 0 → g = h))
    (j : ℕ) : ∀ q ∈ Places M.bundles, A.wave dt j q = B.wave dt j q := by
  obtain ⟨C, c1, c2⟩ := hA.superposed (a := 1) (b := -1)
    (ρ₃ := fun f g => D f → (∀ j : ℕ, g (M.time + (j - 2) * M.dt) = 0) ∧ (f = 0 → ∀ t, g t = 0)) (fun f g k hg hk hf => by
      obtain ⟨h1, h2⟩ := h f g k hf hg hk
      exact ⟨fun j => by dsimp only; rw [h1]; ring, fun h0 t => by dsimp only; rw [h2 h0]; ring⟩) hB
  have c3 := c2.imp_sources (ρ₂ := fun f g => (∀ j : ℕ, g (M.time + (j - 2) * M.dt) = 0) ∧ (f = 0 → ∀ t, g t = 0)) (fun f g hf hg => hg hf) hD
  have hC := c3.remade.damped hM
  have hQ : C.Hushed C.time := by
    rw [c3.time]
    refine ⟨fun b hb k x t => ?_, fun b hb k x i => ?_, fun nwd hn e he x i => ?_⟩
    · obtain ⟨b0, hb0, v, i, phi, eL, eT, h1, h2, rfl⟩ := forall₂_right_mem c3.bundles b hb
      exact (h1 k x).2 (heL b0 hb0 k x) t
    · obtain ⟨b0, hb0, v, i, phi, eL, eT, h1, h2, rfl⟩ := forall₂_right_mem c3.bundles b hb
      rw [c3.dt]
      exact (h2 k x).1 _
    · obtain ⟨nwd0, hn0, hl⟩ := forall₂_right_mem c3.networks nwd hn
      obtain ⟨e0, he0, v, vP, i, X, vS, eT, h1, h2, rfl⟩ := forall₂_right_mem hl e he
      rw [c3.dt]
      exact ⟨(h1 x).1 _, (h2 x).1 _⟩
  intro q hq
  have := hC.quiet_zero (c1.linked hA.remade hB.remade c3.remade lA lB) (c1.rest rA rB) hQ j q (by rw [c3.remade.places]; exact hq)
  rw [c1.wave (hA.remade.damped hM) (hB.remade.damped hM) hC] at this
  linarith

/-- What a manager at rest shows with sources that act one step later. -/
theorem MTLN.Damped.delayed (hA : A.Damped dt) (hr : A.AtRest) (hs : A.Silent) (j : ℕ) :
    ∀ q ∈ Places A.bundles, (A.redrive fun f t => f (t - A.dt)).wave dt (j + 1) q = A.wave dt j q := by
  intro q hq
  have hB := A.redriven fun f t => f (t - A.dt)
  have hBd := hB.remade.damped hA
  have hal : MTLN.Alike Set.univ ((1 : ℕ) * A.runDt dt) A (A.redrive fun f t => f (t - A.dt)) := by
    have ee : ∀ τ : ℝ, τ + (1 : ℕ) * A.runDt dt - A.dt = τ := fun τ => by rw [hA.runDt]; push_cast; ring
    refine ⟨rfl, rfl, forall₂_map_of (fun b => .mk ⟨⟨rfl, rfl, rfl, rfl, rfl, rfl, rfl, rfl, rfl⟩, fun _ _ _ => rfl, fun _ _ _ => rfl,
      fun _ _ _ _ => rfl, fun k _ x τ _ => ?_, fun k _ x τ _ => ?_⟩) _, forall₂_map_of (fun _ => forall₂_map_of (fun e => .mk
        ⟨⟨fun _ => rfl, fun _ => rfl, fun _ => rfl, fun _ => rfl, rfl, rfl, rfl, rfl, rfl, rfl, rfl, rfl, rfl, rfl⟩,
        fun _ => rfl, fun _ => rfl, fun _ => rfl, fun _ => rfl, fun x τ _ => ?_, fun x τ _ => ?_⟩) _) _⟩
    all_goals dsimp only; rw [ee]
  generalize A.redrive (fun f t => f (t - A.dt)) = B at *
  obtain ⟨A', hA'⟩ := hA.startable.run (j * A.dt)
  obtain ⟨B', hB'⟩ := hBd.startable.run ((j + 1 : ℕ) * B.dt)
  rw [MTLN.wave_eq hA', MTLN.wave_eq hB']
  have hBr : ⌊((j + 1 : ℕ) * B.dt) / A.runDt dt⌋.toNat = j + 1 := by
    rw [show A.runDt dt = B.runDt dt by rw [hA.runDt, hBd.runDt, hB.dt]]; exact hBd.steps (j + 1)
  have := C149_delay (by rw [hA.runDt]; exact hA.pos) hal hr hs hA' hB' (by rw [hBr, hA.steps])
  exact reading_fields (hA.after hA').1 (hBd.after hB').1 this (by rw [(hA.after hA').2]; exact hq)

end

end Mtln
