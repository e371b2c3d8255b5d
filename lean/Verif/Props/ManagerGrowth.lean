import Verif.Lemmas.ManagerGrowth
import Verif.Props.ManagerEnergy

/-! # Managers with bounded sources: C151, C152 -/

namespace Mtln

open Matrix

variable {n p N S : ℕ}

/-! ## What stays the same -/

theorem MTLN.step_load_eq {M M' : MTLN p} (h : M.step = .ok M') (σ : ℝ) : M'.load σ = M.load σ := by
  obtain ⟨nws1, bs2, nws2, h1, -, h3, h4, rfl⟩ := MTLN.step_ok_iff.1 h
  have e1 : (bs2.map fun b => b.2.load σ).sum = (M.bundles.map fun b => b.2.load σ).sum := by
    refine mapPy_sum_eq h3 ?_
    intro b _ b' _ hs
    obtain ⟨c, hc, rfl⟩ := onBundle_ok_iff.1 hs
    obtain ⟨v, i, phi, probes, rfl⟩ := MTLD.stepWith_config hc
    rfl
  have e2 : (nws1.map fun nwd => (nwd.map fun e => e.2.2.2.load M.dt σ).sum).sum =
      (M.networks.map fun nwd => (nwd.map fun e => e.2.2.2.load M.dt σ).sum).sum := by
    refine mapPy_sum_eq h1 ?_
    intro nwd _ nwd' _ hs
    refine mapPy_sum_eq hs ?_
    intro e _ e' _ hs'
    simp only [bind_ok_iff, onAny_ok_iff, Except.ok.injEq] at hs'
    obtain ⟨_, ⟨c, hc, rfl⟩, rfl⟩ := hs'
    obtain ⟨v, X, rfl⟩ := advanceVoltage_rest hc
    rfl
  have e3 : (nws2.map fun nwd => (nwd.map fun e => e.2.2.2.load M.dt σ).sum).sum =
      (nws1.map fun nwd => (nwd.map fun e => e.2.2.2.load M.dt σ).sum).sum := by
    refine mapPy_sum_eq h4 ?_
    intro nwd _ nwd' _ hs
    refine mapPy_sum_eq hs ?_
    intro e _ e' _ hs'
    simp only [bind_ok_iff, onAny_ok_iff, Except.ok.injEq] at hs'
    obtain ⟨_, ⟨c, hc, rfl⟩, rfl⟩ := hs'
    obtain ⟨i', -, rfl⟩ := updateCurrents_ok_iff.1 hc
    rfl
  exact congrArg₂ (· + ·) e1 (e3.trans e2)

theorem MTLN.start_load_eq {T dt : ℝ} {M M0 : MTLN p} {k : ℕ} (h : M.start T dt = .ok (k, M0)) (σ : ℝ) :
    M0.load σ = (M.overrideDt dt).load σ := by
  obtain ⟨nws, bs, h1, -, -, h4, rfl⟩ := MTLN.start_ok_iff.1 h
  have hnet0 : M.networks = (M.overrideDt dt).networks := by unfold MTLN.overrideDt; split <;> rfl
  rw [hnet0] at h1
  have e1 : (bs.map fun b => b.2.load σ).sum = ((M.overrideDt dt).bundles.map fun b => b.2.load σ).sum := by
    refine mapPy_sum_eq h4 ?_
    intro b _ b' _ hs
    obtain ⟨c, hc, rfl⟩ := onBundle_ok_iff.1 hs
    obtain ⟨lr, cg, -, -, rfl⟩ := MTLD.start_ok_iff.1 hc
    rfl
  have e2 : (nws.map fun nwd => (nwd.map fun e => e.2.2.2.load (M.overrideDt dt).dt σ).sum).sum =
      ((M.overrideDt dt).networks.map fun nwd => (nwd.map fun e => e.2.2.2.load (M.overrideDt dt).dt σ).sum).sum := by
    refine mapPy_sum_eq h1 ?_
    intro nwd _ nwd' _ hs
    refine mapPy_sum_eq hs ?_
    intro e _ e' _ hs'
    simp only [bind_ok_iff, onAny_ok_iff, Except.ok.injEq] at hs'
    obtain ⟨_, ⟨c, hc, rfl⟩, rfl⟩ := hs'
    obtain ⟨-, -, rfl⟩ := computeVTerms_ok_iff.1 hc
    rfl
  exact congrArg₂ (· + ·) e1 e2

theorem SameParts.excited {M M' : MTLN p} (h : SameParts M M') {σ : ℝ} (hx : M.ExcitedBelow σ) : M'.ExcitedBelow σ := by
  refine ⟨fun b' hb' => ?_, fun nwd' hn' e' he' => ?_⟩
  · obtain ⟨b, hb, v, i, phi, probes, lr, cg, rfl⟩ := h.bundles b' hb'
    exact hx.bundles b hb
  · obtain ⟨nwd, hn, e, he, v, vP, i, X, t, rfl⟩ := h.networks nwd' hn' e' he'
    exact hx.networks nwd hn e he

/-! ## The growth in a step -/

theorem sqrt_step_growth {E E' c : ℝ} (hc : 0 ≤ c) (hE : 0 ≤ E) (hE' : 0 ≤ E') (h : E' ≤ E + c * √(max E E' + 1)) :
    √(E' + 1) ≤ √(E + 1) + c := by
  have h1 := Real.sqrt_nonneg (E + 1)
  rcases le_total E' E with hle | hle
  · have := Real.sqrt_le_sqrt (show E' + 1 ≤ E + 1 by linarith)
    linarith
  · rw [max_eq_right hle] at h
    have a1 := Real.mul_self_sqrt (show 0 ≤ E + 1 by linarith)
    have a2 := Real.mul_self_sqrt (show 0 ≤ E' + 1 by linarith)
    have a3 : 0 < √(E' + 1) := Real.sqrt_pos.2 (by linarith)
    have a4 := Real.sqrt_le_sqrt (show E + 1 ≤ E' + 1 by linarith)
    nlinarith

/-- In a run of a manager of stable bundles with bounded sources, the root of the energy grows at most by a constant per
step. -/
theorem energy_growth (M : MTLN p) (dt : ℝ) (hdt : 0 < M.runDt dt) (hp : (M.overrideDt dt).Passive)
    (hl : (M.overrideDt dt).Linked) (hm : (M.overrideDt dt).Matched)
    (hst : ∀ b ∈ (M.overrideDt dt).bundles, b.2.Stable) {σ : ℝ} (hx : (M.overrideDt dt).ExcitedBelow σ) :
    ∃ c κ, 0 ≤ c ∧ 0 ≤ κ ∧ ∀ T M' k M0, M.start T dt = .ok (k, M0) → ∀ tr : ℕ → MTLN p, tr 0 = M0 → tr k = M' →
      (∀ j < k, (tr j).step = .ok (tr (j + 1))) →
      (∀ j ≤ k, √((tr j).energy + 1) ≤ √((M.overrideDt dt).energy + 1) + j * c) ∧
      ∀ B, 0 < B → M'.energy ≤ B → ∀ b ∈ M'.bundles, b.2.Below (κ * √B) := by
  obtain ⟨κ, hκ0, hκ⟩ := MTLN.below_sqrt _ hdt hp hm hst
  have hσ' : (M.overrideDt dt).ExcitedBelow |σ| := ⟨fun b hb t => ⟨fun k x => ((hx.bundles b hb t).1 k x).trans (le_abs_self _),
      fun k x => ((hx.bundles b hb t).2 k x).trans (le_abs_self _)⟩,
    fun nwd hn e he t => ⟨fun x => ((hx.networks nwd hn e he t).1 x).trans (le_abs_self _),
      fun x => ((hx.networks nwd hn e he t).2 x).trans (le_abs_self _)⟩⟩
  refine ⟨|(M.overrideDt dt).load (abs σ)| * κ, κ, by positivity, hκ0, ?_⟩
  intro T M' k M0 hs0 tr htr0 htrk hs
  obtain ⟨hsound, he, -, -, -⟩ := MTLN.start_sound hs0 hdt hp hl
  have hparts0 := MTLN.start_parts hs0
  have hload := MTLN.start_load_eq hs0 (abs σ)
  rw [← htr0] at hsound he hparts0 hload
  have hparts : ∀ j ≤ k, SameParts (M.overrideDt dt) (tr j) := fun j hj => hparts0.trans (parts_trace hs j hj)
  have hsd : ∀ j ≤ k, (tr j).Sound := fun j hj => (sound_trace hsound hs j hj).1
  have hld : ∀ j ≤ k, (tr j).load (abs σ) = (M.overrideDt dt).load (abs σ) := by
    intro j
    induction j with
    | zero => intro _; exact hload
    | succ j ih => intro hj; rw [MTLN.step_load_eq (hs j (by omega))]; exact ih (by omega)
  have hnn : ∀ j ≤ k, 0 ≤ (tr j).energy := fun j hj =>
    (MTLN.bundle_energy hdt hp hm hst (hparts j hj) (hsd j hj)).1
  refine ⟨?_, ?_⟩
  · intro j
    induction j with
    | zero => intro _; rw [he]; simp
    | succ j ih =>
      intro hj
      have hstep := sqrt_step_growth (E := (tr j).energy) (E' := (tr (j + 1)).energy)
        (c := |(M.overrideDt dt).load (abs σ)| * κ) (by positivity) (hnn j (by omega)) (hnn (j + 1) hj) (by
          have hB : 0 < max (tr j).energy (tr (j + 1)).energy + 1 := by
            have := le_max_left (tr j).energy (tr (j + 1)).energy
            have := hnn j (by omega)
            linarith
          have hW : 0 ≤ κ * √(max (tr j).energy (tr (j + 1)).energy + 1) := by positivity
          have := (hsd j (by omega)).step_load (hs j (by omega)) (abs_nonneg σ) hW
            ((hparts j (by omega)).excited hσ')
            (hκ _ (hparts j (by omega)) (hsd j (by omega)) _ hB (by
              have := le_max_left (tr j).energy (tr (j + 1)).energy
              linarith))
            (hκ _ (hparts (j + 1) hj) (hsd (j + 1) hj) _ hB (by
              have := le_max_right (tr j).energy (tr (j + 1)).energy
              linarith))
          rw [hld j (by omega)] at this
          refine this.trans (add_le_add le_rfl ?_)
          rw [mul_assoc]
          exact mul_le_mul_of_nonneg_right (le_abs_self _) hW)
      have := ih (by omega)
      push_cast
      linarith
  · intro B hB hE
    rw [← htrk] at hE ⊢
    exact hκ _ (hparts k le_rfl) (hsd k le_rfl) B hB hE

/-! ## C151 -/

/-- **C151.** A manager of passive bundles with time step below each bundle's automatic one, and networks of resistors and
capacitors that work with the capacitances of the bundles, with sources and fields that stay below some bound: voltages and
currents grow at most linearly with the simulated time. -/
theorem C151_growth (M : MTLN p) (dt σ : ℝ) (hdt : 0 < M.runDt dt) (hp : (M.overrideDt dt).Passive)
    (hl : (M.overrideDt dt).Linked) (hm : (M.overrideDt dt).Matched)
    (hst : ∀ b ∈ (M.overrideDt dt).bundles, b.2.Stable) (hx : (M.overrideDt dt).ExcitedBelow σ) :
    ∃ K, ∀ T M', M.runUntil T dt = .ok M' → M.time ≤ M'.time ∧ ∀ b ∈ M'.bundles,
      (∀ k ≤ b.2.m, ∀ a, |b.2.v k a| ≤ K * (1 + (M'.time - M.time))) ∧
      ∀ k < b.2.m, ∀ a, |b.2.i k a| ≤ K * (1 + (M'.time - M.time)) := by
  obtain ⟨c, κ, hc, hκ, H⟩ := energy_growth M dt hdt hp hl hm hst hx
  refine ⟨κ * (√((M.overrideDt dt).energy + 1) + c / M.runDt dt), fun T M' hrun => ?_⟩
  obtain ⟨k, M0, hs0, tr, htr0, htrk, hs⟩ := MTLN.runUntil_ok_iff.1 hrun
  obtain ⟨h1, h2⟩ := H T M' k M0 hs0 tr htr0 htrk hs
  obtain ⟨hsound, -, ht0, hd0, -⟩ := MTLN.start_sound hs0 hdt hp hl
  rw [← htr0] at hsound ht0 hd0
  have htime : M'.time - M.time = k * M.runDt dt := by
    have a1 := (sound_trace hsound hs k le_rfl).2.1
    have a2 : (M.overrideDt dt).time = M.time := by unfold MTLN.overrideDt; split <;> rfl
    have a3 : (M.overrideDt dt).dt = M.runDt dt := rfl
    rw [htrk, ht0, hd0, a2, a3] at a1
    rw [a1]; ring
  have h3 := h1 k le_rfl
  rw [htrk] at h3
  have hE0 := Real.sqrt_nonneg ((M.overrideDt dt).energy + 1)
  have hk0 : (0 : ℝ) ≤ k := Nat.cast_nonneg k
  refine ⟨by have : 0 ≤ k * M.runDt dt := by positivity
             linarith, fun b hb => ?_⟩
  have hle : κ * √(M'.energy + 1) ≤ κ * (√((M.overrideDt dt).energy + 1) + c / M.runDt dt) * (1 + (M'.time - M.time)) := by
    rw [htime, mul_assoc]
    refine mul_le_mul_of_nonneg_left (h3.trans ?_) hκ
    have e : c / M.runDt dt * (k * M.runDt dt) = k * c := by field_simp
    have e2 : 0 ≤ c / M.runDt dt := by positivity
    have e3 : 0 ≤ √((M.overrideDt dt).energy + 1) * (k * M.runDt dt) := by positivity
    nlinarith
  obtain ⟨-, he, -, -, -⟩ := MTLN.start_sound hs0 hdt hp hl
  have hpos : 0 < M'.energy + 1 := by
    have hparts := (MTLN.start_parts hs0)
    rw [← htr0] at hparts
    have := (MTLN.bundle_energy hdt hp hm hst (hparts.trans (parts_trace hs k le_rfl)) (sound_trace hsound hs k le_rfl).1).1
    rw [htrk] at this
    linarith
  obtain ⟨b1, b2⟩ := h2 (M'.energy + 1) hpos (by linarith) b hb
  exact ⟨fun k hk a => (b1 k hk a).trans hle, fun k hk a => (b2 k hk a).trans hle⟩

/-! ## C152 -/

/-- **C152.** If in addition all sources and fields vanish from some time on, voltages and currents stay below one bound
in runs of any length. -/
theorem C152_pulse (M : MTLN p) (dt σ t₀ : ℝ) (hdt : 0 < M.runDt dt) (hp : (M.overrideDt dt).Passive)
    (hl : (M.overrideDt dt).Linked) (hm : (M.overrideDt dt).Matched)
    (hst : ∀ b ∈ (M.overrideDt dt).bundles, b.2.Stable) (hx : (M.overrideDt dt).ExcitedBelow σ)
    (hsil : (M.overrideDt dt).SilentFrom t₀) :
    ∃ K, ∀ T M', M.runUntil T dt = .ok M' → ∀ b ∈ M'.bundles,
      (∀ k ≤ b.2.m, ∀ a, |b.2.v k a| ≤ K) ∧ ∀ k < b.2.m, ∀ a, |b.2.i k a| ≤ K := by
  obtain ⟨c, κ, hc, hκ, H⟩ := energy_growth M dt hdt hp hl hm hst hx
  obtain ⟨q, hq⟩ := exists_nat_ge ((t₀ - M.time + 2 * M.runDt dt) / M.runDt dt)
  rw [div_le_iff₀ hdt] at hq
  obtain ⟨R, hR⟩ : ∃ R, R = √((M.overrideDt dt).energy + 1) + q * c := ⟨_, rfl⟩
  refine ⟨κ * R, fun T M' hrun b hb => ?_⟩
  obtain ⟨k, M0, hs0, tr, htr0, htrk, hs⟩ := MTLN.runUntil_ok_iff.1 hrun
  obtain ⟨h1, h2⟩ := H T M' k M0 hs0 tr htr0 htrk hs
  obtain ⟨hsound, -, ht0, hd0, hs1⟩ := MTLN.start_sound hs0 hdt hp hl
  have hparts := (MTLN.start_parts hs0)
  rw [← htr0] at hsound ht0 hd0 hs1 hparts
  have a2 : (M.overrideDt dt).time = M.time := by unfold MTLN.overrideDt; split <;> rfl
  have a3 : (M.overrideDt dt).dt = M.runDt dt := rfl
  have hpos : 0 < M'.energy + 1 := by
    have := (MTLN.bundle_energy hdt hp hm hst (hparts.trans (parts_trace hs k le_rfl)) (sound_trace hsound hs k le_rfl).1).1
    rw [htrk] at this
    linarith
  have hle : √(M'.energy + 1) ≤ R := by
    have hq0 : (0 : ℝ) ≤ q := Nat.cast_nonneg q
    rcases Nat.lt_or_ge q k with hlt | hge
    · have e1 := (sound_trace hsound hs k le_rfl).2.2.2.2 q hlt.le ((hs1 t₀ hsil).mono (by
        rw [ht0, hd0, a2, a3]; linarith))
      rw [htrk] at e1
      have := h1 q hlt.le
      rw [hR]
      exact (Real.sqrt_le_sqrt (by linarith)).trans this
    · have := h1 k le_rfl
      rw [htrk] at this
      rw [hR]
      have hkq : (k : ℝ) ≤ q := by exact_mod_cast hge
      nlinarith
  obtain ⟨b1, b2⟩ := h2 (M'.energy + 1) hpos (by linarith) b hb
  have hfin := mul_le_mul_of_nonneg_left hle hκ
  exact ⟨fun k hk a => (b1 k hk a).trans hfin, fun k hk a => (b2 k hk a).trans hfin⟩

/-! ## Demonstrations -/

/-- The charged demo line, fed by a pulse of 1 V that ends at time 1. -/
noncomputable def demoPulse : MTLN 0 :=
  { demoCharged with
    networks := [[(0, ⟨1, 0, { demoTerm with vSources := fun _ t => if t < 1 then 1 else 0, v := fun _ => 1 }⟩)]] }

/-- Non-vacuity of C151 and C152. -/
theorem demoPulse_hyps {dt : ℝ} (h0 : 0 < dt) (h1 : dt < 1) : 0 < demoPulse.runDt dt ∧
    (demoPulse.overrideDt dt).Passive ∧ (demoPulse.overrideDt dt).Linked ∧ (demoPulse.overrideDt dt).Matched ∧
    (∀ b ∈ (demoPulse.overrideDt dt).bundles, b.2.Stable) ∧ (demoPulse.overrideDt dt).ExcitedBelow 1 ∧
    (demoPulse.overrideDt dt).SilentFrom 1 ∧ demoPulse.Startable dt := by
  obtain ⟨-, a2, a3, a4, a5, a6, a7⟩ := demoCharged_hyps h0 h1
  have e0 : demoCharged.overrideDt dt = { bundles := (demoCharged.overrideDt dt).bundles, networks :=
      [[(0, ⟨1, 0, { demoTerm with vSources := fun _ _ => 0, v := fun _ => 1 }⟩)]], dt := dt } := by
    unfold MTLN.overrideDt
    rw [if_pos h0.ne']
    rfl
  have e1 : demoPulse.overrideDt dt = { bundles := (demoCharged.overrideDt dt).bundles, networks :=
      [[(0, ⟨1, 0, { demoTerm with vSources := fun _ t => if t < 1 then 1 else 0, v := fun _ => 1 }⟩)]], dt := dt } := by
    unfold MTLN.overrideDt
    rw [if_pos h0.ne', if_pos h0.ne']
    rfl
  have hr : demoPulse.runDt dt = dt := by rw [MTLN.runDt_eq, if_pos h0.ne']
  have hr' : demoCharged.runDt dt = dt := by rw [MTLN.runDt_eq, if_pos h0.ne']
  have hst : demoPulse.Startable dt := by
    refine ⟨by rw [hr]; exact h0.ne', ?_, ?_, ?_⟩
    · rw [e1]; exact a7.bundles
    · intro nwd hn e he
      obtain rfl := List.mem_singleton.1 hn
      obtain rfl := List.mem_singleton.1 he
      rw [hr]
      have := a7.nets _ List.mem_cons_self _ List.mem_cons_self
      rw [hr'] at this
      exact this
    · exact a7.nodes
  rw [e0] at a2 a3 a4 a5
  rw [e1]
  obtain ⟨B, hB⟩ : ∃ B, B = (demoCharged.overrideDt dt).bundles := ⟨_, rfl⟩
  rw [← hB] at a2 a3 a4 a5 a6 ⊢
  refine ⟨by rw [hr]; exact h0, ⟨a2.names, a2.bundles, ?_, a2.ends⟩, ⟨?_, ?_, a3.free⟩, ⟨a5.nodes, ?_, ?_⟩, a6, ⟨?_, ?_⟩, ⟨?_, ?_⟩, hst⟩
  · intro nwd hn e he
    obtain rfl := List.mem_singleton.1 hn
    obtain rfl := List.mem_singleton.1 he
    have := a2.networks _ List.mem_cons_self _ List.mem_cons_self
    exact ⟨this.Q1_symm, this.Q1, this.O, this.dxc, this.P1⟩
  · intro nwd hn e he
    obtain rfl := List.mem_singleton.1 hn
    obtain rfl := List.mem_singleton.1 he
    have := a3.v _ List.mem_cons_self _ List.mem_cons_self
    exact this
  · intro nwd hn e he
    obtain rfl := List.mem_singleton.1 hn
    obtain rfl := List.mem_singleton.1 he
    have := a3.i _ List.mem_cons_self _ List.mem_cons_self
    exact this
  · intro nwd hn e he
    obtain rfl := List.mem_singleton.1 hn
    obtain rfl := List.mem_singleton.1 he
    have := a5.dxc _ List.mem_cons_self _ List.mem_cons_self
    exact this
  · intro nwd hn e he
    obtain rfl := List.mem_singleton.1 hn
    obtain rfl := List.mem_singleton.1 he
    have := a5.apart _ List.mem_cons_self _ List.mem_cons_self
    exact this
  · intro b hb t
    have := a4.bundles b hb
    exact ⟨fun k x => by rw [this.1]; simp, fun k x => by rw [this.2]; simp⟩
  · intro nwd hn e he t
    obtain rfl := List.mem_singleton.1 hn
    obtain rfl := List.mem_singleton.1 he
    have := (a4.networks _ List.mem_cons_self _ List.mem_cons_self).2
    refine ⟨fun x => ?_, fun x => ?_⟩
    · show |if t < 1 then (1 : ℝ) else 0| ≤ 1
      split <;> simp
    · exact (congrArg abs (this x t)).trans_le (by simp)
  · intro b hb t _
    have := a4.bundles b hb
    exact ⟨fun k x => this.1 k x t, fun k x => this.2 k x t⟩
  · intro nwd hn e he t ht
    obtain rfl := List.mem_singleton.1 hn
    obtain rfl := List.mem_singleton.1 he
    have := (a4.networks _ List.mem_cons_self _ List.mem_cons_self).2
    exact ⟨fun x => if_neg (not_lt.2 ht), fun x => this x t⟩

/-- A line whose ends are at voltage zero (no network is attached), in a constant tangential field. -/
noncomputable def demoEmf : MTLN 0 := { bundles := [⟨1, { demoOne with eL := fun _ _ _ => 1 }⟩], networks := [], dt := 1 }

/-- The line during a run: no voltages, the same current `t` everywhere, at time `t`. -/
def EmfState (B : MTLD 1 0) (lr : LR 1) (cg : CG 1) (M : MTLN 0) : Prop :=
  M.networks = [] ∧ M.dt = B.dt ∧ ∃ (i : Grid 1) (phi : Memory 1 0) (probes : List (Probe 1)),
    M.bundles = [⟨1, { B with v := fun _ => 0, i := i, phi := phi, probes := probes, lr := some lr, cg := some cg }⟩] ∧
    ∀ k < 2, ∀ a, i k a = M.time

theorem EmfState.step {dt : ℝ} {lr : LR 1} {cg : CG 1} {B : MTLD 1 0} (h0 : 0 < dt) (hBd : B.dt = dt)
    (hB : B = { demoOne with eL := fun _ _ _ => 1, dt := dt })
    (hlr : updateLr B.m B.dt B.dun B.l B.r B.tz = .ok lr) {M M' : MTLN 0} (hM : EmfState B lr cg M)
    (h : M.step = .ok M') : EmfState B lr cg M' := by
  obtain ⟨hn, hd, i, phi, probes, hb, hi⟩ := hM
  obtain ⟨nws1, bs2, nws2, k1, -, k3, k4, rfl⟩ := MTLN.step_ok_iff.1 h
  rw [hn] at k1
  simp only [mapPy, Except.ok.injEq] at k1
  subst k1
  simp only [mapPy, Except.ok.injEq] at k4
  subst k4
  rw [hb] at k3
  simp only [mapPy, bind_ok_iff, Except.ok.injEq, onBundle_ok_iff, exists_eq_left'] at k3
  obtain ⟨_, ⟨c, hc, rfl⟩, rfl⟩ := k3
  obtain ⟨lr', cg', e1, e2, -, rfl⟩ := MTLD.stepWith_ok_iff.1 hc
  obtain rfl := Option.some.inj e1
  obtain rfl := Option.some.inj e2
  have hm : B.m = 2 := by subst hB; rfl
  have hl : ∀ k, B.l k = 1 := by subst hB; exact fun _ => rfl
  have hr : ∀ k, B.r k = 0 := by subst hB; exact fun _ => rfl
  have hD : ∀ k, B.tz.d k = 0 := by subst hB; exact fun _ => rfl
  have hE : ∀ k, B.tz.e k = 0 := by subst hB; exact fun _ => rfl
  have hq1 : ∀ k, B.tz.q1sum k = 0 := by subst hB; exact demo_q1sum (demoBare 0)
  have hq2 : ∀ k, B.tz.q2sum k = 0 := by
    subst hB
    intro k
    ext a b
    show vSum (demoBare 0).conn.q2 k a b = 0
    simp [vSum, QEntry.val, poleSum]
  have hdun : ∀ k < 2, B.dun k = 1 := by rw [hB]; exact fun k hk => if_pos hk
  have hv : ∀ k, k < 2 → i k = fun _ => M.time := fun k hk => funext fun a => hi k hk a
  obtain ⟨b, hbdef⟩ : ∃ b : MTLD 1 0, b = { B with v := fun _ => 0, i := i, phi := phi, probes := probes, lr := some lr, cg := some cg } :=
    ⟨_, rfl⟩
  rw [← hbdef]
  have hbm : b.m = 2 := by rw [hbdef]; exact hm
  have hV : (b.fieldsWith lr cg M.time M.dt (allWrites [])).v = fun _ => 0 := by
    show advanceVoltage b.m cg (b.sample M.time M.dt) b.v b.i = _
    funext k
    unfold advanceVoltage
    split
    · rename_i hk
      rw [hbm] at hk
      obtain rfl : k = 1 := by omega
      have e1 : b.v 1 = 0 := by rw [hbdef]
      have e2 : b.i 1 - b.i (1 - 1) = 0 := by
        rw [hbdef]
        show i 1 - i 0 = 0
        rw [hv 0 (by norm_num), hv 1 (by norm_num), sub_self]
      have e3 : (b.sample M.time M.dt).eTNow 1 - (b.sample M.time M.dt).eTPrev 1 = 0 := by
        rw [hbdef, hB]
        funext a
        show (0 : ℝ) - 0 = 0
        ring
      rw [e1, e2, e3]
      simp
    · rw [hbdef]
  have hI : ∀ k < 2, ∀ a, (b.fieldsWith lr cg M.time M.dt (allWrites [])).i k a = M.time + M.dt := by
    intro k hk a
    rw [MTLD.fieldsWith_i, hV]
    unfold advanceCurrent
    rw [if_pos (by rw [hbm]; exact hk)]
    obtain ⟨-, hdet, rfl⟩ := updateLr_ok_iff.1 hlr
    have hF1 : lrF1 B.dt B.dun B.l B.r B.tz k = (1 / dt) • (1 : Mat 1) := by
      unfold lrF1
      rw [hdun k hk, hBd, hl, hr, hD, hE, hq1]
      simp
    have hF2 : lrF2 B.dt B.dun B.l B.r B.tz k = (1 / dt) • (1 : Mat 1) := by
      unfold lrF2
      rw [hdun k hk, hBd, hl, hr, hD, hE, hq2]
      simp
    have hinv : ((1 / dt) • (1 : Mat 1))⁻¹ = dt • (1 : Mat 1) := by
      refine inv_eq_right_inv ?_
      rw [smul_mul_smul_comm, one_mul, one_div, inv_mul_cancel₀ h0.ne', one_smul]
    have h3 : b.tz.q3phi b.phi k = 0 := by
      funext a
      simp [Disp.q3phi, poleSum]
    simp only [hF1, hF2, hinv, h3]
    have hsrc : b.dun k / 2 = 1 / 2 := by
      rw [hbdef]
      show B.dun k / 2 = _
      rw [hdun k hk]
    have e1 : (b.sample M.time M.dt).eLNow k + (b.sample M.time M.dt).eLPrev k = fun _ => 2 := by
      rw [hbdef, hB]
      funext a
      show (1 : ℝ) + 1 = 2
      norm_num
    have e2 : (b.sample M.time M.dt).eTNow (k + 1) - (b.sample M.time M.dt).eTNow k = 0 := by
      rw [hbdef, hB]
      funext a
      show (0 : ℝ) - 0 = 0
      ring
    have e3 : b.i k = fun _ => M.time := by
      rw [hbdef]
      exact hv k hk
    rw [hsrc, e1, e2, e3, hd, hBd]
    simp [smul_mulVec, h0.ne']
  refine ⟨rfl, hd, (b.fieldsWith lr cg M.time M.dt (allWrites [])).i, (b.fieldsWith lr cg M.time M.dt (allWrites [])).phi,
    b.probes.map fun q => q.saveFrame (q.stamp (M.time + M.dt))
      (q.column b.m (b.fieldsWith lr cg M.time M.dt (allWrites [])).v (b.fieldsWith lr cg M.time M.dt (allWrites [])).i),
    ?_, hI⟩
  refine Eq.trans (b := [⟨1, { B with
    v := (b.fieldsWith lr cg M.time M.dt (allWrites [])).v
    i := (b.fieldsWith lr cg M.time M.dt (allWrites [])).i
    phi := (b.fieldsWith lr cg M.time M.dt (allWrites [])).phi
    probes := b.probes.map fun q => q.saveFrame (q.stamp (M.time + M.dt))
      (q.column b.m (b.fieldsWith lr cg M.time M.dt (allWrites [])).v (b.fieldsWith lr cg M.time M.dt (allWrites [])).i)
    lr := some lr
    cg := some cg }⟩]) ?_ ?_
  · subst hbdef
    rfl
  · rw [hV]

/-- The growth of C151 happens: a lossless line with both ends at zero in a constant field, with a time step below the
automatic one, has a current equal to the simulated time. -/
theorem C151_sharp {dt : ℝ} (h0 : 0 < dt) (h1 : dt < 1) : 0 < demoEmf.runDt dt ∧
    (demoEmf.overrideDt dt).Passive ∧ (demoEmf.overrideDt dt).Linked ∧ (demoEmf.overrideDt dt).Matched ∧
    (∀ b ∈ (demoEmf.overrideDt dt).bundles, b.2.Stable) ∧ (demoEmf.overrideDt dt).ExcitedBelow 1 ∧
    ∀ T, ∃ M', demoEmf.runUntil T dt = .ok M' ∧ M'.time = ⌊T / dt⌋.toNat * dt ∧
      ∃ b : MTLD 1 0, M'.bundles = [⟨1, b⟩] ∧ ∀ k < 2, ∀ a, b.i k a = M'.time := by
  obtain ⟨-, a2, -, -, -, a6, a7⟩ := demoCharged_hyps h0 h1
  have e0 : (demoCharged.overrideDt dt).bundles =
      [⟨1, { demoOne with v := fun k _ => if k = 2 then 0 else 1, dt := dt }⟩] := by
    unfold MTLN.overrideDt
    rw [if_pos h0.ne']
    rfl
  obtain ⟨B, hB⟩ : ∃ B : MTLD 1 0, B = { demoOne with eL := fun _ _ _ => 1, dt := dt } := ⟨_, rfl⟩
  have e1 : demoEmf.overrideDt dt = { bundles := [⟨1, B⟩], networks := [], dt := dt } := by
    unfold MTLN.overrideDt
    rw [if_pos h0.ne', hB]
    rfl
  have hr : demoEmf.runDt dt = dt := by rw [MTLN.runDt_eq, if_pos h0.ne']
  have b2 := (a2.bundles _ (by rw [e0]; exact List.mem_cons_self)).1
  have b6 := a6 _ (by rw [e0]; exact List.mem_cons_self)
  have b7 := a7.bundles _ (by rw [e0]; exact List.mem_cons_self)
  have hx0 : ∀ x, endV [(⟨1, B⟩ : AnyBundle 0)] x = 0 := by
    intro x
    unfold endV
    cases hf : findBundle [(⟨1, B⟩ : AnyBundle 0)] x.bundle with
    | none => rfl
    | some c =>
      obtain rfl := List.mem_singleton.1 (findBundle_some hf).1
      simp only
      split
      · subst hB; rfl
      · rfl
  have hst : demoEmf.Startable dt := by
    refine ⟨by rw [hr]; exact h0.ne', ?_, fun nwd hn => absurd hn (by simp [demoEmf]), fun d hd =>
      absurd hd (by simp [demoEmf, allNodes])⟩
    rw [e1]
    intro b hb
    obtain rfl := List.mem_singleton.1 hb
    subst hB
    exact b7
  have hp : (demoEmf.overrideDt dt).Passive := by
    rw [e1]
    refine ⟨by simp, ?_, fun nwd hn => absurd hn (by simp), by simp [allNodes]⟩
    intro b hb
    obtain rfl := List.mem_singleton.1 hb
    subst hB
    exact ⟨⟨b2.1, b2.2, b2.3, b2.4, b2.5, b2.6, b2.7, b2.8, b2.9, b2.10, b2.11, b2.12⟩, rfl⟩
  have hl : (demoEmf.overrideDt dt).Linked := by
    rw [e1]
    exact ⟨fun nwd hn => absurd hn (by simp), fun nwd hn => absurd hn (by simp), fun x _ => hx0 x⟩
  refine ⟨by rw [hr]; exact h0, hp, hl, ?_, ?_, ?_, ?_⟩
  · rw [e1]
    exact ⟨fun d hd => absurd hd (by simp [allNodes]), fun nwd hn => absurd hn (by simp), fun nwd hn => absurd hn (by simp)⟩
  · rw [e1]
    intro b hb
    obtain rfl := List.mem_singleton.1 hb
    obtain ⟨C, d, c1, c2, c3⟩ := b6
    subst hB
    exact ⟨C, d, ⟨c1.1, c1.2, c1.3, c1.4, c1.5⟩, c2, c3⟩
  · rw [e1]
    refine ⟨?_, fun nwd hn => absurd hn (by simp)⟩
    intro b hb t
    obtain rfl := List.mem_singleton.1 hb
    subst hB
    refine ⟨fun k x => ?_, fun k x => ?_⟩
    · show |(1 : ℝ)| ≤ 1
      simp
    · show |(0 : ℝ)| ≤ 1
      simp
  · intro T
    obtain ⟨M', hM'⟩ := hst.run T
    refine ⟨M', hM', ?_⟩
    obtain ⟨k, M0, hs0, tr, htr0, htrk, hs⟩ := MTLN.runUntil_ok_iff.1 hM'
    obtain ⟨hsound, -, ht0, hd0, -⟩ := MTLN.start_sound hs0 (by rw [hr]; exact h0) hp hl
    obtain ⟨nws, bs, k1, k2, k3, k4, hM0⟩ := MTLN.start_ok_iff.1 hs0
    have hn0 : demoEmf.networks = [] := rfl
    rw [hn0] at k1
    simp only [mapPy, Except.ok.injEq] at k1
    subst k1
    rw [e1] at k4
    simp only [mapPy, bind_ok_iff, Except.ok.injEq, onBundle_ok_iff, exists_eq_left'] at k4
    obtain ⟨_, ⟨c, hc, rfl⟩, rfl⟩ := k4
    obtain ⟨lr, cg, hlr, hcg, rfl⟩ := MTLD.start_ok_iff.1 hc
    have hstate : ∀ j ≤ k, EmfState B lr cg (tr j) := by
      intro j
      induction j with
      | zero =>
        intro _
        rw [htr0, hM0, e1]
        refine ⟨rfl, by subst hB; rfl, B.i, B.phi, B.probes.map (Probe.resizeFrames k), ?_, ?_⟩
        · have : B.v = fun _ => 0 := by subst hB; rfl
          rw [← this]
        · intro k _ a
          subst hB
          rfl
      | succ j ih =>
        intro hj
        exact (ih (by omega)).step h0 (by subst hB; rfl) hB hlr (hs j (by omega))
    obtain ⟨-, -, i, phi, probes, hbs, hi⟩ := hstate k le_rfl
    rw [htrk] at hbs hi
    refine ⟨?_, _, hbs, hi⟩
    have ht := (sound_trace (by rw [htr0]; exact hsound) hs k le_rfl).2.1
    rw [htrk, htr0, ht0, hd0, e1] at ht
    rw [ht, k3, hr]
    simp

/-- Non-vacuity of C151 and C152: the fed line has runs of any length. -/
example : ∃ K, ∀ T, ∃ M', demoPulse.runUntil T (1 / 2) = .ok M' ∧ ∀ b ∈ M'.bundles,
    (∀ k ≤ b.2.m, ∀ a, |b.2.v k a| ≤ K) ∧ ∀ k < b.2.m, ∀ a, |b.2.i k a| ≤ K := by
  obtain ⟨a1, a2, a3, a4, a5, a6, a7, a8⟩ := demoPulse_hyps (dt := 1 / 2) (by norm_num) (by norm_num)
  obtain ⟨K, hK⟩ := C152_pulse demoPulse (1 / 2) 1 1 a1 a2 a3 a4 a5 a6 a7
  refine ⟨K, fun T => ?_⟩
  obtain ⟨M', hM'⟩ := a8.run T
  exact ⟨M', hM', hK T M' hM'⟩

end Mtln
