import Verif.Lemmas.Spectrum
import Verif.Props.Port
import Verif.Props.Runs

/-! # Spectra of the responses to pulses: C180 -/

namespace Mtln

open Matrix Filter Topology

variable {n p : ℕ}

theorem MTL.ForcedStep.congr {s y : MTL n p} {τ : ℝ} {W0 W1 : Col n} {F F' H v i v' i' : Grid n} (hc : s.SameConfig y)
    (h : y.ForcedStep τ W0 W1 F F' H v i v' i') : s.ForcedStep τ W0 W1 F F' H v i v' i' := by
  constructor
  · have := h.cell
    rwa [hc.m, hc.dun, hc.l, hc.conn, hc.dt, hc.r] at this
  · have := h.node
    rwa [hc.m, hc.dun, hc.c, hc.g, hc.dt] at this
  · have := h.first
    rwa [hc.dun, hc.c, hc.g, hc.zs, hc.dt] at this
  · have := h.last
    rwa [hc.m, hc.dun, hc.c, hc.g, hc.zl, hc.dt] at this

/-- The sum `∑ x(t + j dt) exp(-iω(t + j dt))` over `N + 1` samples. -/
noncomputable def spectrum (ω t dt : ℝ) (x : ℕ → Col n) (N : ℕ) : Fin n → ℂ := fun a =>
  ∑ j ∈ Finset.range (N + 1), Complex.exp (-(ω * (t + j * dt) : ℝ) * Complex.I) * (x j a : ℂ)

theorem spectrum_fourier (ω t dt : ℝ) (x : ℕ → Col n) (N : ℕ) :
    spectrum ω t dt x N = fourier (Complex.exp (-(ω * t : ℝ) * Complex.I)) (halfTurn (ω * dt)) x N := by
  funext a
  rw [fourier, Finset.sum_apply]
  refine Finset.sum_congr rfl fun j _ => ?_
  rw [Pi.smul_apply, cvec_apply, smul_eq_mul, halfTurn, ← Complex.exp_nat_mul, ← Complex.exp_add]
  congr 2
  push_cast
  ring

theorem spectrum_fourier_half (ω t dt : ℝ) (x : ℕ → Col n) (N : ℕ) :
    spectrum ω (t + dt / 2) dt x N =
      fourier (Complex.exp (-(ω * t : ℝ) * Complex.I) * halfTurn (ω * dt)) (halfTurn (ω * dt)) x N := by
  rw [spectrum_fourier]
  congr 1
  rw [halfTurn, ← Complex.exp_add]
  congr 1
  push_cast
  ring

/-- Samples that are zero do not count. -/
theorem spectrum_support {ω t dt : ℝ} {x : ℕ → Col n} {M : ℕ} (h : ∀ j > M, x j = 0) {N : ℕ} (hN : M ≤ N) :
    spectrum ω t dt x N = spectrum ω t dt x M := by
  funext a
  refine (Finset.sum_subset (Finset.range_mono (by omega)) fun j _ hj => ?_).symm
  rw [h j (by simpa using hj), Pi.zero_apply, Complex.ofReal_zero, mul_zero]

/-- The voltage of the sources at a node at the time of the `j`-th voltages. -/
def MTL.drive (s : MTL n p) (k j : ℕ) : Col n := fun x => s.vSources k x (s.time - s.dt + j * s.dt)

/-- A line at rest without fields whose sources at the ends are zero before the first step and from step `M` on. -/
structure MTL.Pulse (s : MTL n p) (M : ℕ) : Prop where
  v : ∀ k ≤ s.m, s.v k = 0
  i : ∀ k < s.m, s.i k = 0
  first : s.drive 0 0 = 0
  last : s.drive s.m 0 = 0
  first_end : ∀ j > M, s.drive 0 j = 0
  last_end : ∀ j > M, s.drive s.m j = 0
  eL : s.eL = 0
  eT : s.eT = 0

section

variable {s : MTL n p} {C : Mat n} {d τ θ : ℝ} {M : ℕ}

/-- What is left in the last step. -/
noncomputable def MTL.leftover (s : MTL n p) (τ θ : ℝ) (u y : ℕ → Fin n → ℂ) : ACState n s.m :=
  (fun k => if (k : ℕ) = 0 then
      (1 / 2 : ℝ) • u 0 + cx s.zs *ᵥ (y 0 - (s.dun 0 / 2) • ((1 / τ) • (cx (s.c 0) *ᵥ u 0) - (1 / 2 : ℝ) • (cx (s.g 0) *ᵥ u 0)))
    else if (k : ℕ) = s.m then
      (1 / 2 : ℝ) • u s.m + cx s.zl *ᵥ (-y (s.m - 1) - (s.dun (s.m - 1) / 2) •
        ((1 / τ) • (cx (s.c s.m) *ᵥ u s.m) - (1 / 2 : ℝ) • (cx (s.g s.m) *ᵥ u s.m)))
    else -(((s.dun (k - 1) + s.dun k) / 2) • ((1 / s.dt) • (cx (s.c k) *ᵥ u k) - (1 / 2 : ℝ) • (cx (s.g k) *ᵥ u k))) + (y k - y (k - 1)),
    fun k => -(s.dun k • ((1 / s.dt) • (cx (s.l k + s.conn.e k) *ᵥ (halfTurn θ • y k)) -
      (1 / 2 : ℝ) • (cx (s.r k + s.conn.d k) *ᵥ (halfTurn θ • y k)))))

theorem almost_map (hm0 : 0 < s.m) {E0 E1 : Fin n → ℂ} {V I u y : ℕ → Fin n → ℂ} (h : s.AlmostAC τ θ E0 E1 V I u y) :
    s.acMap τ θ (fun k => V k, fun k => I k) = s.acSource θ E0 E1 0 0 + s.leftover τ θ u y := by
  have sp : ∀ k ≤ s.m, spread (fun k : Fin (s.m + 1) => V k) k = V k := by
    intro k hk
    unfold spread
    rw [dif_pos (by omega)]
  have sp' : ∀ k < s.m, spread (fun k : Fin s.m => I k) k = I k := by
    intro k hk
    unfold spread
    rw [dif_pos hk]
  have z0 : ∀ k, (0 : ℕ → Fin n → ℂ) k = 0 := fun _ => rfl
  refine Prod.ext (funext fun k => ?_) (funext fun k => ?_)
  · simp only [MTL.acMap, MTL.acSource, MTL.leftover, LinearMap.coe_mk, AddHom.coe_mk, Prod.fst_add, Pi.add_apply]
    have hm : 0 < s.m ∨ s.m = 0 := by omega
    split_ifs with h0 h1
    · have e := h.first
      rw [sp 0 (Nat.zero_le _)]
      rcases hm with hm | hm
      · rw [sp' 0 hm]
        simp only [z0, smul_zero, mulVec_zero, sub_zero, mulVec_add, mulVec_sub, mulVec_smul, smul_add, smul_sub] at e ⊢
        linear_combination (norm := module) (1 / 2 : ℝ) • e
      · exact absurd hm hm0.ne'
    · have e := h.last
      rw [sp s.m le_rfl, sp' (s.m - 1) (by omega)]
      simp only [z0, smul_zero, mulVec_zero, sub_zero, mulVec_add, mulVec_sub, mulVec_smul, smul_add, smul_sub, mulVec_neg] at e ⊢
      linear_combination (norm := module) (1 / 2 : ℝ) • e
    · have e := h.node k (Nat.pos_of_ne_zero h0) (by omega)
      rw [sp k (by omega), sp' k (by omega), sp' (k - 1) (by omega)]
      simp only [z0, smul_zero, mulVec_zero, add_zero, neg_zero, mulVec_add, mulVec_sub, mulVec_smul, smul_add, smul_sub] at e ⊢
      linear_combination (norm := module) e
  · simp only [MTL.acMap, MTL.acSource, MTL.leftover, LinearMap.coe_mk, AddHom.coe_mk, Prod.snd_add, Pi.add_apply]
    have e := h.cell k k.2
    rw [sp' k k.2, sp k (by omega), sp (k + 1) (by omega)]
    simp only [z0, smul_zero, sub_zero, neg_zero, mulVec_add, mulVec_sub, mulVec_smul, smul_add, smul_sub] at e ⊢
    linear_combination (norm := module) e

theorem leftover_congr {u u' y y' : ℕ → Fin n → ℂ} (hm : 0 < s.m) (hu : ∀ k ≤ s.m, u k = u' k) (hy : ∀ k < s.m, y k = y' k) :
    s.leftover τ θ u y = s.leftover τ θ u' y' := by
  refine Prod.ext (funext fun k => ?_) (funext fun k => ?_)
  · simp only [MTL.leftover]
    split_ifs with h0 h1
    · rw [hu 0 (Nat.zero_le _), hy 0 hm]
    · rw [hu s.m le_rfl, hy (s.m - 1) (by omega)]
    · rw [hu k (by omega), hy k (by omega), hy (k - 1) (by omega)]
  · simp only [MTL.leftover]
    rw [hy k k.2]

theorem spread_continuous {m : ℕ} (k : ℕ) : Continuous fun v : Fin m → Fin n → ℂ => spread v k := by
  unfold spread
  split_ifs
  · exact continuous_apply _
  · exact continuous_const

theorem leftover_continuous : Continuous fun w : ACState n s.m => s.leftover τ θ (spread w.1) (spread w.2) := by
  have a : ∀ k, Continuous fun w : ACState n s.m => spread w.1 k := fun k => (spread_continuous k).comp continuous_fst
  have b : ∀ k, Continuous fun w : ACState n s.m => spread w.2 k := fun k => (spread_continuous k).comp continuous_snd
  have mv : ∀ (A : Mat n) {f : ACState n s.m → Fin n → ℂ}, Continuous f → Continuous fun w => cx A *ᵥ f w := fun A f hf =>
    continuous_const.matrix_mulVec hf
  have sr : ∀ (r : ℝ) {f : ACState n s.m → Fin n → ℂ}, Continuous f → Continuous fun w => r • f w := fun r f hf => hf.const_smul r
  refine Continuous.prodMk (continuous_pi fun k => ?_) (continuous_pi fun k => ?_)
  · show Continuous fun w : ACState n s.m => if (k : ℕ) = 0 then _ else if (k : ℕ) = s.m then _ else _
    split_ifs
    · exact (sr _ (a 0)).add (mv _ ((b 0).sub (sr _ ((sr _ (mv _ (a 0))).sub (sr _ (mv _ (a 0)))))))
    · exact (sr _ (a _)).add (mv _ ((b _).neg.sub (sr _ ((sr _ (mv _ (a _))).sub (sr _ (mv _ (a _)))))))
    · exact (sr _ ((sr _ (mv _ (a _))).sub (sr _ (mv _ (a _))))).neg.add ((b _).sub (b _))
  · have c : Continuous fun w : ACState n s.m => halfTurn θ • spread w.2 k := (continuous_const_smul (halfTurn θ)).comp (b k)
    exact (sr _ ((sr _ (mv _ c)).sub (sr _ (mv _ c)))).neg

/-- The steps of a line at rest after a pulse. -/
theorem MTL.Pulse.steps {lr : LR n} {cg : CG n} (hx : s.Pulse M) (hp : s.Passive) (hτ : τ ≠ 0) (ht : s.TermFor τ)
    (hlr : updateLr s.m s.dt s.dun s.l s.r s.conn = .ok lr) (hcg : updateCg s.m s.dt s.dun s.c s.g = .ok cg) (j : ℕ) :
    s.ForcedStep τ (s.drive 0 (j + 1) + s.drive 0 j) (s.drive s.m (j + 1) + s.drive s.m j) 0 0 0
      ((MTL.advanceFields lr cg)^[j] s).v ((MTL.advanceFields lr cg)^[j] s).i
      ((MTL.advanceFields lr cg)^[j + 1] s).v ((MTL.advanceFields lr cg)^[j + 1] s).i := by
  have hc := iterate_advanceFields_config lr cg s j
  have htime := iterate_advanceFields_time lr cg s j
  rw [iterate_succ_fields]
  obtain ⟨y, hy⟩ : ∃ y, y = (MTL.advanceFields lr cg)^[j] s := ⟨_, rfl⟩
  rw [← hy] at hc htime ⊢
  have f := forced_step (s := y) (lr := lr) (cg := cg) (hp.congr hc) hτ (ht.congr hc)
    (by rw [hc.m, hc.dt, hc.dun, hc.l, hc.r, hc.conn]; exact hlr) (by rw [hc.m, hc.dt, hc.dun, hc.c, hc.g]; exact hcg)
  have e0 : ∀ k, y.sample.vNow k = s.drive k (j + 1) := by
    intro k
    funext x
    simp only [MTL.sample, sampleSources, hc.vSources, MTL.drive, htime]
    congr 1
    push_cast
    ring
  have e1 : ∀ k, y.sample.vPrev k = s.drive k j := by
    intro k
    funext x
    simp only [MTL.sample, sampleSources, hc.vSources, MTL.drive, htime, hc.dt]
    congr 1
    ring
  have e2 : y.sample.eTPrev = 0 := by funext k x; simp [MTL.sample, sampleSources, hc.eT, hx.eT]
  have e3 : y.sample.eTNow = 0 := by funext k x; simp [MTL.sample, sampleSources, hc.eT, hx.eT]
  have e4 : y.sample.eLNow + y.sample.eLPrev = 0 := by funext k x; simp [MTL.sample, sampleSources, hc.eL, hx.eL]
  rw [e0, e1, e0, e1, e2, e3, e4, hc.m] at f
  exact f.congr hc

/-- After a pulse voltages and currents die out. -/
theorem MTL.Pulse.die {lr : LR n} {cg : CG n} (hx : s.Pulse M) (hp : s.Passive) (hr : s.Regular C) (hτ : s.dt ≤ τ) (ht : s.TermFor τ)
    (hauto : maxTimestep s.m s.dun s.l s.c = .ok d) (hlt : s.dt * τ < d ^ 2) (ha : Absorbing s.zs ∨ Absorbing s.zl)
    (hs : Absorbing s.zs ∨ s.zsᵀ = s.zs) (hl : Absorbing s.zl ∨ s.zlᵀ = s.zl)
    (hlr : updateLr s.m s.dt s.dun s.l s.r s.conn = .ok lr) (hcg : updateCg s.m s.dt s.dun s.c s.g = .ok cg) :
    ∀ ε > 0, ∃ J, ∀ j ≥ J, (∀ k ≤ s.m, ∀ a, |((MTL.advanceFields lr cg)^[j] s).v k a| ≤ ε) ∧
      ∀ k < s.m, ∀ a, |((MTL.advanceFields lr cg)^[j] s).i k a| ≤ ε := by
  have hdt := hp.dt_pos
  have hτ0 : τ ≠ 0 := (lt_of_lt_of_le hdt hτ).ne'
  have zero : ∀ k ≤ s.m, s.drive k 0 = 0 → (s.v k - fun x => s.vSources k x (s.time - s.dt)) = 0 := by
    intro k hk h0
    rw [hx.v k hk, zero_sub, neg_eq_zero, ← h0]
    funext x
    simp [MTL.drive]
  have comp : ∀ {Z : Mat n}, (Absorbing Z ∨ Zᵀ = Z) → Compatible Z (0 : Col n) := by
    intro Z h
    exact h.imp id fun h => ⟨h, 0, by rw [mulVec_zero]⟩
  obtain ⟨c0, c1⟩ := ends_compatible (lr := lr) (cg := cg) hp.cells hτ0 ht (by rw [zero 0 (Nat.zero_le _) hx.first]; exact comp hs)
    (by rw [zero s.m le_rfl hx.last]; exact comp hl) (M + 1)
  have e0 : ∀ k, s.drive k (M + 1) = 0 → (fun x => s.vSources k x (s.time + ((M + 1 : ℕ) : ℝ) * s.dt - s.dt)) = 0 := by
    intro k h
    rw [← h]
    funext x
    unfold MTL.drive
    congr 1
    push_cast
    ring
  rw [e0 0 (hx.first_end _ (by omega)), sub_zero] at c0
  rw [e0 s.m (hx.last_end _ (by omega)), sub_zero] at c1
  have die := oscillations_die (s := s) (τ := τ) (C := C) (d := d)
    (x := fun j => ((MTL.advanceFields lr cg)^[M + 1 + j] s).v) (y := fun j => ((MTL.advanceFields lr cg)^[M + 1 + j] s).i)
    hp hr hτ hauto hlt (fun j => ?_) ha c0 c1
  · intro ε hε
    obtain ⟨J, hJ⟩ := die ε hε
    refine ⟨M + 1 + J, fun j hj => ?_⟩
    obtain ⟨r, rfl⟩ := Nat.exists_eq_add_of_le hj
    have := hJ (J + r) (by omega)
    rw [← add_assoc] at this
    exact this
  · have := hx.steps hp hτ0 ht hlr hcg (M + 1 + j)
    rw [hx.first_end _ (by omega), hx.first_end _ (by omega), hx.last_end _ (by omega), hx.last_end _ (by omega), add_zero] at this
    exact this.free

/-- **C180** The spectrum of the response of a line to a pulse, computed from the steps of a run, tends to the solution of the circuit
for alternating current with the spectrum of the pulse as the runs get longer. -/
theorem C180_spectrum {ω : ℝ} (hx : s.Pulse M) (hp : s.Passive) (hr : s.Regular C) (hτ : s.dt ≤ τ) (ht : s.TermFor τ)
    (hauto : maxTimestep s.m s.dun s.l s.c = .ok d) (hlt : s.dt * τ < d ^ 2) (ha : Absorbing s.zs ∨ Absorbing s.zl)
    (hs : Absorbing s.zs ∨ s.zsᵀ = s.zs) (hl : Absorbing s.zl ∨ s.zlᵀ = s.zl) (hγ : Real.cos (ω * s.dt / 2) ≠ 0) {V I : ℕ → Fin n → ℂ}
    (h : s.AC τ (ω * s.dt) (spectrum ω (s.time - s.dt) s.dt (s.drive 0) M) (spectrum ω (s.time - s.dt) s.dt (s.drive s.m) M) 0 0 V I) :
    ∀ ε > 0, ∃ J, ∀ (T : ℝ) (t' : MTL n p) (N : ℕ) (tr : ℕ → MTL n p), RunTrace s T t' N tr → J ≤ N →
      (∀ k ≤ s.m, ∀ a, ‖spectrum ω (s.time - s.dt) s.dt (fun j => (tr j).v k) N a - V k a‖ ≤ ε) ∧
      ∀ k < s.m, ∀ a, ‖spectrum ω (s.time - s.dt / 2) s.dt (fun j => (tr j).i k) N a - I k a‖ ≤ ε := by
  have hdt := hp.dt_pos
  have hm := hp.cells
  have hτ0 : τ ≠ 0 := (lt_of_lt_of_le hdt hτ).ne'
  by_cases hok : (∃ lr, updateLr s.m s.dt s.dun s.l s.r s.conn = .ok lr) ∧ ∃ cg, updateCg s.m s.dt s.dun s.c s.g = .ok cg
  swap
  · intro ε _
    refine ⟨0, fun T t' N tr R => ?_⟩
    obtain ⟨lr, cg, hlr, hcg, -⟩ := R.closed
    exact absurd ⟨⟨lr, hlr⟩, cg, hcg⟩ hok
  obtain ⟨⟨lr, hlr⟩, cg, hcg⟩ := hok
  obtain ⟨v, hv⟩ : ∃ v : ℕ → Grid n, v = fun j => ((MTL.advanceFields lr cg)^[j] s).v := ⟨_, rfl⟩
  obtain ⟨i, hi⟩ : ∃ i : ℕ → Grid n, i = fun j => ((MTL.advanceFields lr cg)^[j] s).i := ⟨_, rfl⟩
  obtain ⟨q, hq⟩ : ∃ q, q = halfTurn (ω * s.dt) := ⟨_, rfl⟩
  obtain ⟨z, hz⟩ : ∃ z, z = Complex.exp (-(ω * (s.time - s.dt) : ℝ) * Complex.I) := ⟨_, rfl⟩
  have nz : ‖z‖ = 1 := by rw [hz, ← Complex.ofReal_neg, Complex.norm_exp_ofReal_mul_I]
  have nq : ‖q‖ = 1 := by rw [hq, norm_halfTurn]
  have die := hx.die hp hr hτ ht hauto hlt ha hs hl hlr hcg
  -- what is left tends to zero
  obtain ⟨w, hw⟩ : ∃ w : ℕ → ACState n s.m, w = fun N => (fun k : Fin (s.m + 1) => (z * q ^ (2 * N + 1)) • cvec (v N k),
    fun k : Fin s.m => (z * q ^ (2 * N + 1)) • cvec (i N k)) := ⟨_, rfl⟩
  have nw : ∀ N, ‖z * q ^ (2 * N + 1)‖ = 1 := by intro N; rw [norm_mul, norm_pow, nz, nq, one_pow, one_mul]
  have hw0 : Tendsto w atTop (𝓝 0) := by
    rw [Prod.zero_eq_mk, hw]
    refine Tendsto.prodMk_nhds (tendsto_pi_nhds.2 fun k => tendsto_pi_nhds.2 fun a => ?_) (tendsto_pi_nhds.2 fun k => tendsto_pi_nhds.2 fun a => ?_)
    · rw [Metric.tendsto_atTop]
      intro ε hε
      obtain ⟨J, hJ⟩ := die (ε / 2) (by linarith)
      refine ⟨J, fun N hN => ?_⟩
      have := (hJ N hN).1 k (by omega) a
      rw [Pi.zero_apply, Pi.zero_apply, dist_zero_right, Pi.smul_apply, smul_eq_mul, norm_mul, nw, one_mul, norm_cvec, hv]
      linarith
    · rw [Metric.tendsto_atTop]
      intro ε hε
      obtain ⟨J, hJ⟩ := die (ε / 2) (by linarith)
      refine ⟨J, fun N hN => ?_⟩
      have := (hJ N hN).2 k k.2 a
      rw [Pi.zero_apply, Pi.zero_apply, dist_zero_right, Pi.smul_apply, smul_eq_mul, norm_mul, nw, one_mul, norm_cvec, hi]
      linarith
  -- the circuit has one solution
  obtain ⟨A, hA⟩ : ∃ A, A = s.acMap τ (ω * s.dt) := ⟨_, rfl⟩
  have inj : Function.Injective A := by
    rw [injective_iff_map_eq_zero]
    intro x hx0
    have hz : s.acSource (ω * s.dt) 0 0 0 0 = 0 := by
      unfold MTL.acSource
      refine Prod.ext (funext fun k => ?_) (funext fun k => ?_)
      · simp
      · simp
    rw [hA, ← hz] at hx0
    obtain ⟨h1, h2⟩ := ac_zero hp hr hτ hauto hlt ha hs hl hγ ((ac_iff hp.cells x).1 hx0)
    refine Prod.ext (funext fun k => ?_) (funext fun k => ?_)
    · rw [← spread_at x.1 k]; exact h1 k (by omega)
    · rw [← spread_at x.2 k]; exact h2 k k.2
  obtain ⟨Q, hQ⟩ : ∃ Q : ACState n s.m →ₗ[ℝ] ACState n s.m, ∀ x, Q (A x) = x :=
    ⟨(LinearEquiv.ofInjectiveEndo A inj).symm.toLinearMap, fun x => (LinearEquiv.ofInjectiveEndo A inj).symm_apply_apply x⟩
  obtain ⟨E, hE⟩ : ∃ E, E = s.acSource (ω * s.dt) (spectrum ω (s.time - s.dt) s.dt (s.drive 0) M)
    (spectrum ω (s.time - s.dt) s.dt (s.drive s.m) M) 0 0 := ⟨_, rfl⟩
  obtain ⟨x, hxs⟩ : ∃ x : ACState n s.m, x = (fun k : Fin (s.m + 1) => V k, fun k : Fin s.m => I k) := ⟨_, rfl⟩
  have hAx : A x = E := by
    have sp : ∀ k ≤ s.m, spread x.1 k = V k := by
      intro k hk
      rw [hxs]
      unfold spread
      rw [dif_pos (by omega)]
    have sp' : ∀ k < s.m, spread x.2 k = I k := by
      intro k hk
      rw [hxs]
      unfold spread
      rw [dif_pos hk]
    rw [hA, hE]
    refine (ac_iff hm x).2 ⟨fun k hk => ?_, fun k h0 hk => ?_, ?_, ?_⟩
    · rw [sp' k hk, sp k hk.le, sp (k + 1) hk]; exact h.cell k hk
    · rw [sp k hk.le, sp' k hk, sp' (k - 1) (by omega)]; exact h.node k h0 hk
    · rw [sp 0 (Nat.zero_le _), sp' 0 hm]; exact h.first
    · rw [sp s.m le_rfl, sp' (s.m - 1) (by omega)]; exact h.last
  obtain ⟨X, hX⟩ : ∃ X : ℕ → ACState n s.m, X = fun N => (fun k : Fin (s.m + 1) => fourier z q (fun j => v j k) N,
    fun k : Fin s.m => fourier (z * q) q (fun j => i j k) N) := ⟨_, rfl⟩
  have hAX : ∀ N ≥ M + 1, A (X N) = E + s.leftover τ (ω * s.dt) (spread (w N).1) (spread (w N).2) := by
    intro N hN
    have al := almost_ac (s := s) (τ := τ) (θ := ω * s.dt) z (S0 := s.drive 0) (S1 := s.drive s.m) (v := v) (i := i) (N := N)
      (by rw [hv]; exact hx.v) (by rw [hi]; exact hx.i) hx.first hx.last (hx.first_end N (by omega)) (hx.last_end N (by omega)) hm
      (by rw [hv, hi]; exact fun j => hx.steps hp hτ0 ht hlr hcg j)
    have e := almost_map hm al
    rw [← hq, hz, hq, ← spectrum_fourier, ← spectrum_fourier, spectrum_support hx.first_end (by omega : M ≤ N),
      spectrum_support hx.last_end (by omega : M ≤ N), ← hE, ← hz, ← hq] at e
    rw [hA, hX, e]
    congr 1
    refine leftover_congr hm (fun k hk => ?_) (fun k hk => ?_)
    · rw [hw]
      unfold spread
      rw [dif_pos (by omega)]
    · rw [hw]
      unfold spread
      rw [dif_pos hk]
  have lim : Tendsto X atTop (𝓝 x) := by
    have c1 : Tendsto (fun N => s.leftover τ (ω * s.dt) (spread (w N).1) (spread (w N).2)) atTop (𝓝 0) := by
      have := (leftover_continuous (s := s) (τ := τ) (θ := ω * s.dt)).tendsto 0
      have z0 : s.leftover τ (ω * s.dt) (spread (0 : ACState n s.m).1) (spread (0 : ACState n s.m).2) = 0 := by
        have : ∀ {m : ℕ} k, spread (0 : Fin m → Fin n → ℂ) k = 0 := by
          intro m k; unfold spread; split_ifs <;> rfl
        refine Prod.ext (funext fun k => ?_) (funext fun k => ?_)
        · simp [MTL.leftover, this]
        · simp [MTL.leftover, this]
      rw [z0] at this
      exact this.comp hw0
    have c2 : Tendsto (fun N => Q (E + s.leftover τ (ω * s.dt) (spread (w N).1) (spread (w N).2))) atTop (𝓝 (Q (E + 0))) :=
      (Q.continuous_of_finiteDimensional.tendsto _).comp (c1.const_add E)
    rw [add_zero, ← hAx, hQ] at c2
    refine c2.congr' ?_
    filter_upwards [eventually_ge_atTop (M + 1)] with N hN
    rw [hAx, ← hAX N hN, hQ]
  intro ε hε
  obtain ⟨J, hJ⟩ := (Metric.tendsto_atTop.1 lim) ε hε
  refine ⟨J, fun T t' N tr R hN => ?_⟩
  have hd := (hJ N hN).le
  rw [dist_eq_norm, hX, hxs] at hd
  have d1 := (norm_fst_le _).trans hd
  have d2 := (norm_snd_le _).trans hd
  have tv : ∀ k, spectrum ω (s.time - s.dt) s.dt (fun j => (tr j).v k) N = fourier z q (fun j => v j k) N := by
    intro k
    rw [hz, hq, ← spectrum_fourier]
    funext a
    refine Finset.sum_congr rfl fun j hj => ?_
    dsimp only
    rw [R.fields hlr hcg j (by simpa [Nat.lt_succ_iff] using hj), hv]
  have ti : ∀ k, spectrum ω (s.time - s.dt / 2) s.dt (fun j => (tr j).i k) N = fourier (z * q) q (fun j => i j k) N := by
    intro k
    rw [hz, hq, ← spectrum_fourier_half, show s.time - s.dt + s.dt / 2 = s.time - s.dt / 2 by ring]
    funext a
    refine Finset.sum_congr rfl fun j hj => ?_
    dsimp only
    rw [R.fields hlr hcg j (by simpa [Nat.lt_succ_iff] using hj), hi]
  refine ⟨fun k hk a => ?_, fun k hk a => ?_⟩
  · rw [tv]
    exact (pi_norm_le_iff_of_nonneg hε.le).1 ((pi_norm_le_iff_of_nonneg hε.le).1 d1 ⟨k, by omega⟩) a
  · rw [ti]
    exact (pi_norm_le_iff_of_nonneg hε.le).1 ((pi_norm_le_iff_of_nonneg hε.le).1 d2 ⟨k, hk⟩) a

/-- **C180** The fast Fourier transform of the rows that a voltage probe has recorded: at the frequencies that are multiples of
`1/(P dt)` it tends to the solution of the circuit for alternating current with the spectrum of the pulse, when the numbers of steps
are multiples of `P`. -/
theorem C180_fft {P a : ℕ} (haP : a < P) (hx : s.Pulse M) (h0 : s.time = 0) (hp : s.Passive) (hr : s.Regular C) (hτ : s.dt ≤ τ)
    (ht : s.TermFor τ) (hauto : maxTimestep s.m s.dun s.l s.c = .ok d) (hlt : s.dt * τ < d ^ 2)
    (ha : Absorbing s.zs ∨ Absorbing s.zl) (hs : Absorbing s.zs ∨ s.zsᵀ = s.zs) (hl : Absorbing s.zl ∨ s.zlᵀ = s.zl)
    (hγ : Real.cos (2 * Real.pi * a / (P * s.dt) * s.dt / 2) ≠ 0) {V I : ℕ → Fin n → ℂ}
    (h : s.AC τ (2 * Real.pi * a / (P * s.dt) * s.dt) (spectrum (2 * Real.pi * a / (P * s.dt)) (-s.dt) s.dt (s.drive 0) M)
      (spectrum (2 * Real.pi * a / (P * s.dt)) (-s.dt) s.dt (s.drive s.m) M) 0 0 V I) :
    ∀ ε > 0, ∃ B, ∀ b ≥ B, ∀ (T : ℝ) (s' : MTL n p), ⌊T / s.dt⌋.toNat = P * b → s.runUntil T = .ok s' →
      ∀ (x : ℕ) (q q' : Probe n) (r : List (Col n)), s.probes[x]? = some q → q.type = "voltage" → q.index ≤ s.m →
        s'.probes[x]? = some q' → q'.val = .rows r → ∀ c, ‖(dft (column r c)).getD (a * b) 0 - V q.index c‖ ≤ ε := by
  intro ε hε
  have hdt := hp.dt_pos
  obtain ⟨ω, hω⟩ : ∃ ω, ω = 2 * Real.pi * a / (P * s.dt) := ⟨_, rfl⟩
  rw [← hω] at h hγ
  have e0 : s.time - s.dt = -s.dt := by rw [h0, zero_sub]
  obtain ⟨J, hJ⟩ := C180_spectrum (ω := ω) hx hp hr hτ ht hauto hlt ha hs hl hγ (by rw [e0]; exact h) ε hε
  refine ⟨J + 1, fun b hb T s' hN hrun x q q' r hq hqt hqi hq' hr' c => ?_⟩
  obtain ⟨tr, R, -, hprobes⟩ := C01_run_frames s s' T hrun
  obtain ⟨-, -, -, hval⟩ := hprobes x q q' hq hq'
  rw [hN] at R hval
  rw [hr'] at hval
  simp only [hqt, if_true, ProbeVal.rows.injEq] at hval
  have hP : 0 < P := by omega
  have hJN : J ≤ P * b := by nlinarith
  have key := (hJ T s' (P * b) tr R hJN).1 q.index hqi c
  rw [e0] at key
  have hb0 : 0 < b := by omega
  have hab : a * b < P * b := Nat.mul_lt_mul_of_pos_right haP hb0
  have hPb : ((P * b : ℕ) : ℂ) ≠ 0 := by exact_mod_cast (by positivity : P * b ≠ 0)
  have lenr : r.length = P * b := by rw [hval]; simp
  have e1 : (dft (column r c)).getD (a * b) 0 = spectrum ω (-s.dt) s.dt (fun j => (tr j).v q.index) (P * b) c := by
    unfold dft spectrum
    have lenc : (column r c).length = P * b := by rw [column, List.length_map, lenr]
    rw [lenc, List.getD_eq_getElem?_getD, List.getElem?_map, List.getElem?_range hab, Finset.sum_range_succ']
    have t0 : (tr 0).v q.index c = 0 := by
      obtain ⟨lr, cg, hlr, hcg, -⟩ := R.closed
      rw [R.fields hlr hcg 0 (Nat.zero_le _)]
      show s.v q.index c = 0
      rw [hx.v _ hqi]
      rfl
    beta_reduce
    rw [t0, Complex.ofReal_zero, mul_zero, add_zero]
    show ∑ j ∈ _, _ = _
    refine Finset.sum_congr rfl fun j hj => ?_
    have hj : j < P * b := Finset.mem_range.1 hj
    have e2 : (column r c).getD j 0 = ((tr (j + 1)).v q.index c : ℂ) := by
      rw [column, hval, List.getD_eq_getElem?_getD, List.getElem?_map, List.getElem?_map, List.getElem?_range hj]
      rfl
    rw [e2, mul_comm]
    congr 2
    rw [hω]
    push_cast
    have hPc : (P : ℂ) ≠ 0 := by exact_mod_cast hP.ne'
    have hbc : (b : ℂ) ≠ 0 := by exact_mod_cast hb0.ne'
    have hdc : (s.dt : ℂ) ≠ 0 := by exact_mod_cast hdt.ne'
    field_simp
    ring
  rw [e1]
  exact key

end

/-- **C180** for programs: a line from the constructor with resistances at one end, a time step below the automatic one and sources
that are zero before time zero and after the time `t`. -/
theorem C180_program {l c r g : Arg} {length : ℝ} {positions : List V3} {ndiv : List ℕ} {Zs Zl : ZArg} {name : String} {s : MTL n p}
    (h : MTL.new p l c r g length positions ndiv Zs Zl name = .ok ⟨n, s⟩) (hl : SPD (l.matrix n)) (hc : SPD (c.matrix n))
    (hr : Dissipative (r.matrix n)) (hg : Dissipative (g.matrix n)) (hzs : ∀ i < n, 0 ≤ Zs.value i)
    (hzl : ∀ i < n, 0 ≤ Zl.value i) (hz : (∀ i < n, 0 < Zs.value i) ∨ ∀ i < n, 0 < Zl.value i)
    (hdu : ∀ k < s.m, s.du k ≠ 0) {dt ω t : ℝ} (hdt : 0 < dt) (hlt : dt < s.dt) (hω : 0 ≤ ω) (hπ : ω * dt < Real.pi) {S : Src n}
    (hS : ∀ k x, ∀ u < 0, S k x u = 0) (hS' : ∀ k x, ∀ u > t, S k x u = 0) :
    ∃ M : ℕ, (∀ j : ℕ, j > M → ∀ k x, S k x (-dt + j * dt) = 0) ∧ ∃ V I, ({ s with dt := dt, vSources := S } : MTL n p).AC s.dt (ω * dt)
        (fun x => ∑ j ∈ Finset.range (M + 1), Complex.exp (-(ω * (-dt + j * dt) : ℝ) * Complex.I) * (S 0 x (-dt + j * dt) : ℂ))
        (fun x => ∑ j ∈ Finset.range (M + 1), Complex.exp (-(ω * (-dt + j * dt) : ℝ) * Complex.I) * (S s.m x (-dt + j * dt) : ℂ)) 0 0 V I ∧
      ∀ ε > 0, ∃ J, ∀ (T : ℝ) (t' : MTL n p) (N : ℕ) (tr : ℕ → MTL n p), RunTrace { s with dt := dt, vSources := S } T t' N tr → J ≤ N →
        (∀ k ≤ s.m, ∀ a, ‖∑ j ∈ Finset.range (N + 1), Complex.exp (-(ω * (-dt + j * dt) : ℝ) * Complex.I) * ((tr j).v k a : ℂ) - V k a‖ ≤ ε) ∧
        ∀ k < s.m, ∀ a, ‖∑ j ∈ Finset.range (N + 1), Complex.exp (-(ω * (-(dt / 2) + j * dt) : ℝ) * Complex.I) * ((tr j).i k a : ℂ) - I k a‖ ≤ ε := by
  obtain ⟨-, -, -, -, -, -, -, -, ezs, ezl, -⟩ := new_ok_contents h
  obtain ⟨hp, hR, ht, hauto⟩ := constructed_physical h hl hc hr hg hzs hzl hdu
  obtain ⟨hv, hi, htime, heL, heT⟩ : (∀ k, s.v k = 0) ∧ (∀ k, s.i k = 0) ∧ s.time = 0 ∧ s.eL = 0 ∧ s.eT = 0 := by
    obtain ⟨la, ca, ga, ra, zsa, zla, mem, d, -, -, -, -, -, -, -, h8⟩ := new_ok_iff.1 h
    obtain ⟨-, -, -, rfl⟩ := computeTerminalTerms_ok_iff.1 h8
    exact ⟨fun _ => rfl, fun _ => rfl, rfl, rfl, rfl⟩
  have ha : Absorbing s.zs ∨ Absorbing s.zl := by
    rw [ezs, ezl]
    exact hz.imp absorbing_diagonal absorbing_diagonal
  have hγ : Real.cos (ω * dt / 2) ≠ 0 := by
    refine (Real.cos_pos_of_mem_Ioo ⟨?_, ?_⟩).ne'
    · have : 0 ≤ ω * dt := mul_nonneg hω hdt.le
      linarith [Real.pi_pos]
    · linarith
  obtain ⟨M, hM⟩ := exists_nat_ge ((t + dt) / dt)
  rw [div_le_iff₀ hdt] at hM
  have late : ∀ j : ℕ, j > M → ∀ k x, S k x (-dt + j * dt) = 0 := by
    intro j hj k x
    refine hS' k x _ ?_
    have : (M : ℝ) + 1 ≤ j := by exact_mod_cast hj
    nlinarith
  obtain ⟨z, hz'⟩ : ∃ z : MTL n p, z = { s with dt := dt, vSources := S } := ⟨_, rfl⟩
  have zt : z.time - z.dt = -dt := by rw [hz']; show s.time - dt = -dt; rw [htime, zero_sub]
  have zt' : z.time - z.dt / 2 = -(dt / 2) := by rw [hz']; show s.time - dt / 2 = _; rw [htime, zero_sub]
  have zd : z.dt = dt := by rw [hz']
  have zS : z.vSources = S := by rw [hz']
  have zm : z.m = s.m := by rw [hz']
  have dr : ∀ k j, z.drive k j = fun x => S k x (-dt + j * dt) := by
    intro k j
    unfold MTL.drive
    rw [zt, zd, zS]
  have a0 : z.Pulse M := by
    refine ⟨fun k _ => ?_, fun k _ => ?_, ?_, ?_, fun j hj => ?_, fun j hj => ?_, ?_, ?_⟩
    · rw [hz']; exact hv k
    · rw [hz']; exact hi k
    · rw [dr]; funext x; exact hS _ _ _ (by simpa using hdt)
    · rw [dr]; funext x; exact hS _ _ _ (by simpa using hdt)
    · rw [dr]; funext x; exact late j hj _ _
    · rw [dr]; funext x; exact late j hj _ _
    · rw [hz']; exact heL
    · rw [hz']; exact heT
  have a1 : z.Passive := by rw [hz']; exact ⟨hp.cells, hdt, hp.dun, hp.l, hp.c, hp.r, hp.g, hp.zs, hp.zl, hp.q1, hp.q2, hp.q3⟩
  have a2 : z.Regular (c.matrix n) := by rw [hz']; exact ⟨hR.c, hR.c_spd, hR.l_spd, hR.e, hR.dun⟩
  have a3 : z.dt ≤ s.dt := by rw [hz']; exact hlt.le
  have a4 : z.TermFor s.dt := by rw [hz']; exact ⟨ht.det_left, ht.det_right, ht.left1, ht.left2, ht.right1, ht.right2⟩
  have a5 : maxTimestep z.m z.dun z.l z.c = .ok s.dt := by rw [hz']; exact hauto
  have a6 : z.dt * s.dt < s.dt ^ 2 := by rw [hz']; show dt * s.dt < s.dt ^ 2; nlinarith
  have a7 : Absorbing z.zs ∨ Absorbing z.zl := by rw [hz']; exact ha
  have a8 : Absorbing z.zs ∨ z.zsᵀ = z.zs := by rw [hz']; show _ ∨ s.zsᵀ = s.zs; rw [ezs]; exact Or.inr (diagonal_transpose _)
  have a9 : Absorbing z.zl ∨ z.zlᵀ = z.zl := by rw [hz']; show _ ∨ s.zlᵀ = s.zl; rw [ezl]; exact Or.inr (diagonal_transpose _)
  have a10 : Real.cos (ω * z.dt / 2) ≠ 0 := by rw [zd]; exact hγ
  obtain ⟨⟨V, I, hAC⟩, -⟩ := C178_circuit (s := z) (θ := ω * z.dt) (E0 := spectrum ω (z.time - z.dt) z.dt (z.drive 0) M)
    (E1 := spectrum ω (z.time - z.dt) z.dt (z.drive z.m) M) (F := 0) (H := 0) a1 a2 a3 a5 a6 a7 a8 a9 a10
  have main := C180_spectrum a0 a1 a2 a3 a4 a5 a6 a7 a8 a9 a10 hAC
  have sp : ∀ k, spectrum ω (z.time - z.dt) z.dt (z.drive k) M =
      fun x => ∑ j ∈ Finset.range (M + 1), Complex.exp (-(ω * (-dt + j * dt) : ℝ) * Complex.I) * (S k x (-dt + j * dt) : ℂ) := by
    intro k
    funext x
    unfold spectrum
    rw [zt, zd]
    refine Finset.sum_congr rfl fun j _ => ?_
    rw [dr]
  rw [sp, sp, zd, zm] at hAC
  rw [← hz']
  refine ⟨M, late, V, I, hAC, fun ε hε => ?_⟩
  obtain ⟨J, hJ⟩ := main ε hε
  refine ⟨J, fun T t' N tr R hN => ?_⟩
  obtain ⟨b1, b2⟩ := hJ T t' N tr R hN
  rw [zt, zd, zm] at b1
  rw [zt', zd, zm] at b2
  exact ⟨b1, b2⟩

/-! ## Non-vacuity -/

/-- A line from the constructor with a pulse of one second at its first end. -/
example : ∃ s : MTL 1 0, MTL.new 0 (.scalar 1) (.scalar 1) (.scalar 0) (.scalar 0) 2 [] [2] (.scalar 1) (.scalar 1) "demo" = .ok ⟨1, s⟩ ∧
    (∀ k < s.m, s.du k ≠ 0) ∧ 0 < 1 / 2 * s.dt ∧ 1 / 2 * s.dt < s.dt ∧ 1 / s.dt * (1 / 2 * s.dt) < Real.pi := by
  obtain ⟨s, hs⟩ := demoLine_accepted (p := 0)
  have hdu := demoLine_cells hs
  obtain ⟨hp, -⟩ := constructed_physical hs (spd_one one_pos) (spd_one one_pos) dissipative_zero dissipative_zero
    (fun _ _ => zero_le_one) (fun _ _ => zero_le_one) hdu
  have hdt := hp.dt_pos
  refine ⟨s, hs, hdu, by linarith, by linarith, ?_⟩
  have : 1 / s.dt * (1 / 2 * s.dt) = 1 / 2 := by field_simp
  rw [this]
  linarith [Real.two_le_pi]

end Mtln
