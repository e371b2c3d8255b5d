import Verif.Lemmas.Stability
import Verif.Lemmas.Relational
import Verif.Props.Demo

/-!
# Energy, stability and the automatic time step: C15, C16, C21
-/

namespace Mtln

open Matrix

variable {n p : ℕ}

/-- General form of C15, also for lines whose terminal coefficients were computed for another time step `τ`
(as after `set_time_step`): a weighted energy does not increase in any step of any run. -/
theorem C15_passivity_any_dt {s s' : MTL n p} {T τ : ℝ} {N : ℕ} {tr : ℕ → MTL n p}
    (R : RunTrace s T s' N tr) (hp : s.Passive) (hx : s.Unexcited) (hτ : 0 < τ) (ht : s.TermFor τ)
    (j : ℕ) (hj : j < N) :
    (tr (j + 1)).energyW (s.endWeight τ) ≤ (tr j).energyW (s.endWeight τ) := by
  obtain ⟨lr, cg, hlr, hcg, hst⟩ := R.state
  obtain ⟨hc, hf, -⟩ := hst j hj.le
  obtain ⟨hc', -, -⟩ := hst (j + 1) hj
  obtain ⟨hv, hi, -⟩ := hf.step_fields (R.step j hj)
  have h1 := energy_step (lr := lr) (cg := cg) (hp.congr hc) (hx.congr hc) hτ (ht.congr hc) hf.lr_ok hf.cg_ok
  rw [endWeight_congr hc] at h1
  refine le_trans (le_of_eq ?_) h1
  rw [energyW_congr hc' _ hv hi]
  unfold MTL.energyW MTL.electric MTL.magnetic
  have e : ((tr j).advanceFields lr cg).m = s.m := hc.m
  have e2 : ((tr j).advanceFields lr cg).dun = s.dun := hc.dun
  have e3 : ((tr j).advanceFields lr cg).c = s.c := hc.c
  have e4 : ((tr j).advanceFields lr cg).l = s.l := hc.l
  have e5 : ((tr j).advanceFields lr cg).conn = s.conn := hc.conn
  have e6 : ((tr j).advanceFields lr cg).dt = s.dt := hc.dt
  rw [e, e2, e3, e4, e5, e6]

/-- **C15.** In every step of every run of a passive line without sources the energy of the scheme does not
increase. -/
theorem C15_passivity {s s' : MTL n p} {T : ℝ} {N : ℕ} {tr : ℕ → MTL n p}
    (R : RunTrace s T s' N tr) (hp : s.Passive) (hx : s.Unexcited) (ht : s.TermConsistent)
    (j : ℕ) (hj : j < N) : (tr (j + 1)).energy ≤ (tr j).energy := by
  have := C15_passivity_any_dt R hp hx hp.dt_pos ht.termFor j hj
  rwa [endWeight_self hp.dt_pos.ne'] at this

/-- Energy over a whole run, any number of steps. -/
theorem C15_passivity_run {s s' : MTL n p} {T τ : ℝ} {N : ℕ} {tr : ℕ → MTL n p}
    (R : RunTrace s T s' N tr) (hp : s.Passive) (hx : s.Unexcited) (hτ : 0 < τ) (ht : s.TermFor τ)
    (j : ℕ) (hj : j ≤ N) : (tr j).energyW (s.endWeight τ) ≤ s.energyW (s.endWeight τ) := by
  induction j with
  | zero =>
    obtain ⟨lr, cg, -, -, h0⟩ := R.start
    rw [h0]
    exact le_rfl
  | succ j ih => exact (C15_passivity_any_dt R hp hx hτ ht j hj).trans (ih (by omega))

/-- **C16**, first half: with a time step not larger than the automatic one the energy of any state is
non-negative. -/
theorem C16_energy_nonneg {s : MTL n p} {C : Mat n} {d : ℝ} (hr : s.Regular C)
    (hauto : maxTimestep s.m s.dun s.l s.c = .ok d) (hdt : 0 < s.dt) (hle : s.dt ≤ d) : 0 ≤ s.energy := by
  have h := energy_lower (τ := s.dt) (θ := 1) hr hauto hdt le_rfl zero_le_one (by nlinarith)
  rw [endWeight_self hdt.ne'] at h
  simpa [MTL.energy] using h

/-- General form of C16: terminal coefficients computed for a time step `τ ≥ dt` with `dt τ < d²`, where `d`
is the automatic time step.  The bound `K` depends on the line and its state only: not on the duration. -/
theorem C16_bounded_any_dt {s : MTL n p} {C : Mat n} {d τ : ℝ} (hp : s.Passive) (hr : s.Regular C)
    (hx : s.Unexcited) (hτ : s.dt ≤ τ) (ht : s.TermFor τ)
    (hauto : maxTimestep s.m s.dun s.l s.c = .ok d) (hlt : s.dt * τ < d ^ 2) :
    ∃ K, ∀ (T : ℝ) (s' : MTL n p) (N : ℕ) (tr : ℕ → MTL n p), RunTrace s T s' N tr →
      ∀ j ≤ N, (∀ k ≤ s.m, ∀ a, |(tr j).v k a| ≤ K) ∧ (∀ k < s.m, ∀ a, |(tr j).i k a| ≤ K) := by
  have hdt := hp.dt_pos
  have hτ0 : 0 < τ := lt_of_lt_of_le hdt hτ
  obtain ⟨hd, -⟩ := maxTimestep_spec hauto (fun k hk => (hr.dun k hk).le)
  -- `θ = √(dt τ) / d < 1`
  set θ := Real.sqrt (s.dt * τ) / d with hθ
  have hθ0 : 0 ≤ θ := div_nonneg (Real.sqrt_nonneg _) hd.le
  have hsq : θ ^ 2 * d ^ 2 = s.dt * τ := by
    rw [hθ, div_pow, Real.sq_sqrt (mul_pos hdt hτ0).le]
    field_simp
  have hθ1 : θ < 1 := by
    by_contra hcon
    push Not at hcon
    have h1 : 1 ≤ θ ^ 2 := by nlinarith
    have h2 : d ^ 2 ≤ θ ^ 2 * d ^ 2 := by nlinarith [sq_nonneg d]
    linarith
  obtain ⟨K, hK⟩ := components_bounded (B := s.energyW (s.endWeight τ) / (1 - θ)) hr hp.cells hdt hτ
  refine ⟨K, fun T s' N tr R j hj => ?_⟩
  obtain ⟨lr, cg, hlr, hcg, hst⟩ := R.state
  obtain ⟨hc, -, -⟩ := hst j hj
  refine hK (tr j) hc ?_
  have h1 := C15_passivity_run R hp hx hτ0 ht j hj
  have h2 := energy_lower (s := tr j) (τ := τ) (θ := θ) (d := d) (hr.congr hc)
    (by rw [hc.m, hc.dun, hc.l, hc.c]; exact hauto) (by rw [hc.dt]; exact hdt) (by rw [hc.dt]; exact hτ) hθ0
    (by rw [hc.dt, hsq])
  rw [endWeight_congr hc] at h2
  rw [le_div_iff₀ (by linarith)]
  linarith

/-- **C16**, second half: with a time step strictly below the automatic one all voltages and currents stay
bounded for all time. -/
theorem C16_bounded {s : MTL n p} {C : Mat n} {d : ℝ} (hp : s.Passive) (hr : s.Regular C)
    (hx : s.Unexcited) (ht : s.TermConsistent) (hauto : maxTimestep s.m s.dun s.l s.c = .ok d)
    (hlt : s.dt < d) :
    ∃ K, ∀ (T : ℝ) (s' : MTL n p) (N : ℕ) (tr : ℕ → MTL n p), RunTrace s T s' N tr →
      ∀ j ≤ N, (∀ k ≤ s.m, ∀ a, |(tr j).v k a| ≤ K) ∧ (∀ k < s.m, ∀ a, |(tr j).i k a| ≤ K) :=
  C16_bounded_any_dt hp hr hx le_rfl ht.termFor hauto (by nlinarith [hp.dt_pos])

/-- **C16** for what the library does in practice: the constructor computes terminal coefficients for the
automatic time step `d`, then `dt` is reduced; stability is kept although the coefficients are not updated. -/
theorem C16_bounded_reduced_dt {s : MTL n p} {C : Mat n} {d : ℝ} (hp : s.Passive) (hr : s.Regular C)
    (hx : s.Unexcited) (ht : s.TermFor d) (hauto : maxTimestep s.m s.dun s.l s.c = .ok d)
    (hlt : s.dt < d) :
    ∃ K, ∀ (T : ℝ) (s' : MTL n p) (N : ℕ) (tr : ℕ → MTL n p), RunTrace s T s' N tr →
      ∀ j ≤ N, (∀ k ≤ s.m, ∀ a, |(tr j).v k a| ≤ K) ∧ (∀ k < s.m, ∀ a, |(tr j).i k a| ≤ K) :=
  C16_bounded_any_dt hp hr hx hlt.le ht hauto (by nlinarith [hp.dt_pos])

/-- **C21.** What the automatic time step is: positive, at most the transit time of every cell of positive
length for every phase velocity of the line, and equal to the transit time of one cell for one velocity. -/
theorem C21_courant {m : ℕ} {dun : ℕ → ℝ} {l c : ℕ → Mat n} {d : ℝ}
    (h : maxTimestep m dun l c = .ok d) (hd : ∀ k < m, 0 ≤ dun k) :
    0 < d ∧
    (∀ k < m, dun k ≠ 0 → ∀ k' < m, ∀ w ∈ phaseVelocities l c k', d * w ≤ dun k) ∧
    ∃ k < m, dun k ≠ 0 ∧ ∃ k' < m, ∃ w ∈ phaseVelocities l c k', d * w = dun k := by
  obtain ⟨h1, -, h2, h3⟩ := maxTimestep_spec h hd
  exact ⟨h1, h2, h3⟩

end Mtln
