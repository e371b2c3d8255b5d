import Verif.Lemmas.ConnectorEnergy
import Verif.Lemmas.Physical
import Verif.Props.Stability
import Mathlib.Analysis.Complex.ExponentialBounds

/-! # Lines with passive dispersive connectors: C167 -/

namespace Mtln

open Matrix Finset

variable {n p : ℕ}

/-! ## Passive models -/

theorem inv_re_bounds {a : ℝ} (ha : a < 0) {z : ℂ} (hz : 0 ≤ z.re) : 0 ≤ (1 / (z - a)).re ∧ (1 / (z - a)).re ≤ 1 / -a := by
  have e : (1 / (z - a)).re = (z.re - a) / ((z.re - a) ^ 2 + z.im ^ 2) := by
    rw [one_div, Complex.inv_re, Complex.normSq_apply]
    simp only [Complex.sub_re, Complex.ofReal_re, Complex.sub_im, Complex.ofReal_im, sub_zero]
    congr 1
    ring
  have h1 : 0 < z.re - a := by linarith
  have h2 : 0 < (z.re - a) ^ 2 + z.im ^ 2 := by positivity
  rw [e]
  refine ⟨by positivity, ?_⟩
  rw [div_le_div_iff₀ h2 (by linarith)]
  nlinarith [sq_nonneg z.im, mul_nonneg h1.le hz]

/-- The circuits of `Foster` take up power at every frequency. -/
theorem RationalModel.Foster.positive_real {M : RationalModel} (h : M.Foster) {z : ℂ} (hz : 0 ≤ z.re) : 0 ≤ (M.impedance z).re := by
  unfold RationalModel.impedance
  rw [Complex.add_re, Complex.add_re, Complex.ofReal_re, Complex.re_ofReal_mul, Complex.re_sum]
  have h1 : ∀ q ∈ range M.polesReal.length, -max 0 (M.residuesReal.getD q 0 / M.polesReal.getD q 0)
      ≤ (M.residue 1 q / (z - M.pole q)).re := by
    intro q hq
    have hq := Finset.mem_range.1 hq
    obtain ⟨ha, -⟩ := h.poles q hq
    obtain ⟨hρ, -⟩ := h.residues q hq
    obtain ⟨hb1, hb2⟩ := inv_re_bounds ha hz
    rw [h.residue_eq hq, h.pole_eq hq, div_one, ← mul_one_div (M.residuesReal.getD q 0 : ℂ), Complex.re_ofReal_mul]
    rcases lt_or_gt_of_ne hρ with h0 | h0
    · have e : M.residuesReal.getD q 0 / M.polesReal.getD q 0 = -(M.residuesReal.getD q 0 * (1 / -M.polesReal.getD q 0)) := by
        have := ha.ne
        field_simp
      rw [e]
      have := mul_le_mul_of_nonpos_left hb2 h0.le
      linarith [le_max_right 0 (-(M.residuesReal.getD q 0 * (1 / -M.polesReal.getD q 0)))]
    · have := mul_nonneg h0.le hb1
      linarith [le_max_left 0 (M.residuesReal.getD q 0 / M.polesReal.getD q 0)]
  have h2 := Finset.sum_le_sum h1
  rw [Finset.sum_neg_distrib] at h2
  have h3 := h.cte
  have h4 := mul_nonneg h.prop hz
  linarith

/-! ## The apparent inductance of slow memories -/

theorem exp_tanh {x : ℝ} (hx : 0 < x) : (2 - x) ≤ (2 + x) * Real.exp (-x) := by
  have h : ∀ y : ℝ, 0 ≤ y → 0 ≤ (2 + y) * Real.exp (-y) - (2 - y) := by
    have hd : ∀ y : ℝ, HasDerivAt (fun y => (2 + y) * Real.exp (-y) - (2 - y)) (1 - (1 + y) * Real.exp (-y)) y := by
      intro y
      have h1 : HasDerivAt (fun y : ℝ => Real.exp (-y)) (Real.exp (-y) * -1) y := (hasDerivAt_neg y).exp
      have h2 : HasDerivAt (fun y : ℝ => 2 + y) 1 y := (hasDerivAt_id y).const_add 2
      have h3 : HasDerivAt (fun y : ℝ => 2 - y) (-1) y := (hasDerivAt_id y).const_sub 2
      have := (h2.mul h1).sub h3
      refine this.congr_deriv ?_
      ring
    have hm : MonotoneOn (fun y : ℝ => (2 + y) * Real.exp (-y) - (2 - y)) (Set.Ici 0) := by
      refine monotoneOn_of_deriv_nonneg (convex_Ici 0) (fun y _ => (hd y).continuousAt.continuousWithinAt)
        (fun y _ => (hd y).differentiableAt.differentiableWithinAt) fun y hy => ?_
      rw [interior_Ici] at hy
      rw [(hd y).deriv]
      have h4 := Real.add_one_le_exp y
      have h5 : Real.exp y * Real.exp (-y) = 1 := by rw [← Real.exp_add]; simp
      nlinarith [Real.exp_pos (-y)]
    intro y hy
    have := hm (Set.mem_Ici.2 le_rfl) (Set.mem_Ici.2 hy) hy
    simpa using this
  have := h x hx.le
  linarith

theorem lag_lower {x E : ℝ} (hx : 0 < x) (hE : E = Real.exp (-x)) :
    -(x ^ 2 / 2) * (1 + E) ≤ x * (1 + E + 2 * E ^ 2) - 2 * (1 - E) * (1 + E) := by
  have h0 : 0 < E := hE ▸ Real.exp_pos _
  have h1 := exp_tanh hx
  rw [← hE] at h1
  rcases le_or_gt 2 x with h2 | h2
  · nlinarith [mul_pos hx h0, mul_pos (mul_pos hx h0) h0, mul_pos (mul_pos hx hx) h0]
  · obtain ⟨w, hw⟩ : ∃ w, w = (2 - x) / (2 + x) := ⟨_, rfl⟩
    have hw0 : 0 < w := by rw [hw]; exact div_pos (by linarith) (by linarith)
    have hwE : w ≤ E := by rw [hw, div_le_iff₀ (by linarith)]; linarith
    have hp : 0 ≤ (2 * x + 2) * w ^ 2 + (x + x ^ 2 / 2) * w + (x + x ^ 2 / 2 - 2) := by
      have : (2 * x + 2) * w ^ 2 + (x + x ^ 2 / 2) * w + (x + x ^ 2 / 2 - 2) = 4 * x ^ 3 / (2 + x) ^ 2 := by
        rw [hw]
        have : 2 + x ≠ 0 := by linarith
        field_simp
        ring
      rw [this]
      positivity
    have hs : w ^ 2 ≤ E ^ 2 := by nlinarith
    nlinarith [mul_le_mul_of_nonneg_left hs (by linarith : 0 ≤ 2 * x + 2), mul_le_mul_of_nonneg_left hwE (by positivity : 0 ≤ x + x ^ 2 / 2)]

theorem lag_upper {x E : ℝ} (hx : 0 < x) (hE : E = Real.exp (-x)) :
    x * (1 + E + 2 * E ^ 2) - 2 * (1 - E) * (1 + E) ≤ x ^ 2 / 2 * (1 + E) := by
  have h0 : 0 < E := hE ▸ Real.exp_pos _
  have hinv : E * Real.exp x = 1 := by rw [hE, ← Real.exp_add]; simp
  obtain ⟨D, hD⟩ : ∃ D, D = 1 + x + x ^ 2 / 2 := ⟨_, rfl⟩
  have hD0 : 0 < D := by rw [hD]; positivity
  have h1 : E * D ≤ 1 := by
    have := Real.quadratic_le_exp_of_nonneg hx.le
    rw [← hinv]
    exact mul_le_mul_of_nonneg_left (by linarith) h0.le
  have hE1 : E ≤ 1 / D := by rw [le_div_iff₀ hD0]; exact h1
  rcases le_or_gt 2 x with h2 | h2
  · have h3 : E * (1 + x) ≤ 1 := by nlinarith [mul_nonneg h0.le (sq_nonneg x)]
    have h4 : (2 * x + 2) * E ^ 2 ≤ 2 * E := by nlinarith
    have h5 : E ≤ 1 := by nlinarith
    nlinarith [mul_nonneg (mul_nonneg hx.le h0.le) (by linarith : 0 ≤ x - 2), sq_nonneg (x - 2)]
  · have hs : E ^ 2 ≤ (1 / D) ^ 2 := by
      have : 0 < 1 / D := by positivity
      nlinarith
    have hp : (2 * x + 2) * (1 / D) ^ 2 + (x - x ^ 2 / 2) * (1 / D) + (x - 2 - x ^ 2 / 2) ≤ 0 := by
      have : (2 * x + 2) * (1 / D) ^ 2 + (x - x ^ 2 / 2) * (1 / D) + (x - 2 - x ^ 2 / 2)
          = -(2 * x ^ 2 + x ^ 3 + 3 / 4 * x ^ 4 + 1 / 4 * x ^ 5 + 1 / 8 * x ^ 6) / D ^ 2 := by
        field_simp
        rw [hD]
        ring
      rw [this]
      exact div_nonpos_of_nonpos_of_nonneg (neg_nonpos.2 (by positivity)) (by positivity)
    have h3 : 0 ≤ x - x ^ 2 / 2 := by nlinarith
    nlinarith [mul_le_mul_of_nonneg_left hs (by linarith : 0 ≤ 2 * x + 2), mul_le_mul_of_nonneg_left hE1 h3]

/-- The apparent inductance of a pole is small for short time steps. -/
theorem abs_poleLag_le {a ρ h : ℝ} (ha : a < 0) (hh : 0 < h) : |poleLag a ρ h| ≤ |ρ| * h ^ 2 / 4 := by
  obtain ⟨x, hx⟩ : ∃ x, x = -a * h := ⟨_, rfl⟩
  have hx0 : 0 < x := by rw [hx]; exact mul_pos (by linarith) hh
  obtain ⟨E, hE⟩ : ∃ E, E = Real.exp (-x) := ⟨_, rfl⟩
  have h0 : 0 < E := hE ▸ Real.exp_pos _
  have hE' : Real.exp (a * h) = E := by rw [hE, hx]; congr 1; ring
  obtain ⟨B, hB⟩ : ∃ B, B = (x * (1 + E + 2 * E ^ 2) - 2 * (1 - E) * (1 + E)) / (1 + E) := ⟨_, rfl⟩
  have hB1 : -(x ^ 2 / 2) ≤ B := by rw [hB, le_div_iff₀ (by linarith)]; exact lag_lower hx0 hE
  have hB2 : B ≤ x ^ 2 / 2 := by rw [hB, div_le_iff₀ (by linarith)]; exact lag_upper hx0 hE
  have ha' : a ≠ 0 := ha.ne
  have hh' : h ≠ 0 := hh.ne'
  have hE2 : 1 + E ≠ 0 := by linarith
  have e : poleLag a ρ h = ρ / (2 * a ^ 2) * B := by
    unfold poleLag
    rw [hE', hB, hx]
    field_simp
    ring
  rw [e, abs_mul, abs_div, abs_of_pos (by positivity : 0 < 2 * a ^ 2)]
  calc |ρ| / (2 * a ^ 2) * |B| ≤ |ρ| / (2 * a ^ 2) * (x ^ 2 / 2) :=
        mul_le_mul_of_nonneg_left (abs_le.2 ⟨hB1, hB2⟩) (by positivity)
    _ = |ρ| * h ^ 2 / 4 := by
        rw [hx]
        field_simp
        ring

/-- The apparent inductance of a model is at least minus a quarter of the squared time step times the residues. -/
theorem RationalModel.Foster.lag_ge {M : RationalModel} (hM : M.Foster) {h : ℝ} (hh : 0 < h) :
    -(h ^ 2 / 4 * ∑ q ∈ range M.polesReal.length, |M.residuesReal.getD q 0|) ≤ M.lag h := by
  unfold RationalModel.lag
  rw [Finset.mul_sum, ← Finset.sum_neg_distrib]
  refine Finset.sum_le_sum fun q hq => ?_
  have := abs_poleLag_le (ρ := M.residuesReal.getD q 0) (hM.poles q (Finset.mem_range.1 hq)).1 hh
  have := neg_abs_le (poleLag (M.polesReal.getD q 0) (M.residuesReal.getD q 0) h)
  linarith

theorem poleStore_nonneg {a ρ h x y : ℝ} (ha : a < 0) (hh : 0 < h) : 0 ≤ poleStore a ρ h x y := by
  unfold poleStore
  have hE0 := Real.exp_pos (a * h)
  have hE1 : Real.exp (a * h) < 1 := by rw [Real.exp_lt_one_iff]; exact mul_neg_of_neg_of_pos ha hh
  dsimp only
  refine mul_nonneg (div_nonneg (by linarith) ?_) (sq_nonneg _)
  have ha' : 0 < -a := by linarith
  have h1 : 0 < 1 - Real.exp (a * h) := by linarith
  split
  · rename_i h0
    positivity
  · rename_i h0
    have : ρ / -a * (1 - Real.exp (a * h)) ≤ 0 :=
      mul_nonpos_of_nonpos_of_nonneg (div_nonpos_of_nonpos_of_nonneg (not_lt.1 h0) ha'.le) h1.le
    linarith

theorem stored_ge {M : RationalModel} (hM : M.Foster) (hp : M.polesReal.length = p) {len h x : ℝ} (hh : 0 < h) {phi : Poles p} :
    (M.prop + M.lag h) * x ^ 2 ≤ M.stored len h x phi := by
  unfold RationalModel.stored
  have : 0 ≤ h * ∑ q : Fin p, poleStore (M.polesReal.getD q 0) (M.residuesReal.getD q 0) h x (len * (phi q).re) :=
    mul_nonneg hh.le (Finset.sum_nonneg fun q _ => poleStore_nonneg (hM.poles q (by rw [hp]; exact q.2)).1 hh)
  linarith

/-! ## Lines -/

/-- A line with connectors, from the line before they were added. -/
theorem addConnectors_ready {s s₁ : MTL n p} {items : List (V3 × Fin n × RationalModel)} (hconn : s.conn = Disp.new s.dt)
    (hadd : s.addConnectors items = .ok s₁) :
    (∃ D, s₁ = { s with conn := D }) ∧ s₁.conn.dt = s₁.dt ∧ s₁.conn.Equipped s₁.u (placed s.u s.m items) ∧
      ({ s₁ with conn := Disp.new s₁.dt } : MTL n p) = s := by
  obtain ⟨⟨D, rfl, hdt⟩, hE⟩ := addConnectors_equipped (u := s.u) (m := s.m) items rfl rfl
    (by rw [hconn]; exact equipped_new s.dt s.u) hadd
  refine ⟨⟨D, rfl⟩, ?_, hE, ?_⟩
  · show D.dt = s.dt
    rw [hdt, hconn]; rfl
  · show ({ s with conn := Disp.new s.dt } : MTL n p) = s
    rw [← hconn]

/-- **C167**, the part that holds: the energy of a passive line with passive connectors, the energy in their memories included, does
not grow in any step. -/
theorem C167_energy_partial {s s₁ s' : MTL n p} {items : List (V3 × Fin n × RationalModel)} {T τ : ℝ} {N : ℕ} {tr : ℕ → MTL n p}
    (hconn : s.conn = Disp.new s.dt) (hadd : s.addConnectors items = .ok s₁) (hf : ∀ e ∈ items, e.2.2.Foster) (hp : s.Passive)
    (hx : s.Unexcited) (hτ : 0 < τ) (ht : s.TermFor τ) (hlen : ∀ k < s.m, s.dun k = cellLength s.u k) (R : RunTrace s₁ T s' N tr) :
    ∀ j < N, (tr (j + 1)).energyWith (placed s.u s.m items) (s.endWeight τ) ≤ (tr j).energyWith (placed s.u s.m items) (s.endWeight τ) := by
  obtain ⟨⟨D, rfl⟩, hdt, hE, hs⟩ := addConnectors_ready hconn hadd
  intro j hj
  have := energyWith_step R hE hdt (by rw [hs]; exact hp) (τ := τ) ⟨hx.vS, hx.eL, hx.eT⟩ hτ ⟨ht.det_left, ht.det_right, ht.left1, ht.left2, ht.right1, ht.right2⟩
    hlen (fun k hk c M hM => by
      obtain ⟨e, he, -, -, rfl⟩ := mem_of_placed hM
      exact hf e he) hj
  exact this

theorem C167_energy_run_partial {s s₁ s' : MTL n p} {items : List (V3 × Fin n × RationalModel)} {T τ : ℝ} {N : ℕ} {tr : ℕ → MTL n p}
    (hconn : s.conn = Disp.new s.dt) (hadd : s.addConnectors items = .ok s₁) (hf : ∀ e ∈ items, e.2.2.Foster) (hp : s.Passive)
    (hx : s.Unexcited) (hτ : 0 < τ) (ht : s.TermFor τ) (hlen : ∀ k < s.m, s.dun k = cellLength s.u k) (R : RunTrace s₁ T s' N tr) :
    ∀ j ≤ N, (tr j).energyWith (placed s.u s.m items) (s.endWeight τ) ≤ s.energyWith (placed s.u s.m items) (s.endWeight τ) := by
  intro j
  induction j with
  | zero =>
    intro _
    obtain ⟨⟨D, rfl⟩, -⟩ := addConnectors_ready hconn hadd
    obtain ⟨lr, cg, -, -, h0⟩ := R.start
    rw [h0]
    exact le_rfl
  | succ j ih => exact fun hj => (C167_energy_partial hconn hadd hf hp hx hτ ht hlen R j hj).trans (ih (by omega))

/-- **C167**, the part that holds: if the time step is below the automatic one for inductances `l'` that are left when a quarter of
the squared time step times the residues of the connectors is taken from the inductances of their cells, then all voltages and
currents stay bounded for all time. -/
theorem C167_bounded_partial {s s₁ : MTL n p} {items : List (V3 × Fin n × RationalModel)} {C : Mat n} {l' : ℕ → Mat n} {d τ : ℝ}
    (hconn : s.conn = Disp.new s.dt) (hadd : s.addConnectors items = .ok s₁) (hf : ∀ e ∈ items, e.2.2.Foster) (hp : s.Passive)
    (hx : s.Unexcited) (hlen : ∀ k < s.m, s.dun k = cellLength s.u k) (hτ : s.dt ≤ τ) (ht : s.TermFor τ)
    (hr : MTL.Regular { s with l := l' } C)
    (hl : ∀ k < s.m, ∀ x : Col n, s.dun k * (x ⬝ᵥ (l' k *ᵥ x)) ≤ s.dun k * (x ⬝ᵥ (s.l k *ᵥ x))
      + ∑ c, ((placed s.u s.m items k c).elim 0 fun M =>
          M.prop - s.dt ^ 2 / 4 * ∑ q ∈ range M.polesReal.length, |M.residuesReal.getD q 0|) * x c ^ 2)
    (hauto : maxTimestep s.m s.dun l' s.c = .ok d) (hlt : s.dt * τ < d ^ 2) :
    ∃ K, ∀ (T : ℝ) (s' : MTL n p) (N : ℕ) (tr : ℕ → MTL n p), RunTrace s₁ T s' N tr →
      ∀ j ≤ N, (∀ k ≤ s.m, ∀ a, |(tr j).v k a| ≤ K) ∧ (∀ k < s.m, ∀ a, |(tr j).i k a| ≤ K) := by
  have hdt := hp.dt_pos
  have hτ0 : 0 < τ := lt_of_lt_of_le hdt hτ
  obtain ⟨hd, -⟩ := maxTimestep_spec hauto (fun k hk => (hr.dun k hk).le)
  obtain ⟨θ, hθ⟩ : ∃ θ, θ = Real.sqrt (s.dt * τ) / d := ⟨_, rfl⟩
  have hθ0 : 0 ≤ θ := by rw [hθ]; exact div_nonneg (Real.sqrt_nonneg _) hd.le
  have hsq : θ ^ 2 * d ^ 2 = s.dt * τ := by
    rw [hθ, div_pow, Real.sq_sqrt (mul_pos hdt hτ0).le]
    field_simp
  have hθ1 : θ < 1 := by
    by_contra hcon
    push Not at hcon
    have h1 : 1 ≤ θ ^ 2 := by nlinarith
    have h2 : d ^ 2 ≤ θ ^ 2 * d ^ 2 := by nlinarith [sq_nonneg d]
    linarith
  obtain ⟨f, hfp⟩ : ∃ f, f = placed s.u s.m items := ⟨_, rfl⟩
  obtain ⟨K, hK⟩ := components_bounded (s := { s with l := l' }) (B := s.energyWith f (s.endWeight τ) / (1 - θ)) hr hp.cells hdt hτ
  refine ⟨K, fun T s' N tr R j hj => ?_⟩
  obtain ⟨⟨D, rfl⟩, -, hE, -⟩ := addConnectors_ready hconn hadd
  obtain ⟨lr, cg, hlr, hcg, hst⟩ := R.state
  obtain ⟨hc, -, -⟩ := hst j hj
  obtain ⟨w, hw⟩ : ∃ w : MTL n p, w = { tr j with l := l', conn := s.conn } := ⟨_, rfl⟩
  have hcw : MTL.SameConfig { s with l := l' } w := by
    rw [hw]
    exact ⟨hc.m, hc.u, hc.du, hc.dun, rfl, hc.c, hc.r, hc.g, hc.zs, hc.zl, hc.dt, rfl, hc.vSources, hc.eL, hc.eT,
      hc.left1, hc.left2, hc.right1, hc.right2⟩
  have hv : w.v = (tr j).v := by rw [hw]
  have hi : w.i = (tr j).i := by rw [hw]
  have goal := hK w hcw ?_
  · rw [hv, hi] at goal
    exact goal
  have h1 := C167_energy_run_partial hconn hadd hf hp hx hτ0 ht hlen R j hj
  have h2 := energy_lower (s := w) (τ := τ) (θ := θ) (d := d) (hr.congr hcw)
    (by rw [hcw.m, hcw.dun, hcw.l, hcw.c]; exact hauto) (by rw [hcw.dt]; exact hdt) (by rw [hcw.dt]; exact hτ) hθ0
    (by rw [hcw.dt, hsq])
  rw [endWeight_congr hcw] at h2
  have e0 : MTL.endWeight { s with l := l' } τ = s.endWeight τ := rfl
  rw [e0] at h2 ⊢
  rw [← hfp] at h1 hE
  have h3 : w.energyW (s.endWeight τ) ≤ (tr j).energyWith f (s.endWeight τ) := by
    unfold MTL.energyW MTL.energyWith
    have e1 : w.electric (s.endWeight τ) = (tr j).electric (s.endWeight τ) := by rw [hw]; rfl
    have e2 : w.magnetic ≤ ∑ k ∈ range (tr j).m, ((tr j).dun k * ((tr j).i k ⬝ᵥ ((tr j).l k *ᵥ (tr j).i k))
        + ∑ c, (f k c).elim 0 fun M => M.stored ((tr j).dun k) (tr j).dt ((tr j).i k c) ((tr j).phi k c)) := by
      unfold MTL.magnetic
      rw [hcw.m, hcw.dun, hcw.l, hcw.conn, hi, hc.m, hc.dun, hc.l, hc.dt]
      refine Finset.sum_le_sum fun k hk => ?_
      have hk := Finset.mem_range.1 hk
      have e3 : l' k + s.conn.e k = l' k := by rw [hconn]; exact add_zero _
      refine le_trans (le_of_eq ?_) ((hl k hk ((tr j).i k)).trans (add_le_add_right (Finset.sum_le_sum fun c _ => ?_) _))
      · dsimp only
        rw [e3]
      · rw [← hfp]
        cases hM : f k c with
        | none => simp
        | some M =>
          simp only [Option.elim_some]
          have hF : M.Foster := by
            rw [hfp] at hM
            obtain ⟨e, he, -, -, rfl⟩ := mem_of_placed hM
            exact hf e he
          refine le_trans ?_ (stored_ge hF (hE.poles _ _ _ hM) hdt)
          have := hF.lag_ge hdt
          exact mul_le_mul_of_nonneg_right (by linarith) (sq_nonneg _)
    rw [e1, hv, hi, hcw.m, hcw.dt, hc.m, hc.dt]
    rw [hc.m, hc.dt] at e2
    dsimp only
    linarith
  rw [hfp] at h3 ⊢
  rw [hfp] at h1
  rw [le_div_iff₀ (by linarith)]
  linarith

end Mtln
