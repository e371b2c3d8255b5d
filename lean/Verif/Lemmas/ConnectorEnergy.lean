import Verif.Spec.ConnectorEnergy
import Verif.Lemmas.Stability
import Verif.Props.Impedance

/-! # Energy balance of lines with passive dispersive connectors -/

namespace Mtln

open Matrix Finset

variable {n p : ℕ}

/-- The balance of a pole with positive residue. -/
theorem pole_balance_pos {g E t φ x y : ℝ} (hg : 0 < g) (hE0 : 0 < E) (hE1 : E < 1) :
    (1 + E) / (2 * (g * (1 - E) * E)) * (E * φ + g * (1 - E) * y - g * (1 - E) / (1 + E) * y) ^ 2
      - (1 + E) / (2 * (g * (1 - E) * E)) * (φ - g * (1 - E) / (1 + E) * x) ^ 2
      + g / 2 * ((1 + E + 2 * E ^ 2) / (1 + E) - 2 * t) * (y ^ 2 - x ^ 2)
    ≤ (y + x) * (g * (1 - t) * y + g * (t - E) * x + E * φ) := by
  have h1 : 0 < 1 - E := by linarith
  have h2 : 0 < 1 + E := by linarith
  have key : (y + x) * (g * (1 - t) * y + g * (t - E) * x + E * φ)
      - ((1 + E) / (2 * (g * (1 - E) * E)) * (E * φ + g * (1 - E) * y - g * (1 - E) / (1 + E) * y) ^ 2
      - (1 + E) / (2 * (g * (1 - E) * E)) * (φ - g * (1 - E) / (1 + E) * x) ^ 2
      + g / 2 * ((1 + E + 2 * E ^ 2) / (1 + E) - 2 * t) * (y ^ 2 - x ^ 2))
      = (1 + E) ^ 2 / (2 * (g * E)) * (φ - g * (1 - E) / (1 + E) * x) ^ 2 + g * (1 - E) / 2 * (y + x) ^ 2 := by
    field_simp
    ring
  have h3 : 0 ≤ (1 + E) ^ 2 / (2 * (g * E)) * (φ - g * (1 - E) / (1 + E) * x) ^ 2 + g * (1 - E) / 2 * (y + x) ^ 2 := by positivity
  linarith

/-- The balance of a pole with negative residue, with the resistance it needs. -/
theorem pole_balance_neg {g E t φ x y : ℝ} (hg : g < 0) (hE0 : 0 < E) (hE1 : E < 1) :
    (1 + E) / (2 * -(g * (1 - E))) * (E * φ + g * (1 - E) * y - g * (1 - E) / (1 + E) * y) ^ 2
      - (1 + E) / (2 * -(g * (1 - E))) * (φ - g * (1 - E) / (1 + E) * x) ^ 2
      + g / 2 * ((1 + E + 2 * E ^ 2) / (1 + E) - 2 * t) * (y ^ 2 - x ^ 2)
    ≤ (y + x) * (g * (1 - t) * y + g * (t - E) * x + E * φ) + -g * (y + x) ^ 2 / 2 := by
  have h1 : 0 < 1 - E := by linarith
  have h2 : 0 < 1 + E := by linarith
  have h0 : 0 < -g := by linarith
  have hg' : g ≠ 0 := hg.ne
  have key : (y + x) * (g * (1 - t) * y + g * (t - E) * x + E * φ) + -g * (y + x) ^ 2 / 2
      - ((1 + E) / (2 * -(g * (1 - E))) * (E * φ + g * (1 - E) * y - g * (1 - E) / (1 + E) * y) ^ 2
      - (1 + E) / (2 * -(g * (1 - E))) * (φ - g * (1 - E) / (1 + E) * x) ^ 2
      + g / 2 * ((1 + E + 2 * E ^ 2) / (1 + E) - 2 * t) * (y ^ 2 - x ^ 2))
      = (1 + E) ^ 2 / (2 * -g) * (φ - g * (1 - E) / (1 + E) * x - E * g / (1 + E) * (y + x)) ^ 2 := by
    field_simp
    ring
  have h3 : 0 ≤ (1 + E) ^ 2 / (2 * -g) * (φ - g * (1 - E) / (1 + E) * x - E * g / (1 + E) * (y + x)) ^ 2 := by positivity
  linarith

/-- The balance of one real pole. -/
theorem pole_balance {a ρ h φ x y : ℝ} (ha : a < 0) (hρ : ρ ≠ 0) (hh : 0 < h) :
    poleStore a ρ h y (Real.exp (a * h) * φ + ρ / a * (Real.exp (a * h) - 1) * y) - poleStore a ρ h x φ
      + poleLag a ρ h / h * (y ^ 2 - x ^ 2)
    ≤ (y + x) * (-(ρ / a * (1 - (Real.exp (a * h) - 1) / (a * h))) * y
        + ρ / a * (1 / (a * h) + Real.exp (a * h) * (1 - 1 / (a * h))) * x + Real.exp (a * h) * φ)
      + max 0 (ρ / a) * (y + x) ^ 2 / 2 := by
  have hE0 := Real.exp_pos (a * h)
  have hE1 : Real.exp (a * h) < 1 := by rw [Real.exp_lt_one_iff]; exact mul_neg_of_neg_of_pos ha hh
  unfold poleStore poleLag
  obtain ⟨E, hE⟩ : ∃ E, E = Real.exp (a * h) := ⟨_, rfl⟩
  rw [← hE] at hE0 hE1 ⊢
  obtain ⟨t, ht⟩ : ∃ t, t = (1 - E) / (-a * h) := ⟨_, rfl⟩
  obtain ⟨g, hg⟩ : ∃ g, g = ρ / -a := ⟨_, rfl⟩
  have ha' := ha.ne
  have e1 : -(ρ / a * (1 - (E - 1) / (a * h))) = g * (1 - t) := by rw [hg, ht]; field_simp; ring
  have e2 : ρ / a * (1 / (a * h) + E * (1 - 1 / (a * h))) = g * (t - E) := by rw [hg, ht]; field_simp; ring
  have e3 : ρ / a * (E - 1) = g * (1 - E) := by rw [hg]; field_simp; ring
  have e4 : h * (g / 2 * ((1 + E + 2 * E ^ 2) / (1 + E) - 2 * t)) / h = g / 2 * ((1 + E + 2 * E ^ 2) / (1 + E) - 2 * t) := by
    field_simp
  have e5 : ρ / a = -g := by rw [hg]; field_simp
  dsimp only
  rw [e1, e2, e3, ← hg, ← ht, e4, e5]
  rcases lt_or_gt_of_ne hρ with h0 | h0
  · have hg0 : g < 0 := by rw [hg]; exact div_neg_of_neg_of_pos h0 (by linarith)
    rw [if_neg h0.le.not_gt, max_eq_right (by linarith)]
    exact pole_balance_neg hg0 hE0 hE1
  · have hg0 : 0 < g := by rw [hg]; exact div_pos h0 (by linarith)
    rw [if_pos h0, max_eq_left (by linarith), zero_mul, zero_div, add_zero]
    exact pole_balance_pos hg0 hE0 hE1

theorem RationalModel.Foster.pole_eq {M : RationalModel} (h : M.Foster) {q : ℕ} (hq : q < M.polesReal.length) :
    M.pole q = ((M.polesReal.getD q 0 : ℝ) : ℂ) := by
  unfold RationalModel.pole
  rw [(h.poles q hq).2]
  simp

theorem RationalModel.Foster.residue_eq {M : RationalModel} (h : M.Foster) {q : ℕ} (hq : q < M.polesReal.length) (len : ℝ) :
    M.residue len q = ((M.residuesReal.getD q 0 / len : ℝ) : ℂ) := by
  unfold RationalModel.residue
  rw [(h.residues q hq).2]
  push_cast
  simp

theorem poleDrop_real {a ρ len h x y : ℝ} {φ : ℂ} (hl : len ≠ 0) :
    len * (-coefA a ((ρ / len : ℝ) : ℂ) h * y + coefB a ((ρ / len : ℝ) : ℂ) h * x + Complex.exp (a * h) * φ).re
      = -(ρ / a * (1 - (Real.exp (a * h) - 1) / (a * h))) * y
        + ρ / a * (1 / (a * h) + Real.exp (a * h) * (1 - 1 / (a * h))) * x + Real.exp (a * h) * (len * φ.re) := by
  have e1 : coefA a ((ρ / len : ℝ) : ℂ) h = ((ρ / len / a * (1 - (Real.exp (a * h) - 1) / (a * h)) : ℝ) : ℂ) := by
    unfold coefA; push_cast; rfl
  have e2 : coefB a ((ρ / len : ℝ) : ℂ) h = ((ρ / len / a * (1 / (a * h) + Real.exp (a * h) * (1 - 1 / (a * h))) : ℝ) : ℂ) := by
    unfold coefB; push_cast; rfl
  have e3 : Complex.exp (a * h) = ((Real.exp (a * h) : ℝ) : ℂ) := by push_cast; rfl
  rw [e1, e2, e3, ← Complex.ofReal_neg, ← Complex.ofReal_mul, ← Complex.ofReal_mul, Complex.add_re, Complex.add_re, Complex.ofReal_re,
    Complex.ofReal_re, Complex.re_ofReal_mul]
  field_simp

/-- The balance of a model: the energy it takes up is at most what the current delivers. -/
theorem model_balance {M : RationalModel} (hM : M.Foster) (hp : M.polesReal.length = p) {len h x y : ℝ} (hl : len ≠ 0) (hh : 0 < h)
    {phi phi' : Poles p} (hphi : ∀ q : Fin p, phi' q = Complex.exp (M.pole q * h) * phi q
      + M.residue len q / M.pole q * (Complex.exp (M.pole q * h) - 1) * y) :
    M.stored len h y phi' - M.stored len h x phi ≤ h * ((y + x) * modelDrop M len h y x phi) := by
  subst hp
  have hlag : M.lag h = ∑ q : Fin M.polesReal.length, poleLag (M.polesReal.getD q 0) (M.residuesReal.getD q 0) h := by
    unfold RationalModel.lag
    rw [Finset.sum_range]
  have hcte := hM.cte
  rw [Finset.sum_range] at hcte
  have hmem : ∀ q : Fin M.polesReal.length, len * (phi' q).re = Real.exp (M.polesReal.getD q 0 * h) * (len * (phi q).re)
      + M.residuesReal.getD q 0 / M.polesReal.getD q 0 * (Real.exp (M.polesReal.getD q 0 * h) - 1) * y := by
    intro q
    rw [hphi, hM.pole_eq q.2, hM.residue_eq q.2]
    have e3 : Complex.exp ((M.polesReal.getD q 0 : ℝ) * (h : ℂ)) = ((Real.exp (M.polesReal.getD q 0 * h) : ℝ) : ℂ) := by push_cast; rfl
    have e4 : (((M.residuesReal.getD q 0 / len : ℝ) : ℂ) / ((M.polesReal.getD q 0 : ℝ) : ℂ)
        * (((Real.exp (M.polesReal.getD q 0 * h) : ℝ) : ℂ) - 1) * y)
        = ((M.residuesReal.getD q 0 / len / M.polesReal.getD q 0 * (Real.exp (M.polesReal.getD q 0 * h) - 1) * y : ℝ) : ℂ) := by
      push_cast; rfl
    rw [e3, e4, Complex.add_re, Complex.ofReal_re, Complex.re_ofReal_mul]
    field_simp
  have hdrop : modelDrop M len h y x phi = M.cte * (y + x) / 2 + M.prop * (y - x) / h
      + ∑ q : Fin M.polesReal.length, (-(M.residuesReal.getD q 0 / M.polesReal.getD q 0
          * (1 - (Real.exp (M.polesReal.getD q 0 * h) - 1) / (M.polesReal.getD q 0 * h))) * y
        + M.residuesReal.getD q 0 / M.polesReal.getD q 0 * (1 / (M.polesReal.getD q 0 * h)
          + Real.exp (M.polesReal.getD q 0 * h) * (1 - 1 / (M.polesReal.getD q 0 * h))) * x
        + Real.exp (M.polesReal.getD q 0 * h) * (len * (phi q).re)) := by
    unfold modelDrop
    rw [Complex.re_sum, Finset.mul_sum]
    congr 1
    refine Finset.sum_congr rfl fun q _ => ?_
    rw [hM.pole_eq q.2, hM.residue_eq q.2]
    exact poleDrop_real hl
  have hb := Finset.sum_le_sum fun (q : Fin M.polesReal.length) (_ : q ∈ Finset.univ) =>
    pole_balance (φ := len * (phi q).re) (x := x) (y := y) (hM.poles q q.2).1 (hM.residues q q.2).1 hh
  simp only [← hmem] at hb
  rw [Finset.sum_add_distrib, Finset.sum_add_distrib, Finset.sum_sub_distrib, ← Finset.sum_mul, ← Finset.sum_div, ← Finset.mul_sum,
    ← Finset.sum_div, ← Finset.sum_mul, ← hlag] at hb
  unfold RationalModel.stored
  rw [hdrop]
  have h1 := mul_le_mul_of_nonneg_left hb hh.le
  have h2 := mul_le_mul_of_nonneg_right hcte (mul_nonneg hh.le (sq_nonneg (y + x)))
  have e : h * ((y + x) * (M.prop * (y - x) / h)) = M.prop * (y ^ 2 - x ^ 2) := by field_simp; ring
  have e' : h * (M.lag h / h * (y ^ 2 - x ^ 2)) = M.lag h * (y ^ 2 - x ^ 2) := by field_simp
  nlinarith

/-- The electric energy in one step of a line that is passive without its connectors. -/
theorem electric_step {s : MTL n p} {lr : LR n} {cg : CG n} {τ : ℝ} (hp : MTL.Passive { s with conn := Disp.new s.dt })
    (hx : s.Unexcited) (hτ : 0 < τ) (ht : s.TermFor τ) (hcg : updateCg s.m s.dt s.dun s.c s.g = .ok cg) :
    (s.advanceFields lr cg).electric (s.endWeight τ) - s.electric (s.endWeight τ)
      ≤ s.dt * ∑ k ∈ Finset.range s.m, s.i k ⬝ᵥ ((s.advanceFields lr cg).v (k + 1) - (s.advanceFields lr cg).v k + (s.v (k + 1) - s.v k)) := by
  have hdt : 0 < s.dt := hp.dt_pos
  have hcells : 0 < s.m := hp.cells
  obtain ⟨-, hdetC, hcg⟩ := updateCg_ok_iff.1 hcg
  obtain ⟨M, hM⟩ : ∃ M, s.m = M + 1 := ⟨s.m - 1, by omega⟩
  obtain ⟨s', hs'⟩ : ∃ s', s' = s.advanceFields lr cg := ⟨_, rfl⟩
  obtain ⟨w, hw⟩ : ∃ w, w = s.endWeight τ := ⟨_, rfl⟩
  rw [← hs', ← hw]
  have hwend : ∀ k, k = 0 ∨ k = s.m → w k = s.dt / τ := fun k h => by
    rw [hw]; unfold MTL.endWeight; rw [if_pos h]
  have hwin : ∀ k, 0 < k → k < s.m → w k = 1 := fun k h h' => by
    rw [hw]; unfold MTL.endWeight; rw [if_neg (by omega)]
  have hm' : s'.m = s.m := by rw [hs']; rfl
  have hdun' : s'.dun = s.dun := by rw [hs']; rfl
  have hc' : s'.c = s.c := by rw [hs']; rfl
  obtain ⟨A, hA⟩ : ∃ A : ℕ → ℝ, ∀ k, A k = w k * (s'.v k ⬝ᵥ (s.c k *ᵥ s'.v k) - s.v k ⬝ᵥ (s.c k *ᵥ s.v k)) := ⟨_, fun _ => rfl⟩
  obtain ⟨P, hP⟩ : ∃ P : ℕ → ℝ, ∀ k, P k = (s'.v k + s.v k) ⬝ᵥ s.i k := ⟨_, fun _ => rfl⟩
  obtain ⟨Q, hQ⟩ : ∃ Q : ℕ → ℝ, ∀ k, Q k = (s'.v (k + 1) + s.v (k + 1)) ⬝ᵥ s.i k := ⟨_, fun _ => rfl⟩
  have hleft : s.dun 0 / 2 * A 0 ≤ -(s.dt * P 0) := by
    have h1 := advanceFields_v_left lr cg s hcells
    rw [← hs', ht.left1, ht.left2, hx.sample_vNow, hx.sample_vPrev, hx.sample_eTNow, hx.sample_eTPrev] at h1
    have h2 := (terminal_update_iff ht.det_left (s'.v 0) (s.v 0) (s.i 0) 0 0).1 (by
      rw [h1]; simp)
    have h3 := terminal_energy (I := s.i 0) hτ (hp.dun 0 hcells) (hp.c 0 (Nat.zero_le _)) (hp.g 0 (Nat.zero_le _)) hp.zs
      (x := s'.v 0) (v := s.v 0) (by unfold TerminalEq; rw [add_zero]; exact h2)
    rw [hA, hP, hwend 0 (Or.inl rfl)]
    have h4 := mul_le_mul_of_nonneg_left h3 (div_pos hdt hτ).le
    have e1 : s.dt / τ * -(τ * ((s'.v 0 + s.v 0) ⬝ᵥ s.i 0)) = -(s.dt * ((s'.v 0 + s.v 0) ⬝ᵥ s.i 0)) := by
      field_simp
    rw [e1] at h4
    dsimp only at h4
    linarith
  have hright : s.dun M / 2 * A (M + 1) ≤ s.dt * Q M := by
    have h1 := advanceFields_v_right lr cg s hcells
    rw [← hs', ht.right1, ht.right2, hx.sample_vNow, hx.sample_vPrev, hx.sample_eTNow,
      hx.sample_eTPrev] at h1
    have h2 := (terminal_update_iff ht.det_right (s'.v s.m) (s.v s.m) (-s.i (s.m - 1)) 0 0).1 (by
      rw [h1]; simp [mulVec_neg])
    have h3 := terminal_energy (I := -s.i (s.m - 1)) hτ (hp.dun (s.m - 1) (show s.m - 1 < s.m by omega)) (hp.c s.m le_rfl)
      (hp.g s.m le_rfl) hp.zl
      (x := s'.v s.m) (v := s.v s.m) (by unfold TerminalEq; rw [add_zero]; exact h2)
    have hm1 : s.m - 1 = M := by omega
    dsimp only at h3
    rw [hm1] at h3
    rw [hA, hQ, ← hM, hwend s.m (Or.inr rfl)]
    have h4 := mul_le_mul_of_nonneg_left h3 (div_pos hdt hτ).le
    have e1 : s.dt / τ * -(τ * ((s'.v s.m + s.v s.m) ⬝ᵥ -s.i M)) = s.dt * ((s'.v s.m + s.v s.m) ⬝ᵥ s.i M) := by
      rw [dotProduct_neg]; field_simp
    rw [e1] at h4
    linarith
  have hint : ∀ k, 0 < k → k ≤ M →
      (s.dun (k - 1) + s.dun k) / 2 * A k ≤ -(s.dt * (P k - Q (k - 1))) := by
    intro k h0 hk
    have hkm : k < s.m := by omega
    have h1 := advanceFields_v_interior lr cg s k h0 hkm
    rw [← hs', hcg] at h1
    have h2 := (voltage_update_iff (C := s.c k) (G := s.g k) rfl rfl (hdetC k hkm.le) (s'.v k) (s.v k)
      (s.i k - s.i (k - 1)) (s.sample.eTNow k - s.sample.eTPrev k)).1 h1
    rw [hx.sample_eTNow, hx.sample_eTPrev, sub_zero] at h2
    have hlen : nodalLength s.m s.dun k = (s.dun (k - 1) + s.dun k) / 2 := by
      unfold nodalLength
      rw [if_neg (by omega), if_pos hkm]
      ring
    rw [hlen] at h2
    have hpos : 0 ≤ (s.dun (k - 1) + s.dun k) / 2 := by
      have h5 : 0 ≤ s.dun (k - 1) := hp.dun (k - 1) (show k - 1 < s.m by omega)
      have h6 : 0 ≤ s.dun k := hp.dun k hkm
      linarith
    have h3 := voltage_energy hdt hpos (hp.c k hkm.le) (hp.g k hkm.le) h2
    have hk1 : k - 1 + 1 = k := by omega
    rw [hA, hP, hQ, hwin k h0 hkm, one_mul, hk1]
    rw [dotProduct_sub] at h3
    exact h3
  have hn := node_sum hleft hint hright
  rw [← hM] at hn
  unfold MTL.electric
  rw [hm', hdun', hc']
  have e1 : ∑ k ∈ Finset.range s.m, s.dun k / 2 * (A k + A (k + 1))
      = ∑ k ∈ Finset.range s.m, s.dun k / 2 * (w k * (s'.v k ⬝ᵥ (s.c k *ᵥ s'.v k))
          + w (k + 1) * (s'.v (k + 1) ⬝ᵥ (s.c (k + 1) *ᵥ s'.v (k + 1))))
        - ∑ k ∈ Finset.range s.m, s.dun k / 2 * (w k * (s.v k ⬝ᵥ (s.c k *ᵥ s.v k))
          + w (k + 1) * (s.v (k + 1) ⬝ᵥ (s.c (k + 1) *ᵥ s.v (k + 1)))) := by
    rw [← Finset.sum_sub_distrib]
    refine Finset.sum_congr rfl fun k _ => ?_
    rw [hA, hA]; ring
  have e2 : ∑ k ∈ Finset.range s.m, (Q k - P k)
      = ∑ k ∈ Finset.range s.m, s.i k ⬝ᵥ (s'.v (k + 1) - s'.v k + (s.v (k + 1) - s.v k)) := by
    refine Finset.sum_congr rfl fun k _ => ?_
    rw [hP, hQ, dotProduct_comm _ (s.i k), dotProduct_comm _ (s.i k), ← dotProduct_sub]
    congr 1
    abel
  rw [e1, e2] at hn
  exact hn

variable {s s' : MTL n p} {T : ℝ} {N : ℕ} {tr : ℕ → MTL n p} {f : ℕ → Fin n → Option RationalModel}

/-- The balance of one cell. -/
theorem connector_cell_balance (R : RunTrace s T s' N tr) (hD : s.conn.Equipped s.u f) (hcdt : s.conn.dt = s.dt)
    (hp : MTL.Passive { s with conn := Disp.new s.dt }) (hx : s.Unexcited) (hlen : ∀ k < s.m, s.dun k = cellLength s.u k)
    (hf : ∀ k < s.m, ∀ c M, f k c = some M → M.Foster) {j : ℕ} (hj : j < N) {k : ℕ} (hk : k < s.m) :
    s.dun k * ((tr (j + 1)).i k ⬝ᵥ (s.l k *ᵥ (tr (j + 1)).i k)) - s.dun k * ((tr j).i k ⬝ᵥ (s.l k *ᵥ (tr j).i k))
      + ((∑ c, (f k c).elim 0 fun M => M.stored (s.dun k) s.dt ((tr (j + 1)).i k c) ((tr (j + 1)).phi k c))
        - ∑ c, (f k c).elim 0 fun M => M.stored (s.dun k) s.dt ((tr j).i k c) ((tr j).phi k c))
      ≤ -(s.dt * (((tr (j + 1)).i k + (tr j).i k) ⬝ᵥ ((tr (j + 1)).v (k + 1) - (tr (j + 1)).v k))) := by
  have hdt : 0 < s.dt := hp.dt_pos
  have hL : (s.l k)ᵀ = s.l k := by
    have h := hp.l k hk
    have e : s.l k + (Disp.new s.dt : Disp n p).e k = s.l k := add_zero _
    dsimp only at h
    rwa [e] at h
  have hR : Dissipative (s.r k) := by
    have h := hp.r k hk
    have e : s.r k + (Disp.new s.dt : Disp n p).d k = s.r k := add_zero _
    dsimp only at h
    rwa [e] at h
  have hd0 : 0 ≤ s.dun k := hp.dun k hk
  have hdrop := (current_iff_drops R hD hcdt hj hk (hlen k hk) _).2 rfl
  obtain ⟨y, hy⟩ : ∃ y, y = (tr (j + 1)).i k := ⟨_, rfl⟩
  obtain ⟨x, hx'⟩ : ∃ x, x = (tr j).i k := ⟨_, rfl⟩
  rw [← hy, ← hx'] at hdrop ⊢
  have hmodel : ∀ c, ((f k c).elim 0 fun M => M.stored (s.dun k) s.dt (y c) ((tr (j + 1)).phi k c))
      - ((f k c).elim 0 fun M => M.stored (s.dun k) s.dt (x c) ((tr j).phi k c))
      ≤ s.dt * ((y c + x c) * ((f k c).elim 0 fun M => modelDrop M (s.dun k) s.dt (y c) (x c) ((tr j).phi k c))) := by
    intro c
    cases hfc : f k c with
    | none => simp
    | some M =>
      simp only [Option.elim_some]
      refine model_balance (hf k hk c M hfc) (hD.poles _ _ _ hfc) (by rw [hlen k hk]; exact hD.length _ _ _ hfc) hdt fun q => ?_
      rw [memory_step R hD hcdt hj hfc (hlen k hk) q, hy]
  have hsum := Finset.sum_le_sum fun c (_ : c ∈ Finset.univ) => hmodel c
  rw [Finset.sum_sub_distrib] at hsum
  refine le_trans (add_le_add_right hsum _) ?_
  have hE : ∀ c, ((f k c).elim 0 fun M => modelDrop M (s.dun k) s.dt (y c) (x c) ((tr j).phi k c))
      = -((tr (j + 1)).v (k + 1) c - (tr (j + 1)).v k c) - s.dun k * ((s.l k *ᵥ (y - x)) c / s.dt + (s.r k *ᵥ (y + x)) c / 2) := by
    intro c
    rw [← hdrop c]
    unfold MTL.extraDrop
    rw [hx.eT, hx.eT, hx.eL, hx.eL]
    ring
  have e1 : ∑ c, s.dt * ((y c + x c) * ((f k c).elim 0 fun M => modelDrop M (s.dun k) s.dt (y c) (x c) ((tr j).phi k c)))
      = -(s.dt * ((y + x) ⬝ᵥ ((tr (j + 1)).v (k + 1) - (tr (j + 1)).v k)))
        - s.dun k * ((y + x) ⬝ᵥ (s.l k *ᵥ (y - x))) - s.dun k * s.dt / 2 * ((y + x) ⬝ᵥ (s.r k *ᵥ (y + x))) := by
    simp only [dotProduct, Finset.mul_sum, ← Finset.sum_neg_distrib, ← Finset.sum_sub_distrib]
    refine Finset.sum_congr rfl fun c _ => ?_
    rw [hE c, Pi.add_apply, Pi.sub_apply]
    field_simp
    ring
  rw [e1, dot_diff_of_symm hL]
  have := mul_nonneg (mul_nonneg hd0 hdt.le) (hR (y + x))
  linarith

/-- In every step the energy of a passive line with passive connectors does not grow. -/
theorem energyWith_step (R : RunTrace s T s' N tr) (hD : s.conn.Equipped s.u f) (hcdt : s.conn.dt = s.dt)
    (hp : MTL.Passive { s with conn := Disp.new s.dt }) (hx : s.Unexcited) {τ : ℝ} (hτ : 0 < τ) (ht : s.TermFor τ)
    (hlen : ∀ k < s.m, s.dun k = cellLength s.u k) (hf : ∀ k < s.m, ∀ c M, f k c = some M → M.Foster) {j : ℕ} (hj : j < N) :
    (tr (j + 1)).energyWith f (s.endWeight τ) ≤ (tr j).energyWith f (s.endWeight τ) := by
  obtain ⟨lr, cg, hlr, hcg, hst⟩ := R.state
  obtain ⟨hc, hfr, -⟩ := hst j hj.le
  obtain ⟨hc', -, -⟩ := hst (j + 1) hj
  obtain ⟨hv, hi, -⟩ := hfr.step_fields (R.step j hj)
  have hp' : MTL.Passive { tr j with conn := Disp.new (tr j).dt } := by
    refine MTL.Passive.congr (s := { s with conn := Disp.new s.dt }) ?_ hp
    exact ⟨hc.m, hc.u, hc.du, hc.dun, hc.l, hc.c, hc.r, hc.g, hc.zs, hc.zl, hc.dt, by dsimp only; rw [hc.dt], hc.vSources, hc.eL, hc.eT,
      hc.left1, hc.left2, hc.right1, hc.right2⟩
  have h1 := electric_step (lr := lr) (cg := cg) hp' (hx.congr hc) hτ (ht.congr hc) hfr.cg_ok
  have h2 := Finset.sum_le_sum fun k (hk : k ∈ Finset.range s.m) => connector_cell_balance R hD hcdt hp hx hlen hf hj (Finset.mem_range.1 hk)
  rw [endWeight_congr hc, hc.m, hc.dt, ← hv] at h1
  have e0 : ((tr j).advanceFields lr cg).electric (s.endWeight τ) = (tr (j + 1)).electric (s.endWeight τ) := by
    unfold MTL.electric
    rw [hc'.m, hc'.dun, hc'.c, hv]
    have e : ((tr j).advanceFields lr cg).m = s.m := hc.m
    have e2 : ((tr j).advanceFields lr cg).dun = s.dun := hc.dun
    have e3 : ((tr j).advanceFields lr cg).c = s.c := hc.c
    rw [e, e2, e3]
  rw [e0] at h1
  unfold MTL.energyWith
  rw [hc'.m, hc'.dun, hc'.l, hc'.dt, hc.m, hc.dun, hc.l, hc.dt]
  rw [Finset.sum_add_distrib, Finset.sum_sub_distrib, Finset.sum_sub_distrib] at h2
  rw [Finset.sum_add_distrib, Finset.sum_add_distrib]
  have e3 : s.dt * ∑ k ∈ Finset.range s.m, (tr j).i k ⬝ᵥ ((tr (j + 1)).v (k + 1) - (tr (j + 1)).v k + ((tr j).v (k + 1) - (tr j).v k))
      + ∑ k ∈ Finset.range s.m, -(s.dt * (((tr (j + 1)).i k + (tr j).i k) ⬝ᵥ ((tr (j + 1)).v (k + 1) - (tr (j + 1)).v k)))
      = s.dt * ∑ k ∈ Finset.range s.m, (tr j).i k ⬝ᵥ ((tr j).v (k + 1) - (tr j).v k)
        - s.dt * ∑ k ∈ Finset.range s.m, (tr (j + 1)).i k ⬝ᵥ ((tr (j + 1)).v (k + 1) - (tr (j + 1)).v k) := by
    simp only [Finset.mul_sum, ← Finset.sum_sub_distrib, ← Finset.sum_add_distrib]
    refine Finset.sum_congr rfl fun k _ => ?_
    rw [add_dotProduct, dotProduct_add]
    ring
  linarith

end Mtln
