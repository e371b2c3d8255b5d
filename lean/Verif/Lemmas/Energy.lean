import Verif.Spec.Energy
import Verif.Lemmas.Fields

/-! # Energy balance of one step -/

namespace Mtln

open Matrix

variable {n p : ℕ}

/-- `(x + y) · A (x - y) = x·Ax - y·Ay` for symmetric `A`. -/
theorem dot_diff_of_symm {A : Mat n} (h : Aᵀ = A) (x y : Col n) :
    (x + y) ⬝ᵥ (A *ᵥ (x - y)) = x ⬝ᵥ (A *ᵥ x) - y ⬝ᵥ (A *ᵥ y) := by
  have hs : y ⬝ᵥ (A *ᵥ x) = x ⬝ᵥ (A *ᵥ y) := by
    rw [dotProduct_mulVec, ← mulVec_transpose, h, dotProduct_comm]
  rw [mulVec_sub, dotProduct_sub, add_dotProduct, add_dotProduct, hs]
  ring

theorem current_energy {du dt : ℝ} {L R D E : Mat n} {x i dV : Col n} (hdt : 0 < dt) (hdu : 0 ≤ du)
    (hL : (L + E)ᵀ = L + E) (hR : Dissipative (R + D))
    (h : CurrentEq du dt L R D E 0 0 x i 0 dV 0 0 0) :
    du * (x ⬝ᵥ ((L + E) *ᵥ x)) - du * (i ⬝ᵥ ((L + E) *ᵥ i)) ≤ -(dt * ((x + i) ⬝ᵥ dV)) := by
  unfold CurrentEq at h
  have h2 := congrArg (fun w => dt * ((x + i) ⬝ᵥ w)) h
  simp only [zero_mulVec, add_zero, sub_zero, smul_zero, dotProduct_smul, dotProduct_add, dotProduct_neg,
    dot_diff_of_symm hL, smul_eq_mul] at h2
  have := mul_nonneg hdu (hR (x + i))
  have h3 : dt * (du * (1 / dt * (x ⬝ᵥ (L + E) *ᵥ x - i ⬝ᵥ (L + E) *ᵥ i)))
      = du * (x ⬝ᵥ (L + E) *ᵥ x - i ⬝ᵥ (L + E) *ᵥ i) := by field_simp
  nlinarith

theorem voltage_energy {h dt : ℝ} {C G : Mat n} {x v dI : Col n} (hdt : 0 < dt) (hh : 0 ≤ h)
    (hC : Cᵀ = C) (hG : Dissipative G) (e : VoltageEq h dt C G x v dI 0) :
    h * (x ⬝ᵥ (C *ᵥ x) - v ⬝ᵥ (C *ᵥ v)) ≤ -(dt * ((x + v) ⬝ᵥ dI)) := by
  unfold VoltageEq at e
  have h2 := congrArg (fun w => dt * ((x + v) ⬝ᵥ w)) e
  simp only [mulVec_zero, add_zero, sub_zero, smul_zero, dotProduct_smul, dotProduct_add, dotProduct_neg,
    dot_diff_of_symm hC, smul_eq_mul] at h2
  have := mul_nonneg hh (hG (x + v))
  have h3 : dt * (h * (1 / dt * (x ⬝ᵥ C *ᵥ x - v ⬝ᵥ C *ᵥ v)))
      = h * (x ⬝ᵥ C *ᵥ x - v ⬝ᵥ C *ᵥ v) := by field_simp
  nlinarith

theorem terminal_energy {du dt : ℝ} {Z C G : Mat n} {x v I : Col n} (hdt : 0 < dt) (hdu : 0 ≤ du)
    (hC : Cᵀ = C) (hG : Dissipative G) (hZ : Dissipative Z) (e : TerminalEq du dt Z C G x v 0 0 I 0) :
    du / 2 * (x ⬝ᵥ (C *ᵥ x) - v ⬝ᵥ (C *ᵥ v)) ≤ -(dt * ((x + v) ⬝ᵥ I)) := by
  unfold TerminalEq at e
  set J : Col n := (2 : ℝ) • I + (du / dt) • (C *ᵥ (x - v)) + (du / 2) • (G *ᵥ (x + v))
    + (du / dt) • (C *ᵥ 0) with hJ
  have h1 : J ⬝ᵥ (x + v) ≤ 0 := by
    rw [e]
    have := hZ J
    simp only [add_zero, dotProduct_sub, dotProduct_zero]
    linarith
  rw [dotProduct_comm, hJ] at h1
  simp only [mulVec_zero, smul_zero, add_zero, dotProduct_smul, dotProduct_add,
    dot_diff_of_symm hC, smul_eq_mul] at h1
  have h2 := mul_nonneg hdu (hG (x + v))
  have h3 : dt * (du / dt * (x ⬝ᵥ C *ᵥ x - v ⬝ᵥ C *ᵥ v))
      = du * (x ⬝ᵥ C *ᵥ x - v ⬝ᵥ C *ᵥ v) := by field_simp
  nlinarith [mul_nonneg hdt.le h2]

/-- Summation by parts: node inequalities add up to a cell sum. -/
theorem node_sum {M : ℕ} {dt : ℝ} {du A P Q : ℕ → ℝ}
    (h0 : du 0 / 2 * A 0 ≤ -(dt * P 0))
    (hi : ∀ k, 0 < k → k ≤ M → (du (k - 1) + du k) / 2 * A k ≤ -(dt * (P k - Q (k - 1))))
    (hm : du M / 2 * A (M + 1) ≤ dt * Q M) :
    ∑ k ∈ Finset.range (M + 1), du k / 2 * (A k + A (k + 1))
      ≤ dt * ∑ k ∈ Finset.range (M + 1), (Q k - P k) := by
  have key : ∀ j ≤ M, ∑ k ∈ Finset.range j, du k / 2 * (A k + A (k + 1)) + du j / 2 * A j
      ≤ dt * (∑ k ∈ Finset.range j, (Q k - P k) - P j) := by
    intro j
    induction j with
    | zero => intro _; simp; linarith
    | succ j ih =>
      intro hj
      have := ih (by omega)
      have h1 := hi (j + 1) (by omega) hj
      simp only [Nat.add_sub_cancel] at h1
      rw [Finset.sum_range_succ, Finset.sum_range_succ]
      nlinarith
  have := key M le_rfl
  rw [Finset.sum_range_succ, Finset.sum_range_succ]
  nlinarith

theorem MTL.TermConsistent.termFor {s : MTL n p} (h : s.TermConsistent) : s.TermFor s.dt :=
  ⟨h.det_left, h.det_right, h.left1, h.left2, h.right1, h.right2⟩

theorem MTL.TermFor.congr {s s' : MTL n p} {τ : ℝ} (h : s.SameConfig s') (ht : s.TermFor τ) :
    s'.TermFor τ := by
  constructor
  · rw [h.dun, h.zs, h.c, h.g]; exact ht.det_left
  · rw [h.dun, h.zl, h.c, h.g, h.m]; exact ht.det_right
  · rw [h.dun, h.zs, h.c, h.g, h.left1]; exact ht.left1
  · rw [h.dun, h.zs, h.c, h.g, h.left2]; exact ht.left2
  · rw [h.dun, h.zl, h.c, h.g, h.m, h.right1]; exact ht.right1
  · rw [h.dun, h.zl, h.c, h.g, h.m, h.right2]; exact ht.right2

theorem MTL.Passive.congr {s s' : MTL n p} (h : s.SameConfig s') (hp : s.Passive) : s'.Passive := by
  constructor
  · rw [h.m]; exact hp.cells
  · rw [h.dt]; exact hp.dt_pos
  · rw [h.m, h.dun]; exact hp.dun
  · rw [h.m, h.l, h.conn]; exact hp.l
  · rw [h.m, h.c]; exact hp.c
  · rw [h.m, h.r, h.conn]; exact hp.r
  · rw [h.m, h.g]; exact hp.g
  · rw [h.zs]; exact hp.zs
  · rw [h.zl]; exact hp.zl
  · rw [h.m, h.conn]; exact hp.q1
  · rw [h.m, h.conn]; exact hp.q2
  · rw [h.m, h.conn]; exact hp.q3

theorem MTL.Unexcited.congr {s s' : MTL n p} (h : s.SameConfig s') (hp : s.Unexcited) : s'.Unexcited :=
  ⟨by rw [h.vSources]; exact hp.vS, by rw [h.eL]; exact hp.eL, by rw [h.eT]; exact hp.eT⟩

theorem MTL.Unexcited.sample_vNow {s : MTL n p} (h : s.Unexcited) (k : ℕ) : s.sample.vNow k = 0 := by
  funext a; exact h.vS _ _ _
theorem MTL.Unexcited.sample_vPrev {s : MTL n p} (h : s.Unexcited) (k : ℕ) : s.sample.vPrev k = 0 := by
  funext a; exact h.vS _ _ _
theorem MTL.Unexcited.sample_eTNow {s : MTL n p} (h : s.Unexcited) (k : ℕ) : s.sample.eTNow k = 0 := by
  funext a; exact h.eT _ _ _
theorem MTL.Unexcited.sample_eTPrev {s : MTL n p} (h : s.Unexcited) (k : ℕ) : s.sample.eTPrev k = 0 := by
  funext a; exact h.eT _ _ _
theorem MTL.Unexcited.sample_eLNow {s : MTL n p} (h : s.Unexcited) (k : ℕ) : s.sample.eLNow k = 0 := by
  funext a; exact h.eL _ _ _
theorem MTL.Unexcited.sample_eLPrev {s : MTL n p} (h : s.Unexcited) (k : ℕ) : s.sample.eLPrev k = 0 := by
  funext a; exact h.eL _ _ _

/-- One step of a passive line without excitation does not increase the energy. -/
theorem energy_step {s : MTL n p} {lr : LR n} {cg : CG n} {τ : ℝ} (hp : s.Passive) (hx : s.Unexcited)
    (hτ : 0 < τ) (ht : s.TermFor τ)
    (hlr : updateLr s.m s.dt s.dun s.l s.r s.conn = .ok lr) (hcg : updateCg s.m s.dt s.dun s.c s.g = .ok cg) :
    (s.advanceFields lr cg).energyW (s.endWeight τ) ≤ s.energyW (s.endWeight τ) := by
  have hdt := hp.dt_pos
  obtain ⟨-, hdetL, hlr⟩ := updateLr_ok_iff.1 hlr
  obtain ⟨-, hdetC, hcg⟩ := updateCg_ok_iff.1 hcg
  obtain ⟨M, hM⟩ : ∃ M, s.m = M + 1 := ⟨s.m - 1, by have := hp.cells; omega⟩
  set s' := s.advanceFields lr cg with hs'
  set w := s.endWeight τ with hw
  have hwend : ∀ k, k = 0 ∨ k = s.m → w k = s.dt / τ := fun k h => by
    rw [hw]; unfold MTL.endWeight; rw [if_pos h]
  have hwin : ∀ k, 0 < k → k < s.m → w k = 1 := fun k h h' => by
    rw [hw]; unfold MTL.endWeight; rw [if_neg (by omega)]
  have hm' : s'.m = s.m := rfl
  have hdun' : s'.dun = s.dun := rfl
  have hc' : s'.c = s.c := rfl
  have hl' : s'.l = s.l := rfl
  have hconn' : s'.conn = s.conn := rfl
  have hdt' : s'.dt = s.dt := rfl
  -- cell currents
  have hcell : ∀ k < s.m, s.dun k * (s'.i k ⬝ᵥ ((s.l k + s.conn.e k) *ᵥ s'.i k))
      - s.dun k * (s.i k ⬝ᵥ ((s.l k + s.conn.e k) *ᵥ s.i k))
      ≤ -(s.dt * ((s'.i k + s.i k) ⬝ᵥ (s'.v (k + 1) - s'.v k))) := by
    intro k hk
    refine current_energy hdt (hp.dun k hk) (hp.l k hk) (hp.r k hk) ?_
    have h1 := advanceFields_i lr cg s k hk
    rw [← hs', hlr] at h1
    have h2 := (current_update_iff (L := s.l k) (R := s.r k) (D := s.conn.d k) (E := s.conn.e k)
      (Q1 := s.conn.q1sum k) (Q2 := s.conn.q2sum k) rfl rfl (hdetL k hk) (s'.i k) (s.i k)
      (s.conn.q3phi s.phi k) (s'.v (k + 1) - s'.v k) (s.sample.eTNow (k + 1) - s.sample.eTNow k)
      (s.sample.eLNow k) (s.sample.eLPrev k)).1 h1
    rw [hp.q1 k hk, hp.q2 k hk, hx.sample_eTNow, hx.sample_eTNow, hx.sample_eLNow, hx.sample_eLPrev,
      sub_zero] at h2
    have h3 : s.conn.q3phi s.phi k = 0 := by
      funext a
      simp [Disp.q3phi, hp.q3 k hk, QEntry.val, poleSum]
    rw [h3] at h2
    exact h2
  -- nodes
  set A : ℕ → ℝ := fun k => w k * (s'.v k ⬝ᵥ (s.c k *ᵥ s'.v k) - s.v k ⬝ᵥ (s.c k *ᵥ s.v k)) with hA
  set P : ℕ → ℝ := fun k => (s'.v k + s.v k) ⬝ᵥ s.i k with hP
  set Q : ℕ → ℝ := fun k => (s'.v (k + 1) + s.v (k + 1)) ⬝ᵥ s.i k with hQ
  have hleft : s.dun 0 / 2 * A 0 ≤ -(s.dt * P 0) := by
    have h1 := advanceFields_v_left lr cg s hp.cells
    rw [← hs', ht.left1, ht.left2, hx.sample_vNow, hx.sample_vPrev, hx.sample_eTNow, hx.sample_eTPrev] at h1
    have h2 := (terminal_update_iff ht.det_left (s'.v 0) (s.v 0) (s.i 0) 0 0).1 (by
      rw [h1]; simp)
    have h3 := terminal_energy (I := s.i 0) hτ (hp.dun 0 hp.cells) (hp.c 0 (by omega)) (hp.g 0 (by omega)) hp.zs
      (x := s'.v 0) (v := s.v 0) (by unfold TerminalEq; rw [add_zero]; exact h2)
    simp only [hA, hP, hwend 0 (Or.inl rfl)]
    have h4 := mul_le_mul_of_nonneg_left h3 (div_pos hdt hτ).le
    have e1 : s.dt / τ * -(τ * ((s'.v 0 + s.v 0) ⬝ᵥ s.i 0)) = -(s.dt * ((s'.v 0 + s.v 0) ⬝ᵥ s.i 0)) := by
      field_simp
    rw [e1] at h4
    linarith
  have hright : s.dun M / 2 * A (M + 1) ≤ s.dt * Q M := by
    have h1 := advanceFields_v_right lr cg s hp.cells
    rw [← hs', ht.right1, ht.right2, hx.sample_vNow, hx.sample_vPrev, hx.sample_eTNow,
      hx.sample_eTPrev] at h1
    have h2 := (terminal_update_iff ht.det_right (s'.v s.m) (s.v s.m) (-s.i (s.m - 1)) 0 0).1 (by
      rw [h1]; simp [mulVec_neg])
    have h3 := terminal_energy (I := -s.i (s.m - 1)) hτ (hp.dun (s.m - 1) (by omega)) (hp.c s.m le_rfl)
      (hp.g s.m le_rfl) hp.zl
      (x := s'.v s.m) (v := s.v s.m) (by unfold TerminalEq; rw [add_zero]; exact h2)
    have hm1 : s.m - 1 = M := by omega
    rw [hm1] at h3
    simp only [hA, hQ, ← hM, hwend s.m (Or.inr rfl)]
    have h4 := mul_le_mul_of_nonneg_left h3 (div_pos hdt hτ).le
    have e1 : s.dt / τ * -(τ * ((s'.v s.m + s.v s.m) ⬝ᵥ -s.i M)) = s.dt * ((s'.v s.m + s.v s.m) ⬝ᵥ s.i M) := by
      rw [dotProduct_neg]; field_simp
    rw [e1] at h4
    linarith
  have hint : ∀ k, 0 < k → k ≤ M →
      (s.dun (k - 1) + s.dun k) / 2 * A k ≤ -(s.dt * (P k - Q (k - 1))) := by
    intro k h0 hk
    have hkm : k < s.m := by omega
    have h1 := advanceFields_v_interior lr cg s k h0 hkm
    rw [← hs', hcg] at h1
    have h2 := (voltage_update_iff (C := s.c k) (G := s.g k) rfl rfl (hdetC k hkm.le) (s'.v k) (s.v k)
      (s.i k - s.i (k - 1)) (s.sample.eTNow k - s.sample.eTPrev k)).1 h1
    rw [hx.sample_eTNow, hx.sample_eTPrev, sub_zero] at h2
    have hlen : nodalLength s.m s.dun k = (s.dun (k - 1) + s.dun k) / 2 := by
      unfold nodalLength
      rw [if_neg (by omega), if_pos hkm]
      ring
    rw [hlen] at h2
    have hpos : 0 ≤ (s.dun (k - 1) + s.dun k) / 2 := by
      have := hp.dun (k - 1) (by omega)
      have := hp.dun k hkm
      linarith
    have h3 := voltage_energy hdt hpos (hp.c k hkm.le) (hp.g k hkm.le) h2
    have hk1 : k - 1 + 1 = k := by omega
    simp only [hA, hP, hQ, hwin k h0 hkm, one_mul, hk1]
    rw [dotProduct_sub] at h3
    exact h3
  have hn := node_sum hleft hint hright
  rw [← hM] at hn
  have hcs := Finset.sum_le_sum fun k (hk : k ∈ Finset.range s.m) => hcell k (Finset.mem_range.1 hk)
  unfold MTL.energyW MTL.electric MTL.magnetic
  rw [hm', hdun', hc', hl', hconn', hdt']
  rw [Finset.sum_sub_distrib] at hcs
  have e1 : ∑ k ∈ Finset.range s.m, s.dun k / 2 * (A k + A (k + 1))
      = ∑ k ∈ Finset.range s.m, s.dun k / 2 * (w k * (s'.v k ⬝ᵥ (s.c k *ᵥ s'.v k))
          + w (k + 1) * (s'.v (k + 1) ⬝ᵥ (s.c (k + 1) *ᵥ s'.v (k + 1))))
        - ∑ k ∈ Finset.range s.m, s.dun k / 2 * (w k * (s.v k ⬝ᵥ (s.c k *ᵥ s.v k))
          + w (k + 1) * (s.v (k + 1) ⬝ᵥ (s.c (k + 1) *ᵥ s.v (k + 1)))) := by
    rw [← Finset.sum_sub_distrib]
    refine Finset.sum_congr rfl fun k _ => ?_
    simp only [hA]; ring
  have e2 : s.dt * ∑ k ∈ Finset.range s.m, (Q k - P k)
      + ∑ k ∈ Finset.range s.m, -(s.dt * ((s'.i k + s.i k) ⬝ᵥ (s'.v (k + 1) - s'.v k)))
      = s.dt * ∑ k ∈ Finset.range s.m, s.i k ⬝ᵥ (s.v (k + 1) - s.v k)
        - s.dt * ∑ k ∈ Finset.range s.m, s'.i k ⬝ᵥ (s'.v (k + 1) - s'.v k) := by
    simp only [Finset.mul_sum, ← Finset.sum_sub_distrib, ← Finset.sum_add_distrib]
    refine Finset.sum_congr rfl fun k _ => ?_
    simp only [hP, hQ, dotProduct_comm _ (s.i k), dotProduct_sub, add_dotProduct]
    ring
  rw [e1] at hn
  linarith

end Mtln
