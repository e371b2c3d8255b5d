import Verif.Lemmas.Stability
import Verif.Lemmas.Relational
import Mathlib.Topology.Instances.Matrix
import Mathlib.Topology.Algebra.Order.LiminfLimsup
import Mathlib.Topology.Order.MonotoneConvergence
import Mathlib.LinearAlgebra.Basis.VectorSpace

/-! # Decay of the free oscillations of a line -/

namespace Mtln

open Matrix Filter Topology

variable {n p : ℕ}

/-- The equations of one step without excitation between the ends. -/
structure MTL.FreeInner (s : MTL n p) (v i v' i' : Grid n) : Prop where
  cell : ∀ k < s.m, s.dun k • ((1 / s.dt) • ((s.l k + s.conn.e k) *ᵥ (i' k - i k)) +
    (1 / 2 : ℝ) • ((s.r k + s.conn.d k) *ᵥ (i' k + i k))) = -(v' (k + 1) - v' k)
  node : ∀ k, 0 < k → k < s.m → ((s.dun (k - 1) + s.dun k) / 2) • ((1 / s.dt) • (s.c k *ᵥ (v' k - v k)) +
    (1 / 2 : ℝ) • (s.g k *ᵥ (v' k + v k))) = -(i k - i (k - 1))

/-- The equations of one step without excitation; the coefficients of the ends belong to the time step `τ`. -/
structure MTL.FreeStep (s : MTL n p) (τ : ℝ) (v i v' i' : Grid n) : Prop extends s.FreeInner v i v' i' where
  first : v' 0 + v 0 = -(s.zs *ᵥ ((2 : ℝ) • i 0 + (s.dun 0 / τ) • (s.c 0 *ᵥ (v' 0 - v 0)) +
    (s.dun 0 / 2) • (s.g 0 *ᵥ (v' 0 + v 0))))
  last : v' s.m + v s.m = -(s.zl *ᵥ (-((2 : ℝ) • i (s.m - 1)) + (s.dun (s.m - 1) / τ) • (s.c s.m *ᵥ (v' s.m - v s.m)) +
    (s.dun (s.m - 1) / 2) • (s.g s.m *ᵥ (v' s.m + v s.m))))

/-- A step of the code without excitation. -/
theorem free_step {s : MTL n p} {lr : LR n} {cg : CG n} {τ : ℝ} (hp : s.Passive) (hx : s.Unexcited) (ht : s.TermFor τ)
    (hlr : updateLr s.m s.dt s.dun s.l s.r s.conn = .ok lr) (hcg : updateCg s.m s.dt s.dun s.c s.g = .ok cg) :
    s.FreeStep τ s.v s.i (s.advanceFields lr cg).v (s.advanceFields lr cg).i := by
  obtain ⟨-, hdetL, hlr⟩ := updateLr_ok_iff.1 hlr
  obtain ⟨-, hdetC, hcg⟩ := updateCg_ok_iff.1 hcg
  obtain ⟨s', hs'⟩ : ∃ s', s' = s.advanceFields lr cg := ⟨_, rfl⟩
  rw [← hs']
  refine ⟨⟨?_, ?_⟩, ?_, ?_⟩
  · intro k hk
    have h1 := advanceFields_i lr cg s k hk
    rw [← hs', hlr] at h1
    have h2 := (current_update_iff (L := s.l k) (R := s.r k) (D := s.conn.d k) (E := s.conn.e k)
      (Q1 := s.conn.q1sum k) (Q2 := s.conn.q2sum k) rfl rfl (hdetL k hk) (s'.i k) (s.i k)
      (s.conn.q3phi s.phi k) (s'.v (k + 1) - s'.v k) (s.sample.eTNow (k + 1) - s.sample.eTNow k)
      (s.sample.eLNow k) (s.sample.eLPrev k)).1 h1
    have h3 : s.conn.q3phi s.phi k = 0 := by
      funext a
      simp [Disp.q3phi, hp.q3 k hk, QEntry.val, poleSum]
    rw [h3, hp.q1 k hk, hp.q2 k hk, hx.sample_eTNow, hx.sample_eTNow, hx.sample_eLNow, hx.sample_eLPrev, sub_zero] at h2
    unfold CurrentEq at h2
    simpa only [zero_mulVec, add_zero, sub_zero, smul_zero] using h2
  · intro k h0 hk
    have h1 := advanceFields_v_interior lr cg s k h0 hk
    rw [← hs', hcg] at h1
    have h2 := (voltage_update_iff (C := s.c k) (G := s.g k) rfl rfl (hdetC k hk.le) (s'.v k) (s.v k)
      (s.i k - s.i (k - 1)) (s.sample.eTNow k - s.sample.eTPrev k)).1 h1
    rw [hx.sample_eTNow, hx.sample_eTPrev, sub_zero] at h2
    have hlen : nodalLength s.m s.dun k = (s.dun (k - 1) + s.dun k) / 2 := by
      unfold nodalLength
      rw [if_neg (by omega), if_pos hk]
      ring
    rw [hlen] at h2
    unfold VoltageEq at h2
    simpa only [mulVec_zero, add_zero, sub_zero, smul_zero] using h2
  · have h1 := advanceFields_v_left lr cg s hp.cells
    rw [← hs', ht.left1, ht.left2, hx.sample_vNow, hx.sample_vPrev, hx.sample_eTNow, hx.sample_eTPrev] at h1
    have h2 := (terminal_update_iff ht.det_left (s'.v 0) (s.v 0) (s.i 0) 0 0).1 (by rw [h1]; simp)
    unfold TerminalEq at h2
    simpa only [mulVec_zero, add_zero, sub_zero, smul_zero, zero_sub] using h2
  · have h1 := advanceFields_v_right lr cg s hp.cells
    rw [← hs', ht.right1, ht.right2, hx.sample_vNow, hx.sample_vPrev, hx.sample_eTNow, hx.sample_eTPrev] at h1
    have h2 := (terminal_update_iff ht.det_right (s'.v s.m) (s.v s.m) (-s.i (s.m - 1)) 0 0).1 (by
      rw [h1]; simp [mulVec_neg])
    unfold TerminalEq at h2
    simpa only [mulVec_zero, add_zero, sub_zero, smul_zero, zero_sub, smul_neg] using h2

/-- Twice the current into the impedance at the first node, averaged over a step. -/
noncomputable def MTL.firstCurrent (s : MTL n p) (τ : ℝ) (v i v' : Grid n) : Col n :=
  (2 : ℝ) • i 0 + (s.dun 0 / τ) • (s.c 0 *ᵥ (v' 0 - v 0)) + (s.dun 0 / 2) • (s.g 0 *ᵥ (v' 0 + v 0))

/-- The same at the last node. -/
noncomputable def MTL.lastCurrent (s : MTL n p) (τ : ℝ) (v i v' : Grid n) : Col n :=
  -((2 : ℝ) • i (s.m - 1)) + (s.dun (s.m - 1) / τ) • (s.c s.m *ᵥ (v' s.m - v s.m)) +
    (s.dun (s.m - 1) / 2) • (s.g s.m *ᵥ (v' s.m + v s.m))

theorem terminal_loss {du dt τ : ℝ} {Z C G : Mat n} {x v I J : Col n} (hdt : 0 < dt) (hτ : 0 < τ) (hdu : 0 ≤ du)
    (hC : Cᵀ = C) (hG : Dissipative G)
    (hJ : J = (2 : ℝ) • I + (du / τ) • (C *ᵥ (x - v)) + (du / 2) • (G *ᵥ (x + v))) (e : x + v = -(Z *ᵥ J)) :
    du / 2 * (dt / τ * (x ⬝ᵥ (C *ᵥ x) - v ⬝ᵥ (C *ᵥ v))) ≤ -(dt * ((x + v) ⬝ᵥ I)) - dt / 2 * (J ⬝ᵥ (Z *ᵥ J)) := by
  have h1 : J ⬝ᵥ (x + v) = -(J ⬝ᵥ (Z *ᵥ J)) := by rw [e, dotProduct_neg]
  have h4 := h1
  rw [dotProduct_comm] at h1
  have h5 : (x + v) ⬝ᵥ J = (2 : ℝ) * ((x + v) ⬝ᵥ I) + (du / τ) * (x ⬝ᵥ (C *ᵥ x) - v ⬝ᵥ (C *ᵥ v)) +
      (du / 2) * ((x + v) ⬝ᵥ (G *ᵥ (x + v))) := by
    rw [hJ]
    simp only [dotProduct_smul, dotProduct_add, dot_diff_of_symm hC, smul_eq_mul]
  rw [h5] at h1
  have h2 := mul_nonneg hdu (hG (x + v))
  have h3 : dt * (du / τ * (x ⬝ᵥ C *ᵥ x - v ⬝ᵥ C *ᵥ v)) = du * (dt / τ * (x ⬝ᵥ C *ᵥ x - v ⬝ᵥ C *ᵥ v)) := by field_simp
  nlinarith [mul_nonneg hdt.le h2]

/-- Energy lost in a step: at least what the two impedances dissipate. -/
theorem free_energy {s : MTL n p} (hp : s.Passive) {τ : ℝ} (hτ : 0 < τ) {v i v' i' : Grid n} (h : s.FreeStep τ v i v' i')
    (hd0 : 0 < s.dun 0) (hdm : 0 < s.dun (s.m - 1)) :
    MTL.energyW { s with v := v', i := i' } (s.endWeight τ) +
      s.dt / 2 * (s.firstCurrent τ v i v' ⬝ᵥ (s.zs *ᵥ s.firstCurrent τ v i v')) +
      s.dt / 2 * (s.lastCurrent τ v i v' ⬝ᵥ (s.zl *ᵥ s.lastCurrent τ v i v')) ≤
      MTL.energyW { s with v := v, i := i } (s.endWeight τ) := by
  have hdt := hp.dt_pos
  obtain ⟨M, hM⟩ : ∃ M, s.m = M + 1 := ⟨s.m - 1, by have := hp.cells; omega⟩
  have hm1 : s.m - 1 = M := by omega
  obtain ⟨J, hJ⟩ : ∃ J, J = s.firstCurrent τ v i v' := ⟨_, rfl⟩
  obtain ⟨J', hJ'⟩ : ∃ J', J' = s.lastCurrent τ v i v' := ⟨_, rfl⟩
  rw [← hJ, ← hJ']
  have hcell : ∀ k < s.m, s.dun k * (i' k ⬝ᵥ ((s.l k + s.conn.e k) *ᵥ i' k)) -
      s.dun k * (i k ⬝ᵥ ((s.l k + s.conn.e k) *ᵥ i k)) ≤ -(s.dt * ((i' k + i k) ⬝ᵥ (v' (k + 1) - v' k))) := by
    intro k hk
    refine current_energy hdt (hp.dun k hk) (hp.l k hk) (hp.r k hk) ?_
    unfold CurrentEq
    simpa only [zero_mulVec, add_zero, sub_zero, smul_zero] using h.cell k hk
  set w := s.endWeight τ with hw
  have hwend : ∀ k, k = 0 ∨ k = s.m → w k = s.dt / τ := fun k h => by
    rw [hw]; unfold MTL.endWeight; rw [if_pos h]
  have hwin : ∀ k, 0 < k → k < s.m → w k = 1 := fun k h h' => by
    rw [hw]; unfold MTL.endWeight; rw [if_neg (by omega)]
  obtain ⟨β, hβ⟩ : ∃ β : ℕ → ℝ, β = fun k => (if k = 0 then J ⬝ᵥ (s.zs *ᵥ J) / s.dun 0 else 0) +
    (if k = M + 1 then J' ⬝ᵥ (s.zl *ᵥ J') / s.dun M else 0) := ⟨_, rfl⟩
  set A : ℕ → ℝ := fun k => w k * (v' k ⬝ᵥ (s.c k *ᵥ v' k) - v k ⬝ᵥ (s.c k *ᵥ v k)) + s.dt * β k with hA
  set P : ℕ → ℝ := fun k => (v' k + v k) ⬝ᵥ i k with hP
  set Q : ℕ → ℝ := fun k => (v' (k + 1) + v (k + 1)) ⬝ᵥ i k with hQ
  have hleft : s.dun 0 / 2 * A 0 ≤ -(s.dt * P 0) := by
    have h1 := terminal_loss hdt hτ (hp.dun 0 hp.cells) (hp.c 0 (by omega)) (hp.g 0 (by omega)) hJ
      (by rw [hJ]; exact h.first)
    have e1 : s.dun 0 / 2 * A 0 = s.dun 0 / 2 * (s.dt / τ * (v' 0 ⬝ᵥ (s.c 0 *ᵥ v' 0) - v 0 ⬝ᵥ (s.c 0 *ᵥ v 0))) +
        s.dt / 2 * (J ⬝ᵥ (s.zs *ᵥ J)) := by
      simp only [hA, hβ, hwend 0 (Or.inl rfl), if_true, if_neg (by omega : ¬ 0 = M + 1)]; field_simp; ring
    rw [e1]
    linarith
  have hright : s.dun M / 2 * A (M + 1) ≤ s.dt * Q M := by
    have h1 := terminal_loss (I := -i (s.m - 1)) (J := J') (x := v' s.m) (v := v s.m) hdt hτ (hp.dun (s.m - 1) (by omega))
      (hp.c s.m le_rfl) (hp.g s.m le_rfl) (by rw [hJ', smul_neg]; rfl) (by rw [hJ']; exact h.last)
    rw [hm1] at h1 hdm
    have hd := hdm.ne'
    have e1 : s.dun M / 2 * A (M + 1) = s.dun M / 2 * (s.dt / τ * (v' s.m ⬝ᵥ (s.c s.m *ᵥ v' s.m) - v s.m ⬝ᵥ (s.c s.m *ᵥ v s.m))) +
        s.dt / 2 * (J' ⬝ᵥ (s.zl *ᵥ J')) := by
      have hwm := hwend s.m (Or.inr rfl)
      rw [hM] at hwm ⊢
      simp only [hA, hβ, hwm, if_true, if_neg (by omega : ¬ M + 1 = 0)]; field_simp; ring
    rw [e1]
    simp only [dotProduct_neg] at h1
    have e2 : Q M = (v' s.m + v s.m) ⬝ᵥ i M := by rw [hM]
    rw [e2]
    linarith
  have hint : ∀ k, 0 < k → k ≤ M → (s.dun (k - 1) + s.dun k) / 2 * A k ≤ -(s.dt * (P k - Q (k - 1))) := by
    intro k h0 hk
    have hkm : k < s.m := by omega
    have hpos : 0 ≤ (s.dun (k - 1) + s.dun k) / 2 := by
      have := hp.dun (k - 1) (by omega)
      have := hp.dun k hkm
      linarith
    have h3 := voltage_energy (x := v' k) (v := v k) (dI := i k - i (k - 1)) hdt hpos (hp.c k hkm.le) (hp.g k hkm.le) (by
      unfold VoltageEq
      simpa only [mulVec_zero, add_zero, sub_zero, smul_zero] using h.node k h0 hkm)
    have hk1 : k - 1 + 1 = k := by omega
    simp only [hA, hP, hQ, hβ, hk1, hwin k h0 hkm, one_mul, if_neg (by omega : ¬ k = 0), if_neg (by omega : ¬ k = M + 1),
      add_zero, mul_zero]
    rw [dotProduct_sub] at h3
    exact h3
  have hn := node_sum hleft hint hright
  rw [← hM] at hn
  have hcs := Finset.sum_le_sum fun k (hk : k ∈ Finset.range s.m) => hcell k (Finset.mem_range.1 hk)
  unfold MTL.energyW MTL.electric MTL.magnetic
  dsimp only
  rw [Finset.sum_sub_distrib] at hcs
  have e1 : ∑ k ∈ Finset.range s.m, s.dun k / 2 * (A k + A (k + 1))
      = ∑ k ∈ Finset.range s.m, s.dun k / 2 * (w k * (v' k ⬝ᵥ (s.c k *ᵥ v' k)) + w (k + 1) * (v' (k + 1) ⬝ᵥ (s.c (k + 1) *ᵥ v' (k + 1))))
        - ∑ k ∈ Finset.range s.m, s.dun k / 2 * (w k * (v k ⬝ᵥ (s.c k *ᵥ v k)) + w (k + 1) * (v (k + 1) ⬝ᵥ (s.c (k + 1) *ᵥ v (k + 1))))
        + s.dt * ∑ k ∈ Finset.range s.m, s.dun k / 2 * (β k + β (k + 1)) := by
    rw [Finset.mul_sum, ← Finset.sum_sub_distrib, ← Finset.sum_add_distrib]
    refine Finset.sum_congr rfl fun k _ => ?_
    simp only [hA]; ring
  have e2 : s.dt * ∑ k ∈ Finset.range s.m, (Q k - P k)
      + ∑ k ∈ Finset.range s.m, -(s.dt * ((i' k + i k) ⬝ᵥ (v' (k + 1) - v' k)))
      = s.dt * ∑ k ∈ Finset.range s.m, i k ⬝ᵥ (v (k + 1) - v k)
        - s.dt * ∑ k ∈ Finset.range s.m, i' k ⬝ᵥ (v' (k + 1) - v' k) := by
    simp only [Finset.mul_sum, ← Finset.sum_sub_distrib, ← Finset.sum_add_distrib]
    refine Finset.sum_congr rfl fun k _ => ?_
    simp only [hP, hQ, dotProduct_comm _ (i k), dotProduct_sub, add_dotProduct]
    ring
  have e3 : ∑ k ∈ Finset.range s.m, s.dun k / 2 * (β k + β (k + 1)) =
      1 / 2 * (J ⬝ᵥ (s.zs *ᵥ J)) + 1 / 2 * (J' ⬝ᵥ (s.zl *ᵥ J')) := by
    have f1 : ∀ k ∈ Finset.range s.m, s.dun k / 2 * (β k + β (k + 1)) =
        (if k = 0 then 1 / 2 * (J ⬝ᵥ (s.zs *ᵥ J)) else 0) + (if k = M then 1 / 2 * (J' ⬝ᵥ (s.zl *ᵥ J')) else 0) := by
      intro k hk
      have hk := Finset.mem_range.1 hk
      rw [hm1] at hdm
      have := hd0.ne'
      have := hdm.ne'
      simp only [hβ, if_neg (by omega : ¬ k = M + 1), if_neg (by omega : ¬ k + 1 = 0), add_zero, zero_add,
        Nat.add_right_cancel_iff]
      by_cases hk0 : k = 0
      · by_cases hkM : k = M
        · simp only [if_pos hk0, if_pos hkM]; rw [← hkM, hk0]; field_simp
        · simp only [if_pos hk0, if_neg hkM]; rw [hk0]; field_simp; ring
      · by_cases hkM : k = M
        · simp only [if_neg hk0, if_pos hkM]; rw [hkM]; field_simp; ring
        · simp only [if_neg hk0, if_neg hkM]; ring
    rw [Finset.sum_congr rfl f1, Finset.sum_add_distrib, Finset.sum_ite_eq', Finset.sum_ite_eq',
      if_pos (Finset.mem_range.2 hp.cells), if_pos (Finset.mem_range.2 (by omega))]
  rw [e1, e3] at hn
  linarith

/-! ## Sequences that end up alternating -/

/-- The sequence changes its sign in every step, up to something that vanishes. -/
def Alternates (u : ℕ → Col n) : Prop := Tendsto (fun j => u (j + 1) + u j) atTop (𝓝 0)

theorem tendsto_mulVec (A : Mat n) {u : ℕ → Col n} (h : Tendsto u atTop (𝓝 0)) :
    Tendsto (fun j => A *ᵥ u j) atTop (𝓝 0) := by
  have hc : Continuous fun x : Col n => A *ᵥ x := continuous_const.matrix_mulVec continuous_id
  have := (hc.tendsto 0).comp h
  rwa [mulVec_zero] at this

theorem tendsto_smul_zero (c : ℝ) {u : ℕ → Col n} (h : Tendsto u atTop (𝓝 0)) : Tendsto (fun j => c • u j) atTop (𝓝 0) := by
  have := h.const_smul c
  rwa [smul_zero] at this

theorem tendsto_add_zero {u w : ℕ → Col n} (h : Tendsto u atTop (𝓝 0)) (h' : Tendsto w atTop (𝓝 0)) :
    Tendsto (fun j => u j + w j) atTop (𝓝 0) := by
  have := h.add h'
  rwa [add_zero] at this

theorem tendsto_sub_zero {u w : ℕ → Col n} (h : Tendsto u atTop (𝓝 0)) (h' : Tendsto w atTop (𝓝 0)) :
    Tendsto (fun j => u j - w j) atTop (𝓝 0) := by
  have := h.sub h'
  rwa [sub_zero] at this

theorem tendsto_neg_zero {u : ℕ → Col n} (h : Tendsto u atTop (𝓝 0)) : Tendsto (fun j => -u j) atTop (𝓝 0) := by
  have := h.neg
  rwa [neg_zero] at this

theorem tendsto_shift {u : ℕ → Col n} (h : Tendsto u atTop (𝓝 0)) : Tendsto (fun j => u (j + 1)) atTop (𝓝 0) :=
  h.comp (tendsto_add_atTop_nat 1)

theorem tendsto_unshift {u : ℕ → Col n} (h : Tendsto (fun j => u (j + 1)) atTop (𝓝 0)) : Tendsto u atTop (𝓝 0) :=
  (tendsto_add_atTop_iff_nat 1).1 h

theorem tendsto_dot_zero {u w : ℕ → Col n} {K : ℝ} (hu : ∀ j a, |u j a| ≤ K) (h : Tendsto w atTop (𝓝 0)) :
    Tendsto (fun j => u j ⬝ᵥ w j) atTop (𝓝 0) := by
  unfold dotProduct
  rw [show (0 : ℝ) = ∑ _a : Fin n, (0 : ℝ) by simp]
  refine tendsto_finset_sum _ fun a _ => ?_
  refine bdd_le_mul_tendsto_zero' K (Eventually.of_forall fun j => hu j a) ?_
  exact (tendsto_pi_nhds.1 h) a

theorem Alternates.two {u : ℕ → Col n} (h : Alternates u) : Tendsto (fun j => u (j + 2) - u j) atTop (𝓝 0) := by
  have := tendsto_sub_zero (tendsto_shift h) h
  refine this.congr fun j => ?_
  rw [show j + 1 + 1 = j + 2 from rfl]
  abel

theorem Alternates.sum {u : ℕ → Col n} (h : Alternates u) :
    Tendsto (fun j => (u (j + 2) + u (j + 1)) + (u (j + 1) + u j)) atTop (𝓝 0) :=
  tendsto_add_zero (tendsto_shift h) h

section

variable {s : MTL n p} {τ : ℝ} {x y : ℕ → Grid n}

/-- Where the first voltage alternates, a vanishing current at the first node makes the first current alternate. -/
theorem current_first (h1 : Alternates fun j => x j 0)
    (hJ : Tendsto (fun j => s.firstCurrent τ (x j) (y j) (x (j + 1))) atTop (𝓝 0)) : Alternates fun j => y j 0 := by
  have h2 := tendsto_smul_zero (1 / 2) (tendsto_sub_zero (tendsto_sub_zero (tendsto_add_zero (tendsto_shift hJ) hJ)
    (tendsto_smul_zero (s.dun 0 / τ) (tendsto_mulVec (s.c 0) h1.two)))
    (tendsto_smul_zero (s.dun 0 / 2) (tendsto_mulVec (s.g 0) h1.sum)))
  refine h2.congr fun j => ?_
  unfold MTL.firstCurrent
  simp only [mulVec_add, mulVec_sub]
  module

theorem current_last (h1 : Alternates fun j => x j s.m)
    (hJ : Tendsto (fun j => s.lastCurrent τ (x j) (y j) (x (j + 1))) atTop (𝓝 0)) : Alternates fun j => y j (s.m - 1) := by
  have h2 := tendsto_smul_zero (-(1 / 2)) (tendsto_sub_zero (tendsto_sub_zero (tendsto_add_zero (tendsto_shift hJ) hJ)
    (tendsto_smul_zero (s.dun (s.m - 1) / τ) (tendsto_mulVec (s.c s.m) h1.two)))
    (tendsto_smul_zero (s.dun (s.m - 1) / 2) (tendsto_mulVec (s.g s.m) h1.sum)))
  refine h2.congr fun j => ?_
  unfold MTL.lastCurrent
  simp only [mulVec_add, mulVec_sub]
  module

/-- A vanishing current in the first impedance makes the first voltage and the first current alternate. -/
theorem alternates_first (h : ∀ j, s.FreeStep τ (x j) (y j) (x (j + 1)) (y (j + 1)))
    (hJ : Tendsto (fun j => s.firstCurrent τ (x j) (y j) (x (j + 1))) atTop (𝓝 0)) :
    Alternates (fun j => x j 0) ∧ Alternates fun j => y j 0 := by
  have h1 : Alternates fun j => x j 0 := by
    refine (tendsto_neg_zero (tendsto_mulVec s.zs hJ)).congr fun j => ?_
    exact (h j).first.symm
  exact ⟨h1, current_first h1 hJ⟩

theorem alternates_last (h : ∀ j, s.FreeStep τ (x j) (y j) (x (j + 1)) (y (j + 1)))
    (hJ : Tendsto (fun j => s.lastCurrent τ (x j) (y j) (x (j + 1))) atTop (𝓝 0)) :
    Alternates (fun j => x j s.m) ∧ Alternates fun j => y j (s.m - 1) := by
  have h1 : Alternates fun j => x j s.m := by
    refine (tendsto_neg_zero (tendsto_mulVec s.zl hJ)).congr fun j => ?_
    exact (h j).last.symm
  exact ⟨h1, current_last h1 hJ⟩

/-- What a cell adds to the voltage. -/
theorem cell_vanishes {k : ℕ} (hi : Alternates fun j => y j k) : Tendsto (fun j =>
    s.dun k • ((1 / s.dt) • ((s.l k + s.conn.e k) *ᵥ (y (j + 2) k - y j k)) + (1 / 2 : ℝ) • ((s.r k + s.conn.d k) *ᵥ
      ((y (j + 2) k + y (j + 1) k) + (y (j + 1) k + y j k))))) atTop (𝓝 0) :=
  tendsto_smul_zero _ (tendsto_add_zero (tendsto_smul_zero _ (tendsto_mulVec _ hi.two))
    (tendsto_smul_zero _ (tendsto_mulVec _ hi.sum)))

theorem cell_twice (h : ∀ j, s.FreeInner (x j) (y j) (x (j + 1)) (y (j + 1))) {k : ℕ} (hk : k < s.m) (j : ℕ) :
    s.dun k • ((1 / s.dt) • ((s.l k + s.conn.e k) *ᵥ (y (j + 2) k - y j k)) + (1 / 2 : ℝ) • ((s.r k + s.conn.d k) *ᵥ
      ((y (j + 2) k + y (j + 1) k) + (y (j + 1) k + y j k)))) =
      (x (j + 2) k + x (j + 1) k) - (x (j + 2) (k + 1) + x (j + 1) (k + 1)) := by
  have e1 := (h j).cell k hk
  have e2 := (h (j + 1)).cell k hk
  rw [show j + 1 + 1 = j + 2 from rfl] at e2
  have e3 := congrArg₂ (· + ·) e1 e2
  have e4 : (x (j + 2) k + x (j + 1) k) - (x (j + 2) (k + 1) + x (j + 1) (k + 1)) =
      -(x (j + 1) (k + 1) - x (j + 1) k) + -(x (j + 2) (k + 1) - x (j + 2) k) := by abel
  rw [e4, ← e3]
  generalize s.l k + s.conn.e k = L
  generalize s.r k + s.conn.d k = R
  simp only [mulVec_add, mulVec_sub]
  module

theorem node_vanishes {k : ℕ} (hv : Alternates fun j => x j k) : Tendsto (fun j =>
    ((s.dun (k - 1) + s.dun k) / 2) • ((1 / s.dt) • (s.c k *ᵥ (x (j + 2) k - x j k)) + (1 / 2 : ℝ) • (s.g k *ᵥ
      ((x (j + 2) k + x (j + 1) k) + (x (j + 1) k + x j k))))) atTop (𝓝 0) :=
  tendsto_smul_zero _ (tendsto_add_zero (tendsto_smul_zero _ (tendsto_mulVec _ hv.two))
    (tendsto_smul_zero _ (tendsto_mulVec _ hv.sum)))

theorem node_twice (h : ∀ j, s.FreeInner (x j) (y j) (x (j + 1)) (y (j + 1))) {k : ℕ} (h0 : 0 < k) (hk : k < s.m) (j : ℕ) :
    ((s.dun (k - 1) + s.dun k) / 2) • ((1 / s.dt) • (s.c k *ᵥ (x (j + 2) k - x j k)) + (1 / 2 : ℝ) • (s.g k *ᵥ
      ((x (j + 2) k + x (j + 1) k) + (x (j + 1) k + x j k)))) =
      (y (j + 1) (k - 1) + y j (k - 1)) - (y (j + 1) k + y j k) := by
  have e1 := (h j).node k h0 hk
  have e2 := (h (j + 1)).node k h0 hk
  rw [show j + 1 + 1 = j + 2 from rfl] at e2
  have e3 := congrArg₂ (· + ·) e1 e2
  have e4 : (y (j + 1) (k - 1) + y j (k - 1)) - (y (j + 1) k + y j k) = -(y j k - y j (k - 1)) + -(y (j + 1) k - y (j + 1) (k - 1)) := by abel
  rw [e4, ← e3]
  simp only [mulVec_add, mulVec_sub]
  module

theorem alternates_right (h : ∀ j, s.FreeInner (x j) (y j) (x (j + 1)) (y (j + 1))) {k : ℕ} (hk : k < s.m)
    (hv : Alternates fun j => x j k) (hi : Alternates fun j => y j k) : Alternates fun j => x j (k + 1) := by
  refine tendsto_unshift (u := fun j => x (j + 1) (k + 1) + x j (k + 1)) ?_
  refine (tendsto_sub_zero (tendsto_shift hv) (cell_vanishes (s := s) hi)).congr fun j => ?_
  rw [cell_twice h hk]
  simp only [show j + 1 + 1 = j + 2 from rfl]
  abel

theorem alternates_left (h : ∀ j, s.FreeInner (x j) (y j) (x (j + 1)) (y (j + 1))) {k : ℕ} (hk : k < s.m)
    (hv : Alternates fun j => x j (k + 1)) (hi : Alternates fun j => y j k) : Alternates fun j => x j k := by
  refine tendsto_unshift (u := fun j => x (j + 1) k + x j k) ?_
  refine (tendsto_add_zero (tendsto_shift hv) (cell_vanishes (s := s) hi)).congr fun j => ?_
  rw [cell_twice h hk]
  simp only [show j + 1 + 1 = j + 2 from rfl]
  abel

theorem alternates_next (h : ∀ j, s.FreeInner (x j) (y j) (x (j + 1)) (y (j + 1))) {k : ℕ} (h0 : 0 < k) (hk : k < s.m)
    (hv : Alternates fun j => x j k) (hi : Alternates fun j => y j (k - 1)) : Alternates fun j => y j k := by
  refine (tendsto_sub_zero hi (node_vanishes (s := s) hv)).congr fun j => ?_
  rw [node_twice h h0 hk]
  abel

theorem alternates_previous (h : ∀ j, s.FreeInner (x j) (y j) (x (j + 1)) (y (j + 1))) {k : ℕ} (h0 : 0 < k) (hk : k < s.m)
    (hv : Alternates fun j => x j k) (hi : Alternates fun j => y j k) : Alternates fun j => y j (k - 1) := by
  refine (tendsto_add_zero hi (node_vanishes (s := s) hv)).congr fun j => ?_
  rw [node_twice h h0 hk]
  abel

/-- Everything alternates once voltage and current of one end do. -/
theorem alternates_all (h : ∀ j, s.FreeInner (x j) (y j) (x (j + 1)) (y (j + 1))) (hm : 0 < s.m)
    (hJ : (Alternates (fun j => x j 0) ∧ Alternates fun j => y j 0) ∨
      (Alternates (fun j => x j s.m) ∧ Alternates fun j => y j (s.m - 1))) :
    (∀ k ≤ s.m, Alternates fun j => x j k) ∧ ∀ k < s.m, Alternates fun j => y j k := by
  have key : ∀ k < s.m, (Alternates fun j => x j k) ∧ (Alternates fun j => y j k) ∧ Alternates fun j => x j (k + 1) := by
    rcases hJ with hJ | hJ
    · obtain ⟨a, b⟩ := hJ
      intro k
      induction k with
      | zero => exact fun _ => ⟨a, b, alternates_right h hm a b⟩
      | succ k ih =>
        intro hk
        obtain ⟨-, h2, h3⟩ := ih (by omega)
        have h4 := alternates_next h (by omega) hk h3 (by rw [Nat.add_sub_cancel]; exact h2)
        exact ⟨h3, h4, alternates_right h hk h3 h4⟩
    · obtain ⟨a, b⟩ := hJ
      have : ∀ q < s.m, (Alternates fun j => x j (s.m - 1 - q)) ∧ (Alternates fun j => y j (s.m - 1 - q)) ∧
          Alternates fun j => x j (s.m - 1 - q + 1) := by
        intro q
        induction q with
        | zero =>
          intro _
          rw [Nat.sub_zero]
          have a' : Alternates fun j => x j (s.m - 1 + 1) := by rwa [Nat.sub_add_cancel hm]
          exact ⟨alternates_left h (by omega) a' b, b, a'⟩
        | succ q ih =>
          intro hq
          obtain ⟨h1, h2, -⟩ := ih (by omega)
          have e : s.m - 1 - (q + 1) = s.m - 1 - q - 1 := by omega
          have e' : s.m - 1 - (q + 1) + 1 = s.m - 1 - q := by omega
          have h3 := alternates_previous h (by omega) (by omega) h1 h2
          rw [← e] at h3
          have h4 : Alternates fun j => x j (s.m - 1 - (q + 1) + 1) := by rwa [e']
          exact ⟨alternates_left h (by omega) h4 h3, h3, h4⟩
      intro k hk
      have := this (s.m - 1 - k) (by omega)
      rwa [show s.m - 1 - (s.m - 1 - k) = k by omega] at this
  refine ⟨fun k hk => ?_, fun k hk => (key k hk).2.1⟩
  rcases Nat.lt_or_ge k s.m with h1 | h1
  · exact (key k h1).1
  · have := (key (s.m - 1) (by omega)).2.2
    rwa [show s.m - 1 + 1 = k by omega] at this

end

end Mtln
