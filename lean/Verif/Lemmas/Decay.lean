import Verif.Lemmas.Relax

/-! # The energy of free oscillations vanishes when they alternate -/

namespace Mtln

open Matrix Filter Topology

variable {n p : ℕ} {s : MTL n p} {τ : ℝ} {x y : ℕ → Grid n}

theorem dot_four (v a b c d : Col n) (α β γ δ : ℝ) : v ⬝ᵥ (α • a + β • b + γ • c + δ • d) =
    α * (v ⬝ᵥ a) + β * (v ⬝ᵥ b) + γ * (v ⬝ᵥ c) + δ * (v ⬝ᵥ d) := by
  simp only [dotProduct_add, dotProduct_smul, smul_eq_mul]

/-- In an alternating cell the magnetic energy is balanced by the product of current and voltage difference. -/
theorem cell_balance (h : ∀ j, s.FreeInner (x j) (y j) (x (j + 1)) (y (j + 1))) (hdt : s.dt ≠ 0) {k : ℕ} (hk : k < s.m)
    (hi : Alternates fun j => y j k) {K : ℝ} (hK : ∀ j a, |y j k a| ≤ K) :
    Tendsto (fun j => 2 * (s.dun k * (y (j + 1) k ⬝ᵥ ((s.l k + s.conn.e k) *ᵥ y (j + 1) k))) +
      s.dt * (y (j + 1) k ⬝ᵥ (x (j + 1) (k + 1) - x (j + 1) k))) atTop (𝓝 0) := by
  have h1 := tendsto_add_zero (tendsto_smul_zero (s.dun k) (tendsto_mulVec (s.l k + s.conn.e k) hi))
    (tendsto_smul_zero (-(s.dt * s.dun k / 2)) (tendsto_mulVec (s.r k + s.conn.d k) hi))
  refine (tendsto_dot_zero (u := fun j => y (j + 1) k) (fun j a => hK (j + 1) a) h1).congr fun j => ?_
  have e := congrArg (fun w => s.dt * (y (j + 1) k ⬝ᵥ w)) ((h j).cell k hk)
  generalize s.l k + s.conn.e k = L at *
  generalize s.r k + s.conn.d k = R at *
  simp only [dotProduct_smul, dotProduct_add, dotProduct_sub, dotProduct_neg, mulVec_add, mulVec_sub, smul_eq_mul] at e ⊢
  field_simp at e
  linarith

theorem node_balance (h : ∀ j, s.FreeInner (x j) (y j) (x (j + 1)) (y (j + 1))) (hdt : s.dt ≠ 0) {k : ℕ} (h0 : 0 < k)
    (hk : k < s.m) (hv : Alternates fun j => x j k) (hi : Alternates fun j => y j k) (hi' : Alternates fun j => y j (k - 1))
    {K : ℝ} (hK : ∀ j a, |x j k a| ≤ K) :
    Tendsto (fun j => (s.dun (k - 1) + s.dun k) * (x (j + 1) k ⬝ᵥ (s.c k *ᵥ x (j + 1) k)) -
      s.dt * (x (j + 1) k ⬝ᵥ (y (j + 1) k - y (j + 1) (k - 1)))) atTop (𝓝 0) := by
  have h1 := tendsto_add_zero (tendsto_add_zero
    (tendsto_smul_zero ((s.dun (k - 1) + s.dun k) / 2) (tendsto_mulVec (s.c k) hv))
    (tendsto_smul_zero (-(s.dt * ((s.dun (k - 1) + s.dun k) / 4))) (tendsto_mulVec (s.g k) hv)))
    (tendsto_smul_zero (-s.dt) (tendsto_sub_zero hi hi'))
  refine (tendsto_dot_zero (u := fun j => x (j + 1) k) (fun j a => hK (j + 1) a) h1).congr fun j => ?_
  have e := congrArg (fun w => s.dt * (x (j + 1) k ⬝ᵥ w)) ((h j).node k h0 hk)
  simp only [dotProduct_smul, dotProduct_add, dotProduct_sub, dotProduct_neg, mulVec_add, mulVec_sub, smul_eq_mul] at e ⊢
  field_simp at e
  linarith

theorem first_balance (hτ : τ ≠ 0) (hv : Alternates fun j => x j 0) (hi : Alternates fun j => y j 0) {K : ℝ}
    (hK : ∀ j a, |x j 0 a| ≤ K)
    (hJ : Tendsto (fun j => x (j + 1) 0 ⬝ᵥ s.firstCurrent τ (x j) (y j) (x (j + 1))) atTop (𝓝 0)) :
    Tendsto (fun j => s.dun 0 * (s.dt / τ * (x (j + 1) 0 ⬝ᵥ (s.c 0 *ᵥ x (j + 1) 0))) - s.dt * (x (j + 1) 0 ⬝ᵥ y (j + 1) 0))
      atTop (𝓝 0) := by
  have h1 := tendsto_add_zero (tendsto_add_zero
    (tendsto_smul_zero (s.dt / 2 * (s.dun 0 / τ)) (tendsto_mulVec (s.c 0) hv))
    (tendsto_smul_zero (-(s.dt / 2 * (s.dun 0 / 2))) (tendsto_mulVec (s.g 0) hv)))
    (tendsto_smul_zero (-s.dt) hi)
  have h2 := (hJ.const_mul (s.dt / 2)).add (tendsto_dot_zero (u := fun j => x (j + 1) 0) (fun j a => hK (j + 1) a) h1)
  rw [mul_zero, add_zero] at h2
  refine h2.congr fun j => ?_
  unfold MTL.firstCurrent
  simp only [dotProduct_smul, dotProduct_add, dotProduct_sub, dotProduct_neg, mulVec_add, mulVec_sub, smul_eq_mul]
  field_simp
  ring

theorem last_balance (hτ : τ ≠ 0) (hv : Alternates fun j => x j s.m) (hi : Alternates fun j => y j (s.m - 1)) {K : ℝ}
    (hK : ∀ j a, |x j s.m a| ≤ K)
    (hJ : Tendsto (fun j => x (j + 1) s.m ⬝ᵥ s.lastCurrent τ (x j) (y j) (x (j + 1))) atTop (𝓝 0)) :
    Tendsto (fun j => s.dun (s.m - 1) * (s.dt / τ * (x (j + 1) s.m ⬝ᵥ (s.c s.m *ᵥ x (j + 1) s.m))) +
      s.dt * (x (j + 1) s.m ⬝ᵥ y (j + 1) (s.m - 1))) atTop (𝓝 0) := by
  have h1 := tendsto_add_zero (tendsto_add_zero
    (tendsto_smul_zero (s.dt / 2 * (s.dun (s.m - 1) / τ)) (tendsto_mulVec (s.c s.m) hv))
    (tendsto_smul_zero (-(s.dt / 2 * (s.dun (s.m - 1) / 2))) (tendsto_mulVec (s.g s.m) hv)))
    (tendsto_smul_zero s.dt hi)
  have h2 := (hJ.const_mul (s.dt / 2)).add (tendsto_dot_zero (u := fun j => x (j + 1) s.m) (fun j a => hK (j + 1) a) h1)
  rw [mul_zero, add_zero] at h2
  refine h2.congr fun j => ?_
  unfold MTL.lastCurrent
  simp only [dotProduct_smul, dotProduct_add, dotProduct_sub, dotProduct_neg, mulVec_add, mulVec_sub, smul_eq_mul]
  field_simp
  ring

/-- Sum over nodes as sum over cells. -/
theorem sum_nodes (M : ℕ) (A B : ℕ → ℝ) : ∑ k ∈ Finset.range (M + 2), ((if k = 0 then 0 else B (k - 1)) +
    if k = M + 1 then 0 else A k) = ∑ k ∈ Finset.range (M + 1), (A k + B k) := by
  rw [Finset.sum_add_distrib, Finset.sum_add_distrib, Finset.sum_range_succ' (fun k => if k = 0 then 0 else B (k - 1)),
    Finset.sum_range_succ (fun k => if k = M + 1 then 0 else A k)]
  simp only [if_true, add_zero, Nat.add_sub_cancel, if_neg (Nat.succ_ne_zero _)]
  rw [add_comm]
  congr 1
  refine Finset.sum_congr rfl fun k hk => ?_
  rw [if_neg (by have := Finset.mem_range.1 hk; omega)]

/-- The energy of oscillations that alternate vanishes. -/
theorem energy_vanishes (h : ∀ j, s.FreeInner (x j) (y j) (x (j + 1)) (y (j + 1))) (hm : 0 < s.m) (hdt : s.dt ≠ 0) (hτ : τ ≠ 0)
    (hv : ∀ k ≤ s.m, Alternates fun j => x j k) (hi : ∀ k < s.m, Alternates fun j => y j k) {K : ℝ}
    (hKv : ∀ k ≤ s.m, ∀ j a, |x j k a| ≤ K) (hKi : ∀ k < s.m, ∀ j a, |y j k a| ≤ K)
    (h0 : Tendsto (fun j => x (j + 1) 0 ⬝ᵥ s.firstCurrent τ (x j) (y j) (x (j + 1))) atTop (𝓝 0))
    (h1 : Tendsto (fun j => x (j + 1) s.m ⬝ᵥ s.lastCurrent τ (x j) (y j) (x (j + 1))) atTop (𝓝 0)) :
    Tendsto (fun j => MTL.energyW { s with v := x (j + 1), i := y (j + 1) } (s.endWeight τ)) atTop (𝓝 0) := by
  obtain ⟨M, hM⟩ : ∃ M, s.m = M + 1 := ⟨s.m - 1, by omega⟩
  have hm1 : s.m - 1 = M := by omega
  obtain ⟨w, hw⟩ : ∃ w, w = s.endWeight τ := ⟨_, rfl⟩
  have hwend : ∀ k, k = 0 ∨ k = s.m → w k = s.dt / τ := fun k h => by
    rw [hw]; unfold MTL.endWeight; rw [if_pos h]
  have hwin : ∀ k, 0 < k → k < s.m → w k = 1 := fun k h h' => by
    rw [hw]; unfold MTL.endWeight; rw [if_neg (by omega)]
  have cells := tendsto_finset_sum (Finset.range s.m) fun k hk => cell_balance h hdt (Finset.mem_range.1 hk)
    (hi k (Finset.mem_range.1 hk)) (hKi k (Finset.mem_range.1 hk))
  have nodes : Tendsto (fun j => ∑ k ∈ Finset.range (M + 2),
      ((if k = 0 then 0 else s.dun (k - 1) * (w (k - 1 + 1) * (x (j + 1) (k - 1 + 1) ⬝ᵥ (s.c (k - 1 + 1) *ᵥ x (j + 1) (k - 1 + 1)))) +
        s.dt * (x (j + 1) (k - 1 + 1) ⬝ᵥ y (j + 1) (k - 1))) +
      if k = M + 1 then 0 else s.dun k * (w k * (x (j + 1) k ⬝ᵥ (s.c k *ᵥ x (j + 1) k))) - s.dt * (x (j + 1) k ⬝ᵥ y (j + 1) k)))
      atTop (𝓝 (∑ _k ∈ Finset.range (M + 2), (0 : ℝ))) := by
    refine tendsto_finset_sum _ fun k hk => ?_
    have hk := Finset.mem_range.1 hk
    rcases Nat.eq_zero_or_pos k with rfl | hk0
    · refine (first_balance hτ (hv 0 (by omega)) (hi 0 hm) (hKv 0 (by omega)) h0).congr fun j => ?_
      rw [if_pos rfl, if_neg (by omega), hwend 0 (Or.inl rfl), zero_add]
    · rcases Nat.lt_or_ge k s.m with hlt | hge
      · refine (node_balance h hdt hk0 hlt (hv k hlt.le) (hi k hlt) (hi (k - 1) (by omega)) (hKv k hlt.le)).congr fun j => ?_
        rw [if_neg (by omega), if_neg (by omega), show k - 1 + 1 = k by omega, hwin k hk0 hlt, dotProduct_sub]
        ring
      · obtain rfl : k = s.m := by omega
        refine (last_balance hτ (hv _ le_rfl) (hi _ (by omega)) (hKv _ le_rfl) h1).congr fun j => ?_
        rw [if_neg (by omega), if_pos hM, show s.m - 1 + 1 = s.m by omega, hwend _ (Or.inr rfl), add_zero]
  rw [Finset.sum_const_zero] at nodes cells
  have both := (cells.add nodes).const_mul (1 / 2 : ℝ)
  rw [add_zero, mul_zero] at both
  refine both.congr fun j => ?_
  rw [sum_nodes M (fun k => s.dun k * (w k * (x (j + 1) k ⬝ᵥ (s.c k *ᵥ x (j + 1) k))) - s.dt * (x (j + 1) k ⬝ᵥ y (j + 1) k))
    (fun k => s.dun k * (w (k + 1) * (x (j + 1) (k + 1) ⬝ᵥ (s.c (k + 1) *ᵥ x (j + 1) (k + 1)))) +
        s.dt * (x (j + 1) (k + 1) ⬝ᵥ y (j + 1) k)), ← hM]
  unfold MTL.energyW MTL.electric MTL.magnetic
  dsimp only
  rw [← hw, Finset.mul_sum, ← Finset.sum_add_distrib, Finset.mul_sum, ← Finset.sum_add_distrib, ← Finset.sum_add_distrib]
  refine Finset.sum_congr rfl fun k _ => ?_
  rw [dotProduct_comm (x (j + 1) k), dotProduct_comm (x (j + 1) (k + 1)) (y (j + 1) k), dotProduct_comm (x (j + 1) k) (y (j + 1) k), dotProduct_sub]
  ring

end Mtln
