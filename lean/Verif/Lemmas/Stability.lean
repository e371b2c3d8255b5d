import Verif.Lemmas.Timestep

/-! # Lower bound of the energy under the Courant condition -/

namespace Mtln

open Matrix

variable {n p : ℕ}

theorem MTL.Regular.congr {s s' : MTL n p} {C : Mat n} (h : s.SameConfig s') (hr : s.Regular C) :
    s'.Regular C := by
  constructor
  · rw [h.m, h.c]; exact hr.c
  · exact hr.c_spd
  · rw [h.m, h.l]; exact hr.l_spd
  · rw [h.m, h.conn]; exact hr.e
  · rw [h.m, h.dun]; exact hr.dun

theorem energy_lower {s : MTL n p} {C : Mat n} {d τ θ : ℝ} (hr : s.Regular C)
    (hauto : maxTimestep s.m s.dun s.l s.c = .ok d) (hdt : 0 < s.dt) (hτ : s.dt ≤ τ) (hθ : 0 ≤ θ)
    (hcfl : s.dt * τ ≤ θ ^ 2 * d ^ 2) :
    (1 - θ) * (s.electric (s.endWeight τ) + s.magnetic) ≤ s.energyW (s.endWeight τ) := by
  have hτ0 : 0 < τ := lt_of_lt_of_le hdt hτ
  have hw : ∀ k, s.dt / τ ≤ s.endWeight τ k := by
    intro k
    unfold MTL.endWeight
    split
    · exact le_rfl
    · exact (div_le_one hτ0).2 hτ
  have hcell : ∀ k ∈ Finset.range s.m, -(s.dt * (s.i k ⬝ᵥ (s.v (k + 1) - s.v k)))
      ≤ θ * (s.dun k / 2 * (s.endWeight τ k * (s.v k ⬝ᵥ (s.c k *ᵥ s.v k))
          + s.endWeight τ (k + 1) * (s.v (k + 1) ⬝ᵥ (s.c (k + 1) *ᵥ s.v (k + 1))))
        + s.dun k * (s.i k ⬝ᵥ ((s.l k + s.conn.e k) *ᵥ s.i k))) := by
    intro k hk
    have hk := Finset.mem_range.1 hk
    have hdk := hr.dun k hk
    rw [hr.c k hk.le, hr.c (k + 1) hk]
    refine cell_cross (μ := (d / s.dun k) ^ 2) (ρ := s.dt / τ) (hr.l_spd k hk).symm hr.c_spd (hr.e k hk)
      hdk.le hθ ?_ (div_pos hdt hτ0) (hw k) (hw (k + 1)) ?_ _ _ _
    · intro x hx
      refine maxTimestep_eig hauto (fun k hk => (hr.dun k hk).le) k hk hdk.ne' x ?_
      rw [hr.c (k + 1) hk]; exact hx
    · have e1 : θ ^ 2 * (s.dt / τ) * s.dun k ^ 2 * (d / s.dun k) ^ 2 = s.dt / τ * (θ ^ 2 * d ^ 2) := by
        field_simp
      rw [e1]
      have e2 : s.dt ^ 2 = s.dt / τ * (s.dt * τ) := by field_simp
      rw [e2]
      exact mul_le_mul_of_nonneg_left hcfl (div_pos hdt hτ0).le
  have hsum := Finset.sum_le_sum hcell
  rw [← Finset.mul_sum, Finset.sum_add_distrib, Finset.sum_neg_distrib, ← Finset.mul_sum] at hsum
  unfold MTL.energyW
  have : (1 - θ) * (s.electric (s.endWeight τ) + s.magnetic)
      = s.electric (s.endWeight τ) + s.magnetic - θ * (s.electric (s.endWeight τ) + s.magnetic) := by ring
  rw [this]
  unfold MTL.electric MTL.magnetic at *
  linarith

theorem energyW_congr {s t : MTL n p} (h : s.SameConfig t) (w : ℕ → ℝ) {v i : Grid n}
    (hv : t.v = v) (hi : t.i = i) : t.energyW w = MTL.energyW { s with v := v, i := i } w := by
  unfold MTL.energyW MTL.electric MTL.magnetic
  rw [h.m, h.dun, h.c, h.l, h.conn, h.dt, hv, hi]

theorem endWeight_congr {s t : MTL n p} (h : s.SameConfig t) (τ : ℝ) : t.endWeight τ = s.endWeight τ := by
  unfold MTL.endWeight
  rw [h.m, h.dt]

theorem endWeight_self {s : MTL n p} (h : s.dt ≠ 0) : s.endWeight s.dt = fun _ => 1 := by
  funext k
  unfold MTL.endWeight
  split
  · exact div_self h
  · rfl

/-- Components are bounded by the stored energy. -/
theorem components_bounded {s : MTL n p} {C : Mat n} {τ B : ℝ} (hr : s.Regular C) (hm : 0 < s.m)
    (hdt : 0 < s.dt) (hτ : s.dt ≤ τ) :
    ∃ K, ∀ t : MTL n p, s.SameConfig t → t.electric (s.endWeight τ) + t.magnetic ≤ B →
      (∀ k ≤ s.m, ∀ a, |t.v k a| ≤ K) ∧ (∀ k < s.m, ∀ a, |t.i k a| ≤ K) := by
  have hτ0 : 0 < τ := lt_of_lt_of_le hdt hτ
  have hρ : 0 < s.dt / τ := div_pos hdt hτ0
  have hw : ∀ k, s.dt / τ ≤ s.endWeight τ k := by
    intro k
    unfold MTL.endWeight
    split
    · exact le_rfl
    · exact (div_le_one hτ0).2 hτ
  have hCnn : ∀ x : Col n, 0 ≤ x ⬝ᵥ (C *ᵥ x) := by
    intro x
    by_cases hx : x = 0
    · simp [hx]
    · exact (hr.c_spd.pos x hx).le
  have hLnn : ∀ k < s.m, ∀ x : Col n, 0 ≤ x ⬝ᵥ (s.l k *ᵥ x) := by
    intro k hk x
    by_cases hx : x = 0
    · simp [hx]
    · exact ((hr.l_spd k hk).pos x hx).le
  obtain ⟨KC, hKC, hKC'⟩ := hr.c_spd.component_bound
  have hKL : ∀ k : ℕ, ∃ K : ℝ, 0 ≤ K ∧ (k < s.m → ∀ (x : Col n) (a : Fin n),
      |x a| ≤ K * Real.sqrt (x ⬝ᵥ (s.l k *ᵥ x))) := by
    intro k
    by_cases hk : k < s.m
    · obtain ⟨K, h0, h⟩ := (hr.l_spd k hk).component_bound
      exact ⟨K, h0, fun _ => h⟩
    · exact ⟨0, le_rfl, fun h => absurd h hk⟩
  choose KL hKL0 hKL using hKL
  set term : ℕ → ℝ := fun k => KC * Real.sqrt (B / (s.dun k / 2 * (s.dt / τ)))
    + KL k * Real.sqrt (B / s.dun k) with hterm
  have hterm0 : ∀ k, 0 ≤ term k := fun k =>
    add_nonneg (mul_nonneg hKC (Real.sqrt_nonneg _)) (mul_nonneg (hKL0 k) (Real.sqrt_nonneg _))
  refine ⟨∑ k ∈ Finset.range s.m, term k, ?_⟩
  intro t h hB
  have hle : ∀ k < s.m, term k ≤ ∑ k ∈ Finset.range s.m, term k := fun k hk =>
    Finset.single_le_sum (fun k _ => hterm0 k) (Finset.mem_range.2 hk)
  have hn : ∀ k < s.m, 0 ≤ s.dun k / 2 * (s.endWeight τ k * (t.v k ⬝ᵥ (C *ᵥ t.v k))
      + s.endWeight τ (k + 1) * (t.v (k + 1) ⬝ᵥ (C *ᵥ t.v (k + 1)))) := fun k hk =>
    mul_nonneg (by have := hr.dun k hk; linarith) (add_nonneg
      (mul_nonneg (hρ.le.trans (hw k)) (hCnn _)) (mul_nonneg (hρ.le.trans (hw (k + 1))) (hCnn _)))
  have hl : ∀ k < s.m, 0 ≤ s.dun k * (t.i k ⬝ᵥ ((s.l k + s.conn.e k) *ᵥ t.i k)) := fun k hk => by
    refine mul_nonneg (hr.dun k hk).le ?_
    rw [add_mulVec, dotProduct_add]
    exact add_nonneg (hLnn k hk _) (hr.e k hk _)
  have hel : t.electric (s.endWeight τ) = ∑ k ∈ Finset.range s.m,
      s.dun k / 2 * (s.endWeight τ k * (t.v k ⬝ᵥ (C *ᵥ t.v k))
      + s.endWeight τ (k + 1) * (t.v (k + 1) ⬝ᵥ (C *ᵥ t.v (k + 1)))) := by
    unfold MTL.electric
    rw [h.m, h.dun, h.c]
    refine Finset.sum_congr rfl fun k hk => ?_
    have hk := Finset.mem_range.1 hk
    rw [hr.c k hk.le, hr.c (k + 1) hk]
  have hmag : t.magnetic = ∑ k ∈ Finset.range s.m,
      s.dun k * (t.i k ⬝ᵥ ((s.l k + s.conn.e k) *ᵥ t.i k)) := by
    unfold MTL.magnetic
    rw [h.m, h.dun, h.l, h.conn]
  have hel0 : 0 ≤ t.electric (s.endWeight τ) := by
    rw [hel]; exact Finset.sum_nonneg fun k hk => hn k (Finset.mem_range.1 hk)
  have hmag0 : 0 ≤ t.magnetic := by
    rw [hmag]; exact Finset.sum_nonneg fun k hk => hl k (Finset.mem_range.1 hk)
  have hnode : ∀ k < s.m, s.dun k / 2 * (s.endWeight τ k * (t.v k ⬝ᵥ (C *ᵥ t.v k))
      + s.endWeight τ (k + 1) * (t.v (k + 1) ⬝ᵥ (C *ᵥ t.v (k + 1)))) ≤ B := by
    intro k hk
    have := Finset.single_le_sum (f := fun k => s.dun k / 2 * (s.endWeight τ k * (t.v k ⬝ᵥ (C *ᵥ t.v k))
      + s.endWeight τ (k + 1) * (t.v (k + 1) ⬝ᵥ (C *ᵥ t.v (k + 1)))))
      (fun k hk => hn k (Finset.mem_range.1 hk)) (Finset.mem_range.2 hk)
    rw [← hel] at this
    linarith
  have hcellI : ∀ k < s.m, s.dun k * (t.i k ⬝ᵥ (s.l k *ᵥ t.i k)) ≤ B := by
    intro k hk
    have := Finset.single_le_sum (f := fun k => s.dun k * (t.i k ⬝ᵥ ((s.l k + s.conn.e k) *ᵥ t.i k)))
      (fun k hk => hl k (Finset.mem_range.1 hk)) (Finset.mem_range.2 hk)
    rw [← hmag] at this
    have h2 := mul_nonneg (hr.dun k hk).le (hr.e k hk (t.i k))
    simp only [add_mulVec, dotProduct_add] at this
    nlinarith
  have hvq : ∀ k < s.m, ∀ x : Col n, s.dun k / 2 * ((s.dt / τ) * (x ⬝ᵥ (C *ᵥ x))) ≤ B → ∀ a,
      |x a| ≤ term k := by
    intro k hk x hx a
    refine (hKC' x a).trans ?_
    have h1 : Real.sqrt (x ⬝ᵥ (C *ᵥ x)) ≤ Real.sqrt (B / (s.dun k / 2 * (s.dt / τ))) := by
      apply Real.sqrt_le_sqrt
      rw [le_div_iff₀ (mul_pos (half_pos (hr.dun k hk)) hρ)]
      linarith
    have h2 := mul_le_mul_of_nonneg_left h1 hKC
    have h3 : 0 ≤ KL k * Real.sqrt (B / s.dun k) := mul_nonneg (hKL0 k) (Real.sqrt_nonneg _)
    simp only [hterm]
    linarith
  have hsplit : ∀ k < s.m, (s.dun k / 2 * ((s.dt / τ) * (t.v k ⬝ᵥ (C *ᵥ t.v k))) ≤ B) ∧
      (s.dun k / 2 * ((s.dt / τ) * (t.v (k + 1) ⬝ᵥ (C *ᵥ t.v (k + 1)))) ≤ B) := by
    intro k hk
    have h0 := hnode k hk
    have hd2 : 0 ≤ s.dun k / 2 := by have := hr.dun k hk; linarith
    have a1 := mul_le_mul_of_nonneg_left
      (mul_le_mul_of_nonneg_right (hw k) (hCnn (t.v k))) hd2
    have a2 := mul_le_mul_of_nonneg_left
      (mul_le_mul_of_nonneg_right (hw (k + 1)) (hCnn (t.v (k + 1)))) hd2
    have b1 := mul_nonneg hd2 (mul_nonneg (hρ.le.trans (hw k)) (hCnn (t.v k)))
    have b2 := mul_nonneg hd2 (mul_nonneg (hρ.le.trans (hw (k + 1))) (hCnn (t.v (k + 1))))
    constructor <;> linarith
  constructor
  · intro k hk a
    rcases Nat.lt_or_ge k s.m with h1 | h1
    · exact (hvq k h1 _ (hsplit k h1).1 a).trans (hle k h1)
    · have hk' : k = s.m - 1 + 1 := by omega
      have hlt : s.m - 1 < s.m := by omega
      rw [hk']
      exact (hvq (s.m - 1) hlt _ (hsplit (s.m - 1) hlt).2 a).trans (hle _ hlt)
  · intro k hk a
    refine le_trans ?_ (hle k hk)
    refine (hKL k hk (t.i k) a).trans ?_
    have h1 : Real.sqrt (t.i k ⬝ᵥ (s.l k *ᵥ t.i k)) ≤ Real.sqrt (B / s.dun k) := by
      apply Real.sqrt_le_sqrt
      rw [le_div_iff₀ (hr.dun k hk)]
      linarith [hcellI k hk]
    have h2 := mul_le_mul_of_nonneg_left h1 (hKL0 k)
    have h3 : 0 ≤ KC * Real.sqrt (B / (s.dun k / 2 * (s.dt / τ))) := mul_nonneg hKC (Real.sqrt_nonneg _)
    simp only [hterm]
    linarith

end Mtln
