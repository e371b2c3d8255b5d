import Verif.Lemmas.Decay

/-! # Free oscillations die out -/

namespace Mtln

open Matrix Filter Topology

variable {n p : ℕ}

/-- The impedance takes power from every current. -/
def Absorbing (Z : Mat n) : Prop := ∀ x : Col n, x ≠ 0 → 0 < x ⬝ᵥ (Z *ᵥ x)

/-- The voltage `v` at an impedance `Z` is compatible with it: `Z` absorbs, or `Z` is symmetric and some current causes `v`
(no voltage at a short). -/
def Compatible (Z : Mat n) (v : Col n) : Prop := Absorbing Z ∨ Zᵀ = Z ∧ ∃ w, v = Z *ᵥ w

theorem absorbing_vanish {Z : Mat n} (hZ : Absorbing Z) {J : ℕ → Col n}
    (h : Tendsto (fun j => J j ⬝ᵥ (Z *ᵥ J j)) atTop (𝓝 0)) : Tendsto J atTop (𝓝 0) := by
  have hq : ∀ x : Col n, x ⬝ᵥ (((1 / 2 : ℝ) • (Z + Zᵀ)) *ᵥ x) = x ⬝ᵥ (Z *ᵥ x) := by
    intro x
    have : x ⬝ᵥ (Zᵀ *ᵥ x) = x ⬝ᵥ (Z *ᵥ x) := by
      rw [mulVec_transpose, dotProduct_comm, ← dotProduct_mulVec]
    rw [smul_mulVec, add_mulVec, dotProduct_smul, dotProduct_add, this, smul_eq_mul]
    ring
  have hS : SPD ((1 / 2 : ℝ) • (Z + Zᵀ)) := by
    refine ⟨?_, fun x hx => ?_⟩
    · rw [transpose_smul, transpose_add, transpose_transpose, add_comm]
    · rw [hq]; exact hZ x hx
  obtain ⟨K, -, hK⟩ := hS.component_bound
  rw [tendsto_pi_nhds]
  intro a
  have h1 : Tendsto (fun j => K * Real.sqrt (J j ⬝ᵥ (Z *ᵥ J j))) atTop (𝓝 0) := by
    have := ((Real.continuous_sqrt.tendsto 0).comp h).const_mul K
    rwa [Real.sqrt_zero, mul_zero] at this
  refine squeeze_zero_norm (fun j => ?_) h1
  rw [Real.norm_eq_abs, ← hq]
  exact hK (J j) a

/-- Every matrix has a generalised inverse. -/
theorem exists_ginv (Z : Mat n) : ∃ P : Mat n, ∀ w, Z *ᵥ (P *ᵥ (Z *ᵥ w)) = Z *ᵥ w := by
  obtain ⟨g, hg⟩ := (Matrix.toLin' Z).rangeRestrict.exists_rightInverse_of_surjective (LinearMap.range_rangeRestrict _)
  obtain ⟨f, hf⟩ := g.exists_extend
  refine ⟨LinearMap.toMatrix' f, fun w => ?_⟩
  have e : LinearMap.toMatrix' f *ᵥ (Z *ᵥ w) = f (Z *ᵥ w) := by
    rw [← Matrix.toLin'_apply (LinearMap.toMatrix' f), Matrix.toLin'_toMatrix']
  rw [e]
  have h1 := LinearMap.congr_fun hf ((Matrix.toLin' Z).rangeRestrict w)
  have h2 := congrArg Subtype.val (LinearMap.congr_fun hg ((Matrix.toLin' Z).rangeRestrict w))
  simp only [LinearMap.comp_apply, Submodule.subtype_apply, LinearMap.id_apply, LinearMap.codRestrict_apply,
    LinearMap.rangeRestrict, Matrix.toLin'_apply] at h1 h2
  rw [h1]
  exact h2

theorem move_dot (Z : Mat n) (a b : Col n) : (Z *ᵥ a) ⬝ᵥ b = a ⬝ᵥ (Zᵀ *ᵥ b) := by
  rw [← vecMul_transpose, ← dotProduct_mulVec]

/-- Where an impedance that only dissipates ends up without power, voltage and current at it have no product. -/
theorem compatible_vanish {Z : Mat n} {v J : ℕ → Col n} (hZ : Compatible Z (v 0)) (e : ∀ j, v (j + 1) + v j = -(Z *ᵥ J j))
    {K : ℝ} (hK : ∀ j a, |v j a| ≤ K) (hq : Tendsto (fun j => J j ⬝ᵥ (Z *ᵥ J j)) atTop (𝓝 0)) (ha : Alternates v) :
    Tendsto (fun j => v (j + 1) ⬝ᵥ J j) atTop (𝓝 0) := by
  rcases hZ with hZ | ⟨hs, hw⟩
  · exact tendsto_dot_zero (u := fun j => v (j + 1)) (fun j a => hK (j + 1) a) (absorbing_vanish hZ hq)
  · obtain ⟨P, hP⟩ := exists_ginv Z
    have hr : ∀ j, ∃ w, v j = Z *ᵥ w := by
      intro j
      induction j with
      | zero => exact hw
      | succ j ih =>
        obtain ⟨w, hw⟩ := ih
        refine ⟨-J j - w, ?_⟩
        rw [mulVec_sub, mulVec_neg, ← e j, ← hw]
        abel
    have hZJ : Tendsto (fun j => Pᵀ *ᵥ (Z *ᵥ J j)) atTop (𝓝 0) := by
      refine tendsto_mulVec _ ((tendsto_neg_zero ha).congr fun j => ?_)
      rw [e j, neg_neg]
    refine (tendsto_dot_zero (u := fun j => v (j + 1)) (fun j a => hK (j + 1) a) hZJ).congr fun j => ?_
    obtain ⟨w, hw⟩ := hr (j + 1)
    have h1 : v (j + 1) = Z *ᵥ (P *ᵥ v (j + 1)) := by rw [hw, hP]
    conv_rhs => rw [h1]
    rw [move_dot, hs, move_dot]

/-- Non-negative losses of a non-negative energy vanish. -/
theorem losses_vanish {E a : ℕ → ℝ} (hE : ∀ j, 0 ≤ E j) (ha : ∀ j, 0 ≤ a j) (h : ∀ j, E (j + 1) + a j ≤ E j) :
    Tendsto a atTop (𝓝 0) := by
  have hanti : Antitone E := antitone_nat_of_succ_le fun j => by linarith [h j, ha j]
  have h1 := tendsto_atTop_ciInf hanti ⟨0, by rintro _ ⟨j, rfl⟩; exact hE j⟩
  have h2 := h1.sub (h1.comp (tendsto_add_atTop_nat 1))
  rw [sub_self] at h2
  exact squeeze_zero ha (fun j => by have := h j; simp only [Function.comp]; linarith) h2

section

variable {s : MTL n p} {τ : ℝ} {x y : ℕ → Grid n}

theorem stored_scale (s : MTL n p) (w : ℕ → ℝ) (v i : Grid n) (c : ℝ) :
    MTL.electric { s with v := fun k => c • v k, i := fun k => c • i k } w +
      MTL.magnetic { s with v := fun k => c • v k, i := fun k => c • i k } =
    c ^ 2 * (MTL.electric { s with v := v, i := i } w + MTL.magnetic { s with v := v, i := i }) := by
  unfold MTL.electric MTL.magnetic
  dsimp only
  rw [mul_add, Finset.mul_sum, Finset.mul_sum]
  congr 1
  · refine Finset.sum_congr rfl fun k _ => ?_
    simp only [mulVec_smul, dotProduct_smul, smul_dotProduct, smul_eq_mul]; ring
  · refine Finset.sum_congr rfl fun k _ => ?_
    simp only [mulVec_smul, dotProduct_smul, smul_dotProduct, smul_eq_mul]; ring

/-- Free oscillations die out. -/
theorem oscillations_die {C : Mat n} {d : ℝ} (hp : s.Passive) (hr : s.Regular C) (hτ : s.dt ≤ τ)
    (hauto : maxTimestep s.m s.dun s.l s.c = .ok d) (hlt : s.dt * τ < d ^ 2)
    (h : ∀ j, s.FreeStep τ (x j) (y j) (x (j + 1)) (y (j + 1))) (ha : Absorbing s.zs ∨ Absorbing s.zl)
    (h0 : Compatible s.zs (x 0 0)) (h1 : Compatible s.zl (x 0 s.m)) :
    ∀ ε > 0, ∃ J, ∀ j ≥ J, (∀ k ≤ s.m, ∀ a, |x j k a| ≤ ε) ∧ ∀ k < s.m, ∀ a, |y j k a| ≤ ε := by
  have hdt := hp.dt_pos
  have hm := hp.cells
  have hτ0 : 0 < τ := lt_of_lt_of_le hdt hτ
  obtain ⟨hd, -⟩ := maxTimestep_spec hauto (fun k hk => (hr.dun k hk).le)
  obtain ⟨θ, hθ⟩ : ∃ θ, θ = Real.sqrt (s.dt * τ) / d := ⟨_, rfl⟩
  have hθ0 : 0 ≤ θ := by rw [hθ]; exact div_nonneg (Real.sqrt_nonneg _) hd.le
  have hsq : θ ^ 2 * d ^ 2 = s.dt * τ := by
    rw [hθ, div_pow, Real.sq_sqrt (mul_pos hdt hτ0).le]
    field_simp
  have hθ1 : θ < 1 := by
    by_contra hcon
    push Not at hcon
    have h1 : 1 ≤ θ ^ 2 := by nlinarith
    have h2 : d ^ 2 ≤ θ ^ 2 * d ^ 2 := by nlinarith [sq_nonneg d]
    linarith
  have cfg : ∀ v i : Grid n, s.SameConfig { s with v := v, i := i } := fun v i =>
    ⟨rfl, rfl, rfl, rfl, rfl, rfl, rfl, rfl, rfl, rfl, rfl, rfl, rfl, rfl, rfl, rfl, rfl, rfl, rfl⟩
  have lower : ∀ v i : Grid n, (1 - θ) * (MTL.electric { s with v := v, i := i } (s.endWeight τ) +
      MTL.magnetic { s with v := v, i := i }) ≤ MTL.energyW { s with v := v, i := i } (s.endWeight τ) := fun v i =>
    energy_lower (s := { s with v := v, i := i }) (hr.congr (cfg v i)) hauto hdt hτ hθ0 hsq.ge
  obtain ⟨K1, hK1⟩ := components_bounded (B := 1) hr hm hdt hτ
  -- size of a state from its energy
  have size : ∀ v i : Grid n, ∀ ε > 0, MTL.energyW { s with v := v, i := i } (s.endWeight τ) ≤ (1 - θ) * ε ^ 2 →
      (∀ k ≤ s.m, ∀ a, |v k a| ≤ ε * K1) ∧ ∀ k < s.m, ∀ a, |i k a| ≤ ε * K1 := by
    intro v i ε hε hE
    have h1 : MTL.electric { s with v := v, i := i } (s.endWeight τ) + MTL.magnetic { s with v := v, i := i } ≤ ε ^ 2 := by
      have := (lower v i).trans hE
      exact le_of_mul_le_mul_left this (by linarith)
    have h2 := hK1 _ (cfg (fun k => (1 / ε) • v k) fun k => (1 / ε) • i k) (by
      rw [stored_scale]
      calc (1 / ε) ^ 2 * _ ≤ (1 / ε) ^ 2 * ε ^ 2 := mul_le_mul_of_nonneg_left h1 (sq_nonneg _)
        _ = 1 := by field_simp)
    have h3 : ∀ z : ℝ, |1 / ε * z| ≤ K1 → |z| ≤ ε * K1 := by
      intro z hz
      rw [abs_mul, abs_of_pos (by positivity : 0 < 1 / ε)] at hz
      rw [div_mul_eq_mul_div, one_mul, div_le_iff₀ hε] at hz
      linarith
    exact ⟨fun k hk a => h3 _ (h2.1 k hk a), fun k hk a => h3 _ (h2.2 k hk a)⟩
  obtain ⟨E, hE⟩ : ∃ E : ℕ → ℝ, E = fun j => MTL.energyW { s with v := x j, i := y j } (s.endWeight τ) := ⟨_, rfl⟩
  obtain ⟨F, hF⟩ : ∃ F : ℕ → Col n, F = fun j => s.firstCurrent τ (x j) (y j) (x (j + 1)) := ⟨_, rfl⟩
  obtain ⟨L, hL⟩ : ∃ L : ℕ → Col n, L = fun j => s.lastCurrent τ (x j) (y j) (x (j + 1)) := ⟨_, rfl⟩
  have nonneg : ∀ v i : Grid n, 0 ≤ MTL.energyW { s with v := v, i := i } (s.endWeight τ) := by
    intro v i
    have hl := energy_lower (s := { s with v := v, i := i }) (τ := τ) (θ := 1) (hr.congr (cfg v i)) hauto hdt hτ zero_le_one (by
      show s.dt * τ ≤ _
      linarith)
    rw [sub_self, zero_mul] at hl
    exact hl
  have hE0 : ∀ j, 0 ≤ E j := fun j => by rw [hE]; exact nonneg _ _
  have bal : ∀ j, E (j + 1) + s.dt / 2 * (F j ⬝ᵥ (s.zs *ᵥ F j)) + s.dt / 2 * (L j ⬝ᵥ (s.zl *ᵥ L j)) ≤ E j := fun j => by
    rw [hE, hF, hL]
    exact free_energy hp hτ0 (h j) (hr.dun 0 hm) (hr.dun _ (by omega))
  have nF : ∀ j, 0 ≤ s.dt / 2 * (F j ⬝ᵥ (s.zs *ᵥ F j)) := fun j => mul_nonneg (by linarith) (hp.zs _)
  have nL : ∀ j, 0 ≤ s.dt / 2 * (L j ⬝ᵥ (s.zl *ᵥ L j)) := fun j => mul_nonneg (by linarith) (hp.zl _)
  have tF : Tendsto (fun j => F j ⬝ᵥ (s.zs *ᵥ F j)) atTop (𝓝 0) := by
    have := (losses_vanish hE0 nF fun j => by linarith [bal j, nL j]).const_mul (2 / s.dt)
    rw [mul_zero] at this
    refine this.congr fun j => ?_
    field_simp
  have tL : Tendsto (fun j => L j ⬝ᵥ (s.zl *ᵥ L j)) atTop (𝓝 0) := by
    have := (losses_vanish hE0 nL fun j => by linarith [bal j, nF j]).const_mul (2 / s.dt)
    rw [mul_zero] at this
    refine this.congr fun j => ?_
    field_simp
  have hanti : ∀ j, E j ≤ E 0 := by
    intro j
    induction j with
    | zero => exact le_rfl
    | succ j ih => linarith [bal j, nF j, nL j]
  -- everything is bounded
  obtain ⟨K, hK⟩ : ∃ K, ∀ j, (∀ k ≤ s.m, ∀ a, |x j k a| ≤ K) ∧ ∀ k < s.m, ∀ a, |y j k a| ≤ K := by
    refine ⟨(E 0 / (1 - θ) + 1) * K1, fun j => size (x j) (y j) _ ?_ ?_⟩
    · have h8 : 0 ≤ E 0 / (1 - θ) := div_nonneg (hE0 0) (by linarith)
      linarith
    have h5 : MTL.energyW { s with v := x j, i := y j } (s.endWeight τ) ≤ E 0 := by have := hanti j; rw [hE] at this ⊢; exact this
    have h6 : 0 < 1 - θ := by linarith
    have h7 : 0 ≤ E 0 / (1 - θ) := div_nonneg (hE0 0) h6.le
    calc _ ≤ E 0 := h5
      _ = (1 - θ) * (E 0 / (1 - θ)) := by field_simp
      _ ≤ _ := mul_le_mul_of_nonneg_left (by nlinarith) h6.le
  obtain ⟨av, ai⟩ := alternates_all (fun j => (h j).toFreeInner) hm
    (ha.imp (fun hz => alternates_first h (by rw [hF] at tF; exact absorbing_vanish hz tF))
      fun hz => alternates_last h (by rw [hL] at tL; exact absorbing_vanish hz tL))
  have van := energy_vanishes (fun j => (h j).toFreeInner) hm hdt.ne' hτ0.ne' av ai (fun k hk j => (hK j).1 k hk) (fun k hk j => (hK j).2 k hk)
    (compatible_vanish (v := fun j => x j 0) h0 (fun j => (h j).first) (fun j => (hK j).1 0 (by omega))
      (by rw [hF] at tF; exact tF) (av 0 (by omega)))
    (compatible_vanish (v := fun j => x j s.m) h1 (fun j => (h j).last) (fun j => (hK j).1 s.m le_rfl)
      (by rw [hL] at tL; exact tL) (av s.m le_rfl))
  intro ε hε
  obtain ⟨δ, hδ, hδε⟩ : ∃ δ > 0, δ * K1 ≤ ε := by
    refine ⟨ε / (|K1| + 1), by positivity, ?_⟩
    rw [div_mul_eq_mul_div, div_le_iff₀ (by positivity)]
    nlinarith [le_abs_self K1]
  have hpos : 0 < (1 - θ) * δ ^ 2 := mul_pos (by linarith) (by positivity)
  obtain ⟨J, hJ⟩ := eventually_atTop.1 (van.eventually (gt_mem_nhds hpos))
  refine ⟨J + 1, fun j hj => ?_⟩
  obtain ⟨j, rfl⟩ : ∃ q, j = q + 1 := ⟨j - 1, by omega⟩
  obtain ⟨a, b⟩ := size _ _ δ hδ (hJ j (by omega)).le
  exact ⟨fun k hk c => (a k hk c).trans hδε, fun k hk c => (b k hk c).trans hδε⟩

end

end Mtln
