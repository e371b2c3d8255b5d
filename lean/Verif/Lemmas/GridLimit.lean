import Mathlib.Analysis.SpecialFunctions.Exponential
import Mathlib.Analysis.Normed.Module.FiniteDimension
import Mathlib.Analysis.Normed.Operator.BoundedLinearMaps

/-! # Powers of steps tend to the exponential function, and solutions of boundary problems on grids to those of their limits -/

namespace Mtln

open Filter Topology NormedSpace

section

variable {𝔸 : Type*} [NormedRing 𝔸] [NormedAlgebra ℝ 𝔸] [CompleteSpace 𝔸]

/-- The solutions of linear differential equations. -/
noncomputable def flow (M : 𝔸) (z : ℝ) : 𝔸 := exp (z • M)

theorem flow_zero (M : 𝔸) : flow M 0 = 1 := by rw [flow, zero_smul, exp_zero]

theorem flow_add (M : 𝔸) (y z : ℝ) : flow M (y + z) = flow M y * flow M z := by
  let := NormedAlgebra.restrictScalars ℚ ℝ 𝔸
  rw [flow, add_smul, exp_add_of_commute (((Commute.refl M).smul_left y).smul_right z)]
  rfl

theorem flow_neg (M : 𝔸) (z : ℝ) : flow M (-z) * flow M z = 1 := by rw [← flow_add, neg_add_cancel, flow_zero]

theorem flow_nat (M : 𝔸) (k : ℕ) (z : ℝ) : flow M (k * z) = flow M z ^ k := by
  induction k with
  | zero => rw [Nat.cast_zero, zero_mul, flow_zero, pow_zero]
  | succ k ih => rw [Nat.cast_succ, add_mul, one_mul, flow_add, ih, pow_succ]

theorem flow_deriv (M : 𝔸) (z : ℝ) : HasDerivAt (flow M) (flow M z * M) z := hasDerivAt_exp_smul_const M z

theorem flow_deriv' (M : 𝔸) (z : ℝ) : HasDerivAt (flow M) (M * flow M z) z := hasDerivAt_exp_smul_const' M z

theorem flow_cont (M : 𝔸) : Continuous (flow M) := continuous_iff_continuousAt.2 fun z => (flow_deriv M z).continuousAt

theorem pow_close {X Y : 𝔸} {q δ : ℝ} (h1 : ‖(1 : 𝔸)‖ ≤ 1) (hq : 1 ≤ q) (hX : ‖X‖ ≤ q) (hY : ‖Y‖ ≤ q) (hδ : ‖X - Y‖ ≤ δ) (k : ℕ) :
    ‖X ^ k - Y ^ k‖ ≤ k * δ * q ^ k ∧ ‖X ^ k‖ ≤ q ^ k := by
  have δ0 : 0 ≤ δ := (norm_nonneg _).trans hδ
  have q0 : 0 ≤ q := by linarith
  induction k with
  | zero => simp [h1]
  | succ k ih =>
    refine ⟨?_, ?_⟩
    · have e : X ^ (k + 1) - Y ^ (k + 1) = X ^ k * (X - Y) + (X ^ k - Y ^ k) * Y := by
        rw [pow_succ, pow_succ]; noncomm_ring
      rw [e]
      refine (norm_add_le _ _).trans ?_
      have a1 : ‖X ^ k * (X - Y)‖ ≤ q ^ k * δ := (norm_mul_le _ _).trans (mul_le_mul ih.2 hδ (norm_nonneg _) (by positivity))
      have a2 : ‖(X ^ k - Y ^ k) * Y‖ ≤ k * δ * q ^ k * q :=
        (norm_mul_le _ _).trans (mul_le_mul ih.1 hY (norm_nonneg _) (by positivity))
      have a3 : q ^ k * δ ≤ q ^ k * δ * q := le_mul_of_one_le_right (by positivity) hq
      push_cast
      rw [pow_succ]
      nlinarith
    · rw [pow_succ, pow_succ]
      exact (norm_mul_le _ _).trans (mul_le_mul ih.2 hX (norm_nonneg _) (by positivity))

/-- Many small steps tend to the solution of the differential equation. -/
theorem power_limit {M : 𝔸} {S : ℕ → 𝔸} {D : ℝ} (h1 : ‖(1 : 𝔸)‖ ≤ 1) (hD : 0 < D) (hS : Tendsto S atTop (𝓝 M)) :
    ∀ ε > 0, ∃ N : ℕ, ∀ m ≥ N, ∀ k : ℕ, k ≤ m → ‖(1 + (D / m : ℝ) • S m) ^ k - flow M (k * D / m)‖ ≤ ε := by
  intro ε hε
  obtain ⟨K, hK⟩ : ∃ K, K = ‖M‖ + 2 := ⟨_, rfl⟩
  have K0 : 0 < K := by rw [hK]; positivity
  obtain ⟨η, hη⟩ : ∃ η, η = min 1 (ε / (D * Real.exp (D * K)) / 2) := ⟨_, rfl⟩
  have E0 := Real.exp_pos (D * K)
  have η0 : 0 < η := by rw [hη]; positivity
  have h2 : ∀ᶠ m in atTop, ‖S m - M‖ ≤ η := by
    have := (tendsto_iff_norm_sub_tendsto_zero.1 hS).eventually (gt_mem_nhds η0)
    exact this.mono fun m hm => hm.le
  have hh : Tendsto (fun m : ℕ => D / m) atTop (𝓝 0) := tendsto_const_div_atTop_nhds_zero_nat D
  have h3 : ∀ᶠ m : ℕ in atTop, ‖flow M (D / m) - 1 - (D / m : ℝ) • M‖ ≤ η * (D / m) := by
    have d := flow_deriv M 0
    rw [flow_zero, one_mul, hasDerivAt_iff_isLittleO] at d
    have := hh.eventually (d.bound η0)
    filter_upwards [this, eventually_gt_atTop 0] with m hm m0
    rw [sub_zero, flow_zero, Real.norm_of_nonneg (by positivity)] at hm
    exact hm
  obtain ⟨N, hN⟩ := eventually_atTop.1 ((h2.and h3).and (eventually_gt_atTop 0))
  refine ⟨N, fun m hm k hk => ?_⟩
  obtain ⟨⟨a1, a2⟩, m0⟩ := hN m hm
  have m0' : (0 : ℝ) < m := by exact_mod_cast m0
  obtain ⟨h, hdef⟩ : ∃ h, h = D / m := ⟨_, rfl⟩
  rw [← hdef] at a2 ⊢
  have h0 : 0 < h := by rw [hdef]; positivity
  have η1 : η ≤ 1 := by rw [hη]; exact min_le_left _ _
  have close : ‖(1 + h • S m) - flow M h‖ ≤ h * (2 * η) := by
    have e : (1 + h • S m) - flow M h = h • (S m - M) - (flow M h - 1 - h • M) := by rw [smul_sub]; abel
    rw [e]
    refine (norm_sub_le _ _).trans ?_
    rw [norm_smul, Real.norm_of_nonneg h0.le]
    nlinarith [mul_le_mul_of_nonneg_left a1 h0.le]
  have nM : ‖S m‖ ≤ ‖M‖ + 1 := by
    have := norm_add_le (S m - M) M
    rw [sub_add_cancel] at this
    linarith
  have nh : ∀ {Q : 𝔸}, ‖h • Q‖ = h * ‖Q‖ := fun {Q} => by rw [norm_smul, Real.norm_of_nonneg h0.le]
  have nX : ‖1 + h • S m‖ ≤ 1 + h * K := by
    refine (norm_add_le _ _).trans ?_
    rw [nh, hK]
    nlinarith
  have nY : ‖flow M h‖ ≤ 1 + h * K := by
    have e : flow M h = 1 + h • M + (flow M h - 1 - h • M) := by abel
    rw [e]
    refine (norm_add_le _ _).trans ?_
    have := norm_add_le (1 : 𝔸) (h • M)
    rw [nh] at this
    rw [hK]
    nlinarith
  obtain ⟨b, -⟩ := pow_close h1 (by nlinarith [mul_pos h0 K0]) nX nY close k
  have e : (k : ℝ) * D / m = k * h := by rw [hdef]; ring
  rw [e, flow_nat]
  refine b.trans ?_
  have hk' : (k : ℝ) ≤ m := by exact_mod_cast hk
  have kh : (k : ℝ) * h ≤ D := by
    have : (m : ℝ) * h = D := by rw [hdef]; field_simp
    nlinarith
  have c1 : (1 + h * K) ^ k ≤ Real.exp (D * K) := by
    have c2 : 1 + h * K ≤ Real.exp (h * K) := by have := Real.add_one_le_exp (h * K); linarith
    calc (1 + h * K) ^ k ≤ Real.exp (h * K) ^ k := pow_le_pow_left₀ (by positivity) c2 k
      _ = Real.exp (k * (h * K)) := (Real.exp_nat_mul _ _).symm
      _ ≤ Real.exp (D * K) := Real.exp_le_exp.2 (by nlinarith)
  have c3 : η ≤ ε / (D * Real.exp (D * K)) / 2 := by rw [hη]; exact min_le_right _ _
  have c4 : 2 * η * (D * Real.exp (D * K)) ≤ ε := by
    have : 2 * η ≤ ε / (D * Real.exp (D * K)) := by linarith
    rwa [le_div_iff₀ (by positivity)] at this
  calc (k : ℝ) * (h * (2 * η)) * (1 + h * K) ^ k = 2 * η * (k * h) * (1 + h * K) ^ k := by ring
    _ ≤ 2 * η * D * Real.exp (D * K) := mul_le_mul (mul_le_mul_of_nonneg_left kh (by positivity)) c1 (by positivity) (by positivity)
    _ ≤ ε := by rw [mul_assoc]; exact c4

end

section

variable {W : Type*} [NormedAddCommGroup W] [NormedSpace ℂ W] [FiniteDimensional ℂ W]

/-- The solutions of linear equations tend to the solution of their limit. -/
theorem solve_limit {T : ℕ → W →L[ℂ] W} {T' : W →L[ℂ] W} {w : ℕ → W} {w' : W} (hT : Tendsto T atTop (𝓝 T')) (inj : ∀ x, T' x = 0 → x = 0)
    (hw : Tendsto (fun m => T m (w m)) atTop (𝓝 (T' w'))) : Tendsto w atTop (𝓝 w') := by
  obtain ⟨c, c0, hc⟩ := (T' : W →ₗ[ℂ] W).exists_antilipschitzWith (LinearMap.ker_eq_bot'.2 inj)
  have lower : ∀ x, ‖x‖ ≤ c * ‖T' x‖ := fun x => by
    have := hc.le_mul_dist x 0
    rw [dist_zero_right] at this
    simpa using this
  have c0' : (0 : ℝ) < c := c0
  have t1 : Tendsto (fun m => ‖T m - T'‖) atTop (𝓝 0) := tendsto_iff_norm_sub_tendsto_zero.1 hT
  have t2 : Tendsto (fun m => ‖T m (w m) - T' w'‖) atTop (𝓝 0) := tendsto_iff_norm_sub_tendsto_zero.1 hw
  rw [tendsto_iff_norm_sub_tendsto_zero]
  have lim : Tendsto (fun m => 2 * c * (‖T m - T'‖ * ‖w'‖ + ‖T m (w m) - T' w'‖)) atTop (𝓝 0) := by
    have := ((t1.mul_const ‖w'‖).add t2).const_mul (2 * (c : ℝ))
    simpa using this
  refine squeeze_zero' (Eventually.of_forall fun m => norm_nonneg _) ?_ lim
  filter_upwards [t1.eventually (gt_mem_nhds (show 0 < 1 / (2 * (c : ℝ)) by positivity))] with m hm
  have e : T' (w m - w') = (T m (w m) - T' w') - (T m - T') (w m - w') - (T m - T') w' := by
    rw [map_sub, map_sub]
    simp only [sub_apply]
    abel
  have l1 := lower (w m - w')
  rw [e] at l1
  have l2 := norm_sub_le ((T m (w m) - T' w') - (T m - T') (w m - w')) ((T m - T') w')
  have l3 := norm_sub_le (T m (w m) - T' w') ((T m - T') (w m - w'))
  have l4 := (T m - T').le_opNorm (w m - w')
  have l5 := (T m - T').le_opNorm w'
  have l6 : c * (‖T m - T'‖ * ‖w m - w'‖) ≤ ‖w m - w'‖ / 2 := by
    have : c * ‖T m - T'‖ ≤ 1 / 2 := by
      rw [lt_div_iff₀ (by positivity)] at hm
      linarith
    calc c * (‖T m - T'‖ * ‖w m - w'‖) = c * ‖T m - T'‖ * ‖w m - w'‖ := by ring
      _ ≤ 1 / 2 * ‖w m - w'‖ := mul_le_mul_of_nonneg_right this (norm_nonneg _)
      _ = _ := by ring
  nlinarith

end

end Mtln
