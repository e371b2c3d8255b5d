import Mathlib.Analysis.ODE.ExistUnique
import Mathlib.Analysis.Calculus.Deriv.Prod
import Verif.Lemmas.GridLimit

/-! # Linear boundary problems of waves on grids -/

namespace Mtln

open Filter Topology

variable {X : Type*} [NormedAddCommGroup X] [NormedSpace ℂ X] [FiniteDimensional ℂ X] [CompleteSpace X]

/-- The operator with four blocks. -/
noncomputable def blk (a b c d : X →L[ℂ] X) : X × X →L[ℂ] X × X :=
  (ContinuousLinearMap.inl ℂ X X).comp (a.comp (ContinuousLinearMap.fst ℂ X X) + b.comp (ContinuousLinearMap.snd ℂ X X)) +
    (ContinuousLinearMap.inr ℂ X X).comp (c.comp (ContinuousLinearMap.fst ℂ X X) + d.comp (ContinuousLinearMap.snd ℂ X X))

omit [FiniteDimensional ℂ X] [CompleteSpace X] in
theorem blk_apply (a b c d : X →L[ℂ] X) (w : X × X) : blk a b c d w = (a w.1 + b w.2, c w.1 + d w.2) := by
  simp [blk]

theorem comp_tendsto {W Y Z : Type*} [NormedAddCommGroup W] [NormedSpace ℂ W] [NormedAddCommGroup Y] [NormedSpace ℂ Y]
    [NormedAddCommGroup Z] [NormedSpace ℂ Z] {a : ℕ → Y →L[ℂ] Z} {a' : Y →L[ℂ] Z} {b : ℕ → W →L[ℂ] Y} {b' : W →L[ℂ] Y}
    (ha : Tendsto a atTop (𝓝 a')) (hb : Tendsto b atTop (𝓝 b')) : Tendsto (fun m => (a m).comp (b m)) atTop (𝓝 (a'.comp b')) :=
  ((ContinuousLinearMap.compL ℂ W Y Z).continuous₂.tendsto (a', b')).comp (ha.prodMk_nhds hb)

omit [FiniteDimensional ℂ X] [CompleteSpace X] in
theorem blk_tendsto {a b c d : ℕ → X →L[ℂ] X} {a' b' c' d' : X →L[ℂ] X} (ha : Tendsto a atTop (𝓝 a')) (hb : Tendsto b atTop (𝓝 b'))
    (hc : Tendsto c atTop (𝓝 c')) (hd : Tendsto d atTop (𝓝 d')) :
    Tendsto (fun m => blk (a m) (b m) (c m) (d m)) atTop (𝓝 (blk a' b' c' d')) := by
  exact (comp_tendsto tendsto_const_nhds ((comp_tendsto ha tendsto_const_nhds).add (comp_tendsto hb tendsto_const_nhds))).add
    (comp_tendsto tendsto_const_nhds ((comp_tendsto hc tendsto_const_nhds).add (comp_tendsto hd tendsto_const_nhds)))

/-- The operator of the telegrapher's equations. -/
noncomputable def waveOp (A B : X →L[ℂ] X) : X × X →L[ℂ] X × X := blk 0 (-A) (-B) 0

omit [FiniteDimensional ℂ X] in
theorem flow_wave (A B : X →L[ℂ] X) (w : X × X) (z : ℝ) :
    HasDerivAt (fun z => flow (waveOp A B) z w) (waveOp A B (flow (waveOp A B) z w)) z := by
  have := ((ContinuousLinearMap.apply ℂ (X × X) w).restrictScalars ℝ).hasFDerivAt.comp_hasDerivAt z (flow_deriv' (waveOp A B) z)
  exact this

omit [FiniteDimensional ℂ X] in
/-- The solutions of the telegrapher's equations. -/
theorem wave_unique {A B : X →L[ℂ] X} {D : ℝ} {v i : ℝ → X}
    (hv : ∀ z ∈ Set.Icc 0 D, HasDerivWithinAt v (-(A (i z))) (Set.Icc 0 D) z)
    (hi : ∀ z ∈ Set.Icc 0 D, HasDerivWithinAt i (-(B (v z))) (Set.Icc 0 D) z) :
    ∀ z ∈ Set.Icc 0 D, (v z, i z) = flow (waveOp A B) z (v 0, i 0) := by
  have hw : ∀ z ∈ Set.Icc 0 D, HasDerivWithinAt (fun z => (v z, i z)) (waveOp A B (v z, i z)) (Set.Icc 0 D) z := by
    intro z hz
    have := HasDerivWithinAt.prodMk (hv z hz) (hi z hz)
    refine this.congr_deriv ?_
    rw [waveOp, blk_apply]
    simp
  refine ODE_solution_unique_of_mem_Icc_right (v := fun _ w => waveOp A B w) (K := ‖waveOp A B‖₊) (s := fun _ => Set.univ)
    (fun _ _ => (waveOp A B).lipschitz.lipschitzOnWith) (fun z hz => (hw z hz).continuousWithinAt) (fun z hz => ?_)
    (fun _ _ => Set.mem_univ _) (fun z _ => (flow_wave A B _ z).continuousAt.continuousWithinAt)
    (fun z _ => (flow_wave A B _ z).hasDerivWithinAt) (fun _ _ => Set.mem_univ _) ?_
  · exact (hw z ⟨hz.1, hz.2.le⟩).mono_of_mem_nhdsWithin (Icc_mem_nhdsGE_of_mem hz)
  · show _ = flow (waveOp A B) 0 (v 0, i 0)
    rw [flow_zero]
    rfl

/-- The solutions of boundary problems on finer and finer grids tend to the solution of the telegrapher's equations. -/
theorem grid_limit {A B Zs Zl : X →L[ℂ] X} {Am Bm β : ℕ → X →L[ℂ] X} {κ : ℕ → ℂ} {D : ℝ} {V I : ℕ → ℕ → X} {F F1 : ℕ → X} {E E1 : X}
    (hD : 0 < D) (hA : Tendsto Am atTop (𝓝 A)) (hB : Tendsto Bm atTop (𝓝 B)) (hβ : Tendsto β atTop (𝓝 0)) (hκ : Tendsto κ atTop (𝓝 1))
    (hF : Tendsto F atTop (𝓝 E)) (hF1 : Tendsto F1 atTop (𝓝 E1))
    (cell : ∀ᶠ m in atTop, ∀ k < m, V m (k + 1) = V m k - (D / m : ℝ) • Am m (I m k))
    (node : ∀ᶠ m in atTop, ∀ k, k + 1 < m → I m (k + 1) = I m k - (D / m : ℝ) • Bm m (V m (k + 1)))
    (first : ∀ᶠ m in atTop, κ m • V m 0 = κ m • F m - Zs (I m 0 + β m (V m 0)))
    (last : ∀ᶠ m in atTop, κ m • V m m = κ m • F1 m + Zl (I m (m - 1) - β m (V m m)))
    (uniq : ∀ w : X × X, w.1 + Zs w.2 = 0 → (flow (waveOp A B) D w).1 = Zl (flow (waveOp A B) D w).2 → w = 0)
    {v i : ℝ → X} (hv : ∀ z ∈ Set.Icc 0 D, HasDerivWithinAt v (-(A (i z))) (Set.Icc 0 D) z)
    (hi : ∀ z ∈ Set.Icc 0 D, HasDerivWithinAt i (-(B (v z))) (Set.Icc 0 D) z) (h0 : v 0 = E - Zs (i 0)) (h1 : v D = E1 + Zl (i D)) :
    ∀ ε > 0, ∃ N : ℕ, ∀ m ≥ N, (∀ k : ℕ, k ≤ m → ‖V m k - v (k * D / m)‖ ≤ ε) ∧
      ∀ k : ℕ, k < m → ‖I m k - i ((k + 1 / 2) * D / m)‖ ≤ ε := by
  have sol := wave_unique hv hi
  obtain ⟨M, hM⟩ : ∃ M, M = waveOp A B := ⟨_, rfl⟩
  rw [← hM] at sol uniq
  have hh : Tendsto (fun m : ℕ => D / m) atTop (𝓝 0) := tendsto_const_div_atTop_nhds_zero_nat D
  obtain ⟨S, hS⟩ : ∃ S : ℕ → X × X →L[ℂ] X × X, ∀ m, S m = blk 0 (-Am m) (-Bm m) ((D / m : ℝ) • (Bm m).comp (Am m)) := ⟨_, fun _ => rfl⟩
  have lS : Tendsto S atTop (𝓝 M) := by
    have l := hh.smul (comp_tendsto hB hA)
    rw [zero_smul] at l
    rw [hM, waveOp]
    refine (blk_tendsto tendsto_const_nhds hA.neg hB.neg l).congr fun m => ?_
    rw [hS]
  have one : ‖(1 : X × X →L[ℂ] X × X)‖ ≤ 1 := ContinuousLinearMap.norm_id_le
  have pow := power_limit one hD lS
  obtain ⟨P, hP⟩ : ∃ P : ℕ → X × X →L[ℂ] X × X, ∀ m, P m = 1 + (D / m : ℝ) • S m := ⟨_, fun _ => rfl⟩
  simp only [← hP] at pow
  have Pw : ∀ m (w : X × X), P m w = (w.1 - (D / m : ℝ) • Am m w.2,
      w.2 - (D / m : ℝ) • Bm m (w.1 - (D / m : ℝ) • Am m w.2)) := by
    intro m w
    rw [hP, hS]
    show w + (D / m : ℝ) • blk 0 (-Am m) (-Bm m) ((D / m : ℝ) • (Bm m).comp (Am m)) w = _
    rw [blk_apply]
    have e : ∀ (r : ℝ) (x : X), Bm m (r • x) = r • Bm m x := fun r x => by
      rw [← Complex.coe_smul, map_smul, Complex.coe_smul]
    refine Prod.ext ?_ ?_
    · simp [sub_eq_add_neg]
    · simp only [Prod.snd_add, Prod.smul_snd, map_sub, e]
      show w.2 + (D / m : ℝ) • (-(Bm m w.1) + (D / m : ℝ) • Bm m (Am m w.2)) = _
      rw [smul_add, smul_neg, smul_sub]
      abel
  -- the states of the grids
  have states : ∀ᶠ m in atTop, 0 < m ∧ ∀ k < m, (P m ^ k) (V m 0, I m 0) = (V m k, I m k) := by
    filter_upwards [cell, node, eventually_gt_atTop 0] with m hc hn m0
    refine ⟨m0, fun k hk => ?_⟩
    induction k with
    | zero => rfl
    | succ k ih =>
      rw [pow_succ']
      show P m ((P m ^ k) (V m 0, I m 0)) = _
      rw [ih (by omega), Pw]
      show (V m k - (D / m : ℝ) • Am m (I m k), I m k - (D / m : ℝ) • Bm m (V m k - (D / m : ℝ) • Am m (I m k))) = _
      rw [← hc k (by omega), ← hn k hk]
  have stateLast : ∀ᶠ m in atTop, (P m ^ m) (V m 0, I m 0) = (V m m, I m (m - 1) - (D / m : ℝ) • Bm m (V m m)) := by
    filter_upwards [states, cell] with m hs hc
    obtain ⟨k, rfl⟩ : ∃ k, m = k + 1 := ⟨m - 1, by omega⟩
    rw [pow_succ']
    show P _ ((P _ ^ k) (V _ 0, I _ 0)) = _
    rw [hs.2 k (by omega), Pw]
    show (V _ k - _ • Am _ (I _ k), I _ k - _ • Bm _ (V _ k - _ • Am _ (I _ k))) = _
    rw [← hc k (by omega)]
    rfl
  have lP : Tendsto (fun m => P m ^ m) atTop (𝓝 (flow M D)) := by
    rw [Metric.tendsto_atTop]
    intro ε hε
    obtain ⟨N, hN⟩ := pow (ε / 2) (by linarith)
    refine ⟨N + 1, fun m hm => ?_⟩
    have := hN m (by omega) m le_rfl
    have m0 : (m : ℝ) ≠ 0 := by have : m ≠ 0 := by omega
                                exact_mod_cast this
    rw [mul_div_assoc, mul_div_cancel₀ _ m0] at this
    rw [dist_eq_norm]
    linarith
  -- the ends
  obtain ⟨T, hT⟩ : ∃ T : ℕ → X × X →L[ℂ] X × X, ∀ m, T m = blk (κ m • 1 + Zs.comp (β m)) Zs 0 0 +
      (blk 0 0 (κ m • 1 - Zl.comp ((D / m : ℝ) • Bm m - β m)) (-Zl)).comp (P m ^ m) := ⟨_, fun _ => rfl⟩
  obtain ⟨T', hT'⟩ : ∃ T' : X × X →L[ℂ] X × X, T' = blk 1 Zs 0 0 + (blk 0 0 1 (-Zl)).comp (flow M D) := ⟨_, rfl⟩
  have lT : Tendsto T atTop (𝓝 T') := by
    have k1 : Tendsto (fun m => κ m • (1 : X →L[ℂ] X)) atTop (𝓝 1) := by
      have := hκ.smul_const (1 : X →L[ℂ] X)
      rwa [one_smul] at this
    have k2 : Tendsto (fun m => κ m • (1 : X →L[ℂ] X) + Zs.comp (β m)) atTop (𝓝 1) := by
      have := k1.add (comp_tendsto (tendsto_const_nhds (x := Zs)) hβ)
      rwa [ContinuousLinearMap.comp_zero, add_zero] at this
    have k3 : Tendsto (fun m : ℕ => κ m • (1 : X →L[ℂ] X) - Zl.comp ((D / m : ℝ) • Bm m - β m)) atTop (𝓝 1) := by
      have l := (hh.smul hB).sub hβ
      rw [zero_smul, sub_zero] at l
      have := k1.sub (comp_tendsto (tendsto_const_nhds (x := Zl)) l)
      rwa [ContinuousLinearMap.comp_zero, sub_zero] at this
    rw [hT']
    refine ((blk_tendsto k2 tendsto_const_nhds tendsto_const_nhds tendsto_const_nhds).add
      (comp_tendsto (blk_tendsto tendsto_const_nhds tendsto_const_nhds k3 tendsto_const_nhds) lP)).congr fun m => ?_
    rw [hT]
  have T'w : ∀ w, T' w = (w.1 + Zs w.2, (flow M D w).1 - Zl (flow M D w).2) := by
    intro w
    rw [hT']
    show blk 1 Zs 0 0 w + blk 0 0 1 (-Zl) (flow M D w) = _
    rw [blk_apply, blk_apply]
    simp [sub_eq_add_neg]
  have e1 : T' (v 0, i 0) = (E, E1) := by
    rw [T'w, ← sol D ⟨hD.le, le_rfl⟩]
    refine Prod.ext ?_ ?_
    · show v 0 + Zs (i 0) = E
      rw [h0, sub_add_cancel]
    · show v D - Zl (i D) = E1
      rw [h1, add_sub_cancel_right]
  have e2 : ∀ᶠ m in atTop, T m (V m 0, I m 0) = (κ m • F m, κ m • F1 m) := by
    filter_upwards [first, last, stateLast] with m hf hl hs
    rw [hT]
    show blk _ Zs 0 0 (V m 0, I m 0) + blk 0 0 _ (-Zl) ((P m ^ m) (V m 0, I m 0)) = _
    rw [hs, blk_apply, blk_apply]
    refine Prod.ext ?_ ?_
    · show κ m • V m 0 + Zs (β m (V m 0)) + Zs (I m 0) + ((0 : X) + 0) = κ m • F m
      rw [hf, map_add]
      abel
    · show (0 : X) + 0 + (κ m • V m m - Zl ((D / m : ℝ) • Bm m (V m m) - β m (V m m)) +
        -(Zl (I m (m - 1) - (D / m : ℝ) • Bm m (V m m)))) = κ m • F1 m
      rw [hl]
      simp only [map_sub]
      abel
  have lw : Tendsto (fun m => (V m 0, I m 0)) atTop (𝓝 (v 0, i 0)) := by
    refine solve_limit lT (fun w hw => ?_) ?_
    · rw [T'w] at hw
      exact uniq w (congrArg Prod.fst hw) (sub_eq_zero.1 (congrArg Prod.snd hw))
    · rw [e1]
      have l := hκ.smul hF
      have l1 := hκ.smul hF1
      rw [one_smul] at l l1
      exact (l.prodMk_nhds l1).congr' (e2.mono fun m hm => hm.symm)
  -- uniformly
  obtain ⟨K, hK⟩ : ∃ K, ∀ z ∈ Set.Icc 0 D, ‖flow M z‖ ≤ K :=
    isCompact_Icc.exists_bound_of_continuousOn (flow_cont M).continuousOn
  have K0 : 0 ≤ K := (norm_nonneg _).trans (hK 0 ⟨le_rfl, hD.le⟩)
  obtain ⟨w', hw'⟩ : ∃ w', w' = (v 0, i 0) := ⟨_, rfl⟩
  rw [← hw'] at lw sol
  intro ε hε
  obtain ⟨δ, hδ⟩ : ∃ δ, δ = ε / (2 * (K + 1) * (‖w'‖ + 2)) := ⟨_, rfl⟩
  have n0 := norm_nonneg w'
  have δ0 : 0 < δ := by rw [hδ]; positivity
  obtain ⟨N1, hN1⟩ := pow (min δ 1) (by positivity)
  have hw1 : ∀ᶠ m in atTop, ‖(V m 0, I m 0) - w'‖ ≤ min δ 1 := by
    have := (tendsto_iff_norm_sub_tendsto_zero.1 lw).eventually (gt_mem_nhds (show 0 < min δ 1 by positivity))
    exact this.mono fun m hm => hm.le
  have half : ∀ᶠ m : ℕ in atTop, ‖flow M (D / m / 2) - 1‖ ≤ δ := by
    have l := ((flow_cont M).tendsto 0).comp (by simpa using hh.div_const 2 : Tendsto (fun m : ℕ => D / m / 2) atTop (𝓝 0))
    rw [flow_zero] at l
    have := (tendsto_iff_norm_sub_tendsto_zero.1 l).eventually (gt_mem_nhds δ0)
    exact this.mono fun m hm => hm.le
  obtain ⟨N2, hN2⟩ := eventually_atTop.1 ((hw1.and half).and (states.and stateLast))
  refine ⟨N1 + N2, fun m hm => ?_⟩
  obtain ⟨⟨a1, a2⟩, ⟨m0, a3⟩, a4⟩ := hN2 m (by omega)
  have m0' : (0 : ℝ) < m := by exact_mod_cast m0
  have zin : ∀ k : ℕ, k ≤ m → (k : ℝ) * D / m ∈ Set.Icc 0 D := by
    intro k hk
    have hk' : (k : ℝ) ≤ m := by exact_mod_cast hk
    refine ⟨by positivity, ?_⟩
    rw [div_le_iff₀ m0']
    nlinarith
  have main : δ * (‖w'‖ + 1) + K * δ ≤ ε / 2 ∧ K * δ * ‖w'‖ ≤ ε / 2 := by
    have : δ * ((K + 1) * (‖w'‖ + 2)) = ε / 2 := by rw [hδ]; field_simp
    constructor <;> nlinarith [mul_nonneg δ0.le K0, mul_nonneg δ0.le n0, mul_nonneg (mul_nonneg δ0.le K0) n0]
  have near : ∀ k : ℕ, k ≤ m → ‖(P m ^ k) (V m 0, I m 0) - flow M (k * D / m) w'‖ ≤ ε / 2 := by
    intro k hk
    have b1 := hN1 m (by omega) k hk
    have e : (P m ^ k) (V m 0, I m 0) - flow M (k * D / m) w' = (P m ^ k - flow M (k * D / m)) (V m 0, I m 0) +
        flow M (k * D / m) ((V m 0, I m 0) - w') := by
      rw [map_sub, sub_apply]
      abel
    rw [e]
    refine (norm_add_le _ _).trans ?_
    have c1 := (P m ^ k - flow M (k * D / m)).le_opNorm (V m 0, I m 0)
    have c2 := (flow M (k * D / m)).le_opNorm ((V m 0, I m 0) - w')
    have c3 : ‖(V m 0, I m 0)‖ ≤ ‖w'‖ + 1 := by
      have := norm_add_le ((V m 0, I m 0) - w') w'
      rw [sub_add_cancel] at this
      have := a1.trans (min_le_right _ _)
      linarith
    have c4 := mul_le_mul (b1.trans (min_le_left _ _)) c3 (norm_nonneg _) δ0.le
    have c5 := mul_le_mul (hK _ (zin k hk)) (a1.trans (min_le_left _ _)) (norm_nonneg _) K0
    linarith [main.1]
  refine ⟨fun k hk => ?_, fun k hk => ?_⟩
  · have b := near k hk
    have e : ((P m ^ k) (V m 0, I m 0)).1 = V m k := by
      rcases Nat.lt_or_ge k m with h | h
      · rw [a3 k h]
      · rw [le_antisymm hk h, a4]
    have := (norm_fst_le _).trans b
    rw [Prod.fst_sub, e, ← sol _ (zin k hk)] at this
    exact this.trans (by linarith)
  · have b := near k hk.le
    have hz : ((k : ℝ) + 1 / 2) * D / m ∈ Set.Icc 0 D := by
      have hk' : (k : ℝ) + 1 ≤ m := by exact_mod_cast hk
      refine ⟨by positivity, ?_⟩
      rw [div_le_iff₀ m0']
      nlinarith
    have f1 : flow M (((k : ℝ) + 1 / 2) * D / m) = flow M (k * D / m) * flow M (D / m / 2) := by
      rw [← flow_add]
      congr 1
      ring
    have f2 : ‖flow M (k * D / m) w' - flow M (((k : ℝ) + 1 / 2) * D / m) w'‖ ≤ ε / 2 := by
      have e : flow M (k * D / m) w' - flow M (((k : ℝ) + 1 / 2) * D / m) w' = -(flow M (k * D / m) ((flow M (D / m / 2) - 1) w')) := by
        rw [f1, sub_apply, map_sub, neg_sub]
        rfl
      rw [e, norm_neg]
      have c1 := (flow M (k * D / m)).le_opNorm ((flow M (D / m / 2) - 1) w')
      have c2 := (flow M (D / m / 2) - 1).le_opNorm w'
      have c3 := mul_le_mul_of_nonneg_right a2 n0
      have c4 := mul_le_mul (hK _ (zin k hk.le)) (c2.trans c3) (norm_nonneg _) K0
      have : K * (δ * ‖w'‖) = K * δ * ‖w'‖ := by ring
      linarith [main.2]
    have b' : ‖(P m ^ k) (V m 0, I m 0) - flow M (((k : ℝ) + 1 / 2) * D / m) w'‖ ≤ ε := by
      have := norm_add_le ((P m ^ k) (V m 0, I m 0) - flow M (k * D / m) w') (flow M (k * D / m) w' - flow M (((k : ℝ) + 1 / 2) * D / m) w')
      rw [sub_add_sub_cancel] at this
      linarith
    have := (norm_snd_le _).trans b'
    rw [Prod.snd_sub, a3 k hk, ← sol _ hz] at this
    exact this

end Mtln
