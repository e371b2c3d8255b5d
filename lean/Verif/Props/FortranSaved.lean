import Verif.Props.FortranShipped

/-!
# C146, C147: what the Fortran solvers keep between calls, and the class of lines
-/

namespace Mtln

namespace Fortran

open Matrix

variable {n : ℕ}

theorem fbind_ok_iff {α β : Type} {x : F α} {f : α → F β} {b : β} : (x >>= f) = .ok b ↔ ∃ a, x = .ok a ∧ f a = .ok b := by
  cases x <;> simp [bind, Except.bind]

theorem losses_ok {zSteps tSteps : ℕ} {l c r g : Mat n} {saved : Saved} {x : State n} {saved' : Saved}
    (h : nConductorsLosses zSteps tSteps l c r g saved = .ok (x, saved')) :
    saved' = { saved with maxVLosses := maxVelocity l c saved.maxVLosses } := by
  unfold nConductorsLosses at h
  obtain ⟨a1, -, h1⟩ := fbind_ok_iff.1 h
  obtain ⟨a2, -, h2⟩ := fbind_ok_iff.1 h1
  obtain ⟨a3, -, h3⟩ := fbind_ok_iff.1 h2
  obtain ⟨a4, -, h4⟩ := fbind_ok_iff.1 h3
  obtain ⟨a5, -, h5⟩ := fbind_ok_iff.1 h4
  cases h5
  rfl

theorem lossless_ok {zSteps tSteps : ℕ} {l c : Mat n} {saved : Saved} {x : State n} {saved' : Saved}
    (h : nConductors zSteps tSteps l c saved = .ok (x, saved')) : saved' = { saved with maxV := maxVelocity l c saved.maxV } := by
  unfold nConductors at h
  obtain ⟨a1, -, h1⟩ := fbind_ok_iff.1 h
  obtain ⟨a2, -, h2⟩ := fbind_ok_iff.1 h1
  obtain ⟨a3, -, h3⟩ := fbind_ok_iff.1 h2
  obtain ⟨a4, -, h4⟩ := fbind_ok_iff.1 h3
  obtain ⟨a5, -, h5⟩ := fbind_ok_iff.1 h4
  cases h5
  rfl

theorem losses_congr {zSteps tSteps : ℕ} {l c r g : Mat n} {saved saved' : Saved}
    (h : maxVelocity l c saved.maxVLosses = maxVelocity l c saved'.maxVLosses) :
    (nConductorsLosses zSteps tSteps l c r g saved).map Prod.fst = (nConductorsLosses zSteps tSteps l c r g saved').map Prod.fst := by
  unfold nConductorsLosses checkN
  rw [h]
  simp only [bind, Except.bind]
  generalize failIf _ _ = a
  generalize failIf (maxVelocity l c saved'.maxVLosses = 0) _ = a2
  generalize failIf _ _ = a3
  generalize getTerminalMatrices _ _ _ _ _ = b
  generalize getUpdateMatrices c _ _ _ = d
  generalize getUpdateMatrices l _ _ _ = e
  cases a <;> cases a2 <;> cases a3 <;> cases b <;> cases d <;> cases e <;> rfl

theorem lossless_congr {zSteps tSteps : ℕ} {l c : Mat n} {saved saved' : Saved}
    (h : maxVelocity l c saved.maxV = maxVelocity l c saved'.maxV) :
    (nConductors zSteps tSteps l c saved).map Prod.fst = (nConductors zSteps tSteps l c saved').map Prod.fst := by
  have e1 := C144_lossless zSteps tSteps l c (saved := saved) (saved' := { saved with maxVLosses := saved.maxV }) rfl
  have e2 := C144_lossless zSteps tSteps l c (saved := saved') (saved' := { saved' with maxVLosses := saved'.maxV }) rfl
  rw [e1, e2]
  exact losses_congr h

theorem maxVelocity_slow {l c : Mat n} {w : ℝ} {i : Fin n} (h : w ≤ velocity l c i) : maxVelocity l c w = maxVelocity l c 0 := by
  have h0 : 0 ≤ velocity l c i := by unfold velocity; positivity
  obtain ⟨h1, h2⟩ := maxVelocity_greatest l c 0
  refine maxVelocity_eq ⟨?_, ?_⟩
  · rcases h1 with h1 | h1
    · have h3 := h2 (Or.inr ⟨i, rfl⟩)
      rw [h1] at h3 ⊢
      exact Or.inr ⟨i, le_antisymm h3 h0⟩
    · exact Or.inr h1
  · rintro y (rfl | ⟨j, rfl⟩)
    · exact h.trans (h2 (Or.inr ⟨i, rfl⟩))
    · exact h2 (Or.inr ⟨j, rfl⟩)

/-- **C146 (refuted)** A call gives the same arrays whatever calls were made before: not so.  After a call for a line with a
velocity of 10, the first voltage of a line with a velocity of 1 is another one than in a fresh program. -/
theorem C146_refuted : ∃ (l c l' c' : Mat 1) (y : State 1) (saved : Saved),
    SPD l ∧ SPD c ∧ SPD l' ∧ SPD c' ∧ nConductorsLosses 1 1 l' c' 0 0 {} = .ok (y, saved) ∧ ∃ x x' : State 1,
      (nConductorsLosses 1 1 l c 0 0 {}).map Prod.fst = .ok x ∧ (nConductorsLosses 1 1 l c 0 0 saved).map Prod.fst = .ok x' ∧
      x.v 0 0 ≠ x'.v 0 0 := by
  have hdz := deltaZ_pos
  have hspd : ∀ a : ℝ, 0 < a → SPD (a • (1 : Mat 1)) := by
    intro a ha
    rw [smul_one_eq_diagonal]
    exact ⟨diagonal_transpose _, absorbing_diag fun _ => ha⟩
  have key : ∀ (a W : ℝ) (saved : Saved), 0 < a → 0 < W →
      IsGreatest (insert saved.maxVLosses (Set.range (velocity (a • (1 : Mat 1)) (a • 1)))) W →
      ∃ x, nConductorsLosses 1 1 (a • (1 : Mat 1)) (a • 1) 0 0 saved = .ok (x, { saved with maxVLosses := W }) ∧
        x.v 0 0 = 50 / (W / 0.95 * a + 1) := by
    intro a W saved ha hW hW'
    have hR : terminals (a • (1 : Mat 1)) (a • 1) = 1 := by
      unfold terminals
      ext i j
      fin_cases i; fin_cases j
      simp [ha.ne']
    have e : deltaZ / (0.95 * deltaZ / W) = W / 0.95 := by field_simp
    have hF : termF1 (0.95 * deltaZ / W) deltaZ 1 (a • (1 : Mat 1)) 0 = (W / 0.95 * a + 1) • 1 := by
      unfold termF1
      rw [e, one_mul, mul_zero, smul_zero, add_zero, smul_smul, add_smul, one_smul]
    have hdet : ∀ b : ℝ, (b • (1 : Mat 1)).det = b := by
      intro b
      simp
    have hq : 0 < W / 0.95 * a + 1 := by positivity
    rw [losses_eq (W := W) (by
        intro i
        simp [ha.ne']) hW' hW.ne' (by simp) (by rw [hR, hF, hdet]; exact hq.ne') (by
        rw [e, smul_zero, add_zero, smul_smul, hdet]
        positivity) (by
        rw [e, smul_zero, add_zero, smul_smul, hdet]
        positivity)]
    refine ⟨_, rfl, ?_⟩
    rw [Function.iterate_one, hR]
    show ((termF1 (0.95 * deltaZ / W) deltaZ 1 (a • (1 : Mat 1)) 0)⁻¹ *ᵥ (_ - _ + _)) 0 = _
    rw [hF]
    have hinv : ((W / 0.95 * a + 1) • (1 : Mat 1))⁻¹ = (W / 0.95 * a + 1)⁻¹ • 1 := by
      refine inv_eq_right_inv ?_
      rw [smul_mul_smul_comm, mul_one, mul_inv_cancel₀ hq.ne', one_smul]
    rw [hinv, smul_mulVec, one_mulVec]
    simp [State.zero, vSource]
    field_simp
    norm_num
  have hvel : ∀ a : ℝ, 0 < a → velocity (a • (1 : Mat 1)) (a • 1) = fun _ => 1 / a := by
    intro a ha
    funext i
    fin_cases i
    simp [velocity, Real.sqrt_mul_self ha.le]
  have g1 : IsGreatest (insert ({} : Saved).maxVLosses (Set.range (velocity ((1 : ℝ) • (1 : Mat 1)) ((1 : ℝ) • 1)))) 1 := by
    rw [hvel 1 one_pos]
    constructor
    · exact Or.inr ⟨0, by norm_num⟩
    · rintro y (rfl | ⟨i, rfl⟩)
      · exact zero_le_one
      · norm_num
  have g2 : IsGreatest (insert ({} : Saved).maxVLosses (Set.range (velocity ((1 / 10 : ℝ) • (1 : Mat 1)) ((1 / 10 : ℝ) • 1)))) 10 := by
    rw [hvel (1 / 10) (by norm_num)]
    constructor
    · exact Or.inr ⟨0, by norm_num⟩
    · rintro y (rfl | ⟨i, rfl⟩)
      · show (0 : ℝ) ≤ 10
        norm_num
      · norm_num
  have g3 : IsGreatest (insert (10 : ℝ) (Set.range (velocity ((1 : ℝ) • (1 : Mat 1)) ((1 : ℝ) • 1)))) 10 := by
    rw [hvel 1 one_pos]
    constructor
    · exact Or.inl rfl
    · rintro y (rfl | ⟨i, rfl⟩)
      · exact le_refl _
      · norm_num
  obtain ⟨x, hx, hx0⟩ := key 1 1 {} one_pos one_pos g1
  obtain ⟨y, hy, -⟩ := key (1 / 10) 10 {} (by norm_num) (by norm_num) g2
  obtain ⟨x', hx', hx0'⟩ := key 1 10 { maxVLosses := 10 } one_pos (by norm_num) g3
  refine ⟨(1 : ℝ) • 1, (1 : ℝ) • 1, (1 / 10 : ℝ) • 1, (1 / 10 : ℝ) • 1, y, _, hspd 1 one_pos, hspd 1 one_pos,
    hspd _ (by norm_num), hspd _ (by norm_num), hy, x, x', by rw [hx]; rfl, by rw [hx']; rfl, ?_⟩
  rw [hx0, hx0']
  norm_num

/-- **C146** A call for a line with a conductor that is at least as fast as everything before gives the arrays of a fresh
program. -/
theorem C146_fast_partial {zSteps tSteps : ℕ} {l c r g : Mat n} {saved : Saved} {i : Fin n} :
    (saved.maxVLosses ≤ velocity l c i → (nConductorsLosses zSteps tSteps l c r g saved).map Prod.fst =
      (nConductorsLosses zSteps tSteps l c r g {}).map Prod.fst) ∧
    (saved.maxV ≤ velocity l c i → (nConductors zSteps tSteps l c saved).map Prod.fst =
      (nConductors zSteps tSteps l c {}).map Prod.fst) :=
  ⟨fun h => losses_congr (maxVelocity_slow h), fun h => lossless_congr (maxVelocity_slow h)⟩

/-- **C146** What is kept after any sequence of calls of both solvers is the largest velocity of the conductors in the calls of
each. -/
theorem C146_kept {saved : ℕ → Saved} {K : ℕ} {size : ℕ → ℕ} {lossy : ℕ → Prop} {zSteps tSteps : ℕ → ℕ}
    {l c r g : (k : ℕ) → Mat (size k)} {x : (k : ℕ) → State (size k)} (h0 : saved 0 = {})
    (h1 : ∀ k < K, lossy k → nConductorsLosses (zSteps k) (tSteps k) (l k) (c k) (r k) (g k) (saved k) = .ok (x k, saved (k + 1)))
    (h2 : ∀ k < K, ¬ lossy k → nConductors (zSteps k) (tSteps k) (l k) (c k) (saved k) = .ok (x k, saved (k + 1))) :
    IsGreatest (insert 0 {w | ∃ k < K, lossy k ∧ ∃ i, w = 1 / Real.sqrt (l k i i * c k i i)}) (saved K).maxVLosses ∧
    IsGreatest (insert 0 {w | ∃ k < K, ¬ lossy k ∧ ∃ i, w = 1 / Real.sqrt (l k i i * c k i i)}) (saved K).maxV := by
  induction K with
  | zero =>
    rw [h0]
    constructor
    · refine ⟨Or.inl rfl, ?_⟩
      rintro y (rfl | ⟨k, hk, -⟩)
      · exact le_refl _
      · omega
    · refine ⟨Or.inl rfl, ?_⟩
      rintro y (rfl | ⟨k, hk, -⟩)
      · exact le_refl _
      · omega
  | succ K ih =>
    obtain ⟨⟨a1, a2⟩, b1, b2⟩ := ih (fun k hk => h1 k (by omega)) (fun k hk => h2 k (by omega))
    by_cases hl : lossy K
    · have e := losses_ok (h1 K (by omega) hl)
      obtain ⟨m1, m2⟩ := maxVelocity_greatest (l K) (c K) (saved K).maxVLosses
      rw [e]
      refine ⟨⟨?_, ?_⟩, ?_, ?_⟩
      · rcases m1 with m1 | ⟨i, m1⟩
        · show maxVelocity (l K) (c K) (saved K).maxVLosses ∈ _
          rw [m1]
          rcases a1 with a1 | ⟨k, hk, a1⟩
          · exact Or.inl a1
          · exact Or.inr ⟨k, by omega, a1⟩
        · exact Or.inr ⟨K, by omega, hl, i, m1.symm⟩
      · rintro y (rfl | ⟨k, hk, hlk, i, rfl⟩)
        · exact (a2 (Or.inl rfl)).trans (m2 (Or.inl rfl))
        · rcases Nat.lt_succ_iff_lt_or_eq.1 hk with hk' | rfl
          · exact (a2 (Or.inr ⟨k, hk', hlk, i, rfl⟩)).trans (m2 (Or.inl rfl))
          · exact m2 (Or.inr ⟨i, rfl⟩)
      · rcases b1 with b1 | ⟨k, hk, b1⟩
        · exact Or.inl b1
        · exact Or.inr ⟨k, by omega, b1⟩
      · rintro y (rfl | ⟨k, hk, hlk, i, rfl⟩)
        · exact b2 (Or.inl rfl)
        · rcases Nat.lt_succ_iff_lt_or_eq.1 hk with hk' | rfl
          · exact b2 (Or.inr ⟨k, hk', hlk, i, rfl⟩)
          · exact absurd hl hlk
    · have e := lossless_ok (h2 K (by omega) hl)
      obtain ⟨m1, m2⟩ := maxVelocity_greatest (l K) (c K) (saved K).maxV
      rw [e]
      refine ⟨⟨?_, ?_⟩, ?_, ?_⟩
      · rcases a1 with a1 | ⟨k, hk, a1⟩
        · exact Or.inl a1
        · exact Or.inr ⟨k, by omega, a1⟩
      · rintro y (rfl | ⟨k, hk, hlk, i, rfl⟩)
        · exact a2 (Or.inl rfl)
        · rcases Nat.lt_succ_iff_lt_or_eq.1 hk with hk' | rfl
          · exact a2 (Or.inr ⟨k, hk', hlk, i, rfl⟩)
          · exact absurd hlk hl
      · rcases m1 with m1 | ⟨i, m1⟩
        · show maxVelocity (l K) (c K) (saved K).maxV ∈ _
          rw [m1]
          rcases b1 with b1 | ⟨k, hk, b1⟩
          · exact Or.inl b1
          · exact Or.inr ⟨k, by omega, b1⟩
        · exact Or.inr ⟨K, by omega, hl, i, m1.symm⟩
      · rintro y (rfl | ⟨k, hk, hlk, i, rfl⟩)
        · exact (b2 (Or.inl rfl)).trans (m2 (Or.inl rfl))
        · rcases Nat.lt_succ_iff_lt_or_eq.1 hk with hk' | rfl
          · exact (b2 (Or.inr ⟨k, hk', hlk, i, rfl⟩)).trans (m2 (Or.inl rfl))
          · exact m2 (Or.inr ⟨i, rfl⟩)

/-- Non-vacuity: a program with one call. -/
example : ∃ (l c : Mat 1) (x : State 1) (saved : Saved), nConductorsLosses 1 1 l c 0 0 {} = .ok (x, saved) ∧
    IsGreatest (insert 0 {w | ∃ k < 1, True ∧ ∃ i, w = 1 / Real.sqrt (l i i * c i i)}) saved.maxVLosses := by
  obtain ⟨-, -, l, c, x, saved, -, -, -, -, h, -⟩ := C146_refuted
  refine ⟨l, c, x, saved, h, ?_⟩
  exact (C146_kept (saved := fun k => if k = 0 then {} else saved) (K := 1) (size := fun _ => 1) (lossy := fun _ => True)
    (zSteps := fun _ => 1) (tSteps := fun _ => 1) (l := fun _ => l) (c := fun _ => c) (r := fun _ => 0) (g := fun _ => 0)
    (x := fun _ => x) rfl (fun k hk _ => by
      obtain rfl : k = 0 := by omega
      exact h) (fun k _ hn => absurd trivial hn)).1

/-- Non-vacuity: a conductor with velocity 1 after calls for velocities of at most a half. -/
example : ({ maxVLosses := 1 / 2 } : Saved).maxVLosses ≤ velocity (1 : Mat 1) 1 0 := by
  simp [velocity]
  norm_num

/-! ## The class of lines -/

/-- **C147 (refuted)** The largest time step of a line of the class can be computed: it never can.  The index 0 is outside the
bounds of `x`, and the velocities have no values. -/
theorem C147_refuted (s : Line) (t : ℝ) : s.init.maxTimestep ≠ .ok t ∧ s.maxTimestep ≠ .ok t := by
  have key : ∀ s : Line, s.maxTimestep ≠ .ok t := by
    intro s h
    unfold Line.maxTimestep at h
    obtain ⟨a, -, h⟩ := fbind_ok_iff.1 h
    obtain ⟨b, h', -⟩ := fbind_ok_iff.1 h
    cases h'
  exact ⟨key _, key s⟩

/-- Non-vacuity: a line of three cells. -/
example : ∃ s : Line, 0 < s.nx ∧ s.init.at 4 = .ok 6 := by
  refine ⟨⟨3, 2, 6, []⟩, by norm_num, ?_⟩
  norm_num [Line.init, Line.at, linspace, List.range_succ]

/-- **C147** The nodes of a line of the class: one more than cells, at equal distances from the origin to the length of the
line. -/
theorem C147_nodes_partial (s : Line) (hnx : 0 < s.nx) :
    s.init.x.length = s.nx + 1 ∧ s.init.at 1 = .ok 0 ∧ s.init.at (s.nx + 1) = .ok s.length ∧
    ∀ k, 0 < k → k ≤ s.nx → ∃ a b, s.init.at k = .ok a ∧ s.init.at (k + 1) = .ok b ∧ b - a = s.length / s.nx := by
  have hn : (s.nx : ℝ) ≠ 0 := by exact_mod_cast hnx.ne'
  have hx : s.init.x = (List.range (s.nx + 1)).map fun i : ℕ => 0 + (s.length - 0) * i / (((s.nx + 1 : ℕ) : ℝ) - 1) := by
    show linspace 0 s.length (s.nx + 1) = _
    unfold linspace
    rw [if_neg (by omega), if_neg (by omega)]
  have hat : ∀ k ≤ s.nx, s.init.at (k + 1) = .ok (s.length * k / s.nx) := by
    intro k hk
    unfold Line.at
    rw [if_neg (by omega), hx, Nat.add_sub_cancel, List.getElem?_map, List.getElem?_range (by omega)]
    simp
  refine ⟨by rw [hx]; simp, ?_, ?_, ?_⟩
  · rw [hat 0 (by omega)]
    simp
  · rw [hat s.nx (le_refl _)]
    field_simp
  · intro k hk hk'
    obtain ⟨j, rfl⟩ : ∃ j, k = j + 1 := ⟨k - 1, by omega⟩
    refine ⟨_, _, hat j (by omega), hat (j + 1) hk', ?_⟩
    push_cast
    field_simp
    ring

/-- **C147** A line of the class without cells has one node, at the origin. -/
theorem C147_one_node_partial (s : Line) (hnx : s.nx = 0) : s.init.x = [0] ∧ s.init.at 1 = .ok 0 := by
  have hx : s.init.x = [0] := by
    show linspace 0 s.length (s.nx + 1) = _
    unfold linspace
    rw [hnx, if_neg (by omega), if_pos rfl]
  refine ⟨hx, ?_⟩
  unfold Line.at
  rw [hx]
  simp

end Fortran

end Mtln
