import Verif.Props.FortranShipped

/-!
# C145: strongly coupled conductors make the Fortran solver unstable
-/

namespace Mtln

namespace Fortran

open Matrix

theorem pair_ones (a b t : ℝ) : pair a b *ᵥ (fun _ => t) = fun _ => (a + b) * t := by
  funext i
  fin_cases i <;> simp [pair, mulVec, dotProduct, Fin.sum_univ_two] <;> ring

theorem pair_smul (x a b : ℝ) : x • pair a b = pair (x * a) (x * b) := by
  unfold pair
  ext i j
  fin_cases i <;> fin_cases j <;> simp

theorem pair_add (a b x y : ℝ) : pair a b + pair x y = pair (a + x) (b + y) := by
  unfold pair
  ext i j
  fin_cases i <;> fin_cases j <;> simp

theorem pair_sub (a b x y : ℝ) : pair a b - pair x y = pair (a - x) (b - y) := by
  unfold pair
  ext i j
  fin_cases i <;> fin_cases j <;> simp

theorem pair_one : (1 : Mat 2) = pair 1 0 := by
  unfold pair
  ext i j
  fin_cases i <;> fin_cases j <;> simp

theorem pair_zero : (0 : Mat 2) = pair 0 0 := by
  unfold pair
  ext i j
  fin_cases i <;> fin_cases j <;> simp

/-- The common mode of two conductors with inductances `pair 5 4`, one cell long. -/
noncomputable def commonMode (q : ℝ × ℝ × ℝ) : ℝ × ℝ × ℝ :=
  let v0 := -15 / 23 * q.1 - 114 / 23 * q.2.2 + 950 / 23
  let v1 := -15 / 23 * q.2.1 + 114 / 23 * q.2.2
  (v0, v1, q.2.2 - 19 / 108 * (v1 - v0))

/-- Equal voltages and currents of both conductors. -/
def equalState (q : ℝ × ℝ × ℝ) : State 2 where
  v := fun k => if k = 0 then fun _ => q.1 else if k = 1 then fun _ => q.2.1 else 0
  i := fun k => if k = 0 then fun _ => q.2.2 else 0

theorem growth_loop : Loop.of (19 / 12 * deltaZ) (pair 5 4) (pair (5 / 9) (-4 / 9)) 0 0 (pair 3 0) =
    ⟨pair (741 / 1265) (304 / 1265), pair (1 / 19) (-16 / 19), pair (741 / 1265) (304 / 1265), pair (1 / 19) (-16 / 19),
      pair (95 / 12) (19 / 3), 1, pair (95 / 108) (-19 / 27), 1⟩ := by
  have hdz := deltaZ_pos.ne'
  have e : deltaZ / (19 / 12 * deltaZ) = 12 / 19 := by field_simp
  have i1 : (pair (12 / 19 * (5 / 9)) (12 / 19 * (-4 / 9)))⁻¹ = pair (95 / 12) (19 / 3) := by
    rw [pair_inv (by norm_num)]
    norm_num
  have i2 : (pair (12 / 19 * 5) (12 / 19 * 4))⁻¹ = pair (95 / 108) (-19 / 27) := by
    rw [pair_inv (by norm_num)]
    norm_num
  unfold Loop.of termF1 termF2
  simp only [e, smul_zero, mul_zero, add_zero, sub_zero, pair_mul, pair_smul, pair_one, pair_add, pair_sub, i1, i2]
  rw [pair_inv (by norm_num)]
  norm_num

theorem growth_step (q : ℝ × ℝ × ℝ) :
    stepN 1 (Loop.of (19 / 12 * deltaZ) (pair 5 4) (pair (5 / 9) (-4 / 9)) 0 0 (pair 3 0)) (pair 3 0) (equalState q) =
      equalState (commonMode q) := by
  rw [growth_loop]
  have ones_add : ∀ a b : ℝ, (fun _ => a : Col 2) + (fun _ => b) = fun _ => a + b := fun _ _ => rfl
  have ones_sub : ∀ a b : ℝ, (fun _ => a : Col 2) - (fun _ => b) = fun _ => a - b := fun _ _ => rfl
  have ones_smul : ∀ a b : ℝ, a • (fun _ => b : Col 2) = fun _ => a * b := fun _ _ => rfl
  have hv : ∀ k, (stepN 1 ⟨pair (741 / 1265) (304 / 1265), pair (1 / 19) (-16 / 19), pair (741 / 1265) (304 / 1265),
      pair (1 / 19) (-16 / 19), pair (95 / 12) (19 / 3), 1, pair (95 / 108) (-19 / 27), 1⟩ (pair 3 0) (equalState q)).v k =
      (equalState (commonMode q)).v k := by
    intro k
    rcases k with _ | _ | k
    · simp only [stepN, equalState, commonMode, if_true, pair_ones, ones_add, ones_sub, ones_smul, vSource]
      funext _
      ring
    · simp only [stepN, equalState, commonMode]
      simp only [zero_add, one_ne_zero, if_false, lt_self_iff_false, if_true, Nat.sub_self, pair_ones, smul_zero, add_zero, ones_add,
        ones_smul]
      funext _
      ring
    · simp [stepN, equalState]
  have hi : ∀ (Q : Loop 2) (R : Mat 2) (x : State 2) (k : ℕ), (stepN 1 Q R x).i k = if k < 1 then
      Q.LR2 *ᵥ x.i k - Q.LR1 *ᵥ ((stepN 1 Q R x).v (k + 1) - (stepN 1 Q R x).v k) else x.i k := fun _ _ _ _ => rfl
  have hi' : ∀ k, (stepN 1 ⟨pair (741 / 1265) (304 / 1265), pair (1 / 19) (-16 / 19), pair (741 / 1265) (304 / 1265),
      pair (1 / 19) (-16 / 19), pair (95 / 12) (19 / 3), 1, pair (95 / 108) (-19 / 27), 1⟩ (pair 3 0) (equalState q)).i k =
      (equalState (commonMode q)).i k := by
    intro k
    rw [hi, hv, hv]
    rcases k with _ | k
    · simp only [equalState, commonMode, zero_add, one_ne_zero, if_false, if_true, zero_lt_one, one_mulVec, ones_sub, pair_ones]
      funext _
      ring
    · simp [equalState]
  have ext : ∀ x y : State 2, x.v = y.v → x.i = y.i → x = y := by
    rintro ⟨_, _⟩ ⟨_, _⟩ rfl rfl
    rfl
  exact ext _ _ (funext hv) (funext hi')

theorem growth_mode (j : ℕ) :
    let q := commonMode^[j] (0, 0, 0)
    0 ≤ (-1) ^ j * (q.2.1 - q.1) ∧ (-1) ^ j * (q.2.2 - 25 / 6) ≤ 0 ∧
      (3 / 2) ^ j * (125 / 3) ≤ (-1) ^ j * (q.2.1 - q.1) - 10 * ((-1) ^ j * (q.2.2 - 25 / 6)) := by
  induction j with
  | zero => norm_num
  | succ j ih =>
    simp only [Function.iterate_succ', Function.comp] at *
    obtain ⟨q, hq⟩ : ∃ q, q = commonMode^[j] (0, 0, 0) := ⟨_, rfl⟩
    rw [← hq] at ih ⊢
    obtain ⟨h1, h2, h3⟩ := ih
    obtain ⟨σ, hσ⟩ : ∃ σ : ℝ, σ = (-1) ^ j := ⟨_, rfl⟩
    rw [← hσ] at h1 h2 h3
    obtain ⟨x, hx⟩ : ∃ x, x = σ * (q.2.1 - q.1) := ⟨_, rfl⟩
    obtain ⟨y, hy⟩ : ∃ y, y = σ * (q.2.2 - 25 / 6) := ⟨_, rfl⟩
    rw [← hx] at h1 h3
    rw [← hy] at h2 h3
    have e1 : (-1) ^ (j + 1) * ((commonMode q).2.1 - (commonMode q).1) = 15 / 23 * x - 228 / 23 * y := by
      rw [pow_succ, ← hσ, hx, hy]
      simp only [commonMode]
      ring
    have e2 : (-1) ^ (j + 1) * ((commonMode q).2.2 - 25 / 6) = 154 / 207 * y - 285 / 2484 * x := by
      rw [pow_succ, ← hσ, hx, hy]
      simp only [commonMode]
      ring
    rw [e1, e2, pow_succ]
    refine ⟨by linarith, by linarith, by linarith⟩

/-- **C145 (refuted)** The time step is that of the fastest conductor by itself, not that of the fastest mode.  For two strongly
coupled conductors in a homogeneous medium, without losses, the arrays of a first call grow with the number of steps beyond every
bound. -/
theorem C145_refuted : ∃ l c : Mat 2, SPD l ∧ SPD c ∧ l * c = 1 ∧ ∀ K : ℝ, ∃ J, ∀ j ≥ J, ∃ x,
    (nConductorsLosses 1 j l c 0 0 {}).map Prod.fst = .ok x ∧ K < |x.v 0 0| + |x.v 1 0| + 10 * |x.i 0 0| := by
  have hl : SPD (pair 5 4) := pair_spd (by norm_num) (by norm_num)
  have hc : SPD (pair (5 / 9) (-4 / 9)) := pair_spd (by norm_num) (by norm_num)
  refine ⟨pair 5 4, pair (5 / 9) (-4 / 9), hl, hc, ?_, fun K => ?_⟩
  · rw [pair_mul, pair_one]
    norm_num
  have hR : terminals (pair 5 4) (pair (5 / 9) (-4 / 9)) = pair 3 0 := by
    have e : Real.sqrt 9 = 3 := by
      rw [show (9 : ℝ) = 3 ^ 2 by norm_num]
      exact Real.sqrt_sq (by norm_num)
    unfold terminals pair
    ext i j
    fin_cases i <;> fin_cases j <;> simp [e]
  have hvel : velocity (pair 5 4) (pair (5 / 9) (-4 / 9)) = fun _ => 3 / 5 := by
    have e : Real.sqrt (5 * (5 / 9)) = 5 / 3 := by
      rw [show (5 * (5 / 9) : ℝ) = (5 / 3) ^ 2 by norm_num]
      exact Real.sqrt_sq (by norm_num)
    unfold velocity pair
    funext i
    fin_cases i <;> simp [e]
  have hW : IsGreatest (insert ({} : Saved).maxVLosses (Set.range (velocity (pair 5 4) (pair (5 / 9) (-4 / 9))))) (3 / 5) := by
    rw [hvel]
    constructor
    · exact Or.inr ⟨0, rfl⟩
    · rintro y (rfl | ⟨i, rfl⟩)
      · show (0 : ℝ) ≤ 3 / 5
        norm_num
      · exact le_refl _
  have hd : (0.95 * deltaZ / (3 / 5) : ℝ) = 19 / 12 * deltaZ := by ring
  have hdz := deltaZ_pos.ne'
  have e : deltaZ / (19 / 12 * deltaZ) = 12 / 19 := by field_simp
  have hrun : ∀ j, (nConductorsLosses 1 j (pair 5 4) (pair (5 / 9) (-4 / 9)) 0 0 {}).map Prod.fst =
      .ok (equalState (commonMode^[j] (0, 0, 0))) := by
    intro j
    rw [losses_eq (W := 3 / 5) (by
        intro i
        unfold pair
        fin_cases i <;> norm_num) hW (by norm_num) (by simp) (by
        rw [hR, hd]
        unfold termF1
        rw [e, pair_mul, pair_smul, mul_zero, smul_zero, add_zero, pair_one, pair_add, pair_det]
        norm_num) (by
        rw [hd, e, smul_zero, add_zero, pair_smul, pair_det]
        norm_num) (by
        rw [hd, e, smul_zero, add_zero, pair_smul, pair_det]
        norm_num), hR, hd]
    show Except.ok _ = Except.ok _
    congr 1
    induction j with
    | zero =>
      show State.zero = equalState (0, 0, 0)
      unfold State.zero equalState
      have z : (fun _ => (0 : ℝ) : Col 2) = 0 := rfl
      congr 1 <;> funext k <;> simp [z]
    | succ j ih =>
      rw [Function.iterate_succ', Function.iterate_succ', Function.comp, Function.comp]
      rw [← growth_step, ← ih]
  obtain ⟨J, hJ⟩ := pow_unbounded_of_one_lt (K / (125 / 3) + 1) (show (1 : ℝ) < 3 / 2 by norm_num)
  refine ⟨J, fun j hj => ⟨_, hrun j, ?_⟩⟩
  obtain ⟨h1, h2, h3⟩ := growth_mode j
  obtain ⟨q, hq⟩ : ∃ q, q = commonMode^[j] (0, 0, 0) := ⟨_, rfl⟩
  rw [← hq] at h1 h2 h3 ⊢
  have hpow : (3 / 2 : ℝ) ^ J ≤ (3 / 2) ^ j := pow_le_pow_right₀ (by norm_num) hj
  have hσ : |(-1 : ℝ) ^ j| = 1 := by rw [abs_pow, abs_neg, abs_one, one_pow]
  have b1 : (-1) ^ j * (q.2.1 - q.1) ≤ |q.1| + |q.2.1| := by
    refine (le_abs_self _).trans ?_
    rw [abs_mul, hσ, one_mul]
    have := abs_sub q.2.1 q.1
    linarith
  have b2 : -((-1) ^ j * (q.2.2 - 25 / 6)) ≤ |q.2.2| + 25 / 6 := by
    refine (neg_le_abs _).trans ?_
    rw [abs_mul, hσ, one_mul]
    refine (abs_sub _ _).trans ?_
    rw [abs_of_pos (show (0 : ℝ) < 25 / 6 by norm_num)]
  have b3 : K < ((3 / 2) ^ J - 1) * (125 / 3) := by
    have : K / (125 / 3) < (3 / 2) ^ J - 1 := by linarith
    exact (div_lt_iff₀ (by norm_num)).1 this
  have v0 : (equalState q).v 0 0 = q.1 := rfl
  have v1 : (equalState q).v 1 0 = q.2.1 := rfl
  have i0 : (equalState q).i 0 0 = q.2.2 := rfl
  rw [v0, v1, i0]
  linarith

end Fortran

end Mtln
