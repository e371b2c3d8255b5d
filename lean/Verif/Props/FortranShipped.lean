import Verif.Props.FortranSettle

/-!
# C145: the Fortran programs that are shipped
-/

namespace Mtln

namespace Fortran

open Matrix

/-- Two equal conductors. -/
def pair (a b : ℝ) : Mat 2 := !![a, b; b, a]

theorem pair_mul (a b x y : ℝ) : pair a b * pair x y = pair (a * x + b * y) (a * y + b * x) := by
  unfold pair
  ext i j
  fin_cases i <;> fin_cases j <;> simp [mul_apply, Fin.sum_univ_two] <;> ring

theorem pair_inv {a b : ℝ} (h : a ^ 2 - b ^ 2 ≠ 0) : (pair a b)⁻¹ = pair (a / (a ^ 2 - b ^ 2)) (-b / (a ^ 2 - b ^ 2)) := by
  refine inv_eq_right_inv ?_
  rw [pair_mul]
  unfold pair
  ext i j
  fin_cases i <;> fin_cases j <;> simp <;> field_simp <;> ring

theorem pair_det (a b : ℝ) : (pair a b).det = a ^ 2 - b ^ 2 := by
  unfold pair
  rw [det_fin_two_of]
  ring

theorem pair_spd {a b : ℝ} (ha : 0 < a) (hb : b ^ 2 < a ^ 2) : SPD (pair a b) := by
  constructor
  · unfold pair
    ext i j
    fin_cases i <;> fin_cases j <;> rfl
  · intro x hx
    have e : x ⬝ᵥ (pair a b *ᵥ x) = a * (x 0 ^ 2 + x 1 ^ 2) + 2 * b * (x 0 * x 1) := by
      simp [pair, dotProduct, mulVec, Fin.sum_univ_two]
      ring
    rw [e]
    have h0 : 0 < x 0 ^ 2 + x 1 ^ 2 := by
      by_contra h
      apply hx
      have h1 : x 0 = 0 := by nlinarith [sq_nonneg (x 0), sq_nonneg (x 1)]
      have h2 : x 1 = 0 := by nlinarith [sq_nonneg (x 0), sq_nonneg (x 1)]
      funext i
      fin_cases i
      · exact h1
      · exact h2
    have hab := abs_lt_of_sq_lt_sq hb ha.le
    have h3 : |2 * b * (x 0 * x 1)| ≤ |b| * (x 0 ^ 2 + x 1 ^ 2) := by
      rw [show 2 * b * (x 0 * x 1) = b * (2 * (x 0 * x 1)) by ring, abs_mul]
      refine mul_le_mul_of_nonneg_left ?_ (abs_nonneg _)
      rw [abs_le]
      constructor <;> nlinarith [sq_nonneg (x 0 + x 1), sq_nonneg (x 0 - x 1)]
    have h4 : |b| < a := hab
    have h5 := neg_abs_le (2 * b * (x 0 * x 1))
    nlinarith

theorem pair_cap {a b κ : ℝ} (ha : 0 < a) (hb : b ^ 2 < a ^ 2) (hκ : 0 < κ) :
    κ • (pair a b)⁻¹ = pair (κ * (a / (a ^ 2 - b ^ 2))) (κ * (-b / (a ^ 2 - b ^ 2))) ∧ SPD (κ • (pair a b)⁻¹) := by
  have hd : 0 < a ^ 2 - b ^ 2 := by linarith
  have ec : κ • (pair a b)⁻¹ = pair (κ * (a / (a ^ 2 - b ^ 2))) (κ * (-b / (a ^ 2 - b ^ 2))) := by
    rw [pair_inv hd.ne']
    unfold pair
    ext i j
    fin_cases i <;> fin_cases j <;> simp
  refine ⟨ec, ?_⟩
  rw [ec]
  refine pair_spd (by positivity) ?_
  rw [mul_pow, mul_pow, div_pow, div_pow, neg_sq]
  gcongr

/-- **C145** Two equal conductors in a homogeneous medium, in a first call: the arrays tend to the solution of the circuit for
direct current if the mutual inductance is less than 0.312 times the inductance. -/
theorem C145_pair_partial {zSteps : ℕ} {a b κ : ℝ} {r g : Mat 2} (hz : 0 < zSteps) (ha : 0 < a) (hκ : 0 < κ)
    (hb : b ^ 2 < (1 - 0.95 ^ 2) * a ^ 2) (hr : Dissipative r) (hg : Dissipative g) :
    ∃ V I, Circuit zSteps r g (terminals (pair a b) (κ • (pair a b)⁻¹)) V I ∧ ∀ ε > 0, ∃ J, ∀ j ≥ J, ∃ x,
      (nConductorsLosses zSteps j (pair a b) (κ • (pair a b)⁻¹) r g {}).map Prod.fst = .ok x ∧
      (∀ k ≤ zSteps, ∀ a, |x.v k a - V k a| ≤ ε) ∧ ∀ k < zSteps, ∀ a, |x.i k a - I k a| ≤ ε := by
  have ha2 : 0 < a ^ 2 := by positivity
  have hb' : b ^ 2 < a ^ 2 := by nlinarith
  have hd : 0 < a ^ 2 - b ^ 2 := by linarith
  have hl := pair_spd ha hb'
  obtain ⟨ec, hc⟩ := pair_cap ha hb' hκ
  have hκ' : pair a b * (κ • (pair a b)⁻¹) = κ • 1 := by
    rw [mul_smul_comm, mul_nonsing_inv _ (by rw [pair_det]; exact hd.ne'.isUnit)]
  have hvel : velocity (pair a b) (κ • (pair a b)⁻¹) = fun _ => 1 / Real.sqrt (a * (κ * (a / (a ^ 2 - b ^ 2)))) := by
    funext i
    rw [ec]
    unfold velocity pair
    fin_cases i <;> simp
  have hp : 0 < a * (κ * (a / (a ^ 2 - b ^ 2))) := by positivity
  have hs := Real.sqrt_pos.2 hp
  obtain ⟨V, I, hC, hlim⟩ := C145_homogeneous_partial (saved := {}) (W := 1 / Real.sqrt (a * (κ * (a / (a ^ 2 - b ^ 2))))) two_pos hz
    hl hc hκ' hr hg (by
      constructor
      · exact Or.inr ⟨0, by rw [hvel]⟩
      · rintro y (rfl | ⟨i, rfl⟩)
        · show (0 : ℝ) ≤ _
          positivity
        · rw [hvel]) (by
      rw [div_pow, one_pow, Real.sq_sqrt hp.le]
      have e : 1 / (a * (κ * (a / (a ^ 2 - b ^ 2)))) * κ = (a ^ 2 - b ^ 2) / a ^ 2 := by field_simp
      rw [e, lt_div_iff₀ ha2]
      linarith)
  refine ⟨V, I, hC, fun ε hε => ?_⟩
  obtain ⟨J, hJ⟩ := hlim ε hε
  refine ⟨J, fun j hj => ?_⟩
  obtain ⟨x, h1, h2⟩ := hJ j hj
  exact ⟨x, by rw [h1]; rfl, h2⟩

theorem shipped_pair {mu : ℝ} : shieldedPair mu 5e-3 1e-3 2e-3 =
    pair (mu / (2 * Real.pi) * Real.log 4.2) (mu / (2 * Real.pi) * Real.log 1.45) := by
  have e1 : ((5e-3 : ℝ) ^ 2 - 2e-3 ^ 2) / (5e-3 * 1e-3) = 4.2 := by norm_num
  have e2 : ((2e-3 : ℝ) ^ 4 + 5e-3 ^ 4 + 2 * 2e-3 ^ 2 * 5e-3 ^ 2) / (2e-3 ^ 4 + 2e-3 ^ 4 + 2 * 2e-3 ^ 4) = 3.625 ^ 2 := by norm_num
  unfold shieldedPair pair
  simp only [e1, e2]
  rw [Real.sqrt_sq (by norm_num)]
  norm_num

theorem shipped_coupling {x : ℝ} (hx : 0 < x) : (x * Real.log 1.45) ^ 2 < (1 - 0.95 ^ 2) * (x * Real.log 4.2) ^ 2 := by
  have h1 : 0 < Real.log 1.45 := Real.log_pos (by norm_num)
  have h2 : 0 < Real.log 4.2 := Real.log_pos (by norm_num)
  have h3 : 10 * Real.log 1.45 < 3 * Real.log 4.2 := by
    have := Real.log_lt_log (by norm_num : (0 : ℝ) < 1.45 ^ 10) (by norm_num : (1.45 : ℝ) ^ 10 < 4.2 ^ 3)
    rw [Real.log_pow, Real.log_pow] at this
    exact_mod_cast this
  have h4 : Real.log 1.45 < 0.3 * Real.log 4.2 := by linarith
  have h5 : Real.log 1.45 ^ 2 < (0.3 * Real.log 4.2) ^ 2 := pow_lt_pow_left₀ h4 h1.le two_ne_zero
  rw [mul_pow, mul_pow]
  have hx2 : 0 < x ^ 2 := by positivity
  have h6 : 0 < Real.log 4.2 ^ 2 := by positivity
  nlinarith

theorem map_fst {α β : Type} (x : F (α × β)) : (do let (s, _) ← x; Except.ok s) = x.map Prod.fst := by
  cases x <;> rfl

/-- The constants of the programs. -/
theorem shipped_constants : (0 : ℝ) < 4 * Real.pi * 1e-7 ∧ (0 : ℝ) < 4 * Real.pi * 1e-7 * 8.85e-12 ∧
    (0 : ℝ) < 4 * Real.pi * 1e-7 / (2 * Real.pi) := by
  have := Real.pi_pos
  refine ⟨by positivity, by positivity, by positivity⟩

theorem shipped_scale {a b κ σ : ℝ} (hσ : 0 ≤ σ) (hκ : 0 < κ) (ha : 0 < a) (hb : b ^ 2 < a ^ 2) :
    Dissipative (σ • κ • (pair a b)⁻¹) := by
  have hd : 0 < a ^ 2 - b ^ 2 := by linarith
  have hp : SPD (pair (a / (a ^ 2 - b ^ 2)) (-b / (a ^ 2 - b ^ 2))) := by
    refine pair_spd (by positivity) ?_
    rw [div_pow, div_pow, neg_sq]
    gcongr
  rw [pair_inv hd.ne']
  intro x
  rw [smul_mulVec, smul_mulVec, dotProduct_smul, dotProduct_smul, smul_eq_mul, smul_eq_mul]
  refine mul_nonneg hσ (mul_nonneg hκ.le ?_)
  rcases eq_or_ne x 0 with rfl | hx
  · simp
  · exact (hp.pos x hx).le

theorem dissipative_hundred : Dissipative (!![100, 0; 0, 100] : Mat 2) := by
  intro x
  simp [dotProduct, mulVec, Fin.sum_univ_two]
  nlinarith [sq_nonneg (x 0), sq_nonneg (x 1)]

/-- **C145** The program `Nconductors_3_losses`: with or without losses, for every length, the arrays tend to the solution of the
circuit for direct current as the number of steps grows. -/
theorem C145_shipped_losses {zSteps : ℕ} (hz : 0 < zSteps) (losses : ℤ) :
    ∃ V I R, Circuit zSteps (if losses = 1 then !![100, 0; 0, 100] else 0)
      (if losses = 1 then (1e-2 / 8.85e-12 : ℝ) • (4 * Real.pi * 1e-7 * 8.85e-12) • (shieldedPair (4 * Real.pi * 1e-7) 5e-3 1e-3 2e-3)⁻¹
        else 0) (diagonal R) V I ∧ (∀ i, 0 < R i) ∧ ∀ ε > 0, ∃ J, ∀ j ≥ J, ∃ x, programThreeLosses zSteps j losses = .ok x ∧
      (∀ k ≤ zSteps, ∀ a, |x.v k a - V k a| ≤ ε) ∧ ∀ k < zSteps, ∀ a, |x.i k a - I k a| ≤ ε := by
  obtain ⟨h1, h2, h3⟩ := shipped_constants
  obtain ⟨mu, hmu⟩ : ∃ mu : ℝ, mu = 4 * Real.pi * 1e-7 := ⟨_, rfl⟩
  rw [← hmu] at h1 h2 h3 ⊢
  have hlog : 0 < Real.log 4.2 := Real.log_pos (by norm_num)
  obtain ⟨a, ha⟩ : ∃ a, a = mu / (2 * Real.pi) * Real.log 4.2 := ⟨_, rfl⟩
  obtain ⟨b, hb⟩ : ∃ b, b = mu / (2 * Real.pi) * Real.log 1.45 := ⟨_, rfl⟩
  have hcoup := shipped_coupling h3
  have epair := shipped_pair (mu := mu)
  have ha0 : 0 < a := by rw [ha]; positivity
  rw [← ha, ← hb] at hcoup epair
  rw [epair]
  have hab : b ^ 2 < a ^ 2 := by nlinarith [sq_nonneg a]
  have hd : 0 < a ^ 2 - b ^ 2 := by linarith
  have hr : Dissipative (if losses = 1 then !![100, 0; 0, 100] else 0 : Mat 2) := by
    split_ifs
    · exact dissipative_hundred
    · exact dissipative_zero
  have hg : Dissipative (if losses = 1 then (1e-2 / 8.85e-12 : ℝ) • (mu * 8.85e-12) • (pair a b)⁻¹ else 0 : Mat 2) := by
    split_ifs
    · exact shipped_scale (by norm_num) h2 ha0 hab
    · exact dissipative_zero
  obtain ⟨V, I, hC, hlim⟩ := C145_pair_partial hz ha0 h2 hcoup hr hg
  have hl := pair_spd ha0 hab
  refine ⟨V, I, _, hC, ?_, fun ε hε => ?_⟩
  · exact terminals_pos hl (pair_cap ha0 hab h2).2
  · obtain ⟨J, hJ⟩ := hlim ε hε
    refine ⟨J, fun j hj => ?_⟩
    obtain ⟨x, e, hx⟩ := hJ j hj
    refine ⟨x, ?_, hx⟩
    rw [← e]
    unfold programThreeLosses
    simp only [← hmu, epair, inv_eq (show (pair a b).det ≠ 0 by rw [pair_det]; exact hd.ne')]
    exact map_fst _

/-- **C145** The program `Nconductors_3`: half of the source everywhere. -/
theorem C145_shipped_three {zSteps : ℕ} (hz : 0 < zSteps) : ∃ R : Fin 2 → ℝ, (∀ i, 0 < R i) ∧
    ∀ ε > 0, ∃ J, ∀ j ≥ J, ∃ x, programThree zSteps j = .ok x ∧
      (∀ k ≤ zSteps, ∀ a, |x.v k a - 12.5| ≤ ε) ∧ ∀ k < zSteps, ∀ a, |x.i k a - 12.5 / R a| ≤ ε := by
  obtain ⟨V, I, R, hC, hR, hlim⟩ := C145_shipped_losses hz 0
  obtain ⟨hV, hI⟩ := hC.lossless hz hR
  refine ⟨R, hR, fun ε hε => ?_⟩
  obtain ⟨J, hJ⟩ := hlim ε hε
  refine ⟨J, fun j hj => ?_⟩
  obtain ⟨x, e, hv, hi⟩ := hJ j hj
  refine ⟨x, ?_, fun k hk a => by rw [← hV k hk a]; exact hv k hk a, fun k hk a => by rw [← hI k hk a]; exact hi k hk a⟩
  rw [← e]
  unfold programThree programThreeLosses
  simp only [bind, Except.bind]
  cases inv (shieldedPair (4 * Real.pi * 1e-7) 5e-3 1e-3 2e-3) with
  | error _ => rfl
  | ok li =>
    have := C144_lossless zSteps j (shieldedPair (4 * Real.pi * 1e-7) 5e-3 1e-3 2e-3) ((4 * Real.pi * 1e-7 * 8.85e-12) • li)
      (saved := {}) (saved' := {}) rfl
    rw [← map_fst, ← map_fst] at this
    exact this

/-- **C145** The program `Nconductors_2`, and `TL_2conductors` as `coaxial` calls it: half of the source everywhere. -/
theorem C145_shipped_two {zSteps : ℕ} (hz : 0 < zSteps) : ∃ R : ℝ, 0 < R ∧
    ∀ ε > 0, ∃ J, ∀ j ≥ J, ∃ x, programTwo zSteps j = .ok x ∧
      twoConductors zSteps j (4 * Real.pi * 1e-7 / (2 * Real.pi) * Real.log (5e-3 / 1e-3))
        (2 * Real.pi * 8.85e-12 / Real.log (5e-3 / 1e-3)) = .ok (fun k => x.v k 0, fun k => x.i k 0) ∧
      (∀ k ≤ zSteps, |x.v k 0 - 12.5| ≤ ε) ∧ ∀ k < zSteps, |x.i k 0 - 12.5 / R| ≤ ε := by
  have hpi := Real.pi_pos
  have hlog : 0 < Real.log (5e-3 / 1e-3) := Real.log_pos (by norm_num)
  obtain ⟨l, hl⟩ : ∃ l : ℝ, l = 4 * Real.pi * 1e-7 / (2 * Real.pi) * Real.log (5e-3 / 1e-3) := ⟨_, rfl⟩
  obtain ⟨c, hc⟩ : ∃ c : ℝ, c = 2 * Real.pi * 8.85e-12 / Real.log (5e-3 / 1e-3) := ⟨_, rfl⟩
  have hl0 : 0 < l := by rw [hl]; positivity
  have hc0 : 0 < c := by rw [hc]; positivity
  obtain ⟨V, I, hC, hlim⟩ := C145_uncoupled (saved := {}) (a := fun _ : Fin 1 => l) (b := fun _ => c) (r := 0) (g := 0) one_pos hz
    (fun _ => hl0) (fun _ => hc0) dissipative_zero dissipative_zero (maxVelocity_greatest _ _ _)
  obtain ⟨hV, hI⟩ := hC.lossless hz (by intro i; simp only [diagonal_apply_eq]; exact Real.sqrt_pos.2 (div_pos hl0 hc0))
  refine ⟨Real.sqrt (l / c), Real.sqrt_pos.2 (div_pos hl0 hc0), fun ε hε => ?_⟩
  obtain ⟨J, hJ⟩ := hlim ε hε
  refine ⟨J, fun j hj => ?_⟩
  obtain ⟨x, e, hv, hi⟩ := hJ j hj
  have key : (nConductors (n := 1) zSteps j (l • 1) (c • 1) {}).map Prod.fst = .ok x := by
    rw [C144_lossless zSteps j _ _ (saved := {}) (saved' := {}) rfl, smul_one_eq_diagonal, smul_one_eq_diagonal, e]
    rfl
  refine ⟨x, ?_, ?_, fun k hk => ?_, fun k hk => ?_⟩
  · rw [← key, ← map_fst]
    unfold programTwo
    simp only [hl, hc]
  · rw [← hl, ← hc, C144_two zSteps j hl0 hc0]
    cases h : nConductors (n := 1) zSteps j (l • 1) (c • 1) {} with
    | error _ => rw [h] at key; cases key
    | ok y =>
      rw [h] at key
      simp only [Except.map] at key ⊢
      injection key with key
      rw [key]
  · rw [← hV k hk 0]
    exact hv k hk 0
  · have := hI k hk 0
    simp only [diagonal_apply_eq] at this
    rw [← this]
    exact hi k hk 0

end Fortran

end Mtln
