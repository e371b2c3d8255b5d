import Verif.Props.ModesLimit

/-! # Lines of several conductors in a homogeneous medium have common modes (C187) -/

namespace Mtln

open Matrix

variable {n p : ℕ}

theorem medium_pos {L C : Mat n} {κ : ℝ} (hL : SPD L) (hC : SPD C) (h : L * C = κ • 1) (x : Fin n) : 0 < κ := by
  obtain ⟨y, hy⟩ : ∃ y : Fin n → ℝ, y = Pi.single x 1 := ⟨_, rfl⟩
  have y0 : y ≠ 0 := by
    rw [hy]
    intro h0
    have := congrFun h0 x
    simp at this
  have c0 := hC.pos y y0
  have cy : C *ᵥ y ≠ 0 := by
    intro h0
    rw [h0, dotProduct_zero] at c0
    exact lt_irrefl _ c0
  have l0 := hL.pos _ cy
  rw [mulVec_mulVec, h, smul_mulVec, one_mulVec, dotProduct_smul, smul_eq_mul, dotProduct_comm] at l0
  exact (mul_pos_iff_of_pos_right c0).1 l0

/-- **C187.**  The conductors of a line in a homogeneous medium, where the product of the inductances and the capacitances is a multiple
of the identity, have common modes with a medium that conducts, with resistances that are equal or proportional to the inductances and with
equal resistances at the ends. -/
theorem C187_medium {L C : Mat n} {κ ρ β γ zs zl : ℝ} (hL : SPD L) (hC : SPD C) (h : L * C = κ • 1) (hρ : 0 ≤ ρ) (hβ : 0 ≤ β) (hγ : 0 ≤ γ)
    (hzs : 0 ≤ zs) (hzl : 0 ≤ zl) (hloss : 0 < ρ ∨ 0 < β ∨ 0 < γ ∨ 0 < zs ∨ 0 < zl) :
    ∃ U : NewVars n, ModalLine U L C (ρ • 1 + β • L) (γ • C) (zs • 1) (zl • 1) := by
  have one_spd : SPD (1 : Mat n) := by
    refine ⟨transpose_one, fun x hx => ?_⟩
    rw [one_mulVec]
    refine lt_of_le_of_ne (Finset.sum_nonneg fun i _ => mul_self_nonneg _) fun h0 => hx ?_
    exact dotProduct_self_eq_zero.1 h0.symm
  obtain ⟨U, d, -, -, hd, hl, h1⟩ := C172_modes L 1 hL one_spd
  have ab : U.a = U.b := by
    have h2 : U.b * U.a⁻¹ = 1 := by rw [← h1, NewVars.adm, Matrix.mul_one]
    calc U.a = U.b * U.a⁻¹ * U.a := by rw [h2, Matrix.one_mul]
      _ = U.b := by rw [Matrix.mul_assoc, U.ai_a, Matrix.mul_one]
  have i1 : ∀ y : ℝ, U.imp (y • 1) = Matrix.diagonal fun _ => y := by
    intro y
    rw [NewVars.imp, Matrix.mul_smul, Matrix.mul_one, Matrix.smul_mul, ab, U.b_bi, smul_one_eq_diagonal]
  have ir : U.imp (ρ • 1 + β • L) = Matrix.diagonal fun x => ρ + β * d x := by
    have : U.imp (ρ • 1 + β • L) = U.imp (ρ • 1) + β • U.imp L := by
      simp only [NewVars.imp, Matrix.mul_add, Matrix.add_mul, Matrix.mul_smul, Matrix.smul_mul]
    rw [this, i1, hl, ← diagonal_smul, diagonal_add]
    rfl
  have hc : U.adm C = Matrix.diagonal fun x => κ / d x := by
    have e : Matrix.diagonal d * U.adm C = Matrix.diagonal fun _ => κ := by
      rw [← hl, NewVars.imp, NewVars.adm, ab, ← smul_one_eq_diagonal]
      calc U.b * L * U.b⁻¹ * (U.b * C * U.b⁻¹) = U.b * L * (U.b⁻¹ * U.b) * C * U.b⁻¹ := by simp only [Matrix.mul_assoc]
        _ = U.b * (L * C) * U.b⁻¹ := by rw [U.bi_b, Matrix.mul_one, Matrix.mul_assoc U.b L C]
        _ = κ • 1 := by rw [h, Matrix.mul_smul, Matrix.mul_one, Matrix.smul_mul, U.b_bi]
    ext x y
    have := congrFun (congrFun e x) y
    rw [diagonal_mul] at this
    have d0 := (hd x).ne'
    by_cases hxy : x = y
    · subst hxy
      rw [diagonal_apply_eq] at this ⊢
      rw [eq_div_iff d0, ← this, mul_comm]
    · rw [diagonal_apply_ne _ hxy] at this ⊢
      exact (mul_eq_zero.1 this).resolve_left d0
  have hg : U.adm (γ • C) = Matrix.diagonal fun x => γ * (κ / d x) := by
    have : U.adm (γ • C) = γ • U.adm C := by simp only [NewVars.adm, Matrix.mul_smul, Matrix.smul_mul]
    rw [this, hc, ← diagonal_smul]
    rfl
  have hk : ∀ x, 0 < κ / d x := fun x => div_pos (medium_pos hL hC h x) (hd x)
  refine ⟨U, ?_⟩
  constructor
  · rw [hl]; exact isDiag_diagonal _
  · rw [hc]; exact isDiag_diagonal _
  · rw [ir]; exact isDiag_diagonal _
  · rw [hg]; exact isDiag_diagonal _
  · rw [i1]; exact isDiag_diagonal _
  · rw [i1]; exact isDiag_diagonal _
  · intro x; rw [hl, diagonal_apply_eq]; exact hd x
  · intro x; rw [hc, diagonal_apply_eq]; exact hk x
  · intro x; rw [ir, diagonal_apply_eq]; exact add_nonneg hρ (mul_nonneg hβ (hd x).le)
  · intro x; rw [hg, diagonal_apply_eq]; exact mul_nonneg hγ (hk x).le
  · intro x; rw [i1, diagonal_apply_eq]; exact hzs
  · intro x; rw [i1, diagonal_apply_eq]; exact hzl
  · intro x
    rw [ir, hg, i1, i1, diagonal_apply_eq, diagonal_apply_eq, diagonal_apply_eq, diagonal_apply_eq]
    rcases hloss with h0 | h0 | h0 | h0 | h0
    · exact .inl (add_pos_of_pos_of_nonneg h0 (mul_nonneg hβ (hd x).le))
    · exact .inl (add_pos_of_nonneg_of_pos hρ (mul_pos h0 (hd x)))
    · exact .inr (.inl (mul_pos h0 (hk x)))
    · exact .inr (.inr (.inl h0))
    · exact .inr (.inr (.inr h0))

/-- **C187** for programs in a homogeneous medium without losses: any number of conductors, whatever their cross section, with the same
resistance for each conductor at the beginning and at the end.  The telegrapher's equations have exactly one solution, and for more and more
cells the runs with sinusoidal sources settle on it. -/
theorem C187_medium_program {l c : Arg} {D κ zs zl ω : ℝ} {name : String} {s : ℕ → MTL n p} {dt : ℕ → ℝ} {S : ℕ → Src n} {E : Fin n → ℂ}
    (hD : 0 < D) (h : ∀ m > 0, MTL.new p l c (.scalar 0) (.scalar 0) D [] [m] (.scalar zs) (.scalar zl) name = .ok ⟨n, s m⟩)
    (hl : SPD (l.matrix n)) (hc : SPD (c.matrix n)) (hlc : l.matrix n * c.matrix n = κ • 1) (hzs : 0 ≤ zs) (hzl : 0 ≤ zl)
    (hz : 0 < zs ∨ 0 < zl) (hω : 0 < ω) (hdt : ∀ m > 0, 0 < dt m ∧ dt m < (s m).dt) (hS : ∀ m k x, ∀ u < 0, S m k x u = 0)
    (hS0 : ∀ m x, ∀ u ≥ 0, S m 0 x u = (E x * Complex.exp (ω * u * Complex.I)).re) (hS1 : ∀ m > 0, ∀ x u, S m m x u = 0) :
    ∃ v i, TelegraphN ((ω * Complex.I) • cx (l.matrix n)) ((ω * Complex.I) • cx (c.matrix n)) E D (zs • 1) (zl • 1) v i ∧
      (∀ v' i', TelegraphN ((ω * Complex.I) • cx (l.matrix n)) ((ω * Complex.I) • cx (c.matrix n)) E D (zs • 1) (zl • 1) v' i' →
        ∀ z ∈ Set.Icc 0 D, v' z = v z ∧ i' z = i z) ∧
      ∀ ε > 0, ∃ M, ∀ m ≥ M, ∃ J, ∀ (T : ℝ) (t' : MTL n p) (N : ℕ) (tr : ℕ → MTL n p),
        RunTrace { s m with dt := dt m, vSources := S m } T t' N tr → ∀ j ≥ J, j ≤ N → ∀ k ≤ m, ∀ x,
          |(tr j).v k x - (v (k * D / m) x * Complex.exp (ω * (j * dt m - dt m) * Complex.I)).re| ≤ ε ∧ (k < m →
            |(tr j).i k x - (i ((k + 1 / 2) * D / m) x * Complex.exp (ω * (j * dt m - dt m / 2) * Complex.I)).re| ≤ ε) := by
  have z0 : (Arg.scalar 0).matrix n = 0 := by ext i j; rfl
  have zd : ∀ y : ℝ, (ZArg.scalar y).diag n = y • 1 := fun y => (smul_one_eq_diagonal y).symm
  have p0 : ∀ X : Mat n, perLength ω 0 X = (ω * Complex.I) • cx X := by
    intro X
    rw [perLength, show cx (0 : Mat n) = 0 by ext i j; simp [cx], zero_add]
  obtain ⟨U, hU⟩ := C187_medium (ρ := 0) (β := 0) (γ := 0) hl hc hlc le_rfl le_rfl le_rfl hzs hzl (.inr (.inr (.inr hz)))
  rw [zero_smul, zero_smul, zero_smul, zero_add] at hU
  obtain ⟨v, i, hv, hu⟩ := C187_solution hU hD hω E
  rw [p0, p0] at hv hu
  refine ⟨v, i, hv, hu, ?_⟩
  refine C187_program (U := U) hD h (by rw [z0, zd, zd]; exact hU) hl hc (by rw [z0]; exact dissipative_zero)
    (by rw [z0]; exact dissipative_zero) (fun _ _ => hzs) (fun _ _ => hzl) (hz.imp (fun h _ _ => h) fun h _ _ => h) hω hdt hS hS0 hS1 ?_
  rw [z0, zd, zd, p0, p0]
  exact hv

/-- Two coupled conductors in a homogeneous medium. -/
example : SPD ((pairMat 2 1).matrix 2) ∧ SPD ((pairMat 2 (-1)).matrix 2) ∧
    (pairMat 2 1).matrix 2 * (pairMat 2 (-1)).matrix 2 = (3 : ℝ) • (1 : Mat 2) := by
  refine ⟨pairMat_spd (by norm_num), pairMat_spd (by norm_num), ?_⟩
  rw [pairMat_matrix, pairMat_matrix]
  ext i j
  fin_cases i <;> fin_cases j <;> norm_num [Matrix.mul_apply, Fin.sum_univ_two]

end Mtln
