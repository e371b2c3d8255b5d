import Verif.Props.PulseLimit

/-! # The spectrum of pulses on a matched line (C188) -/

namespace Mtln

open Matrix Filter Topology

variable {p : ℕ}

/-- The variables of a line of one conductor, as they are. -/
noncomputable def sameVars : NewVars 1 where
  a := 1
  b := 1
  tau := 1
  lam := 1
  a_unit := by rw [det_one]; exact one_ne_zero
  b_unit := by rw [det_one]; exact one_ne_zero
  tau_pos := one_pos
  lam_pos := one_pos

theorem sameVars_imp (X : Mat 1) : sameVars.imp X = X := by
  show (1 : Mat 1) * X * (1 : Mat 1)⁻¹ = X
  rw [inv_one, Matrix.one_mul, Matrix.mul_one]

theorem sameVars_adm (X : Mat 1) : sameVars.adm X = X := sameVars_imp X

theorem isDiag_one (X : Mat 1) : X.IsDiag := fun _ _ h => absurd (Subsingleton.elim _ _) h

/-- A line of one conductor is its only mode. -/
theorem ModalLine.single {L C R G Zs Zl : ℝ} (hL : 0 < L) (hC : 0 < C) (hR : 0 ≤ R) (hG : 0 ≤ G) (hzs : 0 ≤ Zs) (hzl : 0 ≤ Zl)
    (hloss : 0 < R ∨ 0 < G ∨ 0 < Zs ∨ 0 < Zl) : ModalLine sameVars ((Arg.scalar L).matrix 1) ((Arg.scalar C).matrix 1)
      ((Arg.scalar R).matrix 1) ((Arg.scalar G).matrix 1) ((ZArg.scalar Zs).diag 1) ((ZArg.scalar Zl).diag 1) := by
  have d : ∀ (Z : ℝ) (x : Fin 1), (ZArg.scalar Z).diag 1 x x = Z := fun Z x => diagonal_apply_eq _ _
  constructor <;> simp only [sameVars_imp, sameVars_adm]
  any_goals exact isDiag_one _
  · exact fun _ => hL
  · exact fun _ => hC
  · exact fun _ => hR
  · exact fun _ => hG
  · exact fun x => by rw [d]; exact hzs
  · exact fun x => by rw [d]; exact hzl
  · exact fun x => by rw [d, d]; exact hloss

/-- The wave on a matched line. -/
theorem matched_wave {L C W Zs D ω : ℝ} (hW : 0 < W) (hLC : C * W ^ 2 = L) (hzs : 0 ≤ Zs) (E : ℂ) :
    TelegraphN (perLength ω ((Arg.scalar 0).matrix 1) ((Arg.scalar L).matrix 1)) (perLength ω ((Arg.scalar 0).matrix 1)
      ((Arg.scalar C).matrix 1)) (fun _ => E) D ((ZArg.scalar Zs).diag 1) ((ZArg.scalar W).diag 1)
      (fun z _ => W / (Zs + W) * Complex.exp (-(ω * (C * W * z) : ℝ) * Complex.I) * E)
      fun z _ => 1 / (Zs + W) * Complex.exp (-(ω * (C * W * z) : ℝ) * Complex.I) * E := by
  have s0 : (Zs + W : ℂ) ≠ 0 := by
    have : (Zs + W : ℝ) ≠ 0 := by linarith
    exact_mod_cast this
  have hLC' : (C : ℂ) * W ^ 2 = L := by exact_mod_cast hLC
  have m1 : ∀ (X : ℝ) (y : Fin 1 → ℂ) (x : Fin 1), (perLength ω ((Arg.scalar 0).matrix 1) ((Arg.scalar X).matrix 1) *ᵥ y) x =
      ω * Complex.I * X * y 0 := by
    intro X y x
    rw [perLength, add_mulVec, smul_mulVec]
    simp [mulVec, dotProduct, cx, Arg.matrix]
    ring
  have m2 : ∀ (X : ℝ) (y : Fin 1 → ℂ) (x : Fin 1), (cx ((ZArg.scalar X).diag 1) *ᵥ y) x = X * y 0 := by
    intro X y x
    have : x = 0 := Subsingleton.elim _ _
    subst this
    simp [mulVec, dotProduct, cx, ZArg.diag, ZArg.value]
  have dexp : ∀ (z : ℝ) (S : Set ℝ), HasDerivWithinAt (fun z : ℝ => Complex.exp (-(ω * (C * W * z) : ℝ) * Complex.I))
      (Complex.exp (-(ω * (C * W * z) : ℝ) * Complex.I) * (-(ω * (C * W) : ℝ) * Complex.I)) S z := by
    intro z S
    have h1 : HasDerivAt (fun z : ℝ => ((z : ℝ) : ℂ)) 1 z := Complex.ofRealCLM.hasDerivAt
    have h2 := (h1.const_mul (-(ω * (C * W) : ℝ) * Complex.I : ℂ)).cexp
    rw [mul_one] at h2
    have e : ∀ z : ℝ, (-(ω * (C * W) : ℝ) * Complex.I * (z : ℂ) : ℂ) = -(ω * (C * W * z) : ℝ) * Complex.I := by
      intro z
      push_cast
      ring
    simp only [e] at h2
    exact h2.hasDerivWithinAt
  refine ⟨fun z _ => ?_, fun z _ => ?_, ?_, ?_⟩
  · refine hasDerivWithinAt_pi.2 fun x => ?_
    refine (((dexp z _).const_mul (W / (Zs + W) : ℂ)).mul_const E).congr_deriv ?_
    rw [Pi.neg_apply, m1, ← hLC']
    push_cast
    field_simp
  · refine hasDerivWithinAt_pi.2 fun x => ?_
    refine (((dexp z _).const_mul (1 / (Zs + W) : ℂ)).mul_const E).congr_deriv ?_
    rw [Pi.neg_apply, m1]
    push_cast
    field_simp
  · funext x
    rw [Pi.sub_apply, m2]
    simp
    field_simp
    ring
  · funext x
    rw [m2]
    field_simp

/-- **C188** for a matched line: one conductor without losses whose end has the wave impedance `W`, `W² = L/C`, driven by a continuous
pulse behind the resistance `Zs`.  For more and more cells the spectrum of the voltage at the distance `z` tends to that of the pulse times
`W/(Zs+W)`, delayed by `z √(LC)`. -/
theorem C188_matched {L C W Zs D ω t : ℝ} {name : String} {s : ℕ → MTL 1 p} {dt : ℕ → ℝ} {S : ℕ → Src 1} {f : ℝ → ℝ} (hD : 0 < D)
    (h : ∀ m > 0, MTL.new p (.scalar L) (.scalar C) (.scalar 0) (.scalar 0) D [] [m] (.scalar Zs) (.scalar W) name = .ok ⟨1, s m⟩)
    (hC : 0 < C) (hW : 0 < W) (hLC : C * W ^ 2 = L) (hzs : 0 ≤ Zs) (hω : 0 < ω) (hdt : ∀ m > 0, 0 < dt m ∧ dt m < (s m).dt) (ht : 0 ≤ t)
    (hS : ∀ m k x, ∀ u < 0, S m k x u = 0) (hS' : ∀ m k x, ∀ u > t, S m k x u = 0) (hf : Continuous f) (hS0 : ∀ m u, S m 0 0 u = f u)
    (hS1 : ∀ m > 0, ∀ x u, S m m x u = 0) :
    ∀ ε > 0, ∃ M, ∀ m ≥ M, ∃ J, ∀ (T : ℝ) (t' : MTL 1 p) (N : ℕ) (tr : ℕ → MTL 1 p),
      RunTrace { s m with dt := dt m, vSources := S m } T t' N tr → J ≤ N → ∀ k ≤ m,
        ‖(dt m : ℂ) * ∑ j ∈ Finset.range (N + 1), Complex.exp (-(ω * (-dt m + j * dt m) : ℝ) * Complex.I) * ((tr j).v k 0 : ℂ) -
          W / (Zs + W) * Complex.exp (-(ω * (Real.sqrt (L * C) * (k * D / m)) : ℝ) * Complex.I) *
            ∫ u in (0 : ℝ)..t, Complex.exp (-(ω * u : ℝ) * Complex.I) * (f u : ℂ)‖ ≤ ε := by
  have hL : 0 < L := by rw [← hLC]; positivity
  have e : Real.sqrt (L * C) = C * W := by
    rw [← hLC, show C * W ^ 2 * C = (C * W) ^ 2 by ring, Real.sqrt_sq (by positivity)]
  intro ε hε
  obtain ⟨M, hM⟩ := C188_pulse (f := fun _ => f) hD h (spd_one hL) (spd_one hC) (dissipative_scalar le_rfl) (dissipative_scalar le_rfl) (fun _ _ => hzs) (fun _ _ => hW.le) (.inr fun _ _ => hW)
    hω hdt ht hS hS' (fun _ => hf) (fun m x u => by rw [show x = 0 from Subsingleton.elim _ _]; exact hS0 m u) hS1
    (matched_wave hW hLC hzs _) ε hε
  refine ⟨M, fun m hm => ?_⟩
  obtain ⟨J, hJ⟩ := hM m hm
  refine ⟨J, fun T t' N tr Rn hN k hk => ?_⟩
  rw [e]
  exact (hJ T t' N tr Rn hN k hk 0).1

/-- Matched lines of all numbers of cells. -/
example : ∃ s : ℕ → MTL 1 0, ∀ m > 0, MTL.new 0 (.scalar 4) (.scalar 1) (.scalar 0) (.scalar 0) 1 [] [m] (.scalar 1) (.scalar 2) "matched" =
    .ok ⟨1, s m⟩ := by
  have hex : ∀ m > 0, ∃ s : MTL 1 0, MTL.new 0 (.scalar 4) (.scalar 1) (.scalar 0) (.scalar 0) 1 [] [m] (.scalar 1) (.scalar 2) "matched" =
      .ok ⟨1, s⟩ := by
    intro m hm
    refine C32_physical_accepted (d := m) "matched" one_ne_zero (.floats 4 1) .zero .zero (.numbers 1 2)
      (spd_one (by norm_num)) (spd_one one_pos) dissipative_zero (fun _ _ => zero_le_one) (fun _ _ => zero_le_two)
      hm (by simp) rfl (by simp) ⟨0, by simp, ?_⟩
    intro h
    have := congrFun h 2
    simp at this
  choose f hf using hex
  refine ⟨fun m => if h : 0 < m then f m h else f 1 one_pos, fun m hm => ?_⟩
  beta_reduce
  rw [dif_pos (show 0 < m from hm)]
  exact hf m hm

end Mtln
