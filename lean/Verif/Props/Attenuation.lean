import Mathlib.Analysis.Complex.Polynomial.Basic
import Verif.Props.FrequencyPower
import Verif.Lemmas.Straight

/-! # The waves of a lossy line in the sinusoidal steady state: C181 -/

namespace Mtln

open Matrix

variable {p : ℕ}

/-- A line of one conductor with equal cells and constant parameters. -/
structure MTL.EvenLine (s : MTL 1 p) (h L C R G : ℝ) : Prop where
  dun : ∀ k < s.m, s.dun k = h
  l : ∀ k < s.m, s.l k + s.conn.e k = L • (1 : Mat 1)
  r : ∀ k < s.m, s.r k + s.conn.d k = R • (1 : Mat 1)
  c : ∀ k, 0 < k → k < s.m → s.c k = C • (1 : Mat 1)
  g : ∀ k, 0 < k → k < s.m → s.g k = G • (1 : Mat 1)

/-- The impedance of a cell: the resistance and inductance, or the conductance and capacitance, of the length `h` at the phase `θ`
of a time step. -/
noncomputable def cellImpedance (h dt θ L R : ℝ) : ℂ := h * (L / dt * (2 * Real.sin (θ / 2) * Complex.I) + R * Real.cos (θ / 2))

theorem cx_scalar (x : ℝ) (X : Fin 1 → ℂ) : (cx (x • (1 : Mat 1)) *ᵥ X) 0 = x * X 0 := by
  simp [cx, mulVec, dotProduct]

section

variable {s : MTL 1 p} {τ θ h L C R G : ℝ} {E0 E1 : Fin 1 → ℂ} {V I : ℕ → Fin 1 → ℂ}

theorem MTL.EvenLine.cell (hs : s.EvenLine h L C R G) (hac : s.AC τ θ E0 E1 0 0 V I) {k : ℕ} (hk : k < s.m) :
    cellImpedance h s.dt θ L R * I k 0 = V k 0 - V (k + 1) 0 := by
  have e := congrFun (hac.cell k hk) 0
  rw [hs.dun k hk, hs.l k hk, hs.r k hk] at e
  simp only [Pi.smul_apply, Pi.add_apply, Pi.sub_apply, Pi.neg_apply, Pi.zero_apply, cx_scalar, Complex.real_smul, smul_eq_mul, turn,
    smul_zero, sub_zero, add_zero] at e
  unfold cellImpedance
  push_cast at e ⊢
  linear_combination e

theorem MTL.EvenLine.node (hs : s.EvenLine h L C R G) (hac : s.AC τ θ E0 E1 0 0 V I) {k : ℕ} (hk : k + 1 < s.m) :
    cellImpedance h s.dt θ C G * V (k + 1) 0 = I k 0 - I (k + 1) 0 := by
  have e := congrFun (hac.node (k + 1) (Nat.succ_pos k) hk) 0
  rw [Nat.add_sub_cancel, hs.dun k (by omega), hs.dun (k + 1) hk, hs.c _ (Nat.succ_pos k) hk, hs.g _ (Nat.succ_pos k) hk] at e
  simp only [Pi.smul_apply, Pi.add_apply, Pi.sub_apply, Pi.neg_apply, Pi.zero_apply, cx_scalar, Complex.real_smul, smul_eq_mul, turn,
    smul_zero, sub_zero, add_zero, mul_zero] at e
  unfold cellImpedance
  push_cast at e ⊢
  linear_combination e

/-- **C181** In the sinusoidal steady state the voltages and currents of a line with equal cells are the sums of two waves that are
multiplied with the same factor `x`, or `x⁻¹`, by every cell, where `(x - 1)²/x` is the product of impedance and admittance of a
cell. -/
theorem C181_waves (hs : s.EvenLine h L C R G) (hac : s.AC τ θ E0 E1 0 0 V I) {x : ℂ} (hx : x ≠ 0) (hx2 : x ^ 2 ≠ 1)
    (hroot : (x - 1) ^ 2 = cellImpedance h s.dt θ L R * cellImpedance h s.dt θ C G * x) :
    ∃ A B : ℂ, (∀ k ≤ s.m, V k 0 = A * x ^ k + B * x⁻¹ ^ k) ∧
      ∀ k < s.m, cellImpedance h s.dt θ L R * I k 0 = A * (1 - x) * x ^ k + B * (1 - x⁻¹) * x⁻¹ ^ k := by
  obtain ⟨Z, hZ⟩ : ∃ Z, Z = cellImpedance h s.dt θ L R := ⟨_, rfl⟩
  obtain ⟨Y, hY⟩ : ∃ Y, Y = cellImpedance h s.dt θ C G := ⟨_, rfl⟩
  have hc : ∀ {k}, k < s.m → Z * I k 0 = V k 0 - V (k + 1) 0 := fun hk => hZ ▸ hs.cell hac hk
  have hn : ∀ {k}, k + 1 < s.m → Y * V (k + 1) 0 = I k 0 - I (k + 1) 0 := fun hk => hY ▸ hs.node hac hk
  rw [← hZ, ← hY] at hroot
  rw [← hZ]
  have hd : x ^ 2 - 1 ≠ 0 := sub_ne_zero.2 hx2
  refine ⟨(x * V 1 0 - V 0 0) / (x ^ 2 - 1), x * (x * V 0 0 - V 1 0) / (x ^ 2 - 1), ?_⟩
  obtain ⟨A, hA⟩ : ∃ A, A = (x * V 1 0 - V 0 0) / (x ^ 2 - 1) := ⟨_, rfl⟩
  obtain ⟨B, hB⟩ : ∃ B, B = x * (x * V 0 0 - V 1 0) / (x ^ 2 - 1) := ⟨_, rfl⟩
  rw [← hA, ← hB]
  have b0 : V 0 0 = A + B := by rw [hA, hB]; field_simp; ring
  have b1 : V 1 0 = A * x + B * x⁻¹ := by rw [hA, hB]; field_simp; ring
  have all : ∀ k, (k ≤ s.m → V k 0 = A * x ^ k + B * x⁻¹ ^ k) ∧ (k + 1 ≤ s.m → V (k + 1) 0 = A * x ^ (k + 1) + B * x⁻¹ ^ (k + 1)) := by
    intro k
    induction k with
    | zero => exact ⟨fun _ => by simpa using b0, fun _ => by simpa using b1⟩
    | succ k ih =>
      refine ⟨ih.2, fun hk => ?_⟩
      have e1 := hc (k := k) (by omega)
      have e2 := hc (k := k + 1) (by omega)
      have e3 := hn (k := k) (by omega)
      have i1 := ih.1 (by omega)
      have i2 := ih.2 (by omega)
      have e4 : V (k + 2) 0 = (2 + Z * Y) * V (k + 1) 0 - V k 0 := by linear_combination e2 - e1 - Z * e3
      have r1 : 2 + Z * Y = x + x⁻¹ := by
        field_simp
        linear_combination -hroot
      show V (k + 2) 0 = _
      rw [e4, i1, i2, r1]
      have hi : x * x⁻¹ = 1 := mul_inv_cancel₀ hx
      generalize x⁻¹ = y at *
      rw [pow_succ x (k + 1), pow_succ y (k + 1), pow_succ x k, pow_succ y k]
      linear_combination (A * x ^ k + B * y ^ k) * hi
  refine ⟨fun k hk => (all k).1 hk, fun k hk => ?_⟩
  rw [hc hk, (all k).1 hk.le, (all k).2 hk, pow_succ, pow_succ]
  ring

end

/-- For every product of impedance and admittance there is a factor that is not larger than one. -/
theorem exists_factor (w : ℂ) : ∃ x : ℂ, x ≠ 0 ∧ ‖x‖ ≤ 1 ∧ (x - 1) ^ 2 = w * x := by
  obtain ⟨d, hd⟩ := IsAlgClosed.exists_pow_nat_eq ((2 + w) ^ 2 - 4) (n := 2) two_pos
  obtain ⟨x, hx⟩ : ∃ x, x = (2 + w + d) / 2 := ⟨_, rfl⟩
  obtain ⟨y, hy⟩ : ∃ y, y = (2 + w - d) / 2 := ⟨_, rfl⟩
  have hxy : x * y = 1 := by
    rw [hx, hy]
    linear_combination (-1 / 4) * hd
  have x0 : x ≠ 0 := left_ne_zero_of_mul_eq_one hxy
  have y0 : y ≠ 0 := right_ne_zero_of_mul_eq_one hxy
  have hn : ‖x‖ * ‖y‖ = 1 := by rw [← norm_mul, hxy, norm_one]
  rcases le_total ‖x‖ 1 with h | h
  · refine ⟨x, x0, h, ?_⟩
    rw [hx]
    linear_combination (1 / 4) * hd
  · refine ⟨y, y0, ?_, ?_⟩
    · have := norm_nonneg y
      nlinarith
    · rw [hy]
      linear_combination (1 / 4) * hd

theorem cell_product_im (h dt θ L C R G : ℝ) :
    (cellImpedance h dt θ L R * cellImpedance h dt θ C G).im =
      h ^ 2 / dt * (2 * Real.sin (θ / 2) * Real.cos (θ / 2)) * (L * G + R * C) := by
  unfold cellImpedance
  rw [show (h * (L / dt * (2 * Real.sin (θ / 2) * Complex.I) + R * Real.cos (θ / 2)) *
      (h * (C / dt * (2 * Real.sin (θ / 2) * Complex.I) + G * Real.cos (θ / 2))) : ℂ) =
      ((h ^ 2 * (R * G * Real.cos (θ / 2) ^ 2 - L * C / dt ^ 2 * (2 * Real.sin (θ / 2)) ^ 2) : ℝ) : ℂ) +
      ((h ^ 2 / dt * (2 * Real.sin (θ / 2) * Real.cos (θ / 2)) * (L * G + R * C) : ℝ) : ℂ) * Complex.I by
    push_cast
    linear_combination (h ^ 2 * L * C / dt ^ 2 * (2 * Complex.sin (θ / 2)) ^ 2 : ℂ) * Complex.I_sq]
  rw [Complex.add_im, Complex.ofReal_im, Complex.im_ofReal_mul, Complex.I_im, mul_one, zero_add]

/-- **C181** With losses the waves decay in the direction they travel in: the factor of the forward wave is smaller than one and
turns backwards in phase. -/
theorem C181_attenuation {h dt θ L C R G : ℝ} (hh : 0 < h) (hdt : 0 < dt) (h0 : 0 < θ) (hπ : θ < Real.pi) (hL : 0 < L) (hC : 0 < C)
    (hR : 0 ≤ R) (hG : 0 ≤ G) (hRG : 0 < R ∨ 0 < G) :
    ∃ x : ℂ, x ≠ 0 ∧ ‖x‖ < 1 ∧ x.im < 0 ∧ (x - 1) ^ 2 = cellImpedance h dt θ L R * cellImpedance h dt θ C G * x ∧
      ∀ y : ℂ, (y - 1) ^ 2 = cellImpedance h dt θ L R * cellImpedance h dt θ C G * y → y = x ∨ y = x⁻¹ := by
  obtain ⟨w, hw⟩ : ∃ w, w = cellImpedance h dt θ L R * cellImpedance h dt θ C G := ⟨_, rfl⟩
  have him : 0 < w.im := by
    rw [hw, cell_product_im]
    have s1 : 0 < Real.sin (θ / 2) := Real.sin_pos_of_pos_of_lt_pi (by linarith) (by linarith)
    have s2 : 0 < Real.cos (θ / 2) := Real.cos_pos_of_mem_Ioo ⟨by linarith, by linarith⟩
    have s3 : 0 < L * G + R * C := by
      rcases hRG with hp | hp
      · have := mul_pos hp hC
        have := mul_nonneg hL.le hG
        linarith
      · have := mul_pos hL hp
        have := mul_nonneg hR hC.le
        linarith
    positivity
  rw [← hw]
  obtain ⟨x, x0, hx1, hx⟩ := exists_factor w
  have key : x.im * (Complex.normSq x - 1) = w.im * Complex.normSq x := by
    have e : x * (starRingEnd ℂ x * x) + starRingEnd ℂ x = (2 + w) * (starRingEnd ℂ x * x) := by
      linear_combination (starRingEnd ℂ x) * hx
    rw [← Complex.normSq_eq_conj_mul_self] at e
    have := congrArg Complex.im e
    rw [Complex.add_im, Complex.im_mul_ofReal, Complex.im_mul_ofReal, Complex.conj_im, Complex.add_im] at this
    have h2 : (2 : ℂ).im = 0 := rfl
    rw [h2] at this
    linarith
  have hpos : 0 < Complex.normSq x := Complex.normSq_pos.2 x0
  have hle : Complex.normSq x ≤ 1 := by
    rw [Complex.normSq_eq_norm_sq]
    have := norm_nonneg x
    nlinarith
  have hlt : Complex.normSq x < 1 := by
    refine lt_of_le_of_ne hle fun e => ?_
    rw [e, sub_self, mul_zero, mul_one] at key
    linarith
  refine ⟨x, x0, ?_, ?_, hx, fun y hy => ?_⟩
  · rw [Complex.normSq_eq_norm_sq] at hlt
    have := norm_nonneg x
    nlinarith
  · have := mul_pos him hpos
    nlinarith
  · have e : (y - x) * (y * x - 1) = 0 := by
      linear_combination x * hy - y * hx
    rcases mul_eq_zero.1 e with e | e
    · exact Or.inl (sub_eq_zero.1 e)
    · exact Or.inr (eq_inv_of_mul_eq_one_left (sub_eq_zero.1 e))

/-- **C181** Without losses a wave travels with constant amplitude exactly below the cut-off of the grid. -/
theorem C181_cutoff {h dt θ L C : ℝ} (hh : 0 < h) (hdt : 0 < dt) (hL : 0 < L) (hC : 0 < C) {x : ℂ}
    (hx : (x - 1) ^ 2 = cellImpedance h dt θ L 0 * cellImpedance h dt θ C 0 * x) :
    ‖x‖ = 1 ↔ L * C * (h * Real.sin (θ / 2)) ^ 2 ≤ dt ^ 2 := by
  obtain ⟨q, hq⟩ : ∃ q, q = L * C * (h * Real.sin (θ / 2)) ^ 2 / dt ^ 2 := ⟨_, rfl⟩
  have hq0 : 0 ≤ q := by rw [hq]; positivity
  have hle : L * C * (h * Real.sin (θ / 2)) ^ 2 ≤ dt ^ 2 ↔ q ≤ 1 := by rw [hq, div_le_one (by positivity)]
  have hw : cellImpedance h dt θ L 0 * cellImpedance h dt θ C 0 = ((-4 * q : ℝ) : ℂ) := by
    rw [hq]
    unfold cellImpedance
    push_cast
    linear_combination (h ^ 2 * L * C / dt ^ 2 * (2 * Complex.sin (θ / 2)) ^ 2 : ℂ) * Complex.I_sq
  rw [hw] at hx
  rw [hle]
  have hre := congrArg Complex.re hx
  have him := congrArg Complex.im hx
  simp only [pow_two, Complex.mul_re, Complex.mul_im, Complex.sub_re, Complex.sub_im, Complex.one_re, Complex.one_im, Complex.ofReal_re,
    Complex.ofReal_im, sub_zero, zero_mul, add_zero] at hre him
  have hns : ‖x‖ = 1 ↔ x.re * x.re + x.im * x.im = 1 := by
    rw [← Complex.normSq_apply, Complex.normSq_eq_norm_sq]
    constructor
    · intro e; rw [e, one_pow]
    · intro e
      have := norm_nonneg x
      nlinarith
  rw [hns]
  have hb : x.im * (x.re - (1 - 2 * q)) = 0 := by linarith
  constructor
  · intro e
    rcases mul_eq_zero.1 hb with b | b
    · rw [b] at e hre
      nlinarith [sq_nonneg (x.re + 1), sq_nonneg (x.re - 1)]
    · nlinarith [sq_nonneg x.im]
  · intro e
    rcases mul_eq_zero.1 hb with b | b
    · rw [b] at hre ⊢
      have : (x.re - (1 - 2 * q)) ^ 2 = 4 * q * (q - 1) := by nlinarith
      have h1 : (x.re - (1 - 2 * q)) ^ 2 = 0 := le_antisymm (by nlinarith) (sq_nonneg _)
      have h2 : 4 * q * (q - 1) = 0 := by linarith
      have h3 : x.re = 1 - 2 * q := by nlinarith [pow_eq_zero_iff (two_ne_zero) |>.1 h1]
      rw [h3]
      nlinarith
    · have : x.re = 1 - 2 * q := by linarith
      rw [this] at hre ⊢
      nlinarith

theorem dissipative_scalar {x : ℝ} (hx : 0 ≤ x) : Dissipative (Matrix.of fun _ _ => x : Mat 1) := fun v => by
  simp only [dotProduct, mulVec, Finset.univ_unique, Fin.default_eq_zero, Finset.sum_singleton, of_apply]
  have := mul_nonneg hx (mul_self_nonneg (v 0))
  nlinarith

/-- A straight line of one conductor from the constructor is an even line, whatever its time step and sources are. -/
theorem constructed_even {L C R G D : ℝ} {Zs Zl : ZArg} {m : ℕ} {name : String} {s : MTL 1 p} (hD : 0 < D) (hm : 0 < m)
    (h : MTL.new p (.scalar L) (.scalar C) (.scalar R) (.scalar G) D [] [m] Zs Zl name = .ok ⟨1, s⟩) (dt : ℝ) (S : Src 1) :
    s.m = m ∧ (∀ k < s.m, s.du k ≠ 0) ∧ ({ s with dt := dt, vSources := S } : MTL 1 p).EvenLine (D / m) L C R G := by
  obtain ⟨-, -, -, -, el, ec, er, eg, -, -, -, -, -, hdun, hconn⟩ := new_ok_contents h
  obtain ⟨em, -, edu, -⟩ := straight_mesh (a := ![0, 0, 0]) (b := ![0, 0, D]) hm rfl h
  have hm' : (0 : ℝ) < m := by exact_mod_cast hm
  have hd : 0 < D / m := by positivity
  have mat : ∀ x : ℝ, (Arg.scalar x).matrix 1 = x • (1 : Mat 1) := by
    intro x
    ext a b
    fin_cases a; fin_cases b
    simp [Arg.matrix]
  refine ⟨em, fun k hk h0 => ?_, ⟨fun k hk => ?_, fun k _ => ?_, fun k _ => ?_, fun k _ _ => ?_, fun k _ _ => ?_⟩⟩
  · rw [edu k (em ▸ hk)] at h0
    have := congrFun h0 2
    simp at this
    rcases this with h1 | h1
    · exact hD.ne' h1
    · exact hm.ne' h1
  · show s.dun k = _
    have hk : k < s.m := hk
    rw [hdun]
    show norm3 (s.du k) = _
    rw [edu k (em ▸ hk)]
    unfold norm3
    simp
    rw [Real.sqrt_sq hd.le]
  · show s.l k + s.conn.e k = _
    rw [el, hconn, mat]
    exact add_zero _
  · show s.r k + s.conn.d k = _
    rw [er, hconn, mat]
    exact add_zero _
  · show s.c k = _
    rw [ec, mat]
  · show s.g k = _
    rw [eg, mat]

/-- **C181** for programs: a straight line of one conductor with losses, resistances at its ends and sinusoidal sources approaches the sum
of a wave that decays towards the second end and one that decays towards the first end. -/
theorem C181_program {L C R G D Zs Zl : ℝ} {m : ℕ} {name : String} {s : MTL 1 p} (hD : 0 < D) (hm : 0 < m)
    (h : MTL.new p (.scalar L) (.scalar C) (.scalar R) (.scalar G) D [] [m] (.scalar Zs) (.scalar Zl) name = .ok ⟨1, s⟩)
    (hL : 0 < L) (hC : 0 < C) (hR : 0 ≤ R) (hG : 0 ≤ G) (hRG : 0 < R ∨ 0 < G) (hzs : 0 ≤ Zs) (hzl : 0 ≤ Zl) (hz : 0 < Zs ∨ 0 < Zl)
    {dt ω : ℝ} (hdt : 0 < dt) (hlt : dt < s.dt) (hω : 0 < ω) (hπ : ω * dt < Real.pi) {S : Src 1} {E0 E1 : ℂ}
    (hS : ∀ k x, ∀ u < 0, S k x u = 0) (hS0 : ∀ u ≥ 0, S 0 0 u = (E0 * Complex.exp (ω * u * Complex.I)).re)
    (hS1 : ∀ u ≥ 0, S m 0 u = (E1 * Complex.exp (ω * u * Complex.I)).re) :
    ∃ x A B : ℂ, x ≠ 0 ∧ ‖x‖ < 1 ∧ x.im < 0 ∧
      (x - 1) ^ 2 = cellImpedance (D / m) dt (ω * dt) L R * cellImpedance (D / m) dt (ω * dt) C G * x ∧
      ∀ ε > 0, ∃ J, ∀ (T : ℝ) (t' : MTL 1 p) (N : ℕ) (tr : ℕ → MTL 1 p), RunTrace { s with dt := dt, vSources := S } T t' N tr →
        ∀ j ≥ J, j ≤ N → ∀ k ≤ m,
          |(tr j).v k 0 - ((A * x ^ k + B * x⁻¹ ^ k) * Complex.exp (ω * (j * dt - dt) * Complex.I)).re| ≤ ε := by
  obtain ⟨em, hdu, he⟩ := constructed_even hD hm h dt S
  have hm' : (0 : ℝ) < m := by exact_mod_cast hm
  have vec : ∀ X : Fin 1, X = 0 := fun X => Subsingleton.elim _ _
  obtain ⟨V, I, hac, -, happ⟩ := C178_program (E0 := fun _ => E0) (E1 := fun _ => E1) (ω := ω) h (spd_one hL) (spd_one hC)
    (dissipative_scalar hR) (dissipative_scalar hG) (fun _ _ => hzs) (fun _ _ => hzl) (hz.imp (fun h _ _ => h) fun h _ _ => h) hdu hdt hlt
    hω.le hπ hS (fun x u hu => by rw [vec x]; exact hS0 u hu) (fun x u hu => by rw [vec x, em]; exact hS1 u hu)
  obtain ⟨x, x0, x1, x2, hroot, -⟩ := C181_attenuation (h := D / m) (θ := ω * dt) (by positivity) hdt (mul_pos hω hdt) hπ hL hC hR hG hRG
  have hx2 : x ^ 2 ≠ 1 := by
    intro e
    have := congrArg norm e
    rw [norm_pow, norm_one] at this
    have := norm_nonneg x
    nlinarith
  obtain ⟨A, B, hV, -⟩ := C181_waves he hac x0 hx2 hroot
  refine ⟨x, A, B, x0, x1, x2, hroot, fun ε hε => ?_⟩
  obtain ⟨J, hJ⟩ := happ ε hε
  refine ⟨J, fun T t' N tr Rn j hj hN k hk => ?_⟩
  have := (hJ T t' N tr Rn j hj hN).1 k (by show k ≤ s.m; omega) 0
  rw [← hV k (by show k ≤ s.m; omega)]
  exact this

/-! ## Non-vacuity -/

/-- A line with losses that the constructor accepts. -/
example : ∃ s : MTL 1 0, MTL.new 0 (.scalar 1) (.scalar 1) (.scalar 1) (.scalar 0) 2 [] [2] (.scalar 1) (.scalar 1) "lossy" = .ok ⟨1, s⟩ ∧
    0 < 1 / 2 * s.dt ∧ 1 / 2 * s.dt < s.dt ∧ 1 / s.dt * (1 / 2 * s.dt) < Real.pi := by
  obtain ⟨s, hs⟩ : ∃ s : MTL 1 0, MTL.new 0 (.scalar 1) (.scalar 1) (.scalar 1) (.scalar 0) 2 [] [2]
      (.scalar 1) (.scalar 1) "lossy" = .ok ⟨1, s⟩ := by
    refine C32_physical_accepted (d := 2) "lossy" one_ne_zero (.floats 1 1) (.one 1 rfl) .zero (.numbers 1 1)
      (spd_one one_pos) (spd_one one_pos) dissipative_zero (fun _ _ => zero_le_one) (fun _ _ => zero_le_one)
      (by norm_num) (by simp) rfl (by simp) ⟨0, by simp, ?_⟩
    intro h
    have := congrFun h 2
    simp at this
  obtain ⟨-, hdu, -⟩ := constructed_even two_pos two_pos hs 1 0
  obtain ⟨hp, -⟩ := constructed_physical hs (spd_one one_pos) (spd_one one_pos) (dissipative_scalar zero_le_one) dissipative_zero
    (fun _ _ => zero_le_one) (fun _ _ => zero_le_one) hdu
  have hdt := hp.dt_pos
  refine ⟨s, hs, by linarith, by linarith, ?_⟩
  have : 1 / s.dt * (1 / 2 * s.dt) = 1 / 2 := by field_simp
  rw [this]
  linarith [Real.two_le_pi]

end Mtln
