import Verif.Props.FrequencyResponse

/-! # Power and reciprocity of the circuit for alternating current: C179 -/

namespace Mtln

open Matrix

variable {n p : ℕ}

/-- The current that the source at the first end delivers. -/
noncomputable def MTL.acFirst (s : MTL n p) (τ θ : ℝ) (V I : ℕ → Fin n → ℂ) : Fin n → ℂ :=
  I 0 + (s.dun 0 / 2) • ((1 / τ) • (cx (s.c 0) *ᵥ (turn θ • V 0)) + Real.cos (θ / 2) • (cx (s.g 0) *ᵥ V 0))

/-- The current that the source at the last end delivers. -/
noncomputable def MTL.acLast (s : MTL n p) (τ θ : ℝ) (V I : ℕ → Fin n → ℂ) : Fin n → ℂ :=
  -I (s.m - 1) + (s.dun (s.m - 1) / 2) • ((1 / τ) • (cx (s.c s.m) *ᵥ (turn θ • V s.m)) + Real.cos (θ / 2) • (cx (s.g s.m) *ᵥ V s.m))

/-- Twice the mean power that the sinusoidal current `X` leaves in the resistances `A`. -/
noncomputable def meanPower (A : Mat n) (X : Fin n → ℂ) : ℝ := (star X ⬝ᵥ (cx A *ᵥ X)).re

theorem cx_dot_comm {A : Mat n} (h : Aᵀ = A) (X Y : Fin n → ℂ) : X ⬝ᵥ (cx A *ᵥ Y) = Y ⬝ᵥ (cx A *ᵥ X) := by
  have e : (cx A)ᵀ = cx A := by
    ext i j
    show ((A j i : ℝ) : ℂ) = A i j
    exact congrArg _ (congrFun (congrFun h i) j)
  rw [dotProduct_mulVec, ← mulVec_transpose, e, dotProduct_comm]

theorem cx_star (A : Mat n) (X : Fin n → ℂ) : star (cx A *ᵥ X) = cx A *ᵥ star X := by
  funext a
  simp [mulVec, dotProduct, cx]

/-- A form with a real symmetric matrix is real. -/
theorem form_im {A : Mat n} (h : Aᵀ = A) (X : Fin n → ℂ) : (star X ⬝ᵥ (cx A *ᵥ X)).im = 0 := by
  refine Complex.conj_eq_iff_im.1 ?_
  have : (starRingEnd ℂ) (star X ⬝ᵥ (cx A *ᵥ X)) = star (star X ⬝ᵥ (cx A *ᵥ X)) := rfl
  rw [this, star_dotProduct_star_comm_aux A X]
  exact cx_dot_comm h _ _
where
  star_dotProduct_star_comm_aux (A : Mat n) (X : Fin n → ℂ) : star (star X ⬝ᵥ (cx A *ᵥ X)) = X ⬝ᵥ (cx A *ᵥ star X) := by
    rw [← cx_star]
    simp [dotProduct, mul_comm]

theorem meanPower_nonneg {A : Mat n} (h : Dissipative A) (X : Fin n → ℂ) : 0 ≤ meanPower A X := by
  have e : meanPower A X = (fun a => (X a).re) ⬝ᵥ (A *ᵥ fun a => (X a).re) + (fun a => (X a).im) ⬝ᵥ (A *ᵥ fun a => (X a).im) := by
    simp only [meanPower, dotProduct, mulVec, cx, Matrix.map_apply, Complex.re_sum, Pi.star_apply, ← Finset.sum_add_distrib]
    refine Finset.sum_congr rfl fun a _ => ?_
    rw [Complex.mul_re]
    simp
  rw [e]
  exact add_nonneg (h _) (h _)

/-- Twice the mean power in an inductance or capacitance and a resistance or conductance. -/
theorem impedance_power {L R : Mat n} (hL : Lᵀ = L) (a γ θ : ℝ) (X : Fin n → ℂ) :
    (star X ⬝ᵥ (a • (cx L *ᵥ (turn θ • X)) + γ • (cx R *ᵥ X))).re = γ * meanPower R X := by
  rw [dotProduct_add, dotProduct_smul, dotProduct_smul, mulVec_smul, dotProduct_smul, Complex.add_re, Complex.real_smul, Complex.real_smul,
    Complex.re_ofReal_mul, Complex.re_ofReal_mul, smul_eq_mul, turn, mul_assoc, Complex.re_ofReal_mul, Complex.I_mul_re, form_im hL]
  simp [meanPower]

/-- Tellegen's identity. -/
theorem tellegen (V I : ℕ → Fin n → ℂ) : ∀ m, ∑ k ∈ Finset.range (m + 1), I k ⬝ᵥ (V (k + 1) - V k) +
    ∑ k ∈ Finset.range m, (I (k + 1) - I k) ⬝ᵥ V (k + 1) = I m ⬝ᵥ V (m + 1) - I 0 ⬝ᵥ V 0
  | 0 => by simp [dotProduct_sub]
  | m + 1 => by
    have ih := tellegen V I m
    rw [Finset.sum_range_succ (fun k => I k ⬝ᵥ (V (k + 1) - V k)) (m + 1),
      Finset.sum_range_succ (fun k => (I (k + 1) - I k) ⬝ᵥ V (k + 1)) m]
    simp only [dotProduct_sub, sub_dotProduct] at ih ⊢
    linear_combination ih

section

variable {s : MTL n p} {τ θ : ℝ} {E0 E1 E0' E1' : Fin n → ℂ} {V I V' I' : ℕ → Fin n → ℂ}

/-- **C179** The circuit of a line with symmetric matrices is reciprocal: with two sets of sources, the currents of each and the
voltages of the other have the same products. -/
theorem C179_reciprocal (hp : s.Passive) (hR : ∀ k < s.m, (s.r k + s.conn.d k)ᵀ = s.r k + s.conn.d k) (hG : ∀ k ≤ s.m, (s.g k)ᵀ = s.g k)
    (hs : s.zsᵀ = s.zs) (hl : s.zlᵀ = s.zl) (hγ : Real.cos (θ / 2) ≠ 0) (h : s.AC τ θ E0 E1 0 0 V I) (h' : s.AC τ θ E0' E1' 0 0 V' I') :
    s.acFirst τ θ V I ⬝ᵥ E0' + s.acLast τ θ V I ⬝ᵥ E1' = s.acFirst τ θ V' I' ⬝ᵥ E0 + s.acLast τ θ V' I' ⬝ᵥ E1 := by
  obtain ⟨m, hm⟩ := Nat.exists_eq_succ_of_ne_zero hp.cells.ne'
  have hm : s.m = m + 1 := hm
  have sym : ∀ {L R : Mat n}, Lᵀ = L → Rᵀ = R → ∀ (a γ : ℝ) (X Y : Fin n → ℂ),
      X ⬝ᵥ (a • (cx L *ᵥ (turn θ • Y)) + γ • (cx R *ᵥ Y)) = Y ⬝ᵥ (a • (cx L *ᵥ (turn θ • X)) + γ • (cx R *ᵥ X)) := by
    intro L R hL hR a γ X Y
    simp only [dotProduct_add, dotProduct_smul, mulVec_smul]
    rw [cx_dot_comm hL, cx_dot_comm hR]
  have t1 := tellegen V' I m
  have t2 := tellegen V I' m
  have cells : ∑ k ∈ Finset.range (m + 1), I k ⬝ᵥ (V' (k + 1) - V' k) = ∑ k ∈ Finset.range (m + 1), I' k ⬝ᵥ (V (k + 1) - V k) := by
    refine Finset.sum_congr rfl fun k hk => ?_
    have hk : k < s.m := by rw [hm]; exact Finset.mem_range.1 hk
    have a := h.cell k hk
    have b := h'.cell k hk
    simp only [Pi.zero_apply, sub_zero, smul_zero, add_zero] at a b
    rw [← neg_neg (V' (k + 1) - V' k), ← neg_neg (V (k + 1) - V k), ← a, ← b, dotProduct_neg, dotProduct_neg, dotProduct_smul,
      dotProduct_smul, sym (hp.l k hk) (hR k hk)]
  have nodes : ∑ k ∈ Finset.range m, (I (k + 1) - I k) ⬝ᵥ V' (k + 1) = ∑ k ∈ Finset.range m, (I' (k + 1) - I' k) ⬝ᵥ V (k + 1) := by
    refine Finset.sum_congr rfl fun k hk => ?_
    have hk : k + 1 < s.m := by rw [hm]; exact Nat.succ_lt_succ (Finset.mem_range.1 hk)
    have a := h.node (k + 1) (by omega) hk
    have b := h'.node (k + 1) (by omega) hk
    simp only [Pi.zero_apply, sub_zero, smul_zero, add_zero, mulVec_zero, Nat.add_sub_cancel] at a b
    rw [← neg_neg (I (k + 1) - I k), ← neg_neg (I' (k + 1) - I' k), ← a, ← b, neg_dotProduct, neg_dotProduct, smul_dotProduct,
      smul_dotProduct, dotProduct_comm, sym (hp.c _ hk.le) (hG _ hk.le), dotProduct_comm]
  have inner : I m ⬝ᵥ V' (m + 1) - I 0 ⬝ᵥ V' 0 = I' m ⬝ᵥ V (m + 1) - I' 0 ⬝ᵥ V 0 := by rw [← t1, ← t2, cells, nodes]
  have ends : ∀ {Z L R : Mat n} {J J' X X' E E' U U' : Fin n → ℂ} {d : ℝ}, Zᵀ = Z → Lᵀ = L → Rᵀ = R →
      J = U + d • ((1 / τ) • (cx L *ᵥ (turn θ • X)) + Real.cos (θ / 2) • (cx R *ᵥ X)) →
      J' = U' + d • ((1 / τ) • (cx L *ᵥ (turn θ • X')) + Real.cos (θ / 2) • (cx R *ᵥ X')) →
      Real.cos (θ / 2) • X = Real.cos (θ / 2) • E - cx Z *ᵥ J → Real.cos (θ / 2) • X' = Real.cos (θ / 2) • E' - cx Z *ᵥ J' →
      J ⬝ᵥ E' - J' ⬝ᵥ E = U ⬝ᵥ X' - U' ⬝ᵥ X := by
    intro Z L R J J' X X' E E' U U' d hZ hL hR hJ hJ' a b
    have a1 := congrArg (J' ⬝ᵥ ·) a
    have b1 := congrArg (J ⬝ᵥ ·) b
    simp only [dotProduct_sub, dotProduct_smul] at a1 b1
    have e1 : J ⬝ᵥ X' - J' ⬝ᵥ X = U ⬝ᵥ X' - U' ⬝ᵥ X := by
      rw [hJ, hJ', add_dotProduct, add_dotProduct, smul_dotProduct, smul_dotProduct, dotProduct_comm (_ + _) X', dotProduct_comm (_ + _) X,
        sym hL hR]
      ring
    rw [← e1]
    have e2 : Real.cos (θ / 2) • (J ⬝ᵥ E' - J' ⬝ᵥ E) = Real.cos (θ / 2) • (J ⬝ᵥ X' - J' ⬝ᵥ X) := by
      rw [smul_sub, smul_sub, a1, b1, cx_dot_comm hZ J J']
      ring
    exact smul_right_injective ℂ hγ e2
  have f := h.first
  have f' := h'.first
  have g := h.last
  have g' := h'.last
  simp only [Pi.zero_apply, smul_zero, mulVec_zero, add_zero] at f f' g g'
  have r0 := ends (J := s.acFirst τ θ V I) (J' := s.acFirst τ θ V' I') hs (hp.c 0 (by omega)) (hG 0 (by omega)) rfl rfl f f'
  have r1 := ends (J := s.acLast τ θ V I) (J' := s.acLast τ θ V' I') hl (hp.c s.m le_rfl) (hG s.m le_rfl) rfl rfl g g'
  rw [hm, Nat.add_sub_cancel] at r1
  simp only [neg_dotProduct] at r1
  linear_combination r0 + r1 - inner

/-- **C179** The mean power that the sources of the circuit deliver is the mean power in its resistances: those at the ends, of the
cells and of the nodes; the two end nodes count half. -/
theorem C179_power (hp : s.Passive) (h : s.AC τ θ E0 E1 0 0 V I) :
    Real.cos (θ / 2) * (star (s.acFirst τ θ V I) ⬝ᵥ E0 + star (s.acLast τ θ V I) ⬝ᵥ E1).re =
      meanPower s.zs (s.acFirst τ θ V I) + meanPower s.zl (s.acLast τ θ V I) + Real.cos (θ / 2) ^ 2 *
        (∑ k ∈ Finset.range s.m, s.dun k * meanPower (s.r k + s.conn.d k) (I k) +
          ∑ k ∈ Finset.range (s.m - 1), (s.dun k + s.dun (k + 1)) / 2 * meanPower (s.g (k + 1)) (V (k + 1)) +
          s.dun 0 / 2 * meanPower (s.g 0) (V 0) + s.dun (s.m - 1) / 2 * meanPower (s.g s.m) (V s.m)) := by
  obtain ⟨m, hm⟩ := Nat.exists_eq_succ_of_ne_zero hp.cells.ne'
  have hm : s.m = m + 1 := hm
  have flip : ∀ X Y : Fin n → ℂ, (star X ⬝ᵥ Y).re = (star Y ⬝ᵥ X).re := by
    intro X Y
    simp only [dotProduct, Complex.re_sum, Pi.star_apply]
    refine Finset.sum_congr rfl fun a _ => ?_
    simp [mul_comm]
  have t := congrArg Complex.re (tellegen V (fun k => star (I k)) m)
  simp only [Complex.add_re, Complex.sub_re, Complex.re_sum] at t
  have cells : ∑ k ∈ Finset.range (m + 1), (star (I k) ⬝ᵥ (V (k + 1) - V k)).re =
      -∑ k ∈ Finset.range (m + 1), s.dun k * (Real.cos (θ / 2) * meanPower (s.r k + s.conn.d k) (I k)) := by
    rw [← Finset.sum_neg_distrib]
    refine Finset.sum_congr rfl fun k hk => ?_
    have hk : k < s.m := by rw [hm]; exact Finset.mem_range.1 hk
    have a := h.cell k hk
    simp only [Pi.zero_apply, sub_zero, smul_zero, add_zero] at a
    rw [← neg_neg (V (k + 1) - V k), ← a, dotProduct_neg, dotProduct_smul, Complex.neg_re, Complex.real_smul, Complex.re_ofReal_mul,
      impedance_power (hp.l k hk)]
  have nodes : ∑ k ∈ Finset.range m, ((star (I (k + 1)) - star (I k)) ⬝ᵥ V (k + 1)).re =
      -∑ k ∈ Finset.range m, (s.dun k + s.dun (k + 1)) / 2 * (Real.cos (θ / 2) * meanPower (s.g (k + 1)) (V (k + 1))) := by
    rw [← Finset.sum_neg_distrib]
    refine Finset.sum_congr rfl fun k hk => ?_
    have hk : k + 1 < s.m := by rw [hm]; exact Nat.succ_lt_succ (Finset.mem_range.1 hk)
    have a := h.node (k + 1) (by omega) hk
    simp only [Pi.zero_apply, sub_zero, smul_zero, add_zero, mulVec_zero, Nat.add_sub_cancel] at a
    rw [← star_sub, flip, ← neg_neg (I (k + 1) - I k), ← a, dotProduct_neg, dotProduct_smul, Complex.neg_re, Complex.real_smul,
      Complex.re_ofReal_mul, impedance_power (hp.c _ hk.le)]
  have ends : ∀ {Z L R : Mat n} {J X E U : Fin n → ℂ} {d : ℝ}, Lᵀ = L →
      J = U + d • ((1 / τ) • (cx L *ᵥ (turn θ • X)) + Real.cos (θ / 2) • (cx R *ᵥ X)) →
      Real.cos (θ / 2) • X = Real.cos (θ / 2) • E - cx Z *ᵥ J →
      Real.cos (θ / 2) * (star J ⬝ᵥ E).re = meanPower Z J + Real.cos (θ / 2) * ((star U ⬝ᵥ X).re + d * (Real.cos (θ / 2) * meanPower R X)) := by
    intro Z L R J X E U d hL hJ a
    have a1 := congrArg (fun Y => (star J ⬝ᵥ Y).re) a
    simp only [dotProduct_sub, dotProduct_smul, Complex.sub_re, Complex.real_smul, Complex.re_ofReal_mul] at a1
    have e1 : (star J ⬝ᵥ X).re = (star U ⬝ᵥ X).re + d * (Real.cos (θ / 2) * meanPower R X) := by
      rw [flip J X, hJ, dotProduct_add, Complex.add_re, dotProduct_smul, Complex.real_smul, Complex.re_ofReal_mul,
        impedance_power hL, flip X U]
    rw [← e1]
    unfold meanPower
    linear_combination -a1
  have f := h.first
  have g := h.last
  simp only [Pi.zero_apply, smul_zero, mulVec_zero, add_zero] at f g
  have r0 := ends (J := s.acFirst τ θ V I) (hp.c 0 (by omega)) rfl f
  have r1 := ends (J := s.acLast τ θ V I) (hp.c s.m le_rfl) rfl g
  rw [cells, nodes] at t
  have r1' : (star (-I (s.m - 1)) ⬝ᵥ V s.m).re = -(star (I m) ⬝ᵥ V (m + 1)).re := by
    rw [hm, Nat.add_sub_cancel, star_neg, neg_dotProduct, Complex.neg_re]
  rw [r1'] at r1
  rw [Complex.add_re, mul_add, r0, r1]
  have c1 : ∑ k ∈ Finset.range s.m, s.dun k * (Real.cos (θ / 2) * meanPower (s.r k + s.conn.d k) (I k)) =
      Real.cos (θ / 2) * ∑ k ∈ Finset.range s.m, s.dun k * meanPower (s.r k + s.conn.d k) (I k) := by
    rw [Finset.mul_sum]; exact Finset.sum_congr rfl fun k _ => by ring
  have c2 : ∑ k ∈ Finset.range (s.m - 1), (s.dun k + s.dun (k + 1)) / 2 * (Real.cos (θ / 2) * meanPower (s.g (k + 1)) (V (k + 1))) =
      Real.cos (θ / 2) * ∑ k ∈ Finset.range (s.m - 1), (s.dun k + s.dun (k + 1)) / 2 * meanPower (s.g (k + 1)) (V (k + 1)) := by
    rw [Finset.mul_sum]; exact Finset.sum_congr rfl fun k _ => by ring
  rw [← hm, c1, show m = s.m - 1 by omega, c2] at t
  rw [show m = s.m - 1 by omega, show s.m - 1 + 1 = s.m by omega]
  linear_combination (Real.cos (θ / 2)) * t

/-- **C179** At every frequency below half of the sampling frequency a passive line takes power from its sources. -/
theorem C179_passive (hp : s.Passive) (hγ : 0 < Real.cos (θ / 2)) (h : s.AC τ θ E0 E1 0 0 V I) :
    0 ≤ (star (s.acFirst τ θ V I) ⬝ᵥ E0 + star (s.acLast τ θ V I) ⬝ᵥ E1).re := by
  have e := C179_power hp h
  have hm := hp.cells
  have n1 := meanPower_nonneg hp.zs (s.acFirst τ θ V I)
  have n2 := meanPower_nonneg hp.zl (s.acLast τ θ V I)
  have n3 : 0 ≤ ∑ k ∈ Finset.range s.m, s.dun k * meanPower (s.r k + s.conn.d k) (I k) := Finset.sum_nonneg fun k hk =>
    mul_nonneg (hp.dun k (Finset.mem_range.1 hk)) (meanPower_nonneg (hp.r k (Finset.mem_range.1 hk)) _)
  have n4 : 0 ≤ ∑ k ∈ Finset.range (s.m - 1), (s.dun k + s.dun (k + 1)) / 2 * meanPower (s.g (k + 1)) (V (k + 1)) :=
    Finset.sum_nonneg fun k hk => by
      have hk := Finset.mem_range.1 hk
      have := hp.dun k (by omega)
      have := hp.dun (k + 1) (by omega)
      exact mul_nonneg (by linarith) (meanPower_nonneg (hp.g _ (by omega)) _)
  have n5 : 0 ≤ s.dun 0 / 2 * meanPower (s.g 0) (V 0) :=
    mul_nonneg (by linarith [hp.dun 0 hm]) (meanPower_nonneg (hp.g _ (by omega)) _)
  have n6 : 0 ≤ s.dun (s.m - 1) / 2 * meanPower (s.g s.m) (V s.m) :=
    mul_nonneg (by linarith [hp.dun (s.m - 1) (by omega)]) (meanPower_nonneg (hp.g _ le_rfl) _)
  by_contra hcon
  push Not at hcon
  have : 0 ≤ Real.cos (θ / 2) * (star (s.acFirst τ θ V I) ⬝ᵥ E0 + star (s.acLast τ θ V I) ⬝ᵥ E1).re := by
    rw [e]
    have := mul_nonneg (sq_nonneg (Real.cos (θ / 2))) (add_nonneg (add_nonneg (add_nonneg n3 n4) n5) n6)
    linarith
  nlinarith

end

/-- **C179** A program that makes a line with symmetric resistances and conductances simulates a reciprocal, passive circuit. -/
theorem C179_program {l c r g : Arg} {length : ℝ} {positions : List V3} {ndiv : List ℕ} {Zs Zl : ZArg} {name : String} {s : MTL n p}
    (h : MTL.new p l c r g length positions ndiv Zs Zl name = .ok ⟨n, s⟩) (hl : SPD (l.matrix n)) (hc : SPD (c.matrix n))
    (hr : Dissipative (r.matrix n)) (hg : Dissipative (g.matrix n)) (hzs : ∀ i < n, 0 ≤ Zs.value i)
    (hzl : ∀ i < n, 0 ≤ Zl.value i) (hdu : ∀ k < s.m, s.du k ≠ 0) {dt ω : ℝ} (hdt : 0 < dt) (hω : 0 ≤ ω) (hπ : ω * dt < Real.pi)
    {E0 E1 : Fin n → ℂ} {V I : ℕ → Fin n → ℂ} (a : ({ s with dt := dt } : MTL n p).AC s.dt (ω * dt) E0 E1 0 0 V I) :
    0 ≤ (star (s.acFirst s.dt (ω * dt) V I) ⬝ᵥ E0 + star (s.acLast s.dt (ω * dt) V I) ⬝ᵥ E1).re ∧
      ((r.matrix n)ᵀ = r.matrix n → (g.matrix n)ᵀ = g.matrix n → ∀ (E0' E1' : Fin n → ℂ) (V' I' : ℕ → Fin n → ℂ),
        ({ s with dt := dt } : MTL n p).AC s.dt (ω * dt) E0' E1' 0 0 V' I' →
          s.acFirst s.dt (ω * dt) V I ⬝ᵥ E0' + s.acLast s.dt (ω * dt) V I ⬝ᵥ E1' =
            s.acFirst s.dt (ω * dt) V' I' ⬝ᵥ E0 + s.acLast s.dt (ω * dt) V' I' ⬝ᵥ E1) := by
  obtain ⟨-, -, -, -, -, -, er, eg, ezs, ezl, -, -, -, -, econn⟩ := new_ok_contents h
  obtain ⟨hp, -⟩ := constructed_physical h hl hc hr hg hzs hzl hdu
  have hγ : 0 < Real.cos (ω * dt / 2) := by
    refine Real.cos_pos_of_mem_Ioo ⟨?_, ?_⟩
    · have : 0 ≤ ω * dt := mul_nonneg hω hdt.le
      linarith [Real.pi_pos]
    · linarith
  have hp' : ({ s with dt := dt } : MTL n p).Passive :=
    ⟨hp.cells, hdt, hp.dun, hp.l, hp.c, hp.r, hp.g, hp.zs, hp.zl, hp.q1, hp.q2, hp.q3⟩
  refine ⟨C179_passive (s := ({ s with dt := dt } : MTL n p)) hp' hγ a, fun hR hG E0' E1' V' I' a' => ?_⟩
  refine C179_reciprocal (s := ({ s with dt := dt } : MTL n p)) hp' (fun k _ => ?_) (fun k _ => ?_) ?_ ?_ hγ.ne' a a'
  · show (s.r k + s.conn.d k)ᵀ = s.r k + s.conn.d k
    rw [er, econn, transpose_add, hR]
    simp [Disp.new]
  · show (s.g k)ᵀ = s.g k
    rw [eg, hG]
  · show s.zsᵀ = s.zs
    rw [ezs, diagonal_transpose]
  · show s.zlᵀ = s.zl
    rw [ezl, diagonal_transpose]

/-- **C179** In particular the current in a conductor at one end for a unit source in a conductor at the other is the same both ways. -/
theorem C179_transfer {s : MTL n p} {τ θ : ℝ} {V I V' I' : ℕ → Fin n → ℂ} (hp : s.Passive)
    (hR : ∀ k < s.m, (s.r k + s.conn.d k)ᵀ = s.r k + s.conn.d k) (hG : ∀ k ≤ s.m, (s.g k)ᵀ = s.g k)
    (hs : s.zsᵀ = s.zs) (hl : s.zlᵀ = s.zl) (hγ : Real.cos (θ / 2) ≠ 0) (x y : Fin n) (h : s.AC τ θ (Pi.single x 1) 0 0 0 V I)
    (h' : s.AC τ θ 0 (Pi.single y 1) 0 0 V' I') : s.acLast τ θ V I y = s.acFirst τ θ V' I' x := by
  have := C179_reciprocal hp hR hG hs hl hγ h h'
  simpa using this

/-! ## Non-vacuity -/

/-- A line of the constructor satisfies the hypotheses: its circuit has solutions for a unit source at either end. -/
example : ∃ s : MTL 1 0, MTL.new 0 (.scalar 1) (.scalar 1) (.scalar 0) (.scalar 0) 2 [] [2] (.scalar 1) (.scalar 1) "demo" = .ok ⟨1, s⟩ ∧
    ∃ V I V' I', ({ s with dt := 1 / 2 * s.dt } : MTL 1 0).AC s.dt (1 / s.dt * (1 / 2 * s.dt)) 1 0 0 0 V I ∧
      ({ s with dt := 1 / 2 * s.dt } : MTL 1 0).AC s.dt (1 / s.dt * (1 / 2 * s.dt)) 0 1 0 0 V' I' ∧
      s.acLast s.dt (1 / s.dt * (1 / 2 * s.dt)) V I 0 = s.acFirst s.dt (1 / s.dt * (1 / 2 * s.dt)) V' I' 0 ∧
      0 ≤ (s.acFirst s.dt (1 / s.dt * (1 / 2 * s.dt)) V I 0).re := by
  obtain ⟨s, hs⟩ := demoLine_accepted (p := 0)
  have hdu := demoLine_cells hs
  obtain ⟨hp, hR, ht, hauto⟩ := constructed_physical hs (spd_one one_pos) (spd_one one_pos) dissipative_zero dissipative_zero
    (fun _ _ => zero_le_one) (fun _ _ => zero_le_one) hdu
  obtain ⟨-, -, -, -, -, -, er, eg, ezs, ezl, -⟩ := new_ok_contents hs
  have hdt := hp.dt_pos
  have hθ : 1 / s.dt * (1 / 2 * s.dt) = 1 / 2 := by field_simp
  have hγ : Real.cos (1 / s.dt * (1 / 2 * s.dt) / 2) ≠ 0 := by
    rw [hθ]
    refine (Real.cos_pos_of_mem_Ioo ⟨?_, ?_⟩).ne' <;> linarith [Real.two_le_pi]
  have hp' : ({ s with dt := 1 / 2 * s.dt } : MTL 1 0).Passive :=
    ⟨hp.cells, by show (0 : ℝ) < 1 / 2 * s.dt; linarith, hp.dun, hp.l, hp.c, hp.r, hp.g, hp.zs, hp.zl, hp.q1, hp.q2, hp.q3⟩
  have hR' : ({ s with dt := 1 / 2 * s.dt } : MTL 1 0).Regular ((Arg.scalar 1).matrix 1) := ⟨hR.c, hR.c_spd, hR.l_spd, hR.e, hR.dun⟩
  have sol : ∀ E0 E1, ∃ V I, ({ s with dt := 1 / 2 * s.dt } : MTL 1 0).AC s.dt (1 / s.dt * (1 / 2 * s.dt)) E0 E1 0 0 V I := fun E0 E1 =>
    (C178_circuit (s := ({ s with dt := 1 / 2 * s.dt } : MTL 1 0)) (d := s.dt) hp' hR' (by show 1 / 2 * s.dt ≤ s.dt; linarith) hauto
      (by show 1 / 2 * s.dt * s.dt < s.dt ^ 2; nlinarith)
      (.inl (by show Absorbing s.zs; rw [ezs]; exact absorbing_diagonal fun _ _ => one_pos))
      (.inr (by show s.zsᵀ = s.zs; rw [ezs, diagonal_transpose])) (.inr (by show s.zlᵀ = s.zl; rw [ezl, diagonal_transpose])) hγ).1
  obtain ⟨V, I, a⟩ := sol 1 0
  obtain ⟨V', I', a'⟩ := sol 0 1
  obtain ⟨h1, h2⟩ := C179_program hs (spd_one one_pos) (spd_one one_pos) dissipative_zero dissipative_zero
    (fun _ _ => zero_le_one) (fun _ _ => zero_le_one) hdu (dt := 1 / 2 * s.dt) (ω := 1 / s.dt) (by linarith) (by positivity)
    (by rw [hθ]; linarith [Real.two_le_pi]) a
  refine ⟨s, hs, V, I, V', I', a, a', ?_, ?_⟩
  · have := h2 (by ext i j; fin_cases i; fin_cases j; rfl) (by ext i j; fin_cases i; fin_cases j; rfl) 0 1 V' I' a'
    simpa [dotProduct] using this
  · simpa [dotProduct] using h1

end Mtln
