import Mathlib.Tactic.FieldSimp
import Mathlib.Tactic.Linarith
import Mathlib.Tactic.Positivity
import Verif.Model.VectorFit
import Verif.Lemmas.Parser

/-!
# Properties of VF/utils.py
-/

namespace Mtln.VF

open Complex

theorem div_ok {x y : ℂ} (h : y ≠ 0) : div x y = .ok (x / y) := by simp [div, h]

/-! ## C105: circuits -/

theorem omega_ne {f : ℝ} (h : f ≠ 0) : (omega f : ℂ) ≠ 0 := by
  have : omega f ≠ 0 := mul_ne_zero (by positivity) h
  exact_mod_cast this

/-- A number with a real part that is not zero. -/
theorem ne_zero_of_re {z : ℂ} (h : z.re ≠ 0) : z ≠ 0 := fun e => h (by simp [e])

/-- The admittances of a resistor and an inductor in parallel add. -/
theorem C105_RL_parallel (f R L : ℝ) (hf : f ≠ 0) (hR : R ≠ 0) (hL : L ≠ 0) :
    ∃ Z, RLpar f R L = .ok Z ∧ Z ≠ 0 ∧ 1 / Z = 1 / R + 1 / (I * omega f * L) := by
  have hw := omega_ne hf
  have hL' : (L : ℂ) ≠ 0 := by exact_mod_cast hL
  have hR' : (R : ℂ) ≠ 0 := by exact_mod_cast hR
  have hd : I * (omega f : ℂ) + (R : ℂ) / L ≠ 0 := by
    refine ne_zero_of_re ?_
    have : ((R : ℂ) / L).re = R / L := by rw [← ofReal_div, ofReal_re]
    simp only [add_re, this]
    simp [hR, hL]
  refine ⟨I * omega f * R / (I * omega f + R / L), ?_, ?_, ?_⟩
  · simp [RLpar, div_ok hL', div_ok hd, bind, Except.bind]
  · exact div_ne_zero (mul_ne_zero (mul_ne_zero I_ne_zero hw) hR') hd
  · have := I_ne_zero
    field_simp

/-- The admittances of a resistor and a capacitor in parallel add. -/
theorem C105_RC_parallel (f R C : ℝ) (hR : R ≠ 0) (hC : C ≠ 0) :
    ∃ Z, RCpar f R C = .ok Z ∧ Z ≠ 0 ∧ 1 / Z = 1 / R + I * omega f * C := by
  have hC' : (C : ℂ) ≠ 0 := by exact_mod_cast hC
  have hR' : (R : ℂ) ≠ 0 := by exact_mod_cast hR
  have hd : I * (omega f : ℂ) + 1 / ((C : ℂ) * R) ≠ 0 := by
    refine ne_zero_of_re ?_
    have : (1 / ((C : ℂ) * R)).re = 1 / (C * R) := by
      rw [← ofReal_mul, ← ofReal_one, ← ofReal_div, ofReal_re]
    simp only [add_re, this]
    simp [hR, hC]
  refine ⟨1 / C / (I * omega f + 1 / (C * R)), ?_, ?_, ?_⟩
  · simp only [RCpar, div_ok hC', div_ok (mul_ne_zero hC' hR'), div_ok hd, bind, Except.bind]
  · exact div_ne_zero (one_div_ne_zero hC') hd
  · field_simp
    ring

/-- The parallel circuit of a resistor and an inductor has an impedance exactly if the inductance is not zero and there is a
resistance or the frequency is not zero. -/
theorem C105_RL_defined (f R L : ℝ) : (∃ Z, RLpar f R L = .ok Z) ↔ L ≠ 0 ∧ (f ≠ 0 ∨ R ≠ 0) := by
  by_cases hL : L = 0
  · simp [RLpar, div, hL, bind, Except.bind]
  have hL' : (L : ℂ) ≠ 0 := by exact_mod_cast hL
  have hd : I * (omega f : ℂ) + (R : ℂ) / L = 0 ↔ f = 0 ∧ R = 0 := by
    have e : ((R : ℂ) / L) = ((R / L : ℝ) : ℂ) := by push_cast; rfl
    rw [e, Complex.ext_iff]
    simp [omega, Real.pi_ne_zero, hL]
    tauto
  by_cases h0 : f = 0 ∧ R = 0
  · simp only [RLpar, div_ok hL', bind, Except.bind]
    rw [div, if_pos (hd.mpr h0)]
    simp [h0]
  · simp only [RLpar, div_ok hL', bind, Except.bind]
    rw [div, if_neg fun e => h0 (hd.mp e)]
    simp only [Except.ok.injEq, exists_eq', true_iff]
    exact ⟨hL, by tauto⟩

/-- The series circuit has an impedance exactly at the positive frequencies and, for exponents that are not negative, at zero. -/
theorem C105_series_defined (f R L n : ℝ) : (∃ Z, RLseriesDisp f R L n = .ok Z) ↔ 0 < f ∨ f = 0 ∧ 0 ≤ n := by
  have hp := Real.pi_pos
  have h1 : omega f < 0 ↔ f < 0 := by
    unfold omega
    constructor
    · intro h; by_contra h'; push Not at h'; have : 0 ≤ 2 * Real.pi * f := by positivity
      linarith
    · intro h; exact mul_neg_of_pos_of_neg (by positivity) h
  have h2 : omega f = 0 ↔ f = 0 := by simp [omega, Real.pi_ne_zero]
  by_cases h : omega f < 0 ∨ omega f = 0 ∧ n < 0
  · simp only [RLseriesDisp, power, if_pos h, bind, Except.bind, reduceCtorEq, exists_false, false_iff]
    rw [h1, h2] at h
    rcases h with h | h
    · rintro (h' | h')
      · linarith
      · linarith [h'.1]
    · rintro (h' | h')
      · linarith [h.1]
      · linarith [h'.2, h.2]
  · simp only [RLseriesDisp, power, if_neg h, bind, Except.bind, Except.ok.injEq, exists_eq', true_iff]
    rw [h1, h2] at h
    push Not at h
    rcases h.1.eq_or_lt with e | e
    · exact .inr ⟨e.symm, h.2 e.symm⟩
    · exact .inl e

/-- `n = 1` is a resistor and an inductor in series, for every frequency that is not negative. -/
theorem C105_RL_series (f R L : ℝ) (hf : 0 ≤ f) : RLseriesDisp f R L 1 = .ok (R + I * omega f * L) := by
  have hw : ¬ omega f < 0 := not_lt.2 (mul_nonneg (by positivity) hf)
  simp [RLseriesDisp, power, hw, bind, Except.bind, not_lt.2 (zero_le_one' ℝ)]

/-- The functions `Y_…` are reciprocals: they fail where the impedance is zero. -/
theorem C105_RL_admittance (f R L n : ℝ) :
    Y_RLseriesDisp f R L n = (RLseriesDisp f R L n >>= fun Z => div 1 Z) := by
  simp [Y_RLseriesDisp, RLseriesDisp, bind_assoc]
  rfl

theorem C105_Zw_admittance (f f0 R sigma : ℝ) : Y_Zw f f0 R sigma = (Zw f f0 R sigma >>= fun Z => div 1 Z) := by
  simp [Y_Zw, Zw, bind_assoc]
  rfl

/-- A resistor of 2 and an inductor of 1 at `w = 1`. -/
theorem C105_example : RLpar (1 / (2 * Real.pi)) 2 1 = .ok (2 * I / (I + 2)) := by
  have hw : omega (1 / (2 * Real.pi)) = 1 := by
    simp only [omega]
    field_simp
  have hd : (I : ℂ) + 2 ≠ 0 := ne_zero_of_re (by simp)
  have h1 : (1 : ℂ) ≠ 0 := one_ne_zero
  simp only [RLpar, hw]
  norm_num [div, bind, Except.bind, hd]
  ring

/-! ## C109: partial fractions -/

theorem foldlM_add {α : Type} (g : α → Py ℂ) (l : List α) (x : ℂ) (h : ∀ a ∈ l, ∃ y, g a = .ok y) :
    l.foldlM (fun out a => do let y ← g a; .ok (out + y)) x =
      .ok (x + (l.map fun a => match g a with | .ok y => y | .error _ => 0).sum) := by
  induction l generalizing x with
  | nil => simp [pure, Except.pure]
  | cons a l ih =>
    obtain ⟨y, hy⟩ := h a (by simp)
    rw [List.foldlM_cons]
    simp only [hy, bind, Except.bind]
    have := ih (x + y) fun b hb => h b (by simp [hb])
    simp only [bind, Except.bind] at this
    rw [this]
    simp [hy, add_assoc]

/-- No pole of the list is at the frequency `f`. -/
def Off (f : ℝ) (p : List ℂ) : Prop := ∀ x ∈ p, 2 * Real.pi * I * f - x ≠ 0

theorem vfi_ok {f : ℝ} {p r : List ℂ} (h : Off f p) {i : ℕ} (hi : i < p.length) (hr : i < r.length) :
    vfi f p r i = .ok (r[i] / (2 * Real.pi * I * f - p[i])) := by
  have := h p[i] (List.getElem_mem hi)
  simp [vfi, pyIndex, hi, hr, bind, Except.bind, div, this]

/-- `vf` is the sum of the partial fractions. -/
theorem C109_sum (f : ℝ) (p r : List ℂ) (h : Off f p) (hr : p.length ≤ r.length) :
    vf f p r = .ok (∑ i : Fin p.length, (r[(i : ℕ)]'(by omega)) / (2 * Real.pi * I * f - p[i])) := by
  rw [vf, foldlM_add]
  · congr 1
    rw [zero_add, ← List.sum_ofFn]
    congr 1
    refine List.ext_getElem (by simp) fun i h1 h2 => ?_
    have hi : i < p.length := by simpa using h1
    simp only [List.getElem_map, List.getElem_range, vfi_ok h hi (show i < r.length by omega), List.getElem_ofFn,
      Fin.getElem_fin]
  · intro i hi
    have hi : i < p.length := by simpa using hi
    exact ⟨_, vfi_ok h hi (by omega)⟩

/-- The same with the results of `vfi`. -/
theorem C109_terms (f : ℝ) (p r : List ℂ) (h : Off f p) (hr : p.length ≤ r.length) :
    ∃ y : Fin p.length → ℂ, (∀ i : Fin p.length, vfi f p r i = .ok (y i)) ∧ vf f p r = .ok (∑ i, y i) :=
  ⟨_, fun i => vfi_ok h i.2 (by omega), C109_sum f p r h hr⟩

/-- Residues that are missing are noticed. -/
theorem C109_missing (f : ℝ) (p r : List ℂ) (h : Off f p) (hr : r.length < p.length) : vf f p r = .error .IndexError := by
  obtain ⟨k, hk⟩ := Nat.exists_eq_add_of_lt hr
  have e : List.range p.length = List.range r.length ++ (r.length :: (List.range' (r.length + 1) k)) := by
    have := List.range'_append_1 (s := 0) (m := r.length) (n := k + 1)
    rw [zero_add] at this
    rw [hk, List.range_eq_range', List.range_eq_range', ← List.range'_succ, add_assoc, this]
  rw [vf, e, List.foldlM_append, foldlM_add]
  · have : vfi f p r r.length = .error .IndexError := by
      simp [vfi, pyIndex, bind, Except.bind]
    simp [List.foldlM_cons, this, bind, Except.bind]
  · intro i hi
    have hi : i < r.length := by simpa using hi
    exact ⟨_, vfi_ok h (by omega) hi⟩

/-- With pairs of conjugate poles and residues (the pairing is the permutation `s`) the response at `-f` is the conjugate
of the response at `f`, as for a real system. -/
theorem C109_conjugate (f : ℝ) (p r : List ℂ) (h : Off f p) (h' : Off (-f) p) (hr : p.length = r.length)
    (s : Equiv.Perm (Fin p.length)) (hp : ∀ i, p[s i] = (starRingEnd ℂ) p[i])
    (hs : ∀ i : Fin p.length, r[(s i : ℕ)]'(by omega) = (starRingEnd ℂ) (r[(i : ℕ)]'(by omega))) :
    ∃ y, vf f p r = .ok y ∧ vf (-f) p r = .ok ((starRingEnd ℂ) y) := by
  refine ⟨_, C109_sum f p r h hr.le, ?_⟩
  rw [C109_sum (-f) p r h' hr.le]
  congr 1
  rw [map_sum, ← Equiv.sum_comp s]
  refine Finset.sum_congr rfl fun i _ => ?_
  have e1 : p[((s i : Fin p.length) : ℕ)] = (starRingEnd ℂ) p[(i : ℕ)] := hp i
  simp only [Fin.getElem_fin, hs i, e1, map_div₀, map_sub, map_mul, conj_I, conj_ofReal]
  congr 1
  have : (starRingEnd ℂ) 2 = 2 := Complex.conj_ofNat 2
  rw [this]
  push_cast
  ring

/-- One pole at -1 with residue 1, at frequency 0. -/
theorem C109_example : vf 0 [-1] [1] = .ok 1 := by
  rw [C109_sum]
  · simp
  · intro x hx
    simp at hx
    simp [hx]
  · simp

/-! ## C106: the Debye medium -/

theorem debye_re (f tau : ℝ) : (1 + 2 * Real.pi * I * f * tau : ℂ).re = 1 := by
  simp

theorem debye_ne (f tau : ℝ) : (1 + 2 * Real.pi * I * f * tau : ℂ) ≠ 0 := ne_zero_of_re (by rw [debye_re]; exact one_ne_zero)

/-- The value of the loop. -/
theorem epsDebyeFrom_eq (f ran : ℝ) (out : ℂ) (k tau : List ℝ) (h : k.length ≤ tau.length) :
    epsDebyeFrom f ran out k tau =
      .ok (out + ran * ((k.zip tau).map fun kt => (kt.1 : ℂ) / (1 + 2 * Real.pi * I * f * kt.2)).sum) := by
  induction k generalizing tau out with
  | nil => simp [epsDebyeFrom]
  | cons a k ih =>
    cases tau with
    | nil => simp at h
    | cons b tau =>
      simp only [epsDebyeFrom, div_ok (debye_ne f b), bind, Except.bind]
      rw [ih _ _ (by simpa using h)]
      simp
      ring

/-- More amplitudes than times raise. -/
theorem C106_missing (f : ℝ) (k tau : List ℝ) (h : tau.length < k.length) : epsDebye f k tau = .error .IndexError := by
  have : ∀ (out : ℂ), epsDebyeFrom f 1 out k tau = .error .IndexError := by
    induction k generalizing tau with
    | nil => simp at h
    | cons a k ih =>
      cases tau with
      | nil => intro out; rfl
      | cons b tau =>
        intro out
        simp only [epsDebyeFrom, div_ok (debye_ne f b), bind, Except.bind]
        exact ih tau (by simpa using h) _
  exact this 1

/-- The medium as a rational function: poles `-1/tau`, residues `k/tau`, constant 1. -/
theorem C106_rational (f : ℝ) (k tau : List ℝ) (h : k.length = tau.length) (ht : ∀ t ∈ tau, t ≠ 0) :
    ∃ y, vf f (tau.map fun t : ℝ => -1 / (t : ℂ)) ((k.zip tau).map fun kt => (kt.1 : ℂ) / kt.2) = .ok y ∧
      epsDebye f k tau = .ok (1 + y) := by
  have off : Off f (tau.map fun t : ℝ => -1 / (t : ℂ)) := by
    intro x hx
    obtain ⟨t, ht', rfl⟩ := List.mem_map.1 hx
    have := ht t ht'
    have : (t : ℂ) ≠ 0 := by exact_mod_cast this
    intro e
    apply debye_ne f t
    field_simp at e
    linear_combination e
  refine ⟨_, C109_sum f _ _ off (by simp [h]), ?_⟩
  rw [epsDebye, epsDebyeFrom_eq f 1 1 k tau h.le]
  congr 2
  rw [ofReal_one, one_mul, ← List.sum_ofFn]
  congr 1
  refine List.ext_getElem (by simp [h]) fun i h1 h2 => ?_
  have hi : i < tau.length := by simpa using h2
  have := ht tau[i] (List.getElem_mem hi)
  have : (tau[i] : ℂ) ≠ 0 := by exact_mod_cast this
  simp only [List.getElem_map, List.getElem_zip, List.getElem_ofFn, Fin.getElem_fin]
  have e : (2 * Real.pi * I * f - -1 / (tau[i] : ℂ)) = (1 + 2 * Real.pi * I * f * tau[i]) / tau[i] := by
    field_simp
    ring
  rw [e, div_div_div_cancel_right₀ this]

/-- One term of the medium: real part not negative, imaginary part not positive. -/
theorem debye_term (f k tau : ℝ) (hf : 0 ≤ f) (hk : 0 ≤ k) (ht : 0 ≤ tau) :
    0 ≤ ((k : ℂ) / (1 + 2 * Real.pi * I * f * tau)).re ∧ ((k : ℂ) / (1 + 2 * Real.pi * I * f * tau)).im ≤ 0 := by
  have e : (1 + 2 * Real.pi * I * f * tau : ℂ).im = 2 * Real.pi * f * tau := by simp
  have hn := normSq_pos.2 (debye_ne f tau)
  have := Real.pi_pos
  constructor
  · rw [div_re, debye_re, e]
    simp only [ofReal_re, ofReal_im, mul_one, zero_mul, zero_div, add_zero]
    positivity
  · rw [div_im, debye_re, e]
    simp only [ofReal_re, ofReal_im, mul_one, zero_div, zero_sub]
    have : 0 ≤ k * (2 * Real.pi * f * tau) / normSq (1 + 2 * Real.pi * I * f * tau) := by positivity
    linarith

theorem sum_re_im (l : List ℂ) (h : ∀ x ∈ l, 0 ≤ x.re ∧ x.im ≤ 0) : 0 ≤ l.sum.re ∧ l.sum.im ≤ 0 := by
  induction l with
  | nil => simp
  | cons a l ih =>
    have h1 := h a (by simp)
    have h2 := ih fun x hx => h x (by simp [hx])
    simp only [List.sum_cons, add_re, add_im]
    constructor <;> linarith [h1.1, h1.2, h2.1, h2.2]

/-- The medium is passive. -/
theorem C106_passive (f : ℝ) (k tau : List ℝ) (h : k.length ≤ tau.length) (hf : 0 ≤ f) (hk : ∀ x ∈ k, 0 ≤ x)
    (ht : ∀ x ∈ tau, 0 ≤ x) : ∃ e, epsDebye f k tau = .ok e ∧ 1 ≤ e.re ∧ e.im ≤ 0 := by
  refine ⟨_, epsDebyeFrom_eq f 1 1 k tau h, ?_⟩
  have := sum_re_im ((k.zip tau).map fun kt => (kt.1 : ℂ) / (1 + 2 * Real.pi * I * f * kt.2)) (by
    intro x hx
    obtain ⟨⟨a, b⟩, hab, rfl⟩ := List.mem_map.1 hx
    exact debye_term f a b hf (hk a (List.of_mem_zip hab).1) (ht b (List.of_mem_zip hab).2))
  simp only [ofReal_one, one_mul, add_re, add_im, one_re, one_im]
  constructor <;> linarith [this.1, this.2]

/-- The random error is at most `p` percent of the distance to 1, whatever the random number in `[0, 1)`. -/
theorem C106_error (f : ℝ) (k tau : List ℝ) (p u : ℝ) (h : k.length ≤ tau.length) (hp : 0 ≤ p) (hu : 0 ≤ u) (hu' : u < 1) :
    ∃ e e', epsDebye f k tau = .ok e ∧ epsDebyeErr f k tau p u = .ok e' ∧ ‖e' - e‖ ≤ p / 100 * ‖e - 1‖ := by
  refine ⟨_, _, epsDebyeFrom_eq f 1 1 k tau h, epsDebyeFrom_eq f _ 1 k tau h, ?_⟩
  generalize ((k.zip tau).map fun kt => (kt.1 : ℂ) / (1 + 2 * Real.pi * I * f * kt.2)).sum = s
  have e1 : (1 + ((1 + p * 2 / 100 * u - p / 100 : ℝ) : ℂ) * s) - (1 + ((1 : ℝ) : ℂ) * s) =
      ((p * 2 / 100 * u - p / 100 : ℝ) : ℂ) * s := by
    push_cast
    ring
  have e2 : (1 + ((1 : ℝ) : ℂ) * s) - 1 = s := by simp
  rw [e1, e2, norm_mul, norm_real, Real.norm_eq_abs]
  refine mul_le_mul_of_nonneg_right ?_ (norm_nonneg s)
  rw [abs_le]
  constructor <;> nlinarith

/-- Without error the functions agree. -/
theorem C106_exact (f : ℝ) (k tau : List ℝ) (u : ℝ) : epsDebyeErr f k tau 0 u = epsDebye f k tau := by
  simp [epsDebyeErr, epsDebye]

/-- The static value is 1 plus the sum of the amplitudes. -/
theorem C106_static (k tau : List ℝ) (h : k.length = tau.length) : epsDebye 0 k tau = .ok ((1 + k.sum : ℝ) : ℂ) := by
  rw [epsDebye, epsDebyeFrom_eq 0 1 1 k tau h.le]
  have : (k.zip tau).map (fun kt => (kt.1 : ℂ) / (1 + 2 * Real.pi * I * (0 : ℝ) * kt.2)) = k.map fun x : ℝ => (x : ℂ) := by
    conv_rhs => rw [← List.map_fst_zip (l₁ := k) (l₂ := tau) h.le]
    simp [Function.comp_def]
  rw [this]
  push_cast
  rw [one_mul]
  congr 2
  clear h this
  induction k with
  | nil => simp
  | cons a k ih => simp [ih]

/-- One term of amplitude 10. -/
theorem C106_example : epsDebye 0 [10] [1] = .ok 11 := by
  rw [C106_static [10] [1] (by simp)]
  norm_num

/-! ## C107: the skin effect -/

/-- Below and above the corner frequency. -/
theorem C107_partial (f f0 rdc : ℝ) (h0 : 0 < f0) (hf : 0 ≤ f) :
    (f < f0 → z f f0 rdc = .ok (rdc * (1 + I * f / f0))) ∧
      (f0 < f → z f f0 rdc = .ok (rdc * (1 + I) * Real.sqrt (f / f0))) := by
  have h1 : ¬ (f0 = 0 ∨ f / f0 < 0) := by
    rintro (h | h)
    · exact h0.ne' h
    · exact absurd h (not_lt.2 (by positivity))
  constructor
  · intro h
    simp [z, h1, ind, h.le, not_le.2 h]
  · intro h
    simp [z, h1, ind, h.le, not_le.2 h]

/-- At the corner both parts are added. -/
theorem C107_corner (f0 rdc : ℝ) (h0 : f0 ≠ 0) : z f0 f0 rdc = .ok (2 * (rdc * (1 + I))) := by
  have : (f0 : ℂ) ≠ 0 := by exact_mod_cast h0
  simp [z, h0, ind, this, not_lt.2 (zero_le_one' ℝ)]
  ring

/-- The impedance jumps at the corner frequency, for all parameters. -/
theorem C107_refuted (f0 rdc : ℝ) (h0 : 0 < f0) (hr : rdc ≠ 0) :
    ¬ ∃ g : ℝ → ℂ, (∀ f, 0 ≤ f → z f f0 rdc = .ok (g f)) ∧ ContinuousWithinAt g (Set.Iio f0) f0 := by
  rintro ⟨g, hg, hc⟩
  have e0 : g f0 = 2 * (rdc * (1 + I)) := by
    have := hg f0 h0.le
    rw [C107_corner f0 rdc h0.ne'] at this
    exact (Except.ok.inj this).symm
  have hev : (fun f : ℝ => (rdc * (1 + I * f / f0) : ℂ)) =ᶠ[nhdsWithin f0 (Set.Iio f0)] g := by
    have hpos : ∀ᶠ f in nhdsWithin f0 (Set.Iio f0), 0 ≤ f :=
      nhdsWithin_le_nhds ((lt_mem_nhds h0).mono fun _ h => le_of_lt h)
    filter_upwards [hpos, self_mem_nhdsWithin] with f h1 h2
    have := hg f h1
    rw [(C107_partial f f0 rdc h0 h1).1 h2] at this
    exact Except.ok.inj this
  have hlim : Filter.Tendsto (fun f : ℝ => (rdc * (1 + I * f / f0) : ℂ)) (nhdsWithin f0 (Set.Iio f0))
      (nhds (rdc * (1 + I * f0 / f0))) := by
    refine Filter.Tendsto.mono_left ?_ nhdsWithin_le_nhds
    refine Continuous.tendsto ?_ f0
    fun_prop
  have := tendsto_nhds_unique (hlim.congr' hev) hc
  rw [e0] at this
  have h0' : (f0 : ℂ) ≠ 0 := by exact_mod_cast h0.ne'
  rw [mul_div_assoc, div_self h0'] at this
  have := congrArg re this
  simp at this
  exact hr (by linarith)

/-! ## C108: the file of a fit -/

theorem mapPy_range_ok {α : Type} (n : ℕ) (g : ℕ → Py α) (v : ℕ → α) (h : ∀ i < n, g i = .ok (v i)) :
    mapPy g (List.range n) = .ok ((List.range n).map v) := by
  have : ∀ l : List ℕ, (∀ i ∈ l, g i = .ok (v i)) → mapPy g l = .ok (l.map v) := by
    intro l
    induction l with
    | nil => intro _; rfl
    | cons a l ih =>
      intro hl
      simp [mapPy, hl a (by simp), ih fun i hi => hl i (by simp [hi]), bind, Except.bind]
  exact this _ fun i hi => h i (by simpa using hi)

/-- The fit of one response. -/
def fitOf (nPoles : ℕ) (c d : ℝ) (p row : List ℂ) : FitEntry :=
  { constant := c
    proportional := d
    polesR := (p.take nPoles).map re
    polesI := (p.take nPoles).map im
    residuesR := (row.take nPoles).map re
    residuesI := (row.take nPoles).map im }

/-- What the code writes: entry `i` is the response of number `i * nPoles`. -/
theorem fitEntry_eq (nPoles : ℕ) (a b : List ℝ) (p : List ℂ) (r : List (List ℂ)) (i : ℕ) (ha : i * nPoles < a.length)
    (hb : i * nPoles < b.length) (hr : i * nPoles < r.length) (hp : nPoles ≤ p.length)
    (hrow : nPoles ≤ r[i * nPoles].length) :
    fitEntry nPoles true true a b p r i = .ok (fitOf nPoles a[i * nPoles] b[i * nPoles] p r[i * nPoles]) := by
  have hm : mapPy (fun j => do
      let x ← pyIndex p j
      let row ← pyIndex r (i * nPoles)
      let y ← pyIndex row j
      .ok (x, y)) (List.range nPoles) = .ok ((List.range nPoles).map fun j => (p.getD j 0, (r[i * nPoles]).getD j 0)) := by
    refine mapPy_range_ok _ _ _ fun j hj => ?_
    have h1 : j < p.length := by omega
    have h2 : j < r[i * nPoles].length := by omega
    simp [pyIndex, h1, h2, hr, bind, Except.bind]
  have e1 : ∀ (l : List ℂ), nPoles ≤ l.length → ∀ g : ℂ → ℝ,
      (List.range nPoles).map (fun j => g (l.getD j 0)) = (l.take nPoles).map g := by
    intro l hl g
    refine List.ext_getElem (by simp [hl]) fun j h1 h2 => ?_
    have : j < l.length := by simp at h1; omega
    simp [this]
  have i1 : pyIndex a (i * nPoles) = .ok a[i * nPoles] := by simp [pyIndex, ha]
  have i2 : pyIndex b (i * nPoles) = .ok b[i * nPoles] := by simp [pyIndex, hb]
  simp only [bind, Except.bind] at hm
  simp only [fitEntry, i1, i2, hm, if_true, bind, Except.bind, fitOf, List.map_map, Function.comp_def, e1 p hp, e1 _ hrow]

/-- The responses are numbered row by row, so that `i * (ports + 1)` is the response from port `i` to itself.  The file
holds these when the number of poles is the number of ports plus one. -/
theorem C108_partial (ports nReal nCmplx : ℕ) (a b : List ℝ) (p : List ℂ) (r : List (List ℂ))
    (ha : a.length = ports ^ 2) (hb : b.length = ports ^ 2) (hr : r.length = ports ^ 2)
    (hp : nReal + nCmplx * 2 ≤ p.length) (hrow : ∀ x ∈ r, x.length = p.length)
    (hn : nReal + nCmplx * 2 = ports + 1) :
    serializeJSON nReal nCmplx true true a b p r =
      .ok ((List.range ports).map fun i =>
        fitOf (ports + 1) (a.getD (i * (ports + 1)) 0) (b.getD (i * (ports + 1)) 0) p (r.getD (i * (ports + 1)) [])) := by
  have hs : Nat.sqrt r.length = ports := by rw [hr, pow_two, Nat.sqrt_eq]
  rw [serializeJSON, hn, hs]
  refine mapPy_range_ok _ _ _ fun i hi => ?_
  have hlt : i * (ports + 1) < ports ^ 2 := by nlinarith
  have h1 : i * (ports + 1) < a.length := by omega
  have h2 : i * (ports + 1) < b.length := by omega
  have h3 : i * (ports + 1) < r.length := by omega
  rw [fitEntry_eq (ports + 1) a b p r i h1 h2 h3 (by omega) (by rw [hrow _ (List.getElem_mem h3)]; omega)]
  simp [h1, h2, h3]

/-- Two ports and two real poles: the second entry is the response from port 0 to port 1 (number 2), not that of port 1
(number 3). -/
theorem C108_refuted (p : List ℂ) (hp : p.length = 2) (a b : List ℝ) (ha : a.length = 4) (hb : b.length = 4)
    (r : List (List ℂ)) (hr : r.length = 4) (hrow : ∀ x ∈ r, x.length = 2) :
    serializeJSON 2 0 true true a b p r = .ok [fitOf 2 (a.getD 0 0) (b.getD 0 0) p (r.getD 0 []),
      fitOf 2 (a.getD 2 0) (b.getD 2 0) p (r.getD 2 [])] := by
  have hs : Nat.sqrt r.length = 2 := by rw [hr, show (4 : ℕ) = 2 * 2 from rfl, Nat.sqrt_eq]
  rw [serializeJSON, hs, mapPy_range_ok 2 _ (fun i => fitOf 2 (a.getD (i * 2) 0) (b.getD (i * 2) 0) p (r.getD (i * 2) []))]
  · rfl
  · intro i hi
    have h1 : i * (2 + 0 * 2) < a.length := by omega
    have h2 : i * (2 + 0 * 2) < b.length := by omega
    have h3 : i * (2 + 0 * 2) < r.length := by omega
    rw [fitEntry_eq (2 + 0 * 2) a b p r i h1 h2 h3 (by omega) (by rw [hrow _ (List.getElem_mem h3)])]
    have e1 : i * 2 < a.length := h1
    have e2 : i * 2 < b.length := h2
    have e3 : i * 2 < r.length := h3
    simp [e1, e2, e3]

/-- A response that is written for port 1 and is not its own. -/
theorem C108_refuted_example : ∃ l, serializeJSON 2 0 true true [0, 0, 0, 0] [0, 0, 0, 0] [-1, -2]
    [[1, 1], [0, 0], [5, 5], [2, 2]] = .ok l ∧ l.length = 2 ∧ (l.map FitEntry.residuesR) = [[1, 1], [5, 5]] ∧
      (l.map FitEntry.residuesR) ≠ [[1, 1], [2, 2]] := by
  refine ⟨_, C108_refuted _ rfl _ _ rfl rfl _ rfl (by simp), rfl, ?_, ?_⟩ <;> norm_num [fitOf]

/-- Two ports and three poles: the second entry is that of port 1. -/
theorem C108_example : ∃ l, serializeJSON 3 0 true true [0, 0, 0, 0] [0, 0, 0, 0] [-1, -2, -3]
    [[1, 1, 1], [0, 0, 0], [5, 5, 5], [2, 2, 2]] = .ok l ∧ (l.map FitEntry.residuesR) = [[1, 1, 1], [2, 2, 2]] := by
  refine ⟨_, C108_partial 2 3 0 _ _ _ _ rfl rfl rfl (by simp) (by simp) rfl, ?_⟩
  simp [List.range_succ, fitOf]

/-- As many poles as responses: the index of the second port is beyond the last response. -/
theorem C108_refuted_error (nReal nCmplx : ℕ) (proportional : Bool) (a b : List ℝ) (p : List ℂ) (r : List (List ℂ))
    (ports : ℕ) (hr : r.length = ports ^ 2) (ha : a.length = ports ^ 2) (hports : 2 ≤ ports)
    (hn : ports ^ 2 ≤ nReal + nCmplx * 2) : ∃ e, serializeJSON nReal nCmplx true proportional a b p r = .error e := by
  have hs : Nat.sqrt r.length = ports := by rw [hr, pow_two, Nat.sqrt_eq]
  have h1 : ∃ e, fitEntry (nReal + nCmplx * 2) true proportional a b p r 1 = .error e := by
    refine ⟨.IndexError, ?_⟩
    have : a[nReal + nCmplx * 2]? = none := by
      rw [List.getElem?_eq_none]
      omega
    simp [fitEntry, pyIndex, this, bind, Except.bind]
  obtain ⟨k, rfl⟩ := Nat.exists_eq_add_of_le hports
  have e : List.range (2 + k) = 0 :: 1 :: List.range' 2 k := by
    rw [List.range_eq_range', show 2 + k = (k + 1) + 1 by omega, List.range'_succ, List.range'_succ]
  rw [serializeJSON, hs, e, mapPy, mapPy]
  obtain ⟨e1, he1⟩ := h1
  cases h0 : fitEntry (nReal + nCmplx * 2) true proportional a b p r 0 with
  | error e => exact ⟨e, by simp [bind, Except.bind]⟩
  | ok x => exact ⟨e1, by simp [he1, bind, Except.bind]⟩

end Mtln.VF
