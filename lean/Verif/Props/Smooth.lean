import Verif.Props.Waveforms
import Verif.Props.FieldApi
import Verif.Lemmas.Parser
import Mathlib.Analysis.SpecialFunctions.ExpDeriv

/-!
# Smooth waveforms (C100), sources of the parser (C88), sums of functions (C101), localized fields (C102)
-/

namespace Mtln

/-! ## C100 -/

/-- `f` charges from 0 towards `A` with time constant `x0`. -/
def Charges (A x0 : ℝ) (f : ℝ → ℝ) : Prop := f 0 = 0 ∧ ∀ x, HasDerivAt f ((A - f x) / x0) x

/-- `f` is a bell with top `A` at `x0`: its logarithmic derivative is `-(x - x0)/v`. -/
def Bell (A x0 v : ℝ) (f : ℝ → ℝ) : Prop := f x0 = A ∧ ∀ x, HasDerivAt f (-(x - x0) / v * f x) x

/-- A charging curve is determined by the equation. -/
theorem Charges.unique {A x0 : ℝ} {f g : ℝ → ℝ} (hf : Charges A x0 f) (hg : Charges A x0 g) : f = g := by
  have hd : ∀ x, HasDerivAt (fun x => (f x - g x) * Real.exp (x / x0)) 0 x := by
    intro x
    have h1 := (hf.2 x).sub (hg.2 x)
    have h2 : HasDerivAt (fun x : ℝ => Real.exp (x / x0)) (Real.exp (x / x0) * (1 / x0)) x :=
      ((hasDerivAt_id x).div_const x0).exp
    have h3 : HasDerivAt (fun x => (f x - g x) * Real.exp (x / x0))
        (((A - f x) / x0 - (A - g x) / x0) * Real.exp (x / x0) + (f x - g x) * (Real.exp (x / x0) * (1 / x0))) x :=
      h1.mul h2
    refine h3.congr_deriv ?_
    ring
  have hc := is_const_of_deriv_eq_zero (fun x => (hd x).differentiableAt) (fun x => (hd x).deriv)
  funext x
  have := hc x 0
  simp only [hf.1, hg.1, sub_self, zero_mul] at this
  have h := (mul_eq_zero.1 this).resolve_right (Real.exp_pos _).ne'
  linarith

/-- A bell is determined by the equation. -/
theorem Bell.unique {A x0 v : ℝ} {f g : ℝ → ℝ} (hf : Bell A x0 v f) (hg : Bell A x0 v g) : f = g := by
  have hd : ∀ x, HasDerivAt (fun x => (f x - g x) * Real.exp ((x - x0) ^ 2 / (2 * v))) 0 x := by
    intro x
    have h1 := (hf.2 x).sub (hg.2 x)
    have h2 : HasDerivAt (fun x : ℝ => Real.exp ((x - x0) ^ 2 / (2 * v)))
        (Real.exp ((x - x0) ^ 2 / (2 * v)) * ((2 * (x - x0) ^ 1 * 1) / (2 * v))) x :=
      ((((hasDerivAt_id x).sub_const x0).pow 2).div_const (2 * v)).exp
    have h3 : HasDerivAt (fun x => (f x - g x) * Real.exp ((x - x0) ^ 2 / (2 * v)))
        ((-(x - x0) / v * f x - -(x - x0) / v * g x) * Real.exp ((x - x0) ^ 2 / (2 * v))
          + (f x - g x) * (Real.exp ((x - x0) ^ 2 / (2 * v)) * (2 * (x - x0) ^ 1 * 1 / (2 * v)))) x :=
      h1.mul h2
    refine h3.congr_deriv ?_
    by_cases hv : v = 0
    · subst hv; simp
    · field_simp
      ring
  have hc := is_const_of_deriv_eq_zero (fun x => (hd x).differentiableAt) (fun x => (hd x).deriv)
  funext x
  have := hc x x0
  simp only [hf.1, hg.1, sub_self, zero_mul] at this
  have h := (mul_eq_zero.1 this).resolve_right (Real.exp_pos _).ne'
  linarith

/-- **C100** `exp`. -/
theorem C100_exp (A : ℝ) {x0 : ℝ} (h0 : x0 ≠ 0) : ∃ f, (∀ x, wExp x A x0 = .ok (f x)) ∧ Charges A x0 f := by
  refine ⟨fun x => A * (1 - Real.exp (-x / x0)), fun x => by unfold wExp; rw [if_neg h0], by simp, fun x => ?_⟩
  have h : HasDerivAt (fun x : ℝ => A * (1 - Real.exp (-x / x0))) (A * (0 - Real.exp (-x / x0) * (-1 / x0))) x :=
    ((hasDerivAt_const x (1 : ℝ)).sub (((hasDerivAt_id x).neg.div_const x0).exp)).const_mul A
  convert h using 1
  field_simp
  ring

/-- **C100** `gaussian`. -/
theorem C100_gaussian (x0 : ℝ) {s0 : ℝ} (h0 : s0 ≠ 0) :
    ∃ f, (∀ x, gaussian x x0 s0 = .ok (f x)) ∧ Bell 1 x0 (s0 ^ 2) f := by
  refine ⟨fun x => Real.exp (-(x - x0) ^ 2 / (2 * s0 ^ 2)), fun x => by unfold gaussian; rw [if_neg h0], by simp,
    fun x => ?_⟩
  have h : HasDerivAt (fun x : ℝ => Real.exp (-(x - x0) ^ 2 / (2 * s0 ^ 2)))
      (Real.exp (-(x - x0) ^ 2 / (2 * s0 ^ 2)) * (-(2 * (x - x0) ^ 1 * 1) / (2 * s0 ^ 2))) x :=
    ((((hasDerivAt_id x).sub_const x0).pow 2).neg.div_const (2 * s0 ^ 2)).exp
  convert h using 1
  field_simp

/-- **C100** `gaussian_2`. -/
theorem C100_gaussian2 (A x0 : ℝ) {s0 : ℝ} (h0 : s0 ≠ 0) :
    ∃ f, (∀ x, gaussian2 x A x0 s0 = .ok (f x)) ∧ Bell A x0 (s0 ^ 2 / 2) f := by
  refine ⟨fun x => A * Real.exp (-((x - x0) / s0) ^ 2), fun x => by unfold gaussian2; rw [if_neg h0], by simp,
    fun x => ?_⟩
  have h : HasDerivAt (fun x : ℝ => A * Real.exp (-((x - x0) / s0) ^ 2))
      (A * (Real.exp (-((x - x0) / s0) ^ 2) * -(2 * ((x - x0) / s0) ^ 1 * (1 / s0)))) x :=
    ((((((hasDerivAt_id x).sub_const x0).div_const s0).pow 2).neg).exp).const_mul A
  convert h using 1
  field_simp

/-- **C100** `double_exp`: the value and the derivative at 0, and the equation of second order. -/
theorem C100_double_exp (C a b : ℝ) : ∃ f' f'' : ℝ → ℝ, doubleExp 0 C a b = 0 ∧ f' 0 = C * (b - a) ∧
    (∀ t, HasDerivAt (fun t => doubleExp t C a b) (f' t) t) ∧ (∀ t, HasDerivAt f' (f'' t) t) ∧
    ∀ t, f'' t + (a + b) * f' t + a * b * doubleExp t C a b = 0 := by
  have h1 : ∀ a t : ℝ, HasDerivAt (fun t : ℝ => Real.exp (-a * t)) (Real.exp (-a * t) * (-a * 1)) t := fun a t =>
    ((hasDerivAt_id t).const_mul (-a)).exp
  refine ⟨fun t => C * (Real.exp (-a * t) * (-a * 1) - Real.exp (-b * t) * (-b * 1)),
    fun t => C * (Real.exp (-a * t) * (-a * 1) * (-a * 1) - Real.exp (-b * t) * (-b * 1) * (-b * 1)), ?_, ?_, ?_, ?_, ?_⟩
  · simp [doubleExp]
  · simp only [mul_zero, Real.exp_zero]; ring
  · intro t; exact ((h1 a t).sub (h1 b t)).const_mul C
  · intro t
    exact (((h1 a t).mul_const _).sub ((h1 b t).mul_const _)).const_mul C
  · intro t
    unfold doubleExp
    ring

/-- **C100** The symbolic forms have the values of the numeric ones. -/
theorem C100_symbolic (A x0 s0 C a b : ℝ) (e : Env) :
    (∀ y, gaussian2Sp A x0 s0 e = some y ↔ gaussian2 e.t A x0 s0 = .ok y) ∧
    doubleExpSp C a b e = some (doubleExp e.t C a b) := by
  refine ⟨fun y => ?_, rfl⟩
  unfold gaussian2Sp gaussian2
  by_cases h : s0 = 0
  · rw [if_pos h, if_pos h]; simp
  · rw [if_neg h, if_neg h]; simp

/-! ## C101 -/

/-- **C101** The sum of two functions is pointwise, whatever their parameter is called; it commutes. -/
theorem C101_sum (f g : PyFun) (t : ℝ) :
    (∀ a b, f.call t = .ok a → g.call t = .ok b → addS f g t = .ok (a + b) ∧ addS g f t = .ok (a + b)) ∧
    (∀ c, addS f g t = .ok c → ∃ a b, f.call t = .ok a ∧ g.call t = .ok b ∧ c = a + b) := by
  refine ⟨fun a b ha hb => ?_, fun c h => ?_⟩
  · unfold addS
    rw [ha, hb]
    simp only [bind, Except.bind]
    exact ⟨trivial, by rw [add_comm]⟩
  · obtain ⟨a, ha, h⟩ := bind_ok_iff.1 h
    obtain ⟨b, hb, h⟩ := bind_ok_iff.1 h
    exact ⟨a, b, ha, hb, (Except.ok.inj h).symm⟩

/-- **C101** Sums of three. -/
theorem C101_assoc {f g h : PyFun} {t a b c : ℝ} (hf : f.call t = .ok a) (hg : g.call t = .ok b)
    (hh : h.call t = .ok c) (name : String) :
    addS ⟨[name], [], addS f g⟩ h t = .ok (a + b + c) ∧ addS f ⟨[name], [], addS g h⟩ t = .ok (a + b + c) := by
  have h1 : (⟨[name], [], addS f g⟩ : PyFun).call t = .ok (a + b) := ((C101_sum f g t).1 a b hf hg).1
  have h2 : (⟨[name], [], addS g h⟩ : PyFun).call t = .ok (b + c) := ((C101_sum g h t).1 b c hg hh).1
  refine ⟨((C101_sum _ h t).1 _ c h1 hh).1, ?_⟩
  rw [((C101_sum f _ t).1 a _ hf h2).1, add_assoc]

/-- Non-vacuity of C101: functions of `x`, which `add_t_functions` rejects, have a sum. -/
theorem C101_accepts : addS ⟨["x"], [], fun x => .ok x⟩ ⟨["x"], [], fun x => .ok (2 * x)⟩ 3 = .ok (3 + 2 * 3) ∧
    addT (.fn ⟨["x"], [], fun x => .ok x⟩) (.fn ⟨["x"], [], fun x => .ok (2 * x)⟩) = .error .AssertionError := by
  constructor
  · exact ((C101_sum _ _ 3).1 3 (2 * 3) rfl rfl).1
  · simp [addT, PyFun.varnames, pyAssert, bind, Except.bind]

/-! ## C88 -/

theorem function_ok {M : Magnitude} {f : ℝ → ℝ} (h : ∀ t, M.eval t = .ok (some (f t))) : M.function = .ok f := by
  unfold Magnitude.function
  have he : ∃ f : ℝ → ℝ, ∀ t, M.eval t = .ok (some (f t)) := ⟨f, h⟩
  rw [dif_pos he, Except.ok.injEq]
  funext t
  have := he.choose_spec t
  rw [h t, Except.ok.injEq, Option.some.injEq] at this
  exact this.symm

/-- **C88** Type `exp`. -/
theorem C88_exp_partial {M : Magnitude} {A t0 : ℝ} (ht : M.type = "exp") (hA : M.amplitude = some A) (h : M.t0 = some t0)
    (h0 : t0 ≠ 0) : ∃ f, M.function = .ok f ∧ Charges A t0 f := by
  obtain ⟨f, hf, hc⟩ := C100_exp A h0
  refine ⟨f, function_ok fun t => ?_, hc⟩
  simp [Magnitude.eval, ht, hA, h, pyKey, hf, bind, Except.bind]

/-- **C88** Type `gaussian`: the amplitude of the file is not used. -/
theorem C88_gaussian_partial {M : Magnitude} {x0 s0 : ℝ} (ht : M.type = "gaussian") (hx : M.x0 = some x0)
    (hs : M.s0 = some s0) (h0 : s0 ≠ 0) : ∃ f, M.function = .ok f ∧ Bell 1 x0 (s0 ^ 2) f := by
  obtain ⟨f, hf, hc⟩ := C100_gaussian x0 h0
  refine ⟨f, function_ok fun t => ?_, hc⟩
  simp [Magnitude.eval, ht, hx, hs, pyKey, hf, bind, Except.bind]

/-- **C88** Type `gaussian_2`. -/
theorem C88_gaussian2_partial {M : Magnitude} {A x0 s0 : ℝ} (ht : M.type = "gaussian_2") (hA : M.amplitude = some A)
    (hx : M.x0 = some x0) (hs : M.s0 = some s0) (h0 : s0 ≠ 0) :
    ∃ f, M.function = .ok f ∧ Bell A x0 (s0 ^ 2 / 2) f := by
  obtain ⟨f, hf, hc⟩ := C100_gaussian2 A x0 h0
  refine ⟨f, function_ok fun t => ?_, hc⟩
  simp [Magnitude.eval, ht, hA, hx, hs, pyKey, hf, bind, Except.bind]

/-- **C88** Type `sin`. -/
theorem C88_sin_partial {M : Magnitude} {A w : ℝ} (ht : M.type = "sin") (hA : M.amplitude = some A)
    (hw : M.frequency = some w) : M.function = .ok fun t => A * Real.sin (w * t) := by
  refine function_ok fun t => ?_
  simp [Magnitude.eval, ht, hA, hw, pyKey, sinPulse, bind, Except.bind]

/-- **C88** Type `sin_sq`. -/
theorem C88_sin_sq_partial {M : Magnitude} {A w : ℝ} (ht : M.type = "sin_sq") (hA : M.amplitude = some A)
    (hw : M.frequency = some w) (h0 : 0 ≤ A) (hw0 : w ≠ 0) : ∃ f, M.function = .ok f ∧ ∀ t,
      (t < 0 → f t = 0) ∧ (Real.pi / w ≤ t → f t = 0) ∧ (0 ≤ t → t < Real.pi / w → f t = A * Real.sin (w * t) ^ 2) := by
  choose f hf using fun t => C69_sin_sq h0 hw0 t
  refine ⟨f, function_ok fun t => ?_, fun t => (hf t).2.2.2⟩
  simp [Magnitude.eval, ht, hA, hw, pyKey, (hf t).1, bind, Except.bind]

/-- **C88** Type `ramp`, except at the end of the ramp (C68). -/
theorem C88_ramp_partial {M : Magnitude} {A t0 : ℝ} (ht : M.type = "ramp") (hA : M.amplitude = some A)
    (h : M.t0 = some t0) (hA0 : 0 ≤ A) (h0 : 0 < t0) : ∃ f, M.function = .ok f ∧ f t0 = 2 * A ∧ ∀ t, t ≠ t0 →
      (t < 0 → f t = 0) ∧ (0 ≤ t → t < t0 → f t = A * t / t0) ∧ (t0 < t → f t = A) := by
  have hf : ∀ t, ∃ y, rampPulse t A t0 = .ok y := fun t => ⟨_, by unfold rampPulse; rw [if_neg h0.ne']⟩
  choose f hf using hf
  refine ⟨f, function_ok fun t => ?_, ?_, fun t htt => ?_⟩
  · simp [Magnitude.eval, ht, hA, h, pyKey, hf, bind, Except.bind]
  · have := hf t0
    rw [C68_refuted h0, Except.ok.injEq] at this
    exact this.symm
  · obtain ⟨y, hy, -, -, hr⟩ := C68_ramp_partial hA0 h0 htt
    rw [hf t, Except.ok.injEq] at hy
    rwa [hy]

/-- **C88** Type `trapezoidal`, except at the ends of the plateau (C67). -/
theorem C88_trapezoidal_partial {M : Magnitude} {A rise fall f0 D : ℝ} (ht : M.type = "trapezoidal")
    (hA : M.amplitude = some A) (hr : M.riseTime = some rise) (hf : M.fallTime = some fall) (hf0 : M.f0 = some f0)
    (hD : M.D = some D) (hA0 : 0 ≤ A) (h : Timing rise fall f0 D) : ∃ f, M.function = .ok f ∧
      ∀ (k : ℤ) (s t2 t3 : ℝ), 0 ≤ s → s < 1 / f0 → t2 = D / f0 + (rise - fall) / 2 → t3 = D / f0 + (rise + fall) / 2 →
        s ≠ rise → s ≠ t2 →
        (s < rise → f (s + k / f0) = A * s / rise) ∧ (rise < s → s < t2 → f (s + k / f0) = A) ∧
        (t2 < s → s ≤ t3 → f (s + k / f0) = A * (t3 - s) / fall) ∧ (t3 < s → f (s + k / f0) = 0) := by
  have hw : ∀ t, ∃ y, trapezoidalWave t A rise fall f0 D = .ok y := fun t => ⟨_, trapezoidalWave_eq h t A⟩
  choose f hw using hw
  refine ⟨f, function_ok fun t => ?_, ?_⟩
  · simp [Magnitude.eval, ht, hA, hr, hf, hf0, hD, pyKey, hw, bind, Except.bind]
  · intro k s t2 t3 h1 h2 h3 h4 h5 h6
    obtain ⟨-, -, -, hy⟩ := C67_shape_partial hA0 h k h1 h2 rfl h3 h4
    obtain ⟨y, hy, -, -, hr⟩ := hy h5 h6
    rw [hw, Except.ok.injEq] at hy
    rwa [hy]

/-- **C88 is false** for unknown types: the function returns `None`, which is not a number and in particular not 0. -/
theorem C88_refuted {M : Magnitude}
    (ht : M.type ∉ ["trapezoidal", "ramp", "gaussian_2", "gaussian", "sin_sq", "sin", "exp"]) :
    (∀ t, M.eval t = .ok none) ∧ M.function = .error .NotModelled := by
  have he : ∀ t, M.eval t = .ok none := by
    intro t
    simp only [List.mem_cons, List.not_mem_nil, or_false, not_or] at ht
    obtain ⟨h1, h2, h3, h4, h5, h6, h7⟩ := ht
    unfold Magnitude.eval
    rw [if_neg h1, if_neg h2, if_neg h3, if_neg h4, if_neg h5, if_neg h6, if_neg h7]
  refine ⟨he, ?_⟩
  unfold Magnitude.function
  rw [dif_neg]
  rintro ⟨f, hf⟩
  have := hf 0
  rw [he] at this
  simp at this

/-- Non-vacuity of C88: a type without a waveform, and one with. -/
theorem C88_example : (∀ t, ({ type := "step" } : Magnitude).eval t = .ok none) ∧
    ∃ f, ({ type := "exp", amplitude := some 2, t0 := some 3 } : Magnitude).function = .ok f ∧ Charges 2 3 f :=
  ⟨(C88_refuted (by simp)).1, C88_exp_partial rfl rfl rfl (by norm_num)⟩

/-! ## C102 -/

variable {p : ℕ}

theorem mapPy_length {α β : Type} {f : α → Py β} : ∀ {l : List α} {l' : List β}, mapPy f l = .ok l' →
    l'.length = l.length
  | [], l', h => by
    simp only [mapPy, Except.ok.injEq] at h
    rw [← h]
    rfl
  | a :: l, l', h => by
    obtain ⟨b, -, h⟩ := bind_ok_iff.1 h
    obtain ⟨l2, h2, h⟩ := bind_ok_iff.1 h
    obtain rfl := Except.ok.inj h
    simp [mapPy_length h2]

/-- **C102** Without a bundle of that name the call raises `KeyError`. -/
theorem C102_unknown (M : MTLN p) (name : String) (F : Field) (D : Distances) (start stop : V3)
    (h : ∀ b ∈ M.bundles, b.2.name ≠ name) :
    M.addLocalizedExternalField name F D start stop = .error .KeyError := by
  unfold MTLN.addLocalizedExternalField raiseIf
  rw [if_pos (by
    rw [List.mem_map]
    rintro ⟨b, hb, e⟩
    exact h b hb e)]
  rfl

/-- **C102** With such a bundle, that bundle is changed like by its own method, and nothing else is. -/
theorem C102_known {M M' : MTLN p} {name : String} {F : Field} {D : Distances} {start stop : V3}
    (h : M.addLocalizedExternalField name F D start stop = .ok M') :
    (∃ b ∈ M.bundles, b.2.name = name) ∧ M'.bundles.length = M.bundles.length ∧ M'.networks = M.networks ∧ M'.dt = M.dt ∧
    ∀ (k : ℕ) (b : AnyBundle p), M.bundles[k]? = some b →
      (b.2.name ≠ name → M'.bundles[k]? = some b) ∧
      (b.2.name = name → ∃ b', b.2.addExternalField F D (some (start, stop)) = .ok b' ∧
        M'.bundles[k]? = some ⟨b.1, b'⟩) := by
  obtain ⟨u, hn, h⟩ := bind_ok_iff.1 h
  rw [raiseIf_ok_iff, not_not, List.mem_map] at hn
  obtain ⟨bs, hbs, h⟩ := bind_ok_iff.1 h
  obtain rfl := Except.ok.inj h
  refine ⟨hn, ?_, rfl, rfl, fun k b hb => ?_⟩
  · exact mapPy_length hbs
  · obtain ⟨b', h1, h2⟩ := (mapPy_getElem? hbs k).2 b hb
    refine ⟨fun hne => ?_, fun he => ?_⟩
    · rw [if_neg hne, Except.ok.injEq] at h2
      rw [h1, h2]
    · rw [if_pos he] at h2
      obtain ⟨c, h3, h4⟩ := bind_ok_iff.1 h2
      exact ⟨c, h3, by rw [h1, ← Except.ok.inj h4]⟩

/-- Non-vacuity of C102: a field on the first cell of the demo bundle. -/
theorem C102_example (F : Field) : ∃ M', ({ bundles := [⟨1, MTLD.single (demoBare 0) "b"⟩] } : MTLN 0).addLocalizedExternalField
    "b" F (constOffset ![1, 0, 0]) ((demoBare 0).u 0) ((demoBare 0).u 0) = .ok M' := by
  have hd : (![1, 0, 0] : V3) ≠ 0 := fun h => by simpa using congrFun h 0
  have hacc := demo_accepted (p := 0) (start := 0) (stop := 1) (by norm_num) (by norm_num) hd
  have n0 : nearest (demoBare 0).u (demoBare 0).m ((demoBare 0).u 0) = 0 := nearest_first _ _
  have hb : ∃ b', (MTLD.single (demoBare 0) "b").addExternalField F (constOffset ![1, 0, 0])
      (some ((demoBare 0).u 0, (demoBare 0).u 0)) = .ok b' := by
    refine ⟨_, bundleField_ok_iff.2 ⟨rfl, rfl, _, fieldSources_ok_iff.2 ⟨?_, rfl⟩, rfl⟩⟩
    show FieldAccepted _ _ (nearest (demoBare 0).u (demoBare 0).m ((demoBare 0).u 0))
      (nearest (demoBare 0).u (demoBare 0).m ((demoBare 0).u 0) + 1) _ _ _ _
    rw [n0]
    exact hacc
  obtain ⟨b', hb⟩ := hb
  have hn : (MTLD.single (demoBare 0) "b").name = "b" := rfl
  refine ⟨_, by
    unfold MTLN.addLocalizedExternalField
    simp only [List.map_cons, List.map_nil, hn, List.mem_singleton, not_true_eq_false, raiseIf, if_false, bind, Except.bind,
      mapPy, if_true, onBundle, hb]
    rfl⟩

end Mtln
