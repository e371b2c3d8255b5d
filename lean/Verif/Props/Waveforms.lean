import Verif.Model.Utils
import Verif.Model.Waveforms
import Verif.Lemmas.Run

/-! # C66–C71: functions of time and waveforms -/

namespace Mtln

/-! ## C66: `add_t_functions` and `multiply` -/

/-- A function of the time: one parameter `t`, returning a number. -/
structure PyFun.OfTime (f : PyFun) (g : ℝ → ℝ) : Prop where
  params : f.params = ["t"]
  body : ∀ t, f.body t = .ok (g t)

/-- The argument stands for the function `g`: the integer 0 for zero. -/
def TArg.Is (a : TArg) (g : ℝ → ℝ) : Prop :=
  (a = .int 0 ∧ g = 0) ∨ ∃ f, a = .fn f ∧ f.OfTime g

theorem PyFun.OfTime.call {f : PyFun} {g : ℝ → ℝ} (h : f.OfTime g) (t : ℝ) : f.call t = .ok (g t) := by
  unfold PyFun.call
  rw [h.params, h.body]
  rfl

theorem PyFun.OfTime.varnames {f : PyFun} {g : ℝ → ℝ} (h : f.OfTime g) : "t" ∈ f.varnames := by
  unfold PyFun.varnames
  rw [h.params]
  simp

theorem ofTime_lambda {f : ℝ → Py ℝ} {g : ℝ → ℝ} (h : ∀ t, f t = .ok (g t)) : (lambdaT f).OfTime g :=
  ⟨rfl, h⟩

theorem addT_fn_fn {f1 f2 : PyFun} (h1 : "t" ∈ f1.varnames) (h2 : "t" ∈ f2.varnames) :
    addT (.fn f1) (.fn f2) = .ok (.fn (lambdaT fun t => do
      let a ← f1.call t
      let b ← f2.call t
      .ok (a + b))) := by
  simp only [addT, pyAssert, if_pos h1, if_pos h2, bind, Except.bind]

theorem addT_int_fn {k : ℤ} {f : PyFun} (h : "t" ∈ f.varnames) :
    addT (.int k) (.fn f) = .ok (.fn (lambdaT fun t => f.call t)) := by
  simp only [addT, pyAssert, if_pos h, bind, Except.bind]

theorem addT_fn_int {k : ℤ} {f : PyFun} (h : "t" ∈ f.varnames) :
    addT (.fn f) (.int k) = .ok (.fn (lambdaT fun t => f.call t)) := by
  simp only [addT, pyAssert, if_pos h, bind, Except.bind]

/-- **C66** `add_t_functions` adds pointwise; the integer 0 is the zero function. -/
theorem C66_add_pointwise {a b : TArg} {g h : ℝ → ℝ} (ha : a.Is g) (hb : b.Is h) :
    ∃ c, addT a b = .ok c ∧ c.Is (g + h) := by
  rcases ha with ⟨rfl, rfl⟩ | ⟨f1, rfl, h1⟩ <;> rcases hb with ⟨rfl, rfl⟩ | ⟨f2, rfl, h2⟩
  · exact ⟨_, rfl, Or.inl ⟨rfl, by simp⟩⟩
  · exact ⟨_, addT_int_fn h2.varnames, Or.inr ⟨_, rfl, ofTime_lambda fun t => by rw [h2.call, zero_add]⟩⟩
  · exact ⟨_, addT_fn_int h1.varnames, Or.inr ⟨_, rfl, ofTime_lambda fun t => by rw [h1.call, add_zero]⟩⟩
  · refine ⟨_, addT_fn_fn h1.varnames h2.varnames, Or.inr ⟨_, rfl, ofTime_lambda fun t => ?_⟩⟩
    rw [h1.call, h2.call]
    rfl

/-- What an argument stands for is unique. -/
theorem TArg.Is.unique {a : TArg} {g h : ℝ → ℝ} (h1 : a.Is g) (h2 : a.Is h) : g = h := by
  rcases h1 with ⟨rfl, rfl⟩ | ⟨f1, rfl, h1⟩ <;> rcases h2 with ⟨e, rfl⟩ | ⟨f2, e, h2⟩
  · rfl
  · simp at e
  · simp at e
  · simp only [TArg.fn.injEq] at e
    subst e
    funext t
    have := (h1.body t).symm.trans (h2.body t)
    simpa using this

/-- **C66** The sum is commutative and associative, and 0 is neutral. -/
theorem C66_commutative_associative {a b c ab ba bc ab_c a_bc : TArg} {f g h : ℝ → ℝ} (ha : a.Is f) (hb : b.Is g)
    (hc : c.Is h) (h1 : addT a b = .ok ab) (h2 : addT b a = .ok ba) (h3 : addT b c = .ok bc)
    (h4 : addT ab c = .ok ab_c) (h5 : addT a bc = .ok a_bc) :
    (∀ k, ab.Is k ↔ ba.Is k) ∧ (∀ k, ab_c.Is k ↔ a_bc.Is k) := by
  obtain ⟨_, e1, i1⟩ := C66_add_pointwise ha hb
  obtain ⟨_, e2, i2⟩ := C66_add_pointwise hb ha
  obtain ⟨_, e3, i3⟩ := C66_add_pointwise hb hc
  cases h1.symm.trans e1
  cases h2.symm.trans e2
  cases h3.symm.trans e3
  obtain ⟨_, e4, i4⟩ := C66_add_pointwise i1 hc
  obtain ⟨_, e5, i5⟩ := C66_add_pointwise ha i3
  cases h4.symm.trans e4
  cases h5.symm.trans e5
  rw [add_comm] at i2
  rw [add_assoc] at i4
  exact ⟨fun k => ⟨fun h => i1.unique h ▸ i2, fun h => i2.unique h ▸ i1⟩,
    fun k => ⟨fun h => i4.unique h ▸ i5, fun h => i5.unique h ▸ i4⟩⟩

/-- **C66** `multiply` scales pointwise. -/
theorem C66_multiply {f : PyFun} {g : ℝ → ℝ} (h : f.OfTime g) (k : ℝ) :
    ∃ f', mulT f k = .ok f' ∧ f'.OfTime (fun t => k * g t) := by
  refine ⟨_, ?_, ofTime_lambda (f := fun t => do
    let a ← f.call t
    .ok (k * a)) fun t => ?_⟩
  · simp only [mulT, pyAssert, if_pos h.varnames, bind, Except.bind]
  · rw [h.call]
    rfl

/-- **C66** A function that mentions no variable `t`, neither as a parameter nor as a local variable, is rejected. -/
theorem C66_rejects {f : PyFun} (h : "t" ∉ f.varnames) (a : TArg) (k : ℝ) :
    addT (.fn f) a = .error .AssertionError ∧ addT a (.fn f) = .error .AssertionError ∧
      mulT f k = .error .AssertionError := by
  refine ⟨?_, ?_, ?_⟩
  · cases a <;> simp [addT, pyAssert, h, bind, Except.bind]
  · cases a with
    | int _ => simp [addT, pyAssert, h, bind, Except.bind]
    | fn g => by_cases hg : "t" ∈ g.varnames <;> simp [addT, pyAssert, h, hg, bind, Except.bind]
  · simp [mulT, pyAssert, h, bind, Except.bind]

/-- **C66** is false in two details: a function without a parameter `t` is accepted if it has a local variable of that
name, and integers other than 0 count as 0. -/
theorem C66_refuted : (∃ f r : PyFun, "t" ∉ f.params ∧ addT (.int 0) (.fn f) = .ok (.fn r) ∧ mulT f 1 = .ok r) ∧
    addT (.int 1) (.int 2) = .ok (.int 0) := by
  refine ⟨⟨{ params := ["x"], locals := ["t"], body := fun _ => .ok 0 }, lambdaT fun _ => .ok 0, by simp, ?_, ?_⟩, rfl⟩
  · simp [addT, pyAssert, PyFun.varnames, PyFun.call, bind, Except.bind]
  · simp [mulT, pyAssert, PyFun.varnames, PyFun.call, bind, Except.bind]

/-- Non-vacuity of C66. -/
example : ∃ a b : TArg, a.Is (fun t => t) ∧ b.Is Real.exp :=
  ⟨.fn (lambdaT fun t => .ok t), .fn (lambdaT fun t => .ok (Real.exp t)),
    Or.inr ⟨_, rfl, ofTime_lambda fun _ => rfl⟩, Or.inr ⟨_, rfl, ofTime_lambda fun _ => rfl⟩⟩

/-! ## C67: the trapezoidal wave -/

/-- Valid timing: rise, hold and fall fit in one period. -/
structure Timing (rise fall f0 D : ℝ) : Prop where
  freq : 0 < f0
  rising : 0 < rise
  falling : 0 < fall
  hold : (rise + fall) / 2 ≤ D / f0
  fits : D / f0 + (rise + fall) / 2 ≤ 1 / f0

theorem pyMod_range {y : ℝ} (hy : 0 < y) (x : ℝ) : 0 ≤ pyMod x y ∧ pyMod x y < y := by
  unfold pyMod
  have h1 := Int.floor_le (x / y)
  have h2 := Int.lt_floor_add_one (x / y)
  rw [le_div_iff₀ hy] at h1
  rw [div_lt_iff₀ hy] at h2
  constructor <;> nlinarith

theorem pyMod_add {y : ℝ} (hy : y ≠ 0) (x : ℝ) : pyMod (x + y) y = pyMod x y := by
  unfold pyMod
  rw [add_div, div_self hy, show x / y + 1 = x / y + ((1 : ℤ) : ℝ) by simp, Int.floor_add_intCast]
  push_cast
  ring

theorem pyMod_small {x y : ℝ} (h0 : 0 ≤ x) (h1 : x < y) : pyMod x y = x := by
  unfold pyMod
  have hy : 0 < y := lt_of_le_of_lt h0 h1
  have : ⌊x / y⌋ = 0 := by
    rw [Int.floor_eq_zero_iff]
    exact ⟨div_nonneg h0 hy.le, (div_lt_one hy).2 h1⟩
  rw [this]
  simp

theorem trapezoidalWave_eq {rise fall f0 D : ℝ} (h : Timing rise fall f0 D) (x A : ℝ) :
    trapezoidalWave x A rise fall f0 D = .ok (A * (pyMod x (1 / f0) / rise) * ind (pyMod x (1 / f0) ≤ rise)
      + A * ind (pyMod x (1 / f0) ≥ rise) * ind (pyMod x (1 / f0) ≤ rise + cteTime rise fall f0 D)
      + (-A * pyMod x (1 / f0) / fall + A * (rise + cteTime rise fall f0 D + fall) / fall)
        * ind (pyMod x (1 / f0) ≥ rise + cteTime rise fall f0 D)
        * ind (pyMod x (1 / f0) ≤ rise + cteTime rise fall f0 D + fall)) := by
  simp [trapezoidalWave, raiseIf, h.freq.ne', h.rising.ne', h.falling.ne', bind, Except.bind]

/-- **C67** The wave has period `1/f0`. -/
theorem C67_period {f0 : ℝ} (hf : f0 ≠ 0) (x A rise fall D : ℝ) :
    trapezoidalWave (x + 1 / f0) A rise fall f0 D = trapezoidalWave x A rise fall f0 D := by
  unfold trapezoidalWave
  rw [pyMod_add (one_div_ne_zero hf)]

/-- **C67** In each period, apart from the two instants at the ends of the plateau, the wave rises linearly to `A`,
holds `A`, falls linearly, and is 0 until the end of the period; it stays between 0 and `A`. -/
theorem C67_shape_partial {A rise fall f0 D : ℝ} (hA : 0 ≤ A) (h : Timing rise fall f0 D) (k : ℤ) {s x : ℝ}
    (hs : 0 ≤ s) (hs' : s < 1 / f0) (hx : x = s + k / f0) {t2 t3 : ℝ} (h2 : t2 = D / f0 + (rise - fall) / 2)
    (h3 : t3 = D / f0 + (rise + fall) / 2) :
    rise ≤ t2 ∧ t2 ≤ t3 ∧ t3 ≤ 1 / f0 ∧ (s ≠ rise → s ≠ t2 →
      ∃ y, trapezoidalWave x A rise fall f0 D = .ok y ∧ 0 ≤ y ∧ y ≤ A ∧
        (s < rise → y = A * s / rise) ∧ (rise < s → s < t2 → y = A) ∧
        (t2 < s → s ≤ t3 → y = A * (t3 - s) / fall) ∧ (t3 < s → y = 0)) := by
  have e2 : rise + cteTime rise fall f0 D = t2 := by rw [h2]; unfold cteTime; norm_num; ring
  have e3 : rise + cteTime rise fall f0 D + fall = t3 := by rw [e2, h2, h3]; ring
  have hmod : pyMod x (1 / f0) = s := by
    have : ∀ j : ℕ, ∀ y, pyMod (y + j / f0) (1 / f0) = pyMod y (1 / f0) := by
      intro j
      induction j with
      | zero => intro y; simp
      | succ j ih =>
        intro y
        rw [← ih y, ← pyMod_add (one_div_ne_zero h.freq.ne') (y + j / f0)]
        congr 1
        push_cast
        ring
    rw [hx]
    rcases Int.eq_nat_or_neg k with ⟨j, rfl | rfl⟩
    · rw [Int.cast_natCast, this, pyMod_small hs hs']
    · rw [← this j, ← pyMod_small hs hs']
      congr 1
      push_cast
      rw [pyMod_small hs hs']
      ring
  have hh := h.hold
  have hf := h.fits
  have hr := h.rising
  have hfa := h.falling
  refine ⟨by rw [h2]; linarith, by rw [h2, h3]; linarith, by rw [h3]; linarith, ?_⟩
  intro n1 n2
  have r12 : rise ≤ t2 := by rw [h2]; linarith
  have r23 : t3 = t2 + fall := by rw [h2, h3]; ring
  refine ⟨_, trapezoidalWave_eq h x A, ?_⟩
  rw [hmod, e2, ← r23]
  rcases lt_or_gt_of_ne n1 with c1 | c1
  · have : A * (s / rise) * ind (s ≤ rise) + A * ind (s ≥ rise) * ind (s ≤ t2)
        + (-A * s / fall + A * t3 / fall) * ind (s ≥ t2) * ind (s ≤ t3) = A * s / rise := by
      simp only [ind, if_pos c1.le, if_neg (not_le.2 c1), if_neg (not_le.2 (lt_of_lt_of_le c1 r12)), ge_iff_le]
      ring
    rw [this]
    refine ⟨by positivity, ?_, fun _ => rfl, fun h => absurd h (by linarith), fun h => absurd h (by linarith),
      fun h => absurd h (by linarith)⟩
    rw [div_le_iff₀ hr]
    nlinarith
  · rcases lt_or_gt_of_ne n2 with c2 | c2
    · have : A * (s / rise) * ind (s ≤ rise) + A * ind (s ≥ rise) * ind (s ≤ t2)
          + (-A * s / fall + A * t3 / fall) * ind (s ≥ t2) * ind (s ≤ t3) = A := by
        simp only [ind, if_neg (not_le.2 c1), if_pos c1.le, if_pos c2.le, if_neg (not_le.2 c2), ge_iff_le]
        ring
      rw [this]
      exact ⟨hA, le_rfl, fun h => absurd h (by linarith), fun _ _ => rfl, fun h => absurd h (by linarith),
        fun h => absurd h (by linarith)⟩
    · by_cases c3 : s ≤ t3
      · have : A * (s / rise) * ind (s ≤ rise) + A * ind (s ≥ rise) * ind (s ≤ t2)
            + (-A * s / fall + A * t3 / fall) * ind (s ≥ t2) * ind (s ≤ t3) = A * (t3 - s) / fall := by
          simp only [ind, if_neg (not_le.2 c1), if_pos c1.le, if_neg (not_le.2 c2), if_pos c2.le, if_pos c3, ge_iff_le]
          ring
        rw [this]
        refine ⟨div_nonneg (mul_nonneg hA (by linarith)) hfa.le, ?_, fun h => absurd h (by linarith),
          fun _ h => absurd h (by linarith), fun _ _ => rfl, fun h => absurd h (by linarith)⟩
        rw [div_le_iff₀ hfa]
        nlinarith
      · push Not at c3
        have : A * (s / rise) * ind (s ≤ rise) + A * ind (s ≥ rise) * ind (s ≤ t2)
            + (-A * s / fall + A * t3 / fall) * ind (s ≥ t2) * ind (s ≤ t3) = 0 := by
          simp only [ind, if_neg (not_le.2 c1), if_neg (not_le.2 c2), if_neg (not_le.2 c3)]
          ring
        rw [this]
        exact ⟨le_rfl, hA, fun h => absurd h (by linarith), fun _ h => absurd h (by linarith),
          fun _ h => absurd h (by linarith), fun _ => rfl⟩

/-- **C67** is false: at both ends of the plateau the wave is twice its amplitude (three times if the plateau has no
length), for all parameters. -/
theorem C67_refuted {A rise fall f0 D : ℝ} (h : Timing rise fall f0 D) {t2 : ℝ}
    (h2 : t2 = D / f0 + (rise - fall) / 2) (hp : rise < t2) :
    trapezoidalWave rise A rise fall f0 D = .ok (2 * A) ∧ trapezoidalWave t2 A rise fall f0 D = .ok (2 * A) := by
  have e2 : rise + cteTime rise fall f0 D = t2 := by rw [h2]; unfold cteTime; norm_num; ring
  have hf := h.fits
  have hr := h.rising
  have hfa := h.falling
  have hlt : t2 < 1 / f0 := by rw [h2]; linarith
  constructor
  · rw [trapezoidalWave_eq h, pyMod_small hr.le (hp.trans hlt), e2]
    simp only [ind, le_refl, if_true, ge_iff_le, if_pos hp.le, if_neg (not_le.2 hp), div_self hr.ne']
    congr 1
    ring
  · rw [trapezoidalWave_eq h, pyMod_small (hr.trans hp).le hlt, e2]
    simp only [ind, le_refl, if_true, ge_iff_le, if_pos hp.le, if_neg (not_le.2 hp), if_pos (by linarith : t2 ≤ t2 + fall)]
    congr 1
    field_simp
    ring

/-- Non-vacuity of C67: a wave of frequency 1 with duty cycle 1/2. -/
example : Timing (1 / 10) (1 / 5) 1 (1 / 2) := by
  constructor <;> norm_num

/-! ## C68: the ramp -/

/-- **C68** The ramp pulse, except at `x0`. -/
theorem C68_ramp_partial {A x0 : ℝ} (hA : 0 ≤ A) (h0 : 0 < x0) {x : ℝ} (hx : x ≠ x0) :
    ∃ y, rampPulse x A x0 = .ok y ∧ 0 ≤ y ∧ y ≤ A ∧ (x < 0 → y = 0) ∧ (0 ≤ x → x < x0 → y = A * x / x0) ∧
      (x0 < x → y = A) := by
  refine ⟨_, by unfold rampPulse; rw [if_neg h0.ne'], ?_⟩
  rcases lt_or_gt_of_ne hx with c | c
  · by_cases c0 : x < 0
    · have : A * (x / x0) * ind (x ≤ x0) * ind (x ≥ 0) + A * ind (x ≥ x0) = 0 := by
        simp only [ind, if_neg (not_le.2 c0), if_neg (not_le.2 c), ge_iff_le]
        ring
      rw [this]
      exact ⟨le_rfl, hA, fun _ => rfl, fun h => absurd h (by linarith), fun h => absurd h (by linarith)⟩
    · push Not at c0
      have : A * (x / x0) * ind (x ≤ x0) * ind (x ≥ 0) + A * ind (x ≥ x0) = A * x / x0 := by
        simp only [ind, if_pos c0, if_pos c.le, if_neg (not_le.2 c), ge_iff_le]
        ring
      rw [this]
      refine ⟨by positivity, ?_, fun h => absurd h (by linarith), fun _ _ => rfl, fun h => absurd h (by linarith)⟩
      rw [div_le_iff₀ h0]
      nlinarith
  · have : A * (x / x0) * ind (x ≤ x0) * ind (x ≥ 0) + A * ind (x ≥ x0) = A := by
      simp only [ind, if_neg (not_le.2 c), if_pos c.le, ge_iff_le]
      ring
    rw [this]
    exact ⟨hA, le_rfl, fun h => absurd h (by linarith), fun _ h => absurd h (by linarith), fun _ => rfl⟩

/-- **C68** is false: at `x0` the ramp is twice its amplitude. -/
theorem C68_refuted {A x0 : ℝ} (h0 : 0 < x0) : rampPulse x0 A x0 = .ok (2 * A) := by
  unfold rampPulse
  rw [if_neg h0.ne']
  simp only [ind, le_refl, if_true, ge_iff_le, if_pos h0.le, div_self h0.ne']
  congr 1
  ring

/-! ## C69: pulses -/

/-- **C69** The square pulse. -/
theorem C69_square {A : ℝ} (hA : 0 ≤ A) (x x0 : ℝ) : 0 ≤ squarePulse x A x0 ∧ squarePulse x A x0 ≤ A ∧
    (x < 0 → squarePulse x A x0 = 0) ∧ (x0 < x → squarePulse x A x0 = 0) ∧
    (0 ≤ x → x ≤ x0 → squarePulse x A x0 = A) := by
  unfold squarePulse ind
  refine ⟨?_, ?_, ?_, ?_, ?_⟩
  · split_ifs <;> simp [hA]
  · split_ifs <;> simp [hA]
  · intro h; rw [if_neg (not_le.2 h : ¬ x ≥ 0)]; simp
  · intro h; rw [if_neg (not_le.2 h : ¬ x ≤ x0)]; simp
  · intro h h'; rw [if_pos h', if_pos (h : x ≥ 0)]; simp

/-- **C69** The triangle pulse. -/
theorem C69_triangle {A x0 : ℝ} (hA : 0 ≤ A) (h0 : x0 ≠ 0) (x : ℝ) : ∃ y, trianglePulse x A x0 = .ok y ∧
    0 ≤ y ∧ y ≤ A ∧ (x < 0 → y = 0) ∧ (x0 < x → y = 0) ∧ (0 ≤ x → x ≤ x0 → y = A * x / x0) := by
  refine ⟨_, by unfold trianglePulse; rw [if_neg h0], ?_⟩
  by_cases c0 : 0 ≤ x
  · by_cases c1 : x ≤ x0
    · have hp : 0 < x0 := lt_of_le_of_ne (c0.trans c1) (Ne.symm h0)
      have : A * (x / x0) * ind (x ≤ x0) * ind (x ≥ 0) = A * x / x0 := by
        simp only [ind, if_pos c0, if_pos c1, ge_iff_le]
        ring
      rw [this]
      refine ⟨by positivity, ?_, fun h => absurd h (by linarith), fun h => absurd h (by linarith), fun _ _ => rfl⟩
      rw [div_le_iff₀ hp]
      nlinarith
    · have : A * (x / x0) * ind (x ≤ x0) * ind (x ≥ 0) = 0 := by
        simp only [ind, if_neg c1]
        ring
      rw [this]
      exact ⟨le_rfl, hA, fun _ => rfl, fun _ => rfl, fun _ h => absurd h c1⟩
  · have : A * (x / x0) * ind (x ≤ x0) * ind (x ≥ 0) = 0 := by
      simp only [ind, ge_iff_le, if_neg c0]
      ring
    rw [this]
    exact ⟨le_rfl, hA, fun _ => rfl, fun _ => rfl, fun h => absurd h c0⟩

/-- **C69** The squared-sine pulse. -/
theorem C69_sin_sq {A w : ℝ} (hA : 0 ≤ A) (hw : w ≠ 0) (x : ℝ) : ∃ y, sinSqPulse x A w = .ok y ∧
    0 ≤ y ∧ y ≤ A ∧ (x < 0 → y = 0) ∧ (Real.pi / w ≤ x → y = 0) ∧
    (0 ≤ x → x < Real.pi / w → y = A * Real.sin (w * x) ^ 2) := by
  refine ⟨_, by unfold sinSqPulse; rw [if_neg hw], ?_⟩
  have hs : 0 ≤ A * Real.sin (w * x) ^ 2 ∧ A * Real.sin (w * x) ^ 2 ≤ A := by
    have := Real.sin_sq_le_one (w * x)
    exact ⟨by positivity, by nlinarith⟩
  unfold ind
  refine ⟨?_, ?_, ?_, ?_, ?_⟩
  · split_ifs <;> simp [hs.1]
  · split_ifs <;> simp [hs.2, hA]
  · intro h; rw [if_neg (not_le.2 h : ¬ x ≥ 0)]; simp
  · intro h; rw [if_neg (not_lt.2 h : ¬ x < Real.pi / w)]; simp
  · intro h h'; rw [if_pos h', if_pos (h : x ≥ 0)]; simp

/-! ## C70: symbolic and numeric waveforms -/

/-- A `Piecewise` of the trapezoidal wave always has a branch. -/
theorem trapezoidalSp_eq {rise fall f0 D v : ℝ} (h : Timing rise fall f0 D) (hv : v ≠ 0) (A : ℝ) (e : Env) :
    trapezoidalSp A rise fall f0 D v e = piecewise [
      (A * (pyMod (e.t + e.x / v) (1 / f0) / rise), pyMod (e.t + e.x / v) (1 / f0) ≤ rise),
      (A, pyMod (e.t + e.x / v) (1 / f0) > rise ∧
        pyMod (e.t + e.x / v) (1 / f0) ≤ rise + cteTime rise fall f0 D),
      (-A * pyMod (e.t + e.x / v) (1 / f0) / fall + A * (rise + cteTime rise fall f0 D + fall) / fall,
        pyMod (e.t + e.x / v) (1 / f0) > rise + cteTime rise fall f0 D ∧
          pyMod (e.t + e.x / v) (1 / f0) ≤ rise + cteTime rise fall f0 D + fall),
      (0, pyMod (e.t + e.x / v) (1 / f0) ≥ rise + cteTime rise fall f0 D + fall)] := by
  simp [trapezoidalSp, h.freq.ne', h.rising.ne', h.falling.ne', hv]

/-- **C70** The symbolic trapezoidal wave at `x = 0` is the numeric one, except at the ends of the plateau. -/
theorem C70_trapezoidal_partial {A rise fall f0 D v : ℝ} (h : Timing rise fall f0 D) (hv : v ≠ 0) {e : Env}
    (hx : e.x = 0) (n1 : pyMod e.t (1 / f0) ≠ rise)
    (n2 : pyMod e.t (1 / f0) ≠ D / f0 + (rise - fall) / 2) :
    ∃ y, trapezoidalSp A rise fall f0 D v e = some y ∧ trapezoidalWave e.t A rise fall f0 D = .ok y := by
  have e2 : rise + cteTime rise fall f0 D = D / f0 + (rise - fall) / 2 := by unfold cteTime; norm_num; ring
  rw [trapezoidalSp_eq h hv, trapezoidalWave_eq h, hx, zero_div, add_zero]
  set s := pyMod e.t (1 / f0) with hs
  rw [← e2] at n2
  set t2 := rise + cteTime rise fall f0 D with ht2
  have hh := h.hold
  have hr := h.rising
  have hfa := h.falling
  have r12 : rise ≤ t2 := by rw [e2]; linarith
  refine ⟨_, ?_, rfl⟩
  simp only [piecewise, ind]
  rcases lt_or_gt_of_ne n1 with c1 | c1
  · simp only [if_pos c1.le, if_neg (not_le.2 c1), if_neg (not_le.2 (lt_of_lt_of_le c1 r12)), ge_iff_le]
    congr 1; ring
  · rcases lt_or_gt_of_ne n2 with c2 | c2
    · simp only [if_neg (not_le.2 c1), if_pos (⟨c1, c2.le⟩ : s > rise ∧ s ≤ t2), if_pos c1.le, if_pos c2.le,
        if_neg (not_le.2 c2), ge_iff_le]
      congr 1; ring
    · have q : ¬ (s > rise ∧ s ≤ t2) := fun hh => absurd hh.2 (not_le.2 c2)
      by_cases c3 : s ≤ t2 + fall
      · simp only [if_neg (not_le.2 c1), if_neg q, if_pos (⟨c2, c3⟩ : s > t2 ∧ s ≤ t2 + fall), if_pos c1.le,
          if_neg (not_le.2 c2), if_pos c2.le, if_pos c3, ge_iff_le]
        congr 1; ring
      · have q2 : ¬ (s > t2 ∧ s ≤ t2 + fall) := fun hh => c3 hh.2
        simp only [if_neg (not_le.2 c1), if_neg q, if_neg q2, if_neg (not_le.2 c2), if_neg c3, ge_iff_le,
          if_pos (not_le.1 c3).le]
        congr 1; ring

/-- **C70** The symbolic ramp is the numeric one at all non-negative times other than `x0`. -/
theorem C70_ramp_partial {A x0 : ℝ} (h0 : 0 < x0) {e : Env} (ht : 0 ≤ e.t) (hx : e.t ≠ x0) :
    ∃ y, rampSp A x0 e = some y ∧ rampPulse e.t A x0 = .ok y := by
  unfold rampSp rampPulse
  rw [if_neg h0.ne', if_neg h0.ne']
  refine ⟨_, ?_, rfl⟩
  simp only [piecewise, ind]
  rcases lt_or_gt_of_ne hx with c | c
  · simp only [if_pos c.le, if_pos (ht : e.t ≥ 0), if_neg (not_le.2 c), ge_iff_le]
    congr 1; ring
  · simp only [if_neg (not_le.2 c), if_pos c.le, ge_iff_le]
    congr 1; ring

/-- **C70** is false: the two waves differ at the ends of the plateau, the two ramps at `x0` and at all negative
times, for every amplitude other than 0. -/
theorem C70_refuted {A : ℝ} (hA : A ≠ 0) : (∀ {rise fall f0 D v : ℝ}, Timing rise fall f0 D → v ≠ 0 →
      rise < D / f0 + (rise - fall) / 2 → ∃ y y', y ≠ y' ∧
      trapezoidalSp A rise fall f0 D v ⟨0, 0, 0, rise, v⟩ = some y ∧
      trapezoidalWave rise A rise fall f0 D = .ok y') ∧
    ∀ {x0 : ℝ}, 0 < x0 → (∀ t < 0, ∃ y y', y ≠ y' ∧ rampSp A x0 ⟨0, 0, 0, t, 1⟩ = some y ∧ rampPulse t A x0 = .ok y') ∧
      ∃ y y', y ≠ y' ∧ rampSp A x0 ⟨0, 0, 0, x0, 1⟩ = some y ∧ rampPulse x0 A x0 = .ok y' := by
  refine ⟨?_, ?_⟩
  · intro rise fall f0 D v h hv hp
    refine ⟨A, 2 * A, fun hh => hA (by linarith), ?_, (C67_refuted h rfl hp).1⟩
    have hfit := h.fits
    have hfa := h.falling
    rw [trapezoidalSp_eq h hv]
    simp only [zero_div, add_zero]
    rw [pyMod_small h.rising.le (by linarith : rise < 1 / f0)]
    simp only [piecewise, le_refl, if_true, div_self h.rising.ne', mul_one]
  · intro x0 h0
    refine ⟨?_, A, 2 * A, fun hh => hA (by linarith), ?_, C68_refuted h0⟩
    · intro t ht
      refine ⟨A * (t / x0), 0, mul_ne_zero hA (div_ne_zero ht.ne h0.ne'), ?_, ?_⟩
      · unfold rampSp
        rw [if_neg h0.ne']
        simp only [piecewise, if_pos (ht.le.trans h0.le)]
      · unfold rampPulse
        rw [if_neg h0.ne']
        simp only [ind, if_neg (not_le.2 ht), if_neg (not_le.2 (ht.trans h0)), ge_iff_le]
        congr 1; ring
    · unfold rampSp
      rw [if_neg h0.ne']
      simp only [piecewise, le_refl, if_true, div_self h0.ne', mul_one]

/-! ## C71: travelling waveforms -/

/-- The trapezoidal wave depends on `t + x/v` alone. -/
theorem C71_trapezoidal_travels (A rise fall f0 D v : ℝ) {e e' : Env} (h : e.t + e.x / v = e'.t + e'.x / v) :
    trapezoidalSp A rise fall f0 D v e = trapezoidalSp A rise fall f0 D v e' := by
  unfold trapezoidalSp
  rw [h]

/-- **C71** The double exponential depends on `t + x/v + y/v` alone. -/
theorem C71_double_exp_travels (s₁ s₂ : Env → ℝ) (C a b : ℝ) {e e' : Env} (hv : e'.v = e.v)
    (h : e.t + s₁ e / e.v + s₂ e / e.v = e'.t + s₁ e' / e'.v + s₂ e' / e'.v) :
    doubleExpAlongSp s₁ s₂ C a b e = doubleExpAlongSp s₁ s₂ C a b e' := by
  unfold doubleExpAlongSp
  rw [h, hv]

/-- **C71** is false of the ramps: two points with the same `t + x/v`, for every amplitude and rise time, where the
ramp has different values. -/
theorem C71_refuted {A x0 : ℝ} (hA : A ≠ 0) (h0 : 0 < x0) : ∃ e e' : Env, e.v = e'.v ∧ e.v ≠ 0 ∧
    e.t + e.x / e.v = e'.t + e'.x / e'.v ∧ ∃ y y', y ≠ y' ∧ rampAlongSp Env.x A x0 1 e = some y ∧
      rampAlongSp Env.x A x0 1 e' = some y' := by
  refine ⟨⟨0, 0, 0, 0, 1⟩, ⟨-x0, 0, 0, x0, 1⟩, rfl, one_ne_zero, by simp, 0, A, hA.symm, ?_, ?_⟩
  · simp [rampAlongSp, h0.ne', piecewise, h0.le]
  · simp [rampAlongSp, h0.ne', piecewise, h0.le]

/-- **C71** What holds of the ramps: they are the ramp in time at the origin of their coordinate, and `A` behind the
front. -/
theorem C71_ramp_partial {A x0 v : ℝ} (h0 : 0 < x0) (s : Env → ℝ) {e : Env} (hv : e.v ≠ 0) :
    (s e = 0 → rampAlongSp s A x0 v e = rampSp A x0 e) ∧
    (x0 < e.t + s e / e.v → rampAlongSp s A x0 v e = some A) := by
  constructor
  · intro hs
    simp [rampAlongSp, rampSp, h0.ne', hv, hs]
  · intro hs
    simp [rampAlongSp, h0.ne', hv, piecewise, not_le.2 hs, hs.le]

/-- Non-vacuity of C71: two different points on the same front. -/
example : ∃ e e' : Env, e ≠ e' ∧ e.t + e.x / 2 = e'.t + e'.x / 2 :=
  ⟨⟨0, 0, 0, 1, 2⟩, ⟨2, 0, 0, 0, 2⟩, by simp, by norm_num⟩

end Mtln
