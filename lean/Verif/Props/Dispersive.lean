import Mathlib.MeasureTheory.Integral.IntervalIntegral.FundThmCalculus
import Mathlib.Analysis.SpecialFunctions.ExpDeriv
import Mathlib.Analysis.Complex.RealDeriv
import Mathlib.Analysis.Complex.ExponentialBounds
import Verif.Props.LineApi

/-!
# Dispersive connectors: C33, C34, C35, C36, C42
-/

namespace Mtln

open Matrix MeasureTheory

variable {n p : ℕ}

/-! ## C33 -/

/-- `∫₀^dt r e^{p (dt - τ)} (a + b τ) dτ` in closed form. -/
theorem kernel_integral (pole r a b : ℂ) (dt : ℝ) (hp : pole ≠ 0) :
    ∫ τ in (0 : ℝ)..dt, r * Complex.exp (pole * (dt - τ)) * (a + b * τ)
      = r * (Complex.exp (pole * dt) * (a / pole + b / pole ^ 2) - ((a + b * dt) / pole + b / pole ^ 2)) := by
  have hd : ∀ τ : ℝ, HasDerivAt
      (fun τ : ℝ => -(r * (Complex.exp (pole * (dt - τ)) * ((a + b * τ) / pole + b / pole ^ 2))))
      (r * Complex.exp (pole * (dt - τ)) * (a + b * τ)) τ := by
    intro τ
    have h1 : HasDerivAt (fun z : ℂ => Complex.exp (pole * (dt - z)))
        (Complex.exp (pole * (dt - τ)) * (pole * (-1))) (τ : ℂ) :=
      (((hasDerivAt_id (τ : ℂ)).const_sub (dt : ℂ)).const_mul pole).cexp
    have h2 : HasDerivAt (fun z : ℂ => (a + b * z) / pole + b / pole ^ 2) (b * 1 / pole) (τ : ℂ) :=
      ((((hasDerivAt_id (τ : ℂ)).const_mul b).const_add a).div_const pole).add_const _
    have h3 := (((h1.mul h2).const_mul r).neg).comp_ofReal
    refine h3.congr_deriv ?_
    field_simp
    ring
  have hc : Continuous fun τ : ℝ => r * Complex.exp (pole * (dt - τ)) * (a + b * τ) := by fun_prop
  rw [intervalIntegral.integral_eq_sub_of_hasDerivAt (fun τ _ => hd τ) (hc.intervalIntegrable _ _)]
  simp
  ring

/-- **C33.** For every non-zero pole, every residue and every time step, the coefficients the code stores for
a dispersive connector advance the convolution of `residue · exp(pole · t)` with a current that is linear in the
step, from `i₀` to `i₁`, exactly: if `φ₀` is the convolution at the beginning of the step, at its end it is
`q1 · i₁ + q2 · i₀ + q3 · φ₀`, where `q1 = -coefA`, `q2 = coefB`, `q3 = coefE`. -/
theorem C33_coefficients (pole residue i₀ i₁ φ₀ : ℂ) (dt : ℝ) (hp : pole ≠ 0) (hdt : dt ≠ 0) :
    Complex.exp (pole * dt) * φ₀ + (∫ τ in (0 : ℝ)..dt, residue * Complex.exp (pole * (dt - τ)) *
        (i₀ + (i₁ - i₀) / dt * τ))
      = -coefA pole residue dt * i₁ + coefB pole residue dt * i₀ + coefE pole dt * φ₀ := by
  rw [kernel_integral _ _ _ _ _ hp]
  have hdt' : (dt : ℂ) ≠ 0 := by exact_mod_cast hdt
  unfold coefA coefB coefE
  field_simp
  ring

/-- The convolution of the kernel with a current history satisfies the recursion: the part before the step
is multiplied by `exp(pole · dt)`. -/
theorem C33_kernel_shift (pole residue : ℂ) (f : ℝ → ℂ) (T dt : ℝ) :
    (∫ τ in (0 : ℝ)..T, residue * Complex.exp (pole * ((T + dt : ℝ) - τ)) * f τ)
      = Complex.exp (pole * dt) * ∫ τ in (0 : ℝ)..T, residue * Complex.exp (pole * (T - τ)) * f τ := by
  rw [← intervalIntegral.integral_const_mul]
  congr 1
  funext τ
  have : pole * ((T + dt : ℝ) - τ) = pole * dt + pole * (T - τ) := by push_cast; ring
  rw [this, Complex.exp_add]
  ring

/-! ## C35 -/

/-- The lists of a model have equal lengths. -/
def RationalModel.LengthsOk (M : RationalModel) : Prop :=
  M.polesReal.length = M.polesImag.length ∧ M.residuesReal.length = M.residuesImag.length ∧
    M.polesReal.length = M.residuesReal.length

theorem checkLengths_ok_iff {M : RationalModel} {x : Unit} : M.checkLengths = .ok x ↔ M.LengthsOk := by
  unfold RationalModel.checkLengths RationalModel.LengthsOk
  simp only [bind_ok_iff, pyAssert_ok_iff]
  constructor
  · rintro ⟨_, h1, _, h2, _, h3, -⟩
    exact ⟨h1, h2, h3⟩
  · rintro ⟨h1, h2, h3⟩
    exact ⟨(), h1, (), h2, (), h3, by rw [← h1, h3, h2]⟩

/-- Length of a cell as `add_dispersive_connector` computes it (dispersive.py:105). -/
noncomputable def cellLength (u : ℕ → V3) (k : ℕ) : ℝ := norm3 fun j => u (k + 1) j - u k j

/-- The conditions under which `add_dispersive_connector` succeeds (with index `k`). -/
structure ConnectorAccepted (D : Disp n p) (u : ℕ → V3) (m : ℕ) (x : V3) (c : Fin n) (M : RationalModel)
    (k : ℕ) : Prop where
  inBox : ∀ j, u 0 j ≤ x j ∧ x j ≤ u m j
  cell : k < m
  length : cellLength u k ≠ 0
  lists : M.LengthsOk
  poles : M.polesReal.length = p
  dt : D.dt ≠ 0
  nonzero : ∀ s < p, M.pole s ≠ 0
  d : D.d k c c = 0
  e : D.e k c c = 0
  q1 : assertZero (D.q1 k c c) = .ok ()
  q2 : assertZero (D.q2 k c c) = .ok ()
  q3 : assertZero (D.q3 k c c) = .ok ()

theorem assertZero_val {q : QEntry p} (h : assertZero q = .ok ()) : q.val = 0 := by
  unfold assertZero at h
  split at h
  · rfl
  · rename_i a
    split at h
    · rename_i hp
      subst hp
      have := pyAssert_ok_iff.1 h
      funext s
      have hs : s = ⟨0, by omega⟩ := Fin.ext (by omega)
      rw [hs]
      exact this
    · split at h <;> simp at h

/-- **C35**, exact description of success: the position lies in the box of the line, the nearest node is not
the last one, no connector is present in that cell of the conductor, the model is well formed; the new
coefficients are those of `C33_coefficients` (with residues per unit length) and nothing but the diagonal entry of
that cell and conductor changes. -/
theorem C35_placement {D D' : Disp n p} {u : ℕ → V3} {m : ℕ} {x : V3} {c : Fin n} {M : RationalModel} :
    D.addConnector u m x c M = .ok D' ↔
      ∃ k, k = nearest u m x ∧ ConnectorAccepted D u m x c M k ∧
        (∀ k' a b, D'.d k' a b = if k' = k ∧ a = c ∧ b = c then M.cte / cellLength u k else D.d k' a b) ∧
        (∀ k' a b, D'.e k' a b = if k' = k ∧ a = c ∧ b = c then M.prop / cellLength u k else D.e k' a b) ∧
        (∀ k' a b, D'.q1 k' a b = if k' = k ∧ a = c ∧ b = c then
          some (fun s : Fin p => -coefA (M.pole s) (M.residue (cellLength u k) s) D.dt) else D.q1 k' a b) ∧
        (∀ k' a b, D'.q2 k' a b = if k' = k ∧ a = c ∧ b = c then
          some (fun s : Fin p => coefB (M.pole s) (M.residue (cellLength u k) s) D.dt) else D.q2 k' a b) ∧
        (∀ k' a b, D'.q3 k' a b = if k' = k ∧ a = c ∧ b = c then
          some (fun s : Fin p => coefE (M.pole s) D.dt) else D.q3 k' a b) ∧
        D'.dt = D.dt ∧ D'.q1sum = vSum D'.q1 ∧ D'.q2sum = vSum D'.q2 := by
  have hbox : (¬ outOfBox (u 0) (u m) x) ↔ ∀ j, u 0 j ≤ x j ∧ x j ≤ u m j := by
    unfold outOfBox
    push Not
    exact ⟨fun h j => ⟨h.2 j, h.1 j⟩, fun h => ⟨fun j => (h j).2, fun j => (h j).1⟩⟩
  have hle : nearest u m x ≤ m := (C25_nearest u m x).1
  unfold Disp.addConnector
  simp only [bind_ok_iff, raiseIf_ok_iff, pyAssert_ok_iff, checkLengths_ok_iff]
  constructor
  · rintro ⟨_, h1, _, h2, _, h3, _, h4, _, h5, _, h6, _, h7, _, h8, _, h9, _, h10, _, h11, h⟩
    injection h with h
    subst h
    have z1 := assertZero_val h9
    have z2 := assertZero_val h10
    have z3 := assertZero_val h11
    refine ⟨_, rfl, ⟨hbox.1 h1, by omega, h3, h4, by simpa using h5, fun h => h6 (Or.inl h),
      fun s hs h => h6 (Or.inr ⟨s, hs, h⟩), h7, h8, h9, h10, h11⟩, ?_, ?_, ?_, ?_, ?_, rfl, rfl, rfl⟩
    · intro k' a b
      simp only [setMat, Matrix.of_apply, h7, zero_add]
      rfl
    · intro k' a b
      simp only [setMat, Matrix.of_apply, h8, zero_add]
      rfl
    · intro k' a b
      simp only [setEntry, z1, Pi.zero_apply, zero_sub]
      rfl
    · intro k' a b
      simp only [setEntry, z2, Pi.zero_apply, zero_add]
      rfl
    · intro k' a b
      simp only [setEntry, z3, Pi.zero_apply, zero_add]
  · rintro ⟨k, rfl, A, hd, he, h1, h2, h3, h4, h5, h6⟩
    refine ⟨(), hbox.2 A.inBox, (), by have := A.cell; omega, (), A.length, (), A.lists, (), by simpa using A.poles,
      (), ?_, (), A.d, (), A.e, (), A.q1, (), A.q2, (), A.q3, ?_⟩
    · rintro (h | ⟨s, hs, h⟩)
      · exact A.dt h
      · exact A.nonzero s hs h
    · have z1 := assertZero_val A.q1
      have z2 := assertZero_val A.q2
      have z3 := assertZero_val A.q3
      have e1 : (setEntry D.q1 (nearest u m x) c c (some fun s => (D.q1 (nearest u m x) c c).val s
          - coefA (M.pole s) (M.residue (norm3 fun j => u (nearest u m x + 1) j - u (nearest u m x) j) s) D.dt)) = D'.q1 := by
        funext k' a b
        rw [h1]
        simp only [setEntry, z1, Pi.zero_apply, zero_sub]
        rfl
      have e2 : (setEntry D.q2 (nearest u m x) c c (some fun s => (D.q2 (nearest u m x) c c).val s
          + coefB (M.pole s) (M.residue (norm3 fun j => u (nearest u m x + 1) j - u (nearest u m x) j) s) D.dt)) = D'.q2 := by
        funext k' a b
        rw [h2]
        simp only [setEntry, z2, Pi.zero_apply, zero_add]
        rfl
      have e3 : (setEntry D.q3 (nearest u m x) c c (some fun s => (D.q3 (nearest u m x) c c).val s
          + coefE (M.pole s) D.dt)) = D'.q3 := by
        funext k' a b
        rw [h3]
        simp only [setEntry, z3, Pi.zero_apply, zero_add]
      have e4 : setMat D.d (nearest u m x) c c (D.d (nearest u m x) c c
          + M.cte / norm3 fun j => u (nearest u m x + 1) j - u (nearest u m x) j) = D'.d := by
        funext k'
        ext a b
        rw [hd]
        simp only [setMat, Matrix.of_apply, A.d, zero_add]
        rfl
      have e5 : setMat D.e (nearest u m x) c c (D.e (nearest u m x) c c
          + M.prop / norm3 fun j => u (nearest u m x + 1) j - u (nearest u m x) j) = D'.e := by
        funext k'
        ext a b
        rw [he]
        simp only [setMat, Matrix.of_apply, A.e, zero_add]
        rfl
      rw [e1, e2, e3, e4, e5, ← h4, ← h5, ← h6]

/-- **C35**: a position outside the coordinate box of the line is rejected with `ValueError`. -/
theorem C35_outside (D : Disp n p) (u : ℕ → V3) (m : ℕ) (x : V3) (c : Fin n) (M : RationalModel)
    (h : ∃ j, x j < u 0 j ∨ u m j < x j) : D.addConnector u m x c M = .error .ValueError := by
  unfold Disp.addConnector raiseIf
  rw [if_pos]
  · rfl
  · obtain ⟨j, h | h⟩ := h
    · exact Or.inr ⟨j, h⟩
    · exact Or.inl ⟨j, h⟩

/-- **C35**: a second connector in the same cell of the same conductor is always refused, whatever the two
models are. -/
theorem C35_second_refused {D D' : Disp n p} {u : ℕ → V3} {m : ℕ} {x y : V3} {c : Fin n}
    {M M' : RationalModel} (h : D.addConnector u m x c M = .ok D') (hxy : nearest u m y = nearest u m x) :
    ¬ ∃ D'', D'.addConnector u m y c M' = .ok D'' := by
  rintro ⟨D'', h'⟩
  obtain ⟨k, hk, -, -, -, -, -, h3, -⟩ := C35_placement.1 h
  obtain ⟨k', hk', A, -⟩ := C35_placement.1 h'
  have : k' = k := by rw [hk', hk, hxy]
  subst this
  have hq := A.q3
  rw [h3, if_pos ⟨rfl, rfl, rfl⟩] at hq
  unfold assertZero at hq
  simp only at hq
  split at hq
  · have := pyAssert_ok_iff.1 hq
    exact Complex.exp_ne_zero _ this
  · split at hq <;> simp at hq

/-- The sums stored with the coefficients agree with them; other cells and conductors keep their sums. -/
theorem C35_sums_elsewhere {D D' : Disp n p} {u : ℕ → V3} {m : ℕ} {x : V3} {c : Fin n} {M : RationalModel}
    (h : D.addConnector u m x c M = .ok D') (h1 : D.q1sum = vSum D.q1) (h2 : D.q2sum = vSum D.q2) :
    ∀ k a b, ¬ (k = nearest u m x ∧ a = c ∧ b = c) →
      D'.q1sum k a b = D.q1sum k a b ∧ D'.q2sum k a b = D.q2sum k a b := by
  obtain ⟨k, rfl, -, -, -, q1, q2, -, -, s1, s2⟩ := C35_placement.1 h
  intro k a b hne
  rw [s1, s2, h1, h2]
  simp only [vSum, Matrix.of_apply, q1, q2, if_neg hne]
  exact ⟨trivial, trivial⟩

/-! ## C34 -/

/-- The row of conductor `c` in cell `k` contains a connector with the given poles and residues and nothing
else. -/
structure Disp.HasConnector (D : Disp n p) (k : ℕ) (c : Fin n) (pole res : Fin p → ℂ) : Prop where
  q1 : ∀ b s, (D.q1 k c b).val s = if b = c then -coefA (pole s) (res s) D.dt else 0
  q2 : ∀ b s, (D.q2 k c b).val s = if b = c then coefB (pole s) (res s) D.dt else 0
  q3 : ∀ b s, (D.q3 k c b).val s = if b = c then coefE (pole s) D.dt else 0
  pole : ∀ s, pole s ≠ 0
  dt : D.dt ≠ 0

/-- On a line without dispersive elements, a successful `add_dispersive_connector` creates such a row. -/
theorem C34_connector_row {dt : ℝ} {D' : Disp n p} {u : ℕ → V3} {m : ℕ} {x : V3} {c : Fin n}
    {M : RationalModel} (h : (Disp.new dt : Disp n p).addConnector u m x c M = .ok D') :
    D'.HasConnector (nearest u m x) c (fun s => M.pole s)
      (fun s => M.residue (cellLength u (nearest u m x)) s) := by
  obtain ⟨k, rfl, A, -, -, q1, q2, q3, hdt, -⟩ := C35_placement.1 h
  constructor
  · intro b s
    rw [q1, hdt]
    by_cases hb : b = c
    · simp [hb, QEntry.val]
    · simp [hb, QEntry.val, Disp.new]
  · intro b s
    rw [q2, hdt]
    by_cases hb : b = c
    · simp [hb, QEntry.val]
    · simp [hb, QEntry.val, Disp.new]
  · intro b s
    rw [q3, hdt]
    by_cases hb : b = c
    · simp [hb, QEntry.val]
    · simp [hb, QEntry.val, Disp.new]
  · exact fun s => A.nonzero s s.2
  · rw [hdt]; exact A.dt

theorem updatePhi_connector {D : Disp n p} {k : ℕ} {c : Fin n} {pole res : Fin p → ℂ}
    (H : D.HasConnector k c pole res) (phi : Memory n p) (a b : Grid n) (s : Fin p) :
    D.updatePhi phi a b k c s = -coefA (pole s) (res s) D.dt * b k c + coefB (pole s) (res s) D.dt * a k c
      + coefE (pole s) D.dt * phi k c s := by
  unfold Disp.updatePhi
  simp only [H.q1, H.q2, H.q3, ite_mul, zero_mul, Finset.sum_ite_eq', Finset.mem_univ, if_true]

/-- **C34**, one step of any run, exactly: the new memory is the exact convolution with the current that goes
linearly from the old to the new value, plus an error `coefB · (i' - i)`, which comes from `i_prev` being an alias of
the array that was just overwritten (mtl.py:425-433). -/
theorem C34_step_error {s s' : MTL n p} {T : ℝ} {N : ℕ} {tr : ℕ → MTL n p} (R : RunTrace s T s' N tr)
    {k : ℕ} {c : Fin n} {pole res : Fin p → ℂ} (H : s.conn.HasConnector k c pole res) (hdt : s.conn.dt = s.dt)
    (j : ℕ) (hj : j < N) (σ : Fin p) :
    (tr (j + 1)).phi k c σ = Complex.exp (pole σ * s.dt) * (tr j).phi k c σ
      + (∫ τ in (0 : ℝ)..s.dt, res σ * Complex.exp (pole σ * (s.dt - τ)) *
          (((tr j).i k c : ℂ) + (((tr (j + 1)).i k c : ℂ) - ((tr j).i k c : ℂ)) / s.dt * τ))
      + coefB (pole σ) (res σ) s.dt * (((tr (j + 1)).i k c : ℂ) - ((tr j).i k c : ℂ)) := by
  obtain ⟨lr, cg, -, -, hst⟩ := R.state
  obtain ⟨hc, hf, -⟩ := hst j hj.le
  obtain ⟨-, hi, hphi⟩ := hf.step_fields (R.step j hj)
  rw [C33_coefficients _ _ _ _ _ _ (H.pole σ) (by rw [← hdt]; exact H.dt), hphi, advanceFields_phi, ← hi, hc.conn,
    updatePhi_connector H, hdt]
  ring

/-- **C34**, the part that holds: after every step of every run from an empty memory, the memory of a connector is
the convolution of its kernel with the history of the computed currents, extended to a function of time as a
*staircase* (the current of a step is taken constant, equal to its value at the end of the step) rather than
linearly. -/
theorem C34_memory_partial {s s' : MTL n p} {T : ℝ} {N : ℕ} {tr : ℕ → MTL n p} (R : RunTrace s T s' N tr)
    {k : ℕ} {c : Fin n} {pole res : Fin p → ℂ} (H : s.conn.HasConnector k c pole res) (hdt : s.conn.dt = s.dt)
    (h0 : s.phi k c = 0) (σ : Fin p) : ∀ j ≤ N,
    (tr j).phi k c σ = ∑ q ∈ Finset.range j, ∫ τ in (q * s.dt)..((q + 1) * s.dt),
      res σ * Complex.exp (pole σ * ((j * s.dt : ℝ) - τ)) * ((tr (q + 1)).i k c : ℂ) := by
  intro j
  induction j with
  | zero =>
    intro _
    obtain ⟨lr, cg, -, -, e0⟩ := R.start
    rw [e0]
    simp [h0]
  | succ j ih =>
    intro hj
    obtain ⟨lr, cg, -, -, hst⟩ := R.state
    obtain ⟨hc, hf, -⟩ := hst j (by omega)
    obtain ⟨-, hi, hphi⟩ := hf.step_fields (R.step j (by omega))
    have hdt0 : s.dt ≠ 0 := by rw [← hdt]; exact H.dt
    rw [hphi, advanceFields_phi, ← hi, hc.conn, updatePhi_connector H, hdt, Finset.sum_range_succ]
    have e1 : (∑ q ∈ Finset.range j, ∫ τ in (q * s.dt)..((q + 1) * s.dt),
        res σ * Complex.exp (pole σ * (((j + 1 : ℕ) * s.dt : ℝ) - τ)) * ((tr (q + 1)).i k c : ℂ))
        = coefE (pole σ) s.dt * (tr j).phi k c σ := by
      rw [ih (by omega), Finset.mul_sum]
      refine Finset.sum_congr rfl fun q _ => ?_
      rw [← intervalIntegral.integral_const_mul]
      congr 1
      funext τ
      unfold coefE
      have : pole σ * (((j + 1 : ℕ) * s.dt : ℝ) - τ) = pole σ * s.dt + pole σ * ((j * s.dt : ℝ) - τ) := by
        push_cast; ring
      rw [this, Complex.exp_add]
      ring
    rw [e1]
    have e2 : (∫ τ in (j * s.dt)..((j + 1) * s.dt),
        res σ * Complex.exp (pole σ * (((j + 1 : ℕ) * s.dt : ℝ) - τ)) * ((tr (j + 1)).i k c : ℂ))
        = -coefA (pole σ) (res σ) s.dt * (tr (j + 1)).i k c + coefB (pole σ) (res σ) s.dt * (tr (j + 1)).i k c := by
      have hk := C33_coefficients (pole σ) (res σ) ((tr (j + 1)).i k c) ((tr (j + 1)).i k c) 0 s.dt (H.pole σ) hdt0
      simp only [mul_zero, zero_add, add_zero, sub_self, zero_div, zero_mul] at hk
      rw [← hk]
      have hsub := intervalIntegral.integral_comp_add_right
        (fun τ : ℝ => res σ * Complex.exp (pole σ * (((j + 1 : ℕ) * s.dt : ℝ) - τ)) * ((tr (j + 1)).i k c : ℂ))
        (a := 0) (b := s.dt) (j * s.dt)
      have b1 : (0 : ℝ) + j * s.dt = j * s.dt := by ring
      have b2 : s.dt + j * s.dt = (j + 1) * s.dt := by ring
      rw [b1, b2] at hsub
      rw [← hsub]
      congr 1
      funext τ
      congr 3
      push_cast
      ring
    rw [e2]
    ring

/-! ## A line with a dispersive connector -/

/-- The demo line with given connector coefficients. -/
noncomputable def demoWith (D : Disp 1 1) : MTL 1 1 := { demoLine 1 with conn := D }

/-- The rational function `1/(s + 1)`. -/
def demoModel : RationalModel := ⟨0, 0, [-1], [0], [1], [0]⟩

/-- `add_dispersive_connector` with the model above at the left end of the demo line succeeds, and the
coefficients of the result. -/
theorem demo_connector : ∃ D : Disp 1 1,
    (demoLine 1).addDispersiveConnector ![0, 0, 0] 0 demoModel = .ok (demoWith D) ∧
    D.HasConnector 0 0 (fun _ => -1) (fun _ => 1) ∧ D.dt = 1 ∧ (∀ k, D.d k = 0) ∧ (∀ k, D.e k = 0) ∧
    (∀ k, D.q1sum k = if k = 0 then Matrix.of fun _ _ => Real.exp (-1) else 0) ∧
    (∀ k, D.q2sum k = if k = 0 then Matrix.of fun _ _ => 1 - 2 * Real.exp (-1) else 0) := by
  have hu0 : (demoLine 1).u 0 = ![0, 0, 0] := (demoBare_u 1).1
  have hu2 : (demoLine 1).u 2 = ![0, 0, 2] := (demoBare_u 1).2
  have hu1 : (demoLine 1).u 1 = ![0, 0, 1] := by simp [demoLine, demoBare]
  have hnear : nearest (demoLine 1).u 2 ![0, 0, 0] = 0 := by
    have := nearest_first (demoLine 1).u 2
    rwa [hu0] at this
  have hlen : cellLength (demoLine 1).u 0 = 1 := by
    unfold cellLength norm3
    rw [zero_add, hu0, hu1]
    simp
  have hpole : demoModel.pole 0 = -1 := by simp [demoModel, RationalModel.pole]
  have hres : demoModel.residue 1 0 = 1 := by simp [demoModel, RationalModel.residue]
  have hA : coefA (-1) 1 1 = -Complex.exp (-1) := by
    unfold coefA; norm_num; ring
  have hB : coefB (-1) 1 1 = 1 - 2 * Complex.exp (-1) := by
    unfold coefB; norm_num; ring
  set Q1 : ℕ → Fin 1 → Fin 1 → QEntry 1 := fun k _ _ =>
    if k = 0 then some fun _ => -coefA (-1) 1 1 else none with hQ1
  set Q2 : ℕ → Fin 1 → Fin 1 → QEntry 1 := fun k _ _ =>
    if k = 0 then some fun _ => coefB (-1) 1 1 else none with hQ2
  set Q3 : ℕ → Fin 1 → Fin 1 → QEntry 1 := fun k _ _ =>
    if k = 0 then some fun _ => coefE (-1) 1 else none with hQ3
  set D : Disp 1 1 := ⟨1, Q1, Q2, Q3, fun _ => 0, fun _ => 0, vSum Q1, vSum Q2⟩ with hD
  have hadd : (demoLine 1).conn.addConnector (demoLine 1).u (demoLine 1).m ![0, 0, 0] 0 demoModel = .ok D := by
    refine C35_placement.2 ⟨0, hnear.symm, ?_, ?_, ?_, ?_, ?_, ?_, rfl, rfl, rfl⟩
    · refine ⟨?_, ?_, ?_, ?_, rfl, ?_, ?_, rfl, rfl, rfl, rfl, rfl⟩
      · intro j
        have : (demoLine 1).m = 2 := rfl
        rw [this, hu0, hu2]
        fin_cases j <;> simp
      · exact Nat.zero_lt_two
      · rw [hlen]; norm_num
      · exact ⟨rfl, rfl, rfl⟩
      · exact one_ne_zero
      · intro s hs
        have : s = 0 := by omega
        rw [this, hpole]
        norm_num
    · intro k' a b
      simp [hD, demoModel, demoLine, demoBare, Disp.new]
    · intro k' a b
      simp [hD, demoModel, demoLine, demoBare, Disp.new]
    · intro k' a b
      have ha : a = 0 := Subsingleton.elim _ _
      have hb : b = 0 := Subsingleton.elim _ _
      subst ha hb
      by_cases hk : k' = 0
      · simp only [hD, hQ1, hk, and_self, if_true]
        congr 1
        funext s
        have : s = 0 := Subsingleton.elim _ _
        subst this
        rw [hlen]
        show _ = -coefA (demoModel.pole 0) (demoModel.residue 1 0) 1
        rw [hpole, hres]
      · simp [hD, hQ1, hk, demoLine, demoBare, Disp.new]
    · intro k' a b
      have ha : a = 0 := Subsingleton.elim _ _
      have hb : b = 0 := Subsingleton.elim _ _
      subst ha hb
      by_cases hk : k' = 0
      · simp only [hD, hQ2, hk, and_self, if_true]
        congr 1
        funext s
        have : s = 0 := Subsingleton.elim _ _
        subst this
        rw [hlen]
        show _ = coefB (demoModel.pole 0) (demoModel.residue 1 0) 1
        rw [hpole, hres]
      · simp [hD, hQ2, hk, demoLine, demoBare, Disp.new]
    · intro k' a b
      have ha : a = 0 := Subsingleton.elim _ _
      have hb : b = 0 := Subsingleton.elim _ _
      subst ha hb
      by_cases hk : k' = 0
      · simp only [hD, hQ3, hk, and_self, if_true]
        congr 1
        funext s
        have : s = 0 := Subsingleton.elim _ _
        subst this
        show _ = coefE (demoModel.pole 0) 1
        rw [hpole]
      · simp [hD, hQ3, hk, demoLine, demoBare, Disp.new]
  have hexp : ((Real.exp (-1) : ℝ) : ℂ) = Complex.exp (-1) := by push_cast; rfl
  refine ⟨D, ?_, ?_, rfl, fun _ => rfl, fun _ => rfl, ?_, ?_⟩
  · unfold MTL.addDispersiveConnector
    rw [hadd]
    rfl
  · refine ⟨?_, ?_, ?_, fun _ => by norm_num, one_ne_zero⟩
    · intro b s
      have hb : b = 0 := Subsingleton.elim _ _
      simp [hD, hQ1, hb, QEntry.val]
    · intro b s
      have hb : b = 0 := Subsingleton.elim _ _
      simp [hD, hQ2, hb, QEntry.val]
    · intro b s
      have hb : b = 0 := Subsingleton.elim _ _
      simp [hD, hQ3, hb, QEntry.val]
  · intro k
    ext a b
    by_cases hk : k = 0
    · simp only [hD, vSum, hQ1, hk, if_true, Matrix.of_apply, poleSum, QEntry.val, Option.getD_some]
      rw [hA, neg_neg, Finset.sum_const]
      rw [← hexp, Finset.card_univ, Fintype.card_fin, one_smul]
      norm_cast
    · simp [hD, vSum, hQ1, hk, poleSum, QEntry.val]
  · intro k
    ext a b
    by_cases hk : k = 0
    · simp only [hD, vSum, hQ2, hk, if_true, Matrix.of_apply, poleSum, QEntry.val, Option.getD_some]
      rw [hB, Finset.sum_const]
      rw [← hexp, Finset.card_univ, Fintype.card_fin, one_smul]
      norm_cast
    · simp [hD, vSum, hQ2, hk, poleSum, QEntry.val]

/-- The line with the connector can be run, and after the first step the current of the first cell is not zero. -/
theorem demo_connector_run {D : Disp 1 1} (hd : ∀ k, D.d k = 0) (he : ∀ k, D.e k = 0)
    (h1 : ∀ k, D.q1sum k = if k = 0 then Matrix.of fun _ _ => Real.exp (-1) else 0) :
    (∀ T, ∃ s', (demoWith D).runUntil T = .ok s') ∧
    ∀ T s' N tr, RunTrace (demoWith D) T s' N tr → 0 < N → (tr 1).i 0 0 ≠ 0 := by
  have hlr : ∃ lr, updateLr (demoLine 1).m (demoLine 1).dt (demoLine 1).dun (demoLine 1).l (demoLine 1).r D
      = .ok lr := by
    refine ⟨_, updateLr_ok_iff.2 ⟨one_ne_zero, ?_, rfl⟩⟩
    intro k hk
    have hk' : k < 2 := hk
    rw [Matrix.det_fin_one]
    have := Real.exp_pos (-1)
    unfold lrF1
    rw [hd, he, h1]
    interval_cases k <;> simp [demoLine, demoBare]
    positivity
  constructor
  · intro T
    exact (runUntil_success_iff T _).2 ⟨one_ne_zero, hlr, demo_cg 1, Or.inr (demo_valid 1)⟩
  · intro T s' N tr R hN h
    obtain ⟨lr, cg, -, -, e0⟩ := R.start
    have hT : (demoWith D).TermConsistent :=
      have h := demo_termConsistent 1
      ⟨h.det_left, h.det_right, h.left1, h.left2, h.right1, h.right2⟩
    have hv0 := (C09_terminal_equations R hT Nat.zero_lt_two 0 hN _).1.2 rfl
    have hv1 := C08_voltage_equation_no_field R rfl 0 hN 1 one_pos (by show 1 < 2; norm_num)
    have hi := (C07_current_equation R 0 hN 0 Nat.zero_lt_two _).2 rfl
    unfold TerminalEq at hv0
    unfold CurrentEq at hi
    have g0 := congrFun hv0 0
    have g1 := congrFun hv1 0
    have g2 := congrFun hi 0
    rw [e0] at g0 g1 g2
    simp [demoWith, demoLine, demoBare] at g0 g1
    simp [demoWith, demoLine, demoBare, Matrix.mulVec, dotProduct, hd, he, h1, h, g1] at g2
    rw [if_neg (by norm_num)] at g0
    linarith

/-- **C34** is false of the code: on the demo line with a connector for `1/(s+1)` in its first cell, after the first
step the memory of the connector is not the convolution of its kernel with the current that rises linearly from
its old to its new value. -/
theorem C34_linear_fails : ∃ s : MTL 1 1,
    (demoLine 1).addDispersiveConnector ![0, 0, 0] 0 demoModel = .ok s ∧
    ∃ s' tr, RunTrace s 1 s' 1 tr ∧ s'.phi 0 0 0 ≠
      ∫ τ in (0 : ℝ)..s.dt, Complex.exp (-(s.dt - τ)) * ((s.i 0 0 : ℂ) + ((s'.i 0 0 : ℂ) - (s.i 0 0 : ℂ)) / s.dt * τ) := by
  obtain ⟨D, hadd, H, hdt, hd, he, h1, h2⟩ := demo_connector
  obtain ⟨hrun, hne⟩ := demo_connector_run hd he h1
  obtain ⟨s', hs'⟩ := hrun 1
  obtain ⟨-, N, tr, R⟩ := (runUntil_ok_iff _ _ _).1 hs'
  have hN : N = 1 := by
    rw [R.len]
    show ⌊(1 : ℝ) / 1⌋.toNat = 1
    norm_num
  subst hN
  refine ⟨_, hadd, s', tr, R, ?_⟩
  have h := C34_step_error R H (hdt.trans rfl) 0 one_pos 0
  have hi := hne _ _ _ _ R one_pos
  obtain ⟨lr, cg, -, -, e0⟩ := R.start
  have hphi : (tr 0).phi 0 0 0 = 0 := by rw [e0]; rfl
  have hi0 : (tr 0).i 0 0 = 0 := by rw [e0]; rfl
  have hs0 : (demoWith D).i 0 0 = 0 := rfl
  have hs1 : (demoWith D).dt = 1 := rfl
  rw [zero_add, R.final, hphi, hi0, hs1] at h
  rw [R.final] at hi
  rw [h, hs0, hs1]
  have hB : coefB (-1) 1 1 = 1 - 2 * Complex.exp (-1) := by
    unfold coefB; norm_num; ring
  rw [hB]
  simp only [one_mul, neg_one_mul, mul_zero, zero_add, Complex.ofReal_zero, sub_zero]
  intro hh
  have := add_eq_left.1 hh
  rcases mul_eq_zero.1 this with h | h
  · have hexp : ((Real.exp (-1) : ℝ) : ℂ) = Complex.exp (-1) := by push_cast; rfl
    rw [← hexp] at h
    have h3 : (1 - 2 * Real.exp (-1) : ℝ) = 0 := by exact_mod_cast h
    have h4 : Real.exp 1 > 2 := by linarith [Real.exp_one_gt_d9]
    have h5 : Real.exp (-1) * Real.exp 1 = 1 := by rw [← Real.exp_add]; simp
    nlinarith [Real.exp_pos (-1)]
  · exact hi (by exact_mod_cast h)

/-- Non-vacuity of C35: a connector can be added to the demo line. -/
example : ∃ s, (demoLine 1).addDispersiveConnector ![0, 0, 0] 0 demoModel = .ok s :=
  let ⟨_, h, _⟩ := demo_connector
  ⟨_, h⟩

/-! ## C36 -/

/-- **C36.** In every run of a line to which a connector without poles was added, the new current of the
connector's cell is the unique solution of the equation of that cell without the connector, with the term
`cte (i' + i)/2 + prop (i' - i)/dt` added to the voltage drop of its conductor.  The length of the cell does not
occur in that term.  (The first hypothesis on the mesh says that the stored cell length is the distance of its nodes, as
for lines built by the constructor from matching data.) -/
theorem C36_lumped {s s₁ s' : MTL n 0} {x : V3} {c : Fin n} {M : RationalModel} {T : ℝ} {N : ℕ}
    {tr : ℕ → MTL n 0} (h : s.addDispersiveConnector x c M = .ok s₁) (R : RunTrace s₁ T s' N tr)
    (hlen : s.dun (nearest s.u s.m x) = norm3 (s.u (nearest s.u s.m x + 1) - s.u (nearest s.u s.m x)))
    (j : ℕ) (hj : j < N) (y : Col n) :
    ∀ k, k = nearest s.u s.m x →
    (s.dun k • ((1 / s.dt) • ((s.l k + s.conn.e k) *ᵥ (y - (tr j).i k))
        + (1 / 2 : ℝ) • ((s.r k + s.conn.d k) *ᵥ (y + (tr j).i k)))
      + Pi.single c (M.cte * (y c + (tr j).i k c) / 2 + M.prop * (y c - (tr j).i k c) / s.dt)
      = -((tr (j + 1)).v (k + 1) - (tr (j + 1)).v k)
        - (fun a => s.eT (k + 1) a (s.time + j * s.dt) - s.eT k a (s.time + j * s.dt))
        + s.dun k • ((1 / 2 : ℝ) • ((fun a => s.eL k a (s.time + j * s.dt + s.dt / 2))
            + fun a => s.eL k a (s.time + j * s.dt - s.dt / 2)))
    ↔ y = (tr (j + 1)).i k) := by
  rintro k rfl
  unfold MTL.addDispersiveConnector at h
  obtain ⟨D', h1, h2⟩ := bind_ok_iff.1 h
  injection h2 with h2
  subst h2
  obtain ⟨k, hk, A, hd, he, -, -, -, -, s1, s2⟩ := C35_placement.1 h1
  rw [← hk] at hlen ⊢
  have C := C07_current_equation R j hj k A.cell y
  rw [← C]
  unfold CurrentEq
  have z1 : D'.q1sum k = 0 := by
    rw [s1]; ext a b; simp [vSum, poleSum]
  have z2 : D'.q2sum k = 0 := by
    rw [s2]; ext a b; simp [vSum, poleSum]
  have L0 : cellLength s.u k ≠ 0 := A.length
  have hL : s.dun k = cellLength s.u k := hlen
  have hdmat : D'.d k = s.conn.d k + Matrix.single c c (M.cte / cellLength s.u k) := by
    ext a b
    rw [hd, Matrix.add_apply, Matrix.single_apply]
    by_cases hab : a = c ∧ b = c
    · obtain ⟨rfl, rfl⟩ := hab
      simp [A.d]
    · rw [if_neg (by tauto), if_neg (by tauto), add_zero]
  have hemat : D'.e k = s.conn.e k + Matrix.single c c (M.prop / cellLength s.u k) := by
    ext a b
    rw [he, Matrix.add_apply, Matrix.single_apply]
    by_cases hab : a = c ∧ b = c
    · obtain ⟨rfl, rfl⟩ := hab
      simp [A.e]
    · rw [if_neg (by tauto), if_neg (by tauto), add_zero]
  have hsingle : ∀ (t : ℝ) (w : Col n), Matrix.single c c t *ᵥ w = Pi.single c (t * w c) := by
    intro t w
    ext a
    rw [Matrix.single_mulVec]
    rfl
  have key : s.dun k • ((1 / s.dt) • ((s.l k + D'.e k) *ᵥ (y - (tr j).i k))
        + (1 / 2 : ℝ) • ((s.r k + D'.d k) *ᵥ (y + (tr j).i k)) + D'.q1sum k *ᵥ y + D'.q2sum k *ᵥ (tr j).i k
        + fun a => (∑ σ : Fin 0, ∑ b, (D'.q3 k a b).val σ * (tr j).phi k b σ).re)
      = s.dun k • ((1 / s.dt) • ((s.l k + s.conn.e k) *ᵥ (y - (tr j).i k))
        + (1 / 2 : ℝ) • ((s.r k + s.conn.d k) *ᵥ (y + (tr j).i k)))
      + Pi.single c (M.cte * (y c + (tr j).i k c) / 2 + M.prop * (y c - (tr j).i k c) / s.dt) := by
    rw [z1, z2, hdmat, hemat, ← add_assoc, ← add_assoc, add_mulVec _ (Matrix.single c c _),
      add_mulVec _ (Matrix.single c c _), hsingle, hsingle, hL]
    ext a
    simp only [Pi.add_apply, Pi.smul_apply, smul_eq_mul, zero_mulVec, Pi.zero_apply, Finset.univ_eq_empty,
      Finset.sum_empty, Complex.zero_re, add_zero, Pi.sub_apply]
    by_cases ha : a = c
    · subst ha
      simp only [Pi.single_eq_same]
      field_simp
      ring
    · simp only [Pi.single_eq_of_ne ha]
      ring
  rw [← key]

/-- Non-vacuity of C36: a connector without poles can be added to the demo line and the result runs. -/
example : ∃ s₁ s', (demoLine 0).addDispersiveConnector ![0, 0, 0] 0 ⟨3, 4, [], [], [], []⟩ = .ok s₁ ∧
    s₁.runUntil 1 = .ok s' := by
  have hu0 : (demoLine 0).u 0 = ![0, 0, 0] := (demoBare_u 0).1
  have hu2 : (demoLine 0).u 2 = ![0, 0, 2] := (demoBare_u 0).2
  have hu1 : (demoLine 0).u 1 = ![0, 0, 1] := by simp [demoLine, demoBare]
  have hnear : nearest (demoLine 0).u 2 ![0, 0, 0] = 0 := by
    have := nearest_first (demoLine 0).u 2
    rwa [hu0] at this
  have hlen : cellLength (demoLine 0).u 0 = 1 := by
    unfold cellLength norm3
    rw [zero_add, hu0, hu1]
    simp
  have hA : ConnectorAccepted (demoLine 0).conn (demoLine 0).u (demoLine 0).m ![0, 0, 0] 0
      ⟨3, 4, [], [], [], []⟩ 0 := by
    refine ⟨?_, Nat.zero_lt_two, ?_, ⟨rfl, rfl, rfl⟩, rfl, one_ne_zero, by simp, rfl, rfl, rfl, rfl, rfl⟩
    · intro j
      have : (demoLine 0).m = 2 := rfl
      rw [this, hu0, hu2]
      fin_cases j <;> simp
    · rw [hlen]; norm_num
  set Q : ℕ → Fin 1 → Fin 1 → QEntry 0 := fun k _ _ => if k = 0 then some 0 else none with hQ
  set D : Disp 1 0 := ⟨1, Q, Q, Q, fun k => Matrix.of fun _ _ => if k = 0 then 3 else 0,
    fun k => Matrix.of fun _ _ => if k = 0 then 4 else 0, vSum Q, vSum Q⟩ with hD
  have hsub : ∀ a : Fin 1, a = 0 := fun a => Subsingleton.elim _ _
  have hadd : (demoLine 0).conn.addConnector (demoLine 0).u (demoLine 0).m ![0, 0, 0] 0
      ⟨3, 4, [], [], [], []⟩ = .ok D := by
    refine C35_placement.2 ⟨0, hnear.symm, hA, ?_, ?_, ?_, ?_, ?_, rfl, rfl, rfl⟩
    · intro k a b
      rw [hsub a, hsub b, hlen]
      by_cases hk : k = 0 <;> simp [hD, hk, demoLine, demoBare, Disp.new]
    · intro k a b
      rw [hsub a, hsub b, hlen]
      by_cases hk : k = 0 <;> simp [hD, hk, demoLine, demoBare, Disp.new]
    all_goals
      intro k a b
      rw [hsub a, hsub b]
      by_cases hk : k = 0
      · simp only [hD, hQ, hk, and_self, if_true]
        congr 1
        exact Subsingleton.elim _ _
      · simp [hD, hQ, hk, demoLine, demoBare, Disp.new]
  have hlr : ∃ lr, updateLr (demoLine 0).m (demoLine 0).dt (demoLine 0).dun (demoLine 0).l (demoLine 0).r D
      = .ok lr := by
    refine ⟨_, updateLr_ok_iff.2 ⟨one_ne_zero, ?_, rfl⟩⟩
    intro k hk
    have hk' : k < 2 := hk
    rw [Matrix.det_fin_one]
    unfold lrF1
    interval_cases k <;> simp [demoLine, demoBare, hD, vSum, poleSum]
    norm_num
  obtain ⟨s', hs'⟩ := (runUntil_success_iff 1 { demoLine 0 with conn := D }).2
    ⟨one_ne_zero, hlr, demo_cg 0, Or.inr (demo_valid 0)⟩
  refine ⟨_, s', ?_, hs'⟩
  unfold MTL.addDispersiveConnector
  rw [hadd]
  rfl

/-! ## C42 -/

open ComplexConjugate

/-- The coefficients come in conjugate pairs: in every cell and row a permutation of the poles replaces every
coefficient by its conjugate; rows coupled by an off-diagonal coefficient of `q3` have the same permutation. -/
structure Disp.ConjClosed (D : Disp n p) (π : ℕ → Fin n → Equiv.Perm (Fin p)) : Prop where
  q1 : ∀ k a b s, (D.q1 k a b).val (π k a s) = conj ((D.q1 k a b).val s)
  q2 : ∀ k a b s, (D.q2 k a b).val (π k a s) = conj ((D.q2 k a b).val s)
  q3 : ∀ k a b s, (D.q3 k a b).val (π k a s) = conj ((D.q3 k a b).val s)
  coupled : ∀ k a b, (D.q3 k a b).val ≠ 0 → π k b = π k a

/-- A sum over poles in conjugate pairs is real. -/
theorem conj_sum_im {f : Fin p → ℂ} {π : Equiv.Perm (Fin p)} (h : ∀ s, f (π s) = conj (f s)) :
    (∑ s, f s).im = 0 := by
  have : conj (∑ s, f s) = ∑ s, f s := by
    rw [map_sum, ← Equiv.sum_comp π f]
    exact Finset.sum_congr rfl fun s _ => (h s).symm
  exact Complex.conj_eq_iff_im.1 this

/-- **C42**: the sums of `q1` and `q2` over the poles are real. -/
theorem C42_coefficient_sums {D : Disp n p} {π : ℕ → Fin n → Equiv.Perm (Fin p)} (h : D.ConjClosed π) (k : ℕ)
    (a b : Fin n) : (∑ s, (D.q1 k a b).val s).im = 0 ∧ (∑ s, (D.q2 k a b).val s).im = 0 :=
  ⟨conj_sum_im (h.q1 k a b), conj_sum_im (h.q2 k a b)⟩

theorem conj_q3phi {D : Disp n p} {π : ℕ → Fin n → Equiv.Perm (Fin p)} (h : D.ConjClosed π) {phi : Memory n p}
    (hphi : ∀ k a s, phi k a (π k a s) = conj (phi k a s)) (k : ℕ) (a : Fin n) (s : Fin p) :
    ∑ b, (D.q3 k a b).val (π k a s) * phi k b (π k a s) = conj (∑ b, (D.q3 k a b).val s * phi k b s) := by
  rw [map_sum]
  refine Finset.sum_congr rfl fun b _ => ?_
  rw [map_mul, h.q3]
  by_cases hz : (D.q3 k a b).val = 0
  · simp [hz]
  · rw [← h.coupled k a b hz, hphi]

theorem conj_updatePhi {D : Disp n p} {π : ℕ → Fin n → Equiv.Perm (Fin p)} (h : D.ConjClosed π) {phi : Memory n p}
    (hphi : ∀ k a s, phi k a (π k a s) = conj (phi k a s)) (i i' : Grid n) :
    ∀ k a s, D.updatePhi phi i i' k a (π k a s) = conj (D.updatePhi phi i i' k a s) := by
  intro k a s
  unfold Disp.updatePhi
  rw [conj_q3phi h hphi]
  simp only [map_add, map_sum, map_mul, h.q1, h.q2, Complex.conj_ofReal]

/-- **C42**: in every state of every run that starts with a memory in conjugate pairs (for instance an empty one),
the history term of every cell and conductor, before the real part is taken, is real. -/
theorem C42_history {s s' : MTL n p} {T : ℝ} {N : ℕ} {tr : ℕ → MTL n p} (R : RunTrace s T s' N tr)
    {π : ℕ → Fin n → Equiv.Perm (Fin p)} (h : s.conn.ConjClosed π)
    (h0 : ∀ k a σ, s.phi k a (π k a σ) = conj (s.phi k a σ)) :
    ∀ j ≤ N, ∀ k a, (∑ σ, ∑ b, (s.conn.q3 k a b).val σ * (tr j).phi k b σ).im = 0 := by
  have H : ∀ j ≤ N, ∀ k a σ, (tr j).phi k a (π k a σ) = conj ((tr j).phi k a σ) := by
    intro j
    induction j with
    | zero =>
      intro _
      obtain ⟨lr, cg, -, -, e0⟩ := R.start
      rw [e0]
      exact h0
    | succ j ih =>
      intro hj
      obtain ⟨lr, cg, -, -, hst⟩ := R.state
      obtain ⟨hc, hf, -⟩ := hst j (by omega)
      obtain ⟨-, -, hphi⟩ := hf.step_fields (R.step j (by omega))
      rw [hphi, advanceFields_phi, hc.conn]
      exact conj_updatePhi h (ih (by omega)) _ _
  intro j hj k a
  exact conj_sum_im (conj_q3phi h (H j hj) k a)

/-- A new line has conjugate-closed coefficients. -/
theorem C42_new (dt : ℝ) (π : ℕ → Fin n → Equiv.Perm (Fin p)) (hπ : ∀ k a b, π k a = π k b) :
    (Disp.new dt : Disp n p).ConjClosed π := by
  refine ⟨?_, ?_, ?_, fun k a b _ => hπ k b a⟩ <;> simp [Disp.new, QEntry.val]

theorem coef_conj (pole res : ℂ) (dt : ℝ) :
    coefA (conj pole) (conj res) dt = conj (coefA pole res dt) ∧
    coefB (conj pole) (conj res) dt = conj (coefB pole res dt) ∧
    coefE (conj pole) dt = conj (coefE pole dt) := by
  have he : Complex.exp (conj pole * dt) = conj (Complex.exp (pole * dt)) := by
    rw [← Complex.exp_conj, map_mul, Complex.conj_ofReal]
  unfold coefA coefB coefE
  rw [he]
  simp [map_mul, map_sub, map_div₀]

/-- **C42**: adding a connector whose poles and residues come in conjugate pairs keeps the coefficients in conjugate
pairs (on a line, whose off-diagonal coefficients are always absent). -/
theorem C42_connector {D D' : Disp n p} {u : ℕ → V3} {m : ℕ} {x : V3} {c : Fin n} {M : RationalModel}
    (h : D.addConnector u m x c M = .ok D') {π : ℕ → Fin n → Equiv.Perm (Fin p)} (hD : D.ConjClosed π)
    (hdiag : ∀ k a b, a ≠ b → D.q1 k a b = none ∧ D.q2 k a b = none ∧ D.q3 k a b = none)
    {ρ : Equiv.Perm (Fin p)} (hp : ∀ s, M.pole (ρ s) = conj (M.pole s))
    (hr : ∀ s : Fin p, (M.residuesReal.getD (ρ s) 0 : ℂ) + Complex.I * (M.residuesImag.getD (ρ s) 0 : ℂ)
      = conj ((M.residuesReal.getD s 0 : ℂ) + Complex.I * (M.residuesImag.getD s 0 : ℂ))) :
    (∃ π', D'.ConjClosed π') ∧
    ∀ k a b, a ≠ b → D'.q1 k a b = none ∧ D'.q2 k a b = none ∧ D'.q3 k a b = none := by
  obtain ⟨k₀, -, A, -, -, q1, q2, q3, -⟩ := C35_placement.1 h
  have hdiag' : ∀ k a b, a ≠ b → D'.q1 k a b = none ∧ D'.q2 k a b = none ∧ D'.q3 k a b = none := by
    intro k a b hab
    have hne : ¬ (k = k₀ ∧ a = c ∧ b = c) := by rintro ⟨-, rfl, rfl⟩; exact hab rfl
    rw [q1, q2, q3, if_neg hne, if_neg hne, if_neg hne]
    exact hdiag k a b hab
  refine ⟨⟨fun k a => if k = k₀ ∧ a = c then ρ else π k a, ?_⟩, hdiag'⟩
  have hres : ∀ s : Fin p, M.residue (cellLength u k₀) (ρ s) = conj (M.residue (cellLength u k₀) s) := by
    intro s
    unfold RationalModel.residue
    rw [map_div₀, Complex.conj_ofReal, hr]
  have hnone : ∀ s, QEntry.val (p := p) none s = 0 := fun _ => rfl
  refine ⟨?_, ?_, ?_, ?_⟩
  · intro k a b s
    by_cases hab : a = b
    · subst hab
      by_cases hk : k = k₀ ∧ a = c
      · rw [q1, if_pos ⟨hk.1, hk.2, hk.2⟩, if_pos hk]
        simp only [QEntry.val, Option.getD_some]
        rw [hp, hres, (coef_conj _ _ _).1, map_neg]
      · rw [q1, if_neg (by tauto), if_neg hk]
        exact hD.q1 k a a s
    · rw [(hdiag' k a b hab).1, hnone, hnone, map_zero]
  · intro k a b s
    by_cases hab : a = b
    · subst hab
      by_cases hk : k = k₀ ∧ a = c
      · rw [q2, if_pos ⟨hk.1, hk.2, hk.2⟩, if_pos hk]
        simp only [QEntry.val, Option.getD_some]
        rw [hp, hres, (coef_conj _ _ _).2.1]
      · rw [q2, if_neg (by tauto), if_neg hk]
        exact hD.q2 k a a s
    · rw [(hdiag' k a b hab).2.1, hnone, hnone, map_zero]
  · intro k a b s
    by_cases hab : a = b
    · subst hab
      by_cases hk : k = k₀ ∧ a = c
      · rw [q3, if_pos ⟨hk.1, hk.2, hk.2⟩, if_pos hk]
        simp only [QEntry.val, Option.getD_some]
        rw [hp, (coef_conj _ 0 _).2.2]
      · rw [q3, if_neg (by tauto), if_neg hk]
        exact hD.q3 k a a s
    · rw [(hdiag' k a b hab).2.2, hnone, hnone, map_zero]
  · intro k a b hne
    by_cases hab : a = b
    · rw [hab]
    · exact absurd (by rw [(hdiag' k a b hab).2.2]; rfl) hne

/-- Non-vacuity of C42: a model with the conjugate poles `-1 ± i` is closed under the swap of its poles. -/
example : ∃ (M : RationalModel) (ρ : Equiv.Perm (Fin 2)), (∀ s, M.pole (ρ s) = conj (M.pole s)) ∧ M.pole 0 ≠ M.pole 1 ∧
    ∀ s : Fin 2, (M.residuesReal.getD (ρ s) 0 : ℂ) + Complex.I * (M.residuesImag.getD (ρ s) 0 : ℂ)
      = conj ((M.residuesReal.getD s 0 : ℂ) + Complex.I * (M.residuesImag.getD s 0 : ℂ)) := by
  refine ⟨⟨0, 0, [-1, -1], [1, -1], [1, 1], [2, -2]⟩, Equiv.swap 0 1, ?_, ?_, ?_⟩
  · intro s
    fin_cases s <;> simp [RationalModel.pole]
  · simp only [RationalModel.pole]
    intro h
    have := congrArg Complex.im h
    norm_num at this
  · intro s
    fin_cases s <;> simp [Complex.conj_ofNat]

end Mtln
