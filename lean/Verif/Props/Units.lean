import Mathlib.Tactic.FieldSimp
import Mathlib.Tactic.Module
import Mathlib.Tactic.Positivity
import Mathlib.Analysis.Matrix.Spectrum
import Mathlib.LinearAlgebra.Matrix.PosDef
import Verif.Props.Demo
import Verif.Lemmas.Run
import Verif.Lemmas.Cfl
import Verif.Spec.Symmetry
import Verif.Spec.Energy
import Verif.Model.LineApi

/-!
# C172: changes of variables and of units

Voltages `V' = A V`, currents `I' = B I` with invertible matrices `A`, `B` (the same at all nodes and cells), times `t' = τ t` and
lengths `x' = λ x`.  The per unit length matrices, the terminations, the sources and the connectors of the line in the new
variables are determined by their dimensions.
-/

namespace Mtln

open Matrix

variable {n p : ℕ}

/-- New variables: a matrix for voltages, one for currents, the unit of time and the unit of length. -/
structure NewVars (n : ℕ) where
  a : Mat n
  b : Mat n
  tau : ℝ
  lam : ℝ
  a_unit : a.det ≠ 0
  b_unit : b.det ≠ 0
  tau_pos : 0 < tau
  lam_pos : 0 < lam

namespace NewVars

variable (U : NewVars n)

/-- A matrix with voltages as results and currents as arguments (an impedance) in the new variables. -/
noncomputable def imp (X : Mat n) : Mat n := U.a * X * U.b⁻¹

/-- A matrix with currents as results and voltages as arguments (an admittance). -/
noncomputable def adm (X : Mat n) : Mat n := U.b * X * U.a⁻¹

/-- A matrix between voltages. -/
noncomputable def volt (X : Mat n) : Mat n := U.a * X * U.a⁻¹

/-- A matrix between currents. -/
noncomputable def amp (X : Mat n) : Mat n := U.b * X * U.b⁻¹

/-- A complex vector of voltages, one number per conductor. -/
noncomputable def cvec (x : Fin n → ℂ) (j : Fin n) : ℂ := ∑ z, (U.a j z : ℂ) * x z

/-- The voltages `x` multiplied by the complex matrix that belongs to `imp`. -/
noncomputable def cimp (q : Fin n → Fin n → ℂ) (i j : Fin n) : ℂ := ∑ y, ∑ x, (U.a i x : ℂ) * q x y * (U.b⁻¹ y j : ℂ)

/-- The complex matrix that belongs to `volt`. -/
noncomputable def cvolt (q : Fin n → Fin n → ℂ) (i j : Fin n) : ℂ := ∑ y, ∑ x, (U.a i x : ℂ) * q x y * (U.a⁻¹ y j : ℂ)

end NewVars

/-- The same probe in the new variables. -/
structure Probe.Changed (U : NewVars n) (q q' : Probe n) : Prop where
  type : q'.type = q.type
  t : q'.t = q.t.map (U.tau * ·)
  index : q'.index = q.index
  dt : q'.dt = U.tau * q.dt
  frame : q'.currentFrame = q.currentFrame
  val : match q.val, q'.val with
    | .empty, .empty => True
    | .view, .view => True
    | .rows r, .rows r' => r' = r.map fun x => (if q.type = "voltage" then U.a else U.b) *ᵥ x
    | _, _ => False

/-- The same connectors in the new variables. -/
structure Disp.Changed (U : NewVars n) (D D' : Disp n p) : Prop where
  dt : D'.dt = U.tau * D.dt
  d : ∀ k, D'.d k = (1 / U.lam) • U.imp (D.d k)
  e : ∀ k, D'.e k = (U.tau / U.lam) • U.imp (D.e k)
  q1sum : ∀ k, D'.q1sum k = (1 / U.lam) • U.imp (D.q1sum k)
  q2sum : ∀ k, D'.q2sum k = (1 / U.lam) • U.imp (D.q2sum k)
  q1 : ∀ k i j s, (D'.q1 k i j).val s = (1 / U.lam : ℝ) * U.cimp (fun x y => (D.q1 k x y).val s) i j
  q2 : ∀ k i j s, (D'.q2 k i j).val s = (1 / U.lam : ℝ) * U.cimp (fun x y => (D.q2 k x y).val s) i j
  q3 : ∀ k i j s, (D'.q3 k i j).val s = U.cvolt (fun x y => (D.q3 k x y).val s) i j

/-- The same matrices of the current update in the new variables. -/
structure LR.Changed (U : NewVars n) (x x' : LR n) : Prop where
  iTerm : ∀ k, x'.iTerm k = U.amp (x.iTerm k)
  vDiff : ∀ k, x'.vDiff k = U.adm (x.vDiff k)

/-- The same matrices of the voltage update in the new variables. -/
structure CG.Changed (U : NewVars n) (x x' : CG n) : Prop where
  vTerm : ∀ k, x'.vTerm k = U.volt (x.vTerm k)
  iDiff : ∀ k, x'.iDiff k = U.imp (x.iDiff k)

/-- Both are absent, or both are present and related. -/
def OptRel {α β : Type} (R : α → β → Prop) : Option α → Option β → Prop
  | none, none => True
  | some a, some b => R a b
  | _, _ => False

/-- The same line in the new variables. -/
structure MTL.Changed (U : NewVars n) (s s' : MTL n p) : Prop where
  m : s'.m = s.m
  u : ∀ k j, s'.u k j = U.lam * s.u k j
  du : ∀ k j, s'.du k j = U.lam * s.du k j
  dun : ∀ k, s'.dun k = U.lam * s.dun k
  l : ∀ k, s'.l k = (U.tau / U.lam) • U.imp (s.l k)
  c : ∀ k, s'.c k = (U.tau / U.lam) • U.adm (s.c k)
  r : ∀ k, s'.r k = (1 / U.lam) • U.imp (s.r k)
  g : ∀ k, s'.g k = (1 / U.lam) • U.adm (s.g k)
  zs : s'.zs = U.imp s.zs
  zl : s'.zl = U.imp s.zl
  dt : s'.dt = U.tau * s.dt
  time : s'.time = U.tau * s.time
  v : ∀ k, s'.v k = U.a *ᵥ s.v k
  i : ∀ k, s'.i k = U.b *ᵥ s.i k
  phi : ∀ k j x, s'.phi k j x = (1 / U.lam : ℝ) * U.cvec (fun z => s.phi k z x) j
  probes : List.Forall₂ (Probe.Changed U) s.probes s'.probes
  conn : s.conn.Changed U s'.conn
  vSources : ∀ k t, (fun j => s'.vSources k j (U.tau * t)) = U.a *ᵥ fun j => s.vSources k j t
  eL : ∀ k t, (fun j => s'.eL k j (U.tau * t)) = (1 / U.lam) • U.a *ᵥ fun j => s.eL k j t
  eT : ∀ k t, (fun j => s'.eT k j (U.tau * t)) = U.a *ᵥ fun j => s.eT k j t
  left1 : s'.left1 = U.volt s.left1
  left2 : s'.left2 = U.volt s.left2
  right1 : s'.right1 = U.volt s.right1
  right2 : s'.right2 = U.volt s.right2
  lr : OptRel (LR.Changed U) s.lr s'.lr
  cg : OptRel (CG.Changed U) s.cg s'.cg

/-- Two computations that end with related results or with the same error. -/
def PyRel {α β : Type} (R : α → β → Prop) (x : Py α) (y : Py β) : Prop :=
  (∃ a b, x = .ok a ∧ y = .ok b ∧ R a b) ∨ ∃ e, x = .error e ∧ y = .error e

theorem PyRel.ok {α β : Type} {R : α → β → Prop} {a : α} {b : β} (h : R a b) : PyRel R (.ok a) (.ok b) := .inl ⟨a, b, rfl, rfl, h⟩

theorem PyRel.error {α β : Type} {R : α → β → Prop} (e : PyErr) : PyRel R (.error e : Py α) (.error e : Py β) := .inr ⟨e, rfl, rfl⟩

theorem PyRel.bind {α β γ δ : Type} {R : α → β → Prop} {S : γ → δ → Prop} {x : Py α} {y : Py β} {f : α → Py γ} {g : β → Py δ}
    (h : PyRel R x y) (hf : ∀ a b, R a b → PyRel S (f a) (g b)) : PyRel S (x >>= f) (y >>= g) := by
  rcases h with ⟨a, b, rfl, rfl, hab⟩ | ⟨e, rfl, rfl⟩
  · exact hf a b hab
  · exact .inr ⟨e, rfl, rfl⟩

theorem PyRel.raiseIf {P Q : Prop} [Decidable P] [Decidable Q] (h : P ↔ Q) (e : PyErr) :
    PyRel (fun _ _ => True) (raiseIf P e) (raiseIf Q e) := by
  unfold Mtln.raiseIf
  by_cases hP : P
  · rw [if_pos hP, if_pos (h.mp hP)]; exact .error e
  · rw [if_neg hP, if_neg fun hQ => hP (h.mpr hQ)]; exact .ok trivial

theorem PyRel.pyAssert {P Q : Prop} [Decidable P] [Decidable Q] (h : P ↔ Q) :
    PyRel (fun _ _ => True) (pyAssert P) (pyAssert Q) := by
  unfold Mtln.pyAssert
  by_cases hP : P
  · rw [if_pos hP, if_pos (h.mp hP)]; exact .ok trivial
  · rw [if_neg hP, if_neg fun hQ => hP (h.mpr hQ)]; exact .error _

theorem PyRel.iterPy {α β : Type} {R : α → β → Prop} {f : α → Py α} {g : β → Py β}
    (h : ∀ a b, R a b → PyRel R (f a) (g b)) : ∀ (N : ℕ) (a : α) (b : β), R a b → PyRel R (iterPy f N a) (iterPy g N b)
  | 0, _, _, hab => .ok hab
  | N + 1, a, b, hab => (h a b hab).bind (PyRel.iterPy h N)

namespace NewVars

variable (U : NewVars n)

theorem lam_ne : U.lam ≠ 0 := U.lam_pos.ne'

theorem tau_ne : U.tau ≠ 0 := U.tau_pos.ne'

theorem ai_a : U.a⁻¹ * U.a = 1 := Matrix.nonsing_inv_mul _ (isUnit_iff_ne_zero.mpr U.a_unit)

theorem a_ai : U.a * U.a⁻¹ = 1 := Matrix.mul_nonsing_inv _ (isUnit_iff_ne_zero.mpr U.a_unit)

theorem bi_b : U.b⁻¹ * U.b = 1 := Matrix.nonsing_inv_mul _ (isUnit_iff_ne_zero.mpr U.b_unit)

theorem b_bi : U.b * U.b⁻¹ = 1 := Matrix.mul_nonsing_inv _ (isUnit_iff_ne_zero.mpr U.b_unit)

theorem ai_a_mul (X : Mat n) : U.a⁻¹ * (U.a * X) = X := by rw [← Matrix.mul_assoc, U.ai_a, Matrix.one_mul]

theorem bi_b_mul (X : Mat n) : U.b⁻¹ * (U.b * X) = X := by rw [← Matrix.mul_assoc, U.bi_b, Matrix.one_mul]

theorem aii : U.a⁻¹⁻¹ = U.a := Matrix.nonsing_inv_nonsing_inv _ (isUnit_iff_ne_zero.mpr U.a_unit)

theorem bii : U.b⁻¹⁻¹ = U.b := Matrix.nonsing_inv_nonsing_inv _ (isUnit_iff_ne_zero.mpr U.b_unit)

theorem imp_inv (X : Mat n) : (U.imp X)⁻¹ = U.adm X⁻¹ := by
  simp only [imp, adm, Matrix.mul_inv_rev, U.bii, Matrix.mul_assoc]

theorem adm_inv (X : Mat n) : (U.adm X)⁻¹ = U.imp X⁻¹ := by
  simp only [imp, adm, Matrix.mul_inv_rev, U.aii, Matrix.mul_assoc]

theorem volt_inv (X : Mat n) : (U.volt X)⁻¹ = U.volt X⁻¹ := by
  simp only [volt, Matrix.mul_inv_rev, U.aii, Matrix.mul_assoc]

theorem det_ai : (U.a⁻¹).det ≠ 0 := by rw [Matrix.det_nonsing_inv]; exact fun h => U.a_unit (by simpa using h)

theorem det_bi : (U.b⁻¹).det ≠ 0 := by rw [Matrix.det_nonsing_inv]; exact fun h => U.b_unit (by simpa using h)

theorem imp_det (X : Mat n) : (U.imp X).det = 0 ↔ X.det = 0 := by
  rw [imp, Matrix.det_mul, Matrix.det_mul, mul_eq_zero, mul_eq_zero]
  simp only [U.a_unit, U.det_bi, false_or, or_false]

theorem adm_det (X : Mat n) : (U.adm X).det = 0 ↔ X.det = 0 := by
  rw [adm, Matrix.det_mul, Matrix.det_mul, mul_eq_zero, mul_eq_zero]
  simp only [U.b_unit, U.det_ai, false_or, or_false]

theorem volt_det (X : Mat n) : (U.volt X).det = 0 ↔ X.det = 0 := by
  rw [volt, Matrix.det_mul, Matrix.det_mul, mul_eq_zero, mul_eq_zero]
  simp only [U.a_unit, U.det_ai, false_or, or_false]

theorem adm_imp (X Y : Mat n) : U.adm X * U.imp Y = U.amp (X * Y) := by
  simp only [imp, adm, amp, Matrix.mul_assoc, U.ai_a_mul]

theorem imp_adm (X Y : Mat n) : U.imp X * U.adm Y = U.volt (X * Y) := by
  simp only [imp, adm, volt, Matrix.mul_assoc, U.bi_b_mul]

theorem volt_volt (X Y : Mat n) : U.volt X * U.volt Y = U.volt (X * Y) := by
  simp only [volt, Matrix.mul_assoc, U.ai_a_mul]

theorem imp_vec (X : Mat n) (y : Fin n → ℝ) : U.imp X *ᵥ (U.b *ᵥ y) = U.a *ᵥ (X *ᵥ y) := by
  simp only [imp, Matrix.mulVec_mulVec, Matrix.mul_assoc, U.bi_b, Matrix.mul_one]

theorem adm_vec (X : Mat n) (y : Fin n → ℝ) : U.adm X *ᵥ (U.a *ᵥ y) = U.b *ᵥ (X *ᵥ y) := by
  simp only [adm, Matrix.mulVec_mulVec, Matrix.mul_assoc, U.ai_a, Matrix.mul_one]

theorem volt_vec (X : Mat n) (y : Fin n → ℝ) : U.volt X *ᵥ (U.a *ᵥ y) = U.a *ᵥ (X *ᵥ y) := by
  simp only [volt, Matrix.mulVec_mulVec, Matrix.mul_assoc, U.ai_a, Matrix.mul_one]

theorem amp_vec (X : Mat n) (y : Fin n → ℝ) : U.amp X *ᵥ (U.b *ᵥ y) = U.b *ᵥ (X *ᵥ y) := by
  simp only [amp, Matrix.mulVec_mulVec, Matrix.mul_assoc, U.bi_b, Matrix.mul_one]

theorem imp_add (X Y : Mat n) : U.imp (X + Y) = U.imp X + U.imp Y := by simp [imp, Matrix.mul_add, Matrix.add_mul]

theorem imp_sub (X Y : Mat n) : U.imp (X - Y) = U.imp X - U.imp Y := by simp [imp, Matrix.mul_sub, Matrix.sub_mul]

theorem imp_smul (c : ℝ) (X : Mat n) : U.imp (c • X) = c • U.imp X := by simp [imp]

theorem adm_add (X Y : Mat n) : U.adm (X + Y) = U.adm X + U.adm Y := by simp [adm, Matrix.mul_add, Matrix.add_mul]

theorem adm_sub (X Y : Mat n) : U.adm (X - Y) = U.adm X - U.adm Y := by simp [adm, Matrix.mul_sub, Matrix.sub_mul]

theorem adm_smul (c : ℝ) (X : Mat n) : U.adm (c • X) = c • U.adm X := by simp [adm]

theorem volt_add (X Y : Mat n) : U.volt (X + Y) = U.volt X + U.volt Y := by simp [volt, Matrix.mul_add, Matrix.add_mul]

theorem volt_sub (X Y : Mat n) : U.volt (X - Y) = U.volt X - U.volt Y := by simp [volt, Matrix.mul_sub, Matrix.sub_mul]

theorem volt_smul (c : ℝ) (X : Mat n) : U.volt (c • X) = c • U.volt X := by simp [volt]

theorem volt_one : U.volt 1 = 1 := by simp [volt, U.a_ai]

/-- Row by column with the vectors of both sides changed. -/
theorem cimp_vec (q : Fin n → Fin n → ℂ) (x : Fin n → ℝ) (i : Fin n) :
    ∑ j, U.cimp q i j * (((U.b *ᵥ x) j : ℝ) : ℂ) = U.cvec (fun z => ∑ y, q z y * (x y : ℂ)) i := by
  have h : ∀ y, ∑ j, (U.b⁻¹ y j : ℂ) * (((U.b *ᵥ x) j : ℝ) : ℂ) = (x y : ℂ) := by
    intro y
    have := congrFun (show U.b⁻¹ *ᵥ (U.b *ᵥ x) = x by rw [Matrix.mulVec_mulVec, U.bi_b, Matrix.one_mulVec]) y
    conv_rhs => rw [← this]
    rw [Matrix.mulVec, dotProduct]
    push_cast
    rfl
  unfold cimp cvec
  calc _ = ∑ y, ∑ z, (U.a i z : ℂ) * q z y * ∑ j, (U.b⁻¹ y j : ℂ) * (((U.b *ᵥ x) j : ℝ) : ℂ) := by
        simp only [Finset.sum_mul, Finset.mul_sum]
        rw [Finset.sum_comm]
        refine Finset.sum_congr rfl fun y _ => ?_
        rw [Finset.sum_comm]
        refine Finset.sum_congr rfl fun z _ => Finset.sum_congr rfl fun j _ => by ring
    _ = _ := by
        simp only [h, Finset.mul_sum]
        rw [Finset.sum_comm]
        refine Finset.sum_congr rfl fun z _ => Finset.sum_congr rfl fun y _ => by ring

theorem cvolt_vec (q : Fin n → Fin n → ℂ) (x : Fin n → ℂ) (i : Fin n) :
    ∑ j, U.cvolt q i j * U.cvec x j = U.cvec (fun z => ∑ y, q z y * x y) i := by
  have h : ∀ y, ∑ j, (U.a⁻¹ y j : ℂ) * U.cvec x j = x y := by
    intro y
    unfold cvec
    calc _ = ∑ z, ((U.a⁻¹ * U.a) y z : ℂ) * x z := by
          simp only [Finset.mul_sum]
          rw [Finset.sum_comm]
          refine Finset.sum_congr rfl fun z _ => ?_
          rw [Matrix.mul_apply]
          push_cast
          rw [Finset.sum_mul]
          exact Finset.sum_congr rfl fun j _ => by ring
      _ = x y := by
          rw [U.ai_a]
          simp only [Matrix.one_apply, apply_ite Complex.ofReal, Complex.ofReal_one, Complex.ofReal_zero, ite_mul, one_mul, zero_mul,
            Finset.sum_ite_eq, Finset.mem_univ, if_true]
  unfold cvolt
  rw [cvec]
  calc _ = ∑ y, ∑ z, (U.a i z : ℂ) * q z y * ∑ j, (U.a⁻¹ y j : ℂ) * U.cvec x j := by
        simp only [Finset.sum_mul, Finset.mul_sum]
        rw [Finset.sum_comm]
        refine Finset.sum_congr rfl fun y _ => ?_
        rw [Finset.sum_comm]
        refine Finset.sum_congr rfl fun z _ => Finset.sum_congr rfl fun j _ => by ring
    _ = _ := by
        simp only [h, Finset.mul_sum]
        rw [Finset.sum_comm]
        refine Finset.sum_congr rfl fun z _ => Finset.sum_congr rfl fun y _ => by ring

theorem cvec_add (x y : Fin n → ℂ) (j : Fin n) : U.cvec (fun z => x z + y z) j = U.cvec x j + U.cvec y j := by
  simp [cvec, mul_add, Finset.sum_add_distrib]

theorem cvec_mul (c : ℂ) (x : Fin n → ℂ) (j : Fin n) : U.cvec (fun z => c * x z) j = c * U.cvec x j := by
  unfold cvec
  rw [Finset.mul_sum]
  exact Finset.sum_congr rfl fun z _ => by ring

end NewVars

section step

variable {U : NewVars n}

theorem nodalLength_lam (lam : ℝ) (m : ℕ) {dun dun' : ℕ → ℝ} (h : ∀ k, dun' k = lam * dun k) (k : ℕ) :
    nodalLength m dun' k = lam * nodalLength m dun k := by
  unfold nodalLength
  split_ifs <;> simp only [h] <;> ring

theorem changed_lr {m : ℕ} {dt : ℝ} {dun dun' : ℕ → ℝ} {l l' r r' : ℕ → Mat n} {D D' : Disp n p}
    (hdun : ∀ k, dun' k = U.lam * dun k) (hl : ∀ k, l' k = (U.tau / U.lam) • U.imp (l k))
    (hr : ∀ k, r' k = (1 / U.lam) • U.imp (r k)) (hD : D.Changed U D') :
    PyRel (LR.Changed U) (updateLr m dt dun l r D) (updateLr m (U.tau * dt) dun' l' r' D') := by
  classical
  have ht := U.tau_ne
  have hlam := U.lam_ne
  unfold updateLr
  by_cases h0 : dt = 0
  · rw [if_pos h0, if_pos (by rw [h0, mul_zero])]; exact .error _
  rw [if_neg h0, if_neg (mul_ne_zero ht h0)]
  have h1 : ∀ k, lrF1 (U.tau * dt) dun' l' r' D' k = U.imp (lrF1 dt dun l r D k) := by
    intro k
    simp only [lrF1, hdun, hl, hr, hD.d, hD.e, hD.q1sum, U.imp_smul, U.imp_add, smul_add, smul_smul]
    congr 1
    · congr 1
      · congr 1
        · congr 1 <;> congr 1 <;> field_simp
        · congr 1; field_simp
      · congr 1; field_simp
    · congr 1; field_simp
  have h2 : ∀ k, lrF2 (U.tau * dt) dun' l' r' D' k = U.imp (lrF2 dt dun l r D k) := by
    intro k
    simp only [lrF2, hdun, hl, hr, hD.d, hD.e, hD.q2sum, U.imp_smul, U.imp_add, U.imp_sub, smul_add, smul_sub, smul_smul]
    congr 1
    · congr 1
      · congr 1
        · congr 1 <;> congr 1 <;> field_simp
        · congr 1; field_simp
      · congr 1; field_simp
    · congr 1; field_simp
  simp only [h1, h2, U.imp_det, U.imp_inv, U.adm_imp]
  split
  · exact .error _
  · exact .ok ⟨fun _ => rfl, fun _ => rfl⟩

theorem changed_cg {m : ℕ} {dt : ℝ} {dun dun' : ℕ → ℝ} {c c' g g' : ℕ → Mat n}
    (hdun : ∀ k, dun' k = U.lam * dun k) (hc : ∀ k, c' k = (U.tau / U.lam) • U.adm (c k))
    (hg : ∀ k, g' k = (1 / U.lam) • U.adm (g k)) :
    PyRel (CG.Changed U) (updateCg m dt dun c g) (updateCg m (U.tau * dt) dun' c' g') := by
  classical
  have ht := U.tau_ne
  have hlam := U.lam_ne
  unfold updateCg
  by_cases h0 : dt = 0
  · rw [if_pos h0, if_pos (by rw [h0, mul_zero])]; exact .error _
  rw [if_neg h0, if_neg (mul_ne_zero ht h0)]
  have h1 : ∀ k, cgF1 m (U.tau * dt) dun' c' g' k = U.adm (cgF1 m dt dun c g k) := by
    intro k
    simp only [cgF1, nodalLength_lam U.lam m hdun, hc, hg, U.adm_smul, U.adm_add, smul_add, smul_smul]
    congr 1 <;> congr 1 <;> field_simp
  have h2 : ∀ k, cgF2 m (U.tau * dt) dun' c' g' k = U.adm (cgF2 m dt dun c g k) := by
    intro k
    simp only [cgF2, nodalLength_lam U.lam m hdun, hc, hg, U.adm_smul, U.adm_sub, smul_sub, smul_smul]
    congr 1 <;> congr 1 <;> field_simp
  simp only [h1, h2, U.adm_det, U.adm_inv, U.imp_adm]
  split
  · exact .error _
  · exact .ok ⟨fun _ => rfl, fun _ => rfl⟩

theorem changed_lrTerms {s s' : MTL n p} (h : s.Changed U s') : PyRel (MTL.Changed U) s.updateLrTerms s'.updateLrTerms := by
  have key : PyRel (LR.Changed U) (updateLr s.m s.dt s.dun s.l s.r s.conn) (updateLr s'.m s'.dt s'.dun s'.l s'.r s'.conn) := by
    rw [h.m, h.dt]; exact changed_lr h.dun h.l h.r h.conn
  refine key.bind fun a b hab => .ok ?_
  exact { h with lr := hab }

theorem changed_cgTerms {s s' : MTL n p} (h : s.Changed U s') : PyRel (MTL.Changed U) s.updateCgTerms s'.updateCgTerms := by
  have key : PyRel (CG.Changed U) (updateCg s.m s.dt s.dun s.c s.g) (updateCg s'.m s'.dt s'.dun s'.c s'.g) := by
    rw [h.m, h.dt]; exact changed_cg h.dun h.c h.g
  refine key.bind fun a b hab => .ok ?_
  exact { h with cg := hab }

/-- The sampled sources in the new variables. -/
structure Sampled.Changed (U : NewVars n) (x x' : Sampled n) : Prop where
  vNow : ∀ k, x'.vNow k = U.a *ᵥ x.vNow k
  vPrev : ∀ k, x'.vPrev k = U.a *ᵥ x.vPrev k
  eLNow : ∀ k, x'.eLNow k = (1 / U.lam) • U.a *ᵥ x.eLNow k
  eLPrev : ∀ k, x'.eLPrev k = (1 / U.lam) • U.a *ᵥ x.eLPrev k
  eTNow : ∀ k, x'.eTNow k = U.a *ᵥ x.eTNow k
  eTPrev : ∀ k, x'.eTPrev k = U.a *ᵥ x.eTPrev k

theorem changed_sample {s s' : MTL n p} (h : s.Changed U s') : s.sample.Changed U s'.sample := by
  have e1 : s'.time - s'.dt = U.tau * (s.time - s.dt) := by rw [h.time, h.dt]; ring
  have e2 : s'.time + s'.dt / 2 = U.tau * (s.time + s.dt / 2) := by rw [h.time, h.dt]; ring
  have e3 : s'.time - s'.dt / 2 = U.tau * (s.time - s.dt / 2) := by rw [h.time, h.dt]; ring
  constructor
  · intro k; simp only [MTL.sample, sampleSources, h.time]; exact h.vSources k _
  · intro k; simp only [MTL.sample, sampleSources, e1]; exact h.vSources k _
  · intro k; simp only [MTL.sample, sampleSources, e2]; exact h.eL k _
  · intro k; simp only [MTL.sample, sampleSources, e3]; exact h.eL k _
  · intro k; simp only [MTL.sample, sampleSources, h.time]; exact h.eT k _
  · intro k; simp only [MTL.sample, sampleSources, e1]; exact h.eT k _

theorem changed_voltage {m : ℕ} {cg cg' : CG n} (hcg : cg.Changed U cg') {src src' : Sampled n} (hs : src.Changed U src')
    {v v' i i' : Grid n} (hv : ∀ k, v' k = U.a *ᵥ v k) (hi : ∀ k, i' k = U.b *ᵥ i k) (k : ℕ) :
    advanceVoltage m cg' src' v' i' k = U.a *ᵥ advanceVoltage m cg src v i k := by
  unfold advanceVoltage
  split
  · simp only [hv, hi, hcg.vTerm, hcg.iDiff, hs.eTNow, hs.eTPrev, ← Matrix.mulVec_sub, U.volt_vec, U.imp_vec]
  · exact hv k

theorem changed_current {m : ℕ} {lr lr' : LR n} (hlr : lr.Changed U lr') {src src' : Sampled n} (hs : src.Changed U src')
    {dun dun' : ℕ → ℝ} (hdun : ∀ k, dun' k = U.lam * dun k) {q q' : Grid n} (hq : ∀ k, q' k = (1 / U.lam) • U.a *ᵥ q k)
    {v v' i i' : Grid n} (hv : ∀ k, v' k = U.a *ᵥ v k) (hi : ∀ k, i' k = U.b *ᵥ i k) (k : ℕ) :
    advanceCurrent m lr' dun' q' src' v' i' k = U.b *ᵥ advanceCurrent m lr dun q src v i k := by
  have hlam := U.lam_ne
  unfold advanceCurrent
  split
  · have e1 : dun' k • q' k = U.a *ᵥ (dun k • q k) := by
      rw [hdun, hq, smul_smul, Matrix.mulVec_smul]; congr 1; field_simp
    have e2 : (dun' k / 2) • (src'.eLNow k + src'.eLPrev k) = U.a *ᵥ ((dun k / 2) • (src.eLNow k + src.eLPrev k)) := by
      rw [hdun, hs.eLNow, hs.eLPrev, ← smul_add, smul_smul, Matrix.mulVec_smul, Matrix.mulVec_add]; congr 1; field_simp
    rw [e1, e2]
    simp only [hv, hi, hlr.iTerm, hlr.vDiff, hs.eTNow, ← Matrix.mulVec_sub, ← Matrix.mulVec_add, U.adm_vec, U.amp_vec]
  · exact hi k

theorem changed_left {s s' : MTL n p} (h : s.Changed U s') {src src' : Sampled n} (hs : src.Changed U src')
    {v v' i i' : Grid n} (hv : ∀ k, v' k = U.a *ᵥ v k) (hi : ∀ k, i' k = U.b *ᵥ i k) (k : ℕ) :
    s'.advanceLeftTerminal src' v' i' k = U.a *ᵥ s.advanceLeftTerminal src v i k := by
  have ht := U.tau_ne
  have hlam := U.lam_ne
  unfold MTL.advanceLeftTerminal
  by_cases hk : k = 0
  · subst hk
    rw [Function.update_self, Function.update_self]
    have e : (s'.dun 0 / s'.dt) • (s'.zs * s'.c 0) = U.volt ((s.dun 0 / s.dt) • (s.zs * s.c 0)) := by
      rw [h.dun, h.dt, h.zs, h.c, Matrix.mul_smul, U.imp_adm, U.volt_smul, smul_smul]
      congr 1; field_simp
    have e1 : (s'.dun 0 / s'.dt) • (s'.zs * s'.c 0) *ᵥ (src'.eTNow 0 - src'.eTPrev 0)
        = U.a *ᵥ ((s.dun 0 / s.dt) • (s.zs * s.c 0) *ᵥ (src.eTNow 0 - src.eTPrev 0)) := by
      rw [← Matrix.smul_mulVec, ← Matrix.smul_mulVec, e, hs.eTNow, hs.eTPrev, ← Matrix.mulVec_sub, U.volt_vec]
    have e2 : (2 : ℝ) • s'.zs *ᵥ i' 0 = U.a *ᵥ ((2 : ℝ) • s.zs *ᵥ i 0) := by
      rw [h.zs, hi, U.imp_vec, Matrix.mulVec_smul]
    rw [e1, e2, h.left1, h.left2, hv, hs.vNow, hs.vPrev, U.volt_vec, ← Matrix.mulVec_add, ← Matrix.mulVec_neg, ← Matrix.mulVec_add,
      ← Matrix.mulVec_sub, U.volt_vec, ← Matrix.mulVec_add]
  · rw [Function.update_of_ne hk, Function.update_of_ne hk]; exact hv k

theorem changed_right {s s' : MTL n p} (h : s.Changed U s') {src src' : Sampled n} (hs : src.Changed U src')
    {v v' i i' : Grid n} (hv : ∀ k, v' k = U.a *ᵥ v k) (hi : ∀ k, i' k = U.b *ᵥ i k) (k : ℕ) :
    s'.advanceRightTerminal src' v' i' k = U.a *ᵥ s.advanceRightTerminal src v i k := by
  have ht := U.tau_ne
  have hlam := U.lam_ne
  unfold MTL.advanceRightTerminal
  rw [h.m]
  by_cases hk : k = s.m
  · subst hk
    rw [Function.update_self, Function.update_self]
    have e : (s'.dun (s.m - 1) / s'.dt) • (s'.zl * s'.c s.m) = U.volt ((s.dun (s.m - 1) / s.dt) • (s.zl * s.c s.m)) := by
      rw [h.dun, h.dt, h.zl, h.c, Matrix.mul_smul, U.imp_adm, U.volt_smul, smul_smul]
      congr 1; field_simp
    have e1 : (s'.dun (s.m - 1) / s'.dt) • (s'.zl * s'.c s.m) *ᵥ (src'.eTNow s.m - src'.eTPrev s.m)
        = U.a *ᵥ ((s.dun (s.m - 1) / s.dt) • (s.zl * s.c s.m) *ᵥ (src.eTNow s.m - src.eTPrev s.m)) := by
      rw [← Matrix.smul_mulVec, ← Matrix.smul_mulVec, e, hs.eTNow, hs.eTPrev, ← Matrix.mulVec_sub, U.volt_vec]
    have e2 : (2 : ℝ) • s'.zl *ᵥ i' (s.m - 1) = U.a *ᵥ ((2 : ℝ) • s.zl *ᵥ i (s.m - 1)) := by
      rw [h.zl, hi, U.imp_vec, Matrix.mulVec_smul]
    rw [e1, e2, h.right1, h.right2, hv, hs.vNow, hs.vPrev, U.volt_vec, ← Matrix.mulVec_add, ← Matrix.mulVec_add,
      ← Matrix.mulVec_sub, U.volt_vec, ← Matrix.mulVec_add]
  · rw [Function.update_of_ne hk, Function.update_of_ne hk]; exact hv k

theorem changed_q3phi {D D' : Disp n p} (hD : D.Changed U D') {phi phi' : Memory n p}
    (hphi : ∀ k j x, phi' k j x = (1 / U.lam : ℝ) * U.cvec (fun z => phi k z x) j) (k : ℕ) :
    D'.q3phi phi' k = (1 / U.lam) • U.a *ᵥ D.q3phi phi k := by
  funext i
  have e : ∀ x, ∑ j, (D'.q3 k i j).val x * phi' k j x
      = (1 / U.lam : ℝ) * U.cvec (fun z => ∑ y, (D.q3 k z y).val x * phi k y x) i := by
    intro x
    rw [← U.cvolt_vec, Finset.mul_sum]
    exact Finset.sum_congr rfl fun j _ => by rw [hD.q3, hphi]; ring
  simp only [Disp.q3phi, poleSum, e, ← Finset.mul_sum]
  rw [Complex.re_ofReal_mul, Pi.smul_apply, smul_eq_mul]
  congr 1
  simp only [NewVars.cvec]
  rw [Finset.sum_comm, Complex.re_sum]
  simp only [← Finset.mul_sum, Complex.re_ofReal_mul, Matrix.mulVec, dotProduct]
  rfl

theorem changed_phi {D D' : Disp n p} (hD : D.Changed U D') {phi phi' : Memory n p}
    (hphi : ∀ k j x, phi' k j x = (1 / U.lam : ℝ) * U.cvec (fun z => phi k z x) j) {i i' j j' : Grid n}
    (hi : ∀ k, i' k = U.b *ᵥ i k) (hj : ∀ k, j' k = U.b *ᵥ j k) (k : ℕ) (a : Fin n) (x : Fin p) :
    D'.updatePhi phi' i' j' k a x = (1 / U.lam : ℝ) * U.cvec (fun z => D.updatePhi phi i j k z x) a := by
  unfold Disp.updatePhi
  rw [U.cvec_add, U.cvec_add, mul_add, mul_add]
  congr 1
  · congr 1
    · rw [← U.cimp_vec, Finset.mul_sum]
      exact Finset.sum_congr rfl fun y _ => by rw [hD.q1, hj]; ring
    · rw [← U.cimp_vec, Finset.mul_sum]
      exact Finset.sum_congr rfl fun y _ => by rw [hD.q2, hi]; ring
  · rw [← U.cvolt_vec, Finset.mul_sum]
    exact Finset.sum_congr rfl fun y _ => by rw [hD.q3, hphi]; ring

theorem changed_fields {s s' : MTL n p} (h : s.Changed U s') {lr lr' : LR n} (hlr : lr.Changed U lr') {cg cg' : CG n}
    (hcg : cg.Changed U cg') : (s.advanceFields lr cg).Changed U (s'.advanceFields lr' cg') := by
  have hs := changed_sample h
  have h1 := changed_left h hs h.v h.i
  have h2 := changed_voltage (m := s.m) hcg hs h1 h.i
  have h3 := changed_right h hs h2 h.i
  have h4 := changed_current (m := s.m) hlr hs h.dun (changed_q3phi h.conn h.phi) h3 h.i
  have hm := h.m
  refine { h with v := ?v, i := ?i, phi := ?phi, time := ?time }
  case v => intro k; simp only [MTL.advanceFields, hm]; exact h3 k
  case i => intro k; simp only [MTL.advanceFields, hm]; exact h4 k
  case phi => intro k j x; simp only [MTL.advanceFields, hm]; exact changed_phi h.conn h.phi h4 h4 k j x
  case time =>
    show s'.time + s'.dt = U.tau * (s.time + s.dt)
    rw [h.time, h.dt]; ring

theorem changed_frame {q q' : Probe n} (h : q.Changed U q') (t : ℝ) (x : Col n) (_ : q.type = "voltage" ∨ q.type = "current") :
    (q.saveFrame t x).Changed U (q'.saveFrame (U.tau * t) ((if q.type = "voltage" then U.a else U.b) *ᵥ x)) := by
  obtain ⟨ty, ts, val, pos, idx, d, fr⟩ := q
  obtain ⟨ty', ts', val', pos', idx', d', fr'⟩ := q'
  obtain ⟨h1, h2, h3, h4, h5, h6⟩ := h
  simp only at h1 h2 h3 h4 h5 h6
  subst h1 h2 h3 h4 h5
  unfold Probe.saveFrame
  simp only [List.length_map]
  by_cases hf : fr' < ts.length
  · rw [if_pos hf, if_pos hf]
    refine ⟨rfl, by simp [List.map_set], rfl, rfl, rfl, ?_⟩
    cases val <;> cases val' <;> simp_all [List.map_set]
  · rw [if_neg hf, if_neg hf]
    refine ⟨rfl, by simp, rfl, rfl, rfl, ?_⟩
    cases val <;> cases val' <;> simp_all

theorem changed_probes {m : ℕ} {t : ℝ} {v v' i i' : Grid n} (hv : ∀ k, v' k = U.a *ᵥ v k) (hi : ∀ k, i' k = U.b *ᵥ i k)
    {ps ps' : List (Probe n)} (h : List.Forall₂ (Probe.Changed U) ps ps') :
    PyRel (List.Forall₂ (Probe.Changed U)) (updateProbes m t v i ps) (updateProbes m (U.tau * t) v' i' ps') := by
  induction h with
  | nil => exact .ok .nil
  | @cons q q' ps ps' hq _ ih =>
    unfold updateProbes
    have h1 : PyRel (Probe.Changed U) (q.update m t v i) (q'.update m (U.tau * t) v' i') := by
      unfold Probe.update
      rw [hq.type]
      split
      · rename_i hty
        refine .ok ?_
        have e1 : q'.stamp (U.tau * t) = U.tau * q.stamp t := by
          unfold Probe.stamp
          rw [hq.type, hq.dt]
          split
          · rfl
          · ring
        have e2 : q'.column m v' i' = (if q.type = "voltage" then U.a else U.b) *ᵥ q.column m v i := by
          unfold Probe.column
          rw [hq.type, hq.index]
          split
          · exact hv _
          · split <;> exact hi _
        rw [e1, e2]
        exact changed_frame hq _ _ hty
      · exact .error _
    exact h1.bind fun a b hab => ih.bind fun c d hcd => .ok (.cons hab hcd)

theorem changed_step {s s' : MTL n p} (h : s.Changed U s') : PyRel (MTL.Changed U) s.step s'.step := by
  have hlr := h.lr
  have hcg := h.cg
  unfold MTL.step
  cases e1 : s.lr with
  | none =>
    cases e1' : s'.lr with
    | none => exact .error _
    | some b => rw [e1, e1'] at hlr; exact hlr.elim
  | some a =>
    cases e1' : s'.lr with
    | none => rw [e1, e1'] at hlr; exact hlr.elim
    | some b =>
      cases e2 : s.cg with
      | none =>
        cases e2' : s'.cg with
        | none => exact .error _
        | some d => rw [e2, e2'] at hcg; exact hcg.elim
      | some c =>
        cases e2' : s'.cg with
        | none => rw [e2, e2'] at hcg; exact hcg.elim
        | some d =>
          rw [e1, e1'] at hlr
          rw [e2, e2'] at hcg
          have hf := changed_fields h hlr hcg
          have key := changed_probes (m := (s.advanceFields a c).m) (t := (s.advanceFields a c).time) hf.v hf.i hf.probes
          rw [← hf.time] at key
          nth_rw 2 [← hf.m] at key
          exact key.bind fun x y hxy => .ok { hf with probes := hxy }

theorem changed_resize {q q' : Probe n} (h : q.Changed U q') (N : ℕ) : (q.resizeFrames N).Changed U (q'.resizeFrames N) := by
  refine ⟨h.type, ?_, h.index, h.dt, rfl, ?_⟩
  · simp [Probe.resizeFrames]
  · simp [Probe.resizeFrames]

/-- **C172** A run of the line in the new variables, until the final time in the new unit, ends as the run of the line does: with
the same error, or with the same line in the new variables. -/
theorem C172_run {s s' : MTL n p} (h : s.Changed U s') (T : ℝ) :
    PyRel (MTL.Changed U) (s.runUntil T) (s'.runUntil (U.tau * T)) := by
  unfold MTL.runUntil
  have hN : PyRel (fun N N' : ℕ => N' = N) (timeRangeLen T s.dt) (timeRangeLen (U.tau * T) s'.dt) := by
    have ht := U.tau_ne
    unfold timeRangeLen
    rw [h.dt]
    by_cases h0 : s.dt = 0
    · rw [if_pos h0, if_pos (by rw [h0, mul_zero])]; exact .error _
    · rw [if_neg h0, if_neg (mul_ne_zero ht h0), mul_div_mul_left _ _ ht]
      exact .ok rfl
  refine hN.bind fun N N' e => ?_
  subst e
  refine (changed_lrTerms h).bind fun a a' ha => (changed_cgTerms ha).bind fun b b' hb => ?_
  refine PyRel.iterPy (fun _ _ => changed_step) _ _ _ ?_
  refine { hb with probes := ?_ }
  simp only [List.forall₂_map_left_iff, List.forall₂_map_right_iff]
  exact hb.probes.imp fun _ _ hq => changed_resize hq _

end step

/-- The line in the new variables. -/
noncomputable def MTL.change (U : NewVars n) (s : MTL n p) : MTL n p :=
  { name := s.name
    m := s.m
    u := fun k j => U.lam * s.u k j
    du := fun k j => U.lam * s.du k j
    dun := fun k => U.lam * s.dun k
    l := fun k => (U.tau / U.lam) • U.imp (s.l k)
    c := fun k => (U.tau / U.lam) • U.adm (s.c k)
    r := fun k => (1 / U.lam) • U.imp (s.r k)
    g := fun k => (1 / U.lam) • U.adm (s.g k)
    zs := U.imp s.zs
    zl := U.imp s.zl
    dt := U.tau * s.dt
    time := U.tau * s.time
    v := fun k => U.a *ᵥ s.v k
    i := fun k => U.b *ᵥ s.i k
    phi := fun k j x => (1 / U.lam : ℝ) * U.cvec (fun z => s.phi k z x) j
    probes := s.probes.map fun q =>
      { type := q.type
        t := q.t.map (U.tau * ·)
        val := match q.val with
          | .rows r => .rows (r.map fun x => (if q.type = "voltage" then U.a else U.b) *ᵥ x)
          | x => x
        position := fun j => U.lam * q.position j
        index := q.index
        dt := U.tau * q.dt
        currentFrame := q.currentFrame }
    conn :=
      { dt := U.tau * s.conn.dt
        q1 := fun k i j => some fun x => (1 / U.lam : ℝ) * U.cimp (fun y z => (s.conn.q1 k y z).val x) i j
        q2 := fun k i j => some fun x => (1 / U.lam : ℝ) * U.cimp (fun y z => (s.conn.q2 k y z).val x) i j
        q3 := fun k i j => some fun x => U.cvolt (fun y z => (s.conn.q3 k y z).val x) i j
        d := fun k => (1 / U.lam) • U.imp (s.conn.d k)
        e := fun k => (U.tau / U.lam) • U.imp (s.conn.e k)
        q1sum := fun k => (1 / U.lam) • U.imp (s.conn.q1sum k)
        q2sum := fun k => (1 / U.lam) • U.imp (s.conn.q2sum k) }
    vSources := fun k j t => (U.a *ᵥ fun x => s.vSources k x (t / U.tau)) j
    eL := fun k j t => ((1 / U.lam) • U.a *ᵥ fun x => s.eL k x (t / U.tau)) j
    eT := fun k j t => (U.a *ᵥ fun x => s.eT k x (t / U.tau)) j
    left1 := U.volt s.left1
    left2 := U.volt s.left2
    right1 := U.volt s.right1
    right2 := U.volt s.right2
    lr := s.lr.map fun x => { iTerm := fun k => U.amp (x.iTerm k), vDiff := fun k => U.adm (x.vDiff k) }
    cg := s.cg.map fun x => { vTerm := fun k => U.volt (x.vTerm k), iDiff := fun k => U.imp (x.iDiff k) } }

/-- Every line has a description in every new variables. -/
theorem change_changed (U : NewVars n) (s : MTL n p) : s.Changed U (s.change U) where
  m := rfl
  u _ _ := rfl
  du _ _ := rfl
  dun _ := rfl
  l _ := rfl
  c _ := rfl
  r _ := rfl
  g _ := rfl
  zs := rfl
  zl := rfl
  dt := rfl
  time := rfl
  v _ := rfl
  i _ := rfl
  phi _ _ _ := rfl
  probes := by
    simp only [MTL.change, List.forall₂_map_right_iff]
    refine List.forall₂_same.mpr fun q _ => ⟨rfl, rfl, rfl, rfl, rfl, ?_⟩
    cases h : q.val <;> simp
  conn := ⟨rfl, fun _ => rfl, fun _ => rfl, fun _ => rfl, fun _ => rfl, fun _ _ _ _ => rfl, fun _ _ _ _ => rfl, fun _ _ _ _ => rfl⟩
  vSources k t := by
    funext j
    simp only [MTL.change, mul_div_cancel_left₀ _ U.tau_ne]
  eL k t := by
    funext j
    simp only [MTL.change, mul_div_cancel_left₀ _ U.tau_ne]
  eT k t := by
    funext j
    simp only [MTL.change, mul_div_cancel_left₀ _ U.tau_ne]
  left1 := rfl
  left2 := rfl
  right1 := rfl
  right2 := rfl
  lr := by
    simp only [MTL.change]
    cases s.lr
    · trivial
    · exact ⟨fun _ => rfl, fun _ => rfl⟩
  cg := by
    simp only [MTL.change]
    cases s.cg
    · trivial
    · exact ⟨fun _ => rfl, fun _ => rfl⟩

/-- **C172** The terminal coefficients are those of the line in the new variables. -/
theorem C172_terminal {U : NewVars n} {s s' : MTL n p} (h : s.Changed U s') :
    PyRel (MTL.Changed U) s.computeTerminalTerms s'.computeTerminalTerms := by
  have ht := U.tau_ne
  have hlam := U.lam_ne
  have f1 : ∀ k q z z', z' = U.imp z →
      termF1 s'.dt (s'.dun k) z' (s'.c q) (s'.g q) = U.volt (termF1 s.dt (s.dun k) z (s.c q) (s.g q)) := by
    intro k q z z' hz
    simp only [termF1, hz, h.dt, h.dun, h.c, h.g, Matrix.mul_smul, U.imp_adm, U.volt_add, U.volt_smul, U.volt_one, smul_smul]
    congr 1
    congr 1 <;> congr 1 <;> field_simp
  have f2 : ∀ k q z z', z' = U.imp z →
      termF2 s'.dt (s'.dun k) z' (s'.c q) (s'.g q) = U.volt (termF2 s.dt (s.dun k) z (s.c q) (s.g q)) := by
    intro k q z z' hz
    simp only [termF2, hz, h.dt, h.dun, h.c, h.g, Matrix.mul_smul, U.imp_adm, U.volt_sub, U.volt_smul, U.volt_one, smul_smul]
    congr 1
    congr 1 <;> congr 1 <;> field_simp
  unfold MTL.computeTerminalTerms
  refine (PyRel.raiseIf (by rw [h.dt]; simp [ht]) _).bind fun _ _ _ => ?_
  refine (PyRel.raiseIf (by rw [f1 _ _ _ _ h.zs, U.volt_det]) _).bind fun _ _ _ => ?_
  refine (PyRel.raiseIf (by rw [h.m, f1 _ _ _ _ h.zl, U.volt_det]) _).bind fun _ _ _ => .ok ?_
  refine { h with left1 := ?l1, left2 := ?l2, right1 := ?r1, right2 := ?r2 }
  case l1 => show _ = U.volt (_ * _); rw [f1 _ _ _ _ h.zs, f2 _ _ _ _ h.zs, U.volt_inv, U.volt_volt]
  case l2 => show _ = U.volt _; rw [f1 _ _ _ _ h.zs, U.volt_inv]
  case r1 => show _ = U.volt (_ * _); rw [h.m, f1 _ _ _ _ h.zl, f2 _ _ _ _ h.zl, U.volt_inv, U.volt_volt]
  case r2 => show _ = U.volt _; rw [h.m, f1 _ _ _ _ h.zl, U.volt_inv]

/-- The voltages and currents of the line, from those in the new variables. -/
theorem MTL.Changed.back {U : NewVars n} {s s' : MTL n p} (h : s.Changed U s') (k : ℕ) :
    s.v k = U.a⁻¹ *ᵥ s'.v k ∧ s.i k = U.b⁻¹ *ᵥ s'.i k := by
  rw [h.v, h.i, Matrix.mulVec_mulVec, Matrix.mulVec_mulVec, U.ai_a, U.bi_b, Matrix.one_mulVec, Matrix.one_mulVec]
  exact ⟨rfl, rfl⟩

/-- **C172** A line with the same symmetric positive definite inductances and capacitances in all cells has modes: variables, with
the same units of time and length, in which the inductances are diagonal and positive and the capacitances are one. -/
theorem C172_modes (L C : Mat n) (hL : SPD L) (hC : SPD C) : ∃ (U : NewVars n) (d : Fin n → ℝ), U.tau = 1 ∧ U.lam = 1 ∧
    (∀ x, 0 < d x) ∧ U.imp L = Matrix.diagonal d ∧ U.adm C = 1 := by
  obtain ⟨S, hS, hdet⟩ := hC.factor
  have hSu := isUnit_iff_ne_zero.mpr hdet
  have hSt : IsUnit Sᵀ.det := by rw [Matrix.det_transpose]; exact hSu
  have hM : (S * L * Sᵀ).IsHermitian := by
    rw [Matrix.IsHermitian, conjTranspose_eq_transpose_of_trivial, transpose_mul, transpose_mul, transpose_transpose, hL.symm,
      Matrix.mul_assoc]
  obtain ⟨Q, hQ⟩ : ∃ Q : Mat n, Q = hM.eigenvectorUnitary := ⟨_, rfl⟩
  have q1 : Qᵀ * Q = 1 := by
    have := Unitary.coe_star_mul_self hM.eigenvectorUnitary
    rwa [← hQ, star_eq_conjTranspose, conjTranspose_eq_transpose_of_trivial] at this
  have q2 : Q * Qᵀ = 1 := mul_eq_one_comm.mp q1
  have hdQ : Qᵀ.det ≠ 0 := fun h => by
    have := congrArg Matrix.det q1
    rw [Matrix.det_mul, h, zero_mul, Matrix.det_one] at this
    exact zero_ne_one this
  have hD : Qᵀ * (S * L * Sᵀ) * Q = diagonal hM.eigenvalues := by
    have := hM.conjStarAlgAut_star_eigenvectorUnitary
    rw [Unitary.conjStarAlgAut_star_apply, ← hQ, star_eq_conjTranspose, conjTranspose_eq_transpose_of_trivial] at this
    rw [this]
    rfl
  have hpos : ∀ x, 0 < hM.eigenvalues x := by
    intro x
    have e : hM.eigenvalues x = (Sᵀ *ᵥ (Q *ᵥ Pi.single x 1)) ⬝ᵥ (L *ᵥ (Sᵀ *ᵥ (Q *ᵥ Pi.single x 1))) := by
      have h1 : (Pi.single x 1 : Fin n → ℝ) ⬝ᵥ (diagonal hM.eigenvalues *ᵥ Pi.single x 1) = hM.eigenvalues x := by
        simp [Matrix.diagonal_mulVec_single]
      rw [← h1, ← hD]
      simp only [← Matrix.mulVec_mulVec]
      rw [Matrix.dotProduct_mulVec, Matrix.vecMul_transpose, Matrix.dotProduct_mulVec, ← Matrix.mulVec_transpose]
    rw [e]
    refine hL.pos _ fun h0 => ?_
    have h2 : Qᵀ *ᵥ ((Sᵀ)⁻¹ *ᵥ (Sᵀ *ᵥ (Q *ᵥ Pi.single x 1))) = (Pi.single x 1 : Fin n → ℝ) := by
      simp only [Matrix.mulVec_mulVec, Matrix.mul_assoc]
      rw [← Matrix.mul_assoc (Sᵀ)⁻¹, Matrix.nonsing_inv_mul _ hSt, Matrix.one_mul, q1, Matrix.one_mulVec]
    rw [h0, Matrix.mulVec_zero, Matrix.mulVec_zero] at h2
    have := congrFun h2 x
    simp at this
  have hQi : Qᵀ⁻¹ = Q := Matrix.inv_eq_right_inv q1
  refine ⟨⟨Qᵀ * S, Qᵀ * (Sᵀ)⁻¹, 1, 1, ?_, ?_, one_pos, one_pos⟩, hM.eigenvalues, rfl, rfl, hpos, ?_, ?_⟩
  · rw [Matrix.det_mul]; exact mul_ne_zero hdQ hdet
  · rw [Matrix.det_mul, Matrix.det_nonsing_inv]
    exact mul_ne_zero hdQ (by simpa using hdet)
  · rw [← hD]
    simp only [NewVars.imp, Matrix.mul_inv_rev, Matrix.nonsing_inv_nonsing_inv _ hSt, hQi, Matrix.mul_assoc]
  · simp only [NewVars.adm, Matrix.mul_inv_rev, hQi]
    rw [hS]
    calc Qᵀ * Sᵀ⁻¹ * (Sᵀ * S) * (S⁻¹ * Q) = Qᵀ * (Sᵀ⁻¹ * Sᵀ) * (S * S⁻¹) * Q := by simp only [Matrix.mul_assoc]
      _ = 1 := by
        rw [Matrix.nonsing_inv_mul _ hSt, Matrix.mul_nonsing_inv _ hSu, Matrix.mul_one, Matrix.mul_one, q1]

/-- **C172** A lossless line without connectors, with the same symmetric positive definite inductances and capacitances everywhere
and short circuits at both ends: in the variables of its modes no mode is coupled with the others, whatever the sources.  (C19 then
says that each of them can be computed alone.) -/
theorem C172_decoupled (L C : Mat n) (hL : SPD L) (hC : SPD C) : ∃ U : NewVars n, U.tau = 1 ∧ U.lam = 1 ∧
    ∀ (s s' : MTL n p), s.Changed U s' → (∀ k, s.l k = L) → (∀ k, s.c k = C) → (∀ k, s.r k = 0) → (∀ k, s.g k = 0) →
      s.zs = 0 → s.zl = 0 → (∀ k, s.conn.d k = 0 ∧ s.conn.e k = 0 ∧ s.conn.q1sum k = 0 ∧ s.conn.q2sum k = 0) →
      (∀ k a b, s.conn.q1 k a b = none ∧ s.conn.q2 k a b = none ∧ s.conn.q3 k a b = none) →
      ∀ x, s'.Uncoupled {x} := by
  obtain ⟨U, d, h1, h2, hd, hl, hc⟩ := C172_modes L C hL hC
  refine ⟨U, h1, h2, fun s s' h sl sc sr sg szs szl sD sq x => ?_⟩
  have i0 : U.imp 0 = 0 := by simp [NewVars.imp]
  have a0 : U.adm 0 = 0 := by simp [NewVars.adm]
  have z0 : ∀ S : Finset (Fin n), Decoupled S (0 : Mat n) := fun _ _ _ _ _ => rfl
  constructor
  · intro k i hi j hj
    rw [h.l, sl, hl, h1, h2, div_one, one_smul]
    refine Matrix.diagonal_apply_ne _ fun e => hj (e ▸ hi)
  · intro k i hi j hj
    rw [h.c, sc, hc, h1, h2, div_one, one_smul]
    exact Matrix.one_apply_ne fun e => hj (e ▸ hi)
  · intro k; rw [h.r, sr, i0, smul_zero]; exact z0 _
  · intro k; rw [h.g, sg, a0, smul_zero]; exact z0 _
  · rw [h.zs, szs, i0]; exact z0 _
  · rw [h.zl, szl, i0]; exact z0 _
  · intro k; rw [h.conn.d, (sD k).1, i0, smul_zero]; exact z0 _
  · intro k; rw [h.conn.e, (sD k).2.1, i0, smul_zero]; exact z0 _
  · intro k; rw [h.conn.q1sum, (sD k).2.2.1, i0, smul_zero]; exact z0 _
  · intro k; rw [h.conn.q2sum, (sD k).2.2.2, i0, smul_zero]; exact z0 _
  · intro k i _ j _; funext y; rw [h.conn.q1]; simp [NewVars.cimp, (sq k _ _).1, QEntry.val]
  · intro k i _ j _; funext y; rw [h.conn.q2]; simp [NewVars.cimp, (sq k _ _).2.1, QEntry.val]
  · intro k i _ j _; funext y; rw [h.conn.q3]; simp [NewVars.cvolt, (sq k _ _).2.2, QEntry.val]

/-- Sums and differences of the voltages of two conductors. -/
noncomputable def demoMix : NewVars 2 where
  a := !![1, 1; 1, -1]
  b := !![1, 1; 1, -1]
  tau := 2
  lam := 3
  a_unit := by rw [Matrix.det_fin_two_of]; norm_num
  b_unit := by rw [Matrix.det_fin_two_of]; norm_num
  tau_pos := by norm_num
  lam_pos := by norm_num

/-- Non-vacuity: the demo line with two conductors runs in the new variables, and ends with the sum of its voltages. -/
example : ∃ s s' : MTL 2 0, (demoWide 2 0).runUntil 5 = .ok s ∧ ((demoWide 2 0).change demoMix).runUntil 10 = .ok s' ∧
    ∀ k, s'.v k 0 = s.v k 0 + s.v k 1 := by
  obtain ⟨s, hs⟩ := wide_run 2 0 5 (demoWide 2 0) rfl rfl rfl rfl rfl rfl rfl rfl rfl
  rcases C172_run (change_changed demoMix (demoWide 2 0)) 5 with ⟨a, b, ha, hb, hab⟩ | ⟨e, he, -⟩
  · rw [hs] at ha
    cases ha
    refine ⟨s, b, hs, ?_, fun k => ?_⟩
    · rw [← hb]; congr 1; norm_num [demoMix]
    · rw [hab.v]; simp [demoMix, Matrix.mulVec, dotProduct, Fin.sum_univ_two]
  · rw [hs] at he; cases he

end Mtln
