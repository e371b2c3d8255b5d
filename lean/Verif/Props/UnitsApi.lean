import Mathlib.Data.Real.Pointwise
import Mathlib.LinearAlgebra.Matrix.Charpoly.Coeff
import Verif.Props.Units
import Verif.Model.Construct
import Verif.Props.Construct

/-!
# C173: the interface of lines has no units of its own

Volts, amperes, seconds and metres may be replaced by any other units: the constructor and every method give the same line in the
new units when their arguments are given in the new units.
-/

namespace Mtln

open Matrix

variable {n p : ℕ}

/-- The factors of the units of voltage, current, time and length. -/
structure UnitFactors where
  volt : ℝ
  amp : ℝ
  tau : ℝ
  lam : ℝ
  volt_pos : 0 < volt
  amp_pos : 0 < amp
  tau_pos : 0 < tau
  lam_pos : 0 < lam

namespace UnitFactors

variable (F : UnitFactors)

/-- New units are new variables of a special kind. -/
def vars (n : ℕ) : NewVars n where
  a := F.volt • 1
  b := F.amp • 1
  tau := F.tau
  lam := F.lam
  a_unit := by rw [Matrix.det_smul]; simp [F.volt_pos.ne']
  b_unit := by rw [Matrix.det_smul]; simp [F.amp_pos.ne']
  tau_pos := F.tau_pos
  lam_pos := F.lam_pos

/-- The factor of resistances. -/
noncomputable def ohm : ℝ := F.volt / F.amp

theorem ohm_pos : 0 < F.ohm := div_pos F.volt_pos F.amp_pos

theorem a_inv : (F.vars n).a⁻¹ = F.volt⁻¹ • 1 :=
  Matrix.inv_eq_right_inv (by simp [vars, smul_smul, F.volt_pos.ne'])

theorem b_inv : (F.vars n).b⁻¹ = F.amp⁻¹ • 1 :=
  Matrix.inv_eq_right_inv (by simp [vars, smul_smul, F.amp_pos.ne'])

theorem imp_eq (X : Mat n) : (F.vars n).imp X = F.ohm • X := by
  rw [NewVars.imp, F.b_inv]
  simp only [vars, Matrix.smul_mul, Matrix.mul_smul, Matrix.one_mul, Matrix.mul_one, smul_smul, ohm]
  congr 1
  ring

theorem adm_eq (X : Mat n) : (F.vars n).adm X = F.ohm⁻¹ • X := by
  rw [NewVars.adm, F.a_inv]
  simp only [vars, Matrix.smul_mul, Matrix.mul_smul, Matrix.one_mul, Matrix.mul_one, smul_smul, ohm]
  congr 1
  rw [inv_div]
  ring

theorem volt_eq (X : Mat n) : (F.vars n).volt X = X := by
  rw [NewVars.volt, F.a_inv]
  simp [vars, smul_smul, F.volt_pos.ne']

theorem vec_a (x : Col n) : (F.vars n).a *ᵥ x = F.volt • x := by
  show (F.volt • (1 : Mat n)) *ᵥ x = _
  rw [Matrix.smul_mulVec, Matrix.one_mulVec]

theorem vec_b (x : Col n) : (F.vars n).b *ᵥ x = F.amp • x := by
  show (F.amp • (1 : Mat n)) *ᵥ x = _
  rw [Matrix.smul_mulVec, Matrix.one_mulVec]

theorem scalar_sum (x y : ℝ) (q : Fin n → Fin n → ℂ) (i j : Fin n) :
    ∑ z, ∑ w, (((x • (1 : Mat n)) i w : ℝ) : ℂ) * q w z * (((y • (1 : Mat n)) z j : ℝ) : ℂ) = ((x * y : ℝ) : ℂ) * q i j := by
  rw [Finset.sum_eq_single j, Finset.sum_eq_single i]
  · simp; ring
  · intro w _ hw; simp [Matrix.one_apply_ne hw.symm]
  · simp
  · intro z _ hz; simp [Matrix.one_apply_ne hz]
  · simp

theorem cimp_eq (q : Fin n → Fin n → ℂ) (i j : Fin n) : (F.vars n).cimp q i j = (F.ohm : ℂ) * q i j := by
  rw [NewVars.cimp, F.b_inv]
  exact scalar_sum F.volt F.amp⁻¹ q i j

theorem cvolt_eq (q : Fin n → Fin n → ℂ) (i j : Fin n) : (F.vars n).cvolt q i j = q i j := by
  rw [NewVars.cvolt, F.a_inv]
  refine (scalar_sum F.volt F.volt⁻¹ q i j).trans ?_
  rw [mul_inv_cancel₀ F.volt_pos.ne']
  simp

end UnitFactors

/-- The same line in the new units. -/
structure MTL.Rescaled (F : UnitFactors) (s s' : MTL n p) : Prop where
  changed : s.Changed (F.vars n) s'
  q1 : ∀ k i j, s'.conn.q1 k i j = none ↔ s.conn.q1 k i j = none
  q2 : ∀ k i j, s'.conn.q2 k i j = none ↔ s.conn.q2 k i j = none
  q3 : ∀ k i j, s'.conn.q3 k i j = none ↔ s.conn.q3 k i j = none

/-! ## Positions -/

theorem norm3_units {lam : ℝ} (h : 0 < lam) (x : V3) : norm3 (fun j => lam * x j) = lam * norm3 x := by
  unfold norm3
  rw [show (lam * x 0) ^ 2 + (lam * x 1) ^ 2 + (lam * x 2) ^ 2 = lam ^ 2 * (x 0 ^ 2 + x 1 ^ 2 + x 2 ^ 2) by ring,
    Real.sqrt_mul (by positivity), Real.sqrt_sq h.le]

theorem argmin_units {lam : ℝ} (h : 0 < lam) (f : ℕ → ℝ) (N : ℕ) : argmin (fun k => lam * f k) N = argmin f N := by
  induction N with
  | zero => rfl
  | succ N ih =>
    unfold argmin
    rw [ih]
    simp only [mul_lt_mul_iff_of_pos_left h]

/-- A position in the new unit of length. -/
def Pos.units (lam : ℝ) : Pos → Pos
  | .float z => .float (lam * z)
  | .array x => .array fun j => lam * x j
  | .list x => .list fun j => lam * x j

theorem Pos.units_toV3 (lam : ℝ) (x : Pos) : (x.units lam).toV3 = fun j => lam * x.toV3 j := by
  cases x with
  | float z => funext j; fin_cases j <;> simp [Pos.units, Pos.toV3]
  | array x => rfl
  | list x => rfl

theorem nearest_units {lam : ℝ} (h : 0 < lam) {u u' : ℕ → V3} (hu : ∀ k j, u' k j = lam * u k j) (m : ℕ) (x : V3) :
    nearest u' m (fun j => lam * x j) = nearest u m x := by
  have e : (fun k => norm3 fun j => |u' k j - lam * x j|) = fun k => lam * norm3 fun j => |u k j - x j| := by
    funext k
    rw [← norm3_units h]
    congr 1
    funext j
    rw [hu, ← mul_sub, abs_mul, abs_of_pos h]
  unfold nearest
  rw [e, argmin_units h]

theorem outOfBox_units {lam : ℝ} (h : 0 < lam) (a b x : V3) :
    outOfBox (fun j => lam * a j) (fun j => lam * b j) (fun j => lam * x j) ↔ outOfBox a b x := by
  unfold outOfBox
  simp only [gt_iff_lt, mul_lt_mul_iff_of_pos_left h]

section api

variable {F : UnitFactors}

theorem run_conn {s s' : MTL n p} {T : ℝ} (h : s.runUntil T = .ok s') : s'.conn = s.conn := by
  obtain ⟨-, N, tr, R⟩ := (runUntil_ok_iff T s s').mp h
  obtain ⟨lr, cg, -, -, hst⟩ := R.state
  have := (hst N le_rfl).1
  rw [R.final] at this
  exact this.conn

/-- **C173** `run_until`. -/
theorem C173_run {s s' : MTL n p} (h : s.Rescaled F s') (T : ℝ) :
    PyRel (MTL.Rescaled F) (s.runUntil T) (s'.runUntil (F.tau * T)) := by
  rcases C172_run h.changed T with ⟨a, b, ha, hb, hab⟩ | he
  · have h1 := run_conn ha
    have h2 := run_conn hb
    refine .inl ⟨a, b, ha, hb, hab, ?_, ?_, ?_⟩
    · rw [h1, h2]; exact h.q1
    · rw [h1, h2]; exact h.q2
    · rw [h1, h2]; exact h.q3
  · exact .inr he

/-- **C173** `add_voltage_source`. -/
theorem C173_source {s s' : MTL n p} (h : s.Rescaled F s') (x : Pos) (c : Fin n) (f : ℝ → ℝ) :
    (s.addVoltageSource x c f).Rescaled F (s'.addVoltageSource (x.units F.lam) c fun t => F.volt * f (t / F.tau)) := by
  refine ⟨{ h.changed with vSources := ?_ }, h.q1, h.q2, h.q3⟩
  intro k t
  have hk : nearest s'.u s'.m (x.units F.lam).toV3 = nearest s.u s.m x.toV3 := by
    rw [h.changed.m, Pos.units_toV3]; exact nearest_units F.lam_pos h.changed.u _ _
  funext j
  rw [F.vec_a]
  simp only [MTL.addVoltageSource, hk, Pi.smul_apply, smul_eq_mul]
  split
  · show F.volt * f ((F.vars n).tau * t / F.tau) = _
    rw [show (F.vars n).tau = F.tau from rfl, mul_div_cancel_left₀ _ F.tau_pos.ne']
  · have := congrFun (h.changed.vSources k t) j
    rw [F.vec_a] at this
    exact this

/-- **C173** `add_probe`. -/
theorem C173_probe {s s' : MTL n p} (h : s.Rescaled F s') (x : Pos) (type : String) :
    PyRel (MTL.Rescaled F) (s.addProbe x type) (s'.addProbe (x.units F.lam) type) := by
  have hk : nearest s'.u s'.m (x.units F.lam).toV3 = nearest s.u s.m x.toV3 := by
    rw [h.changed.m, Pos.units_toV3]; exact nearest_units F.lam_pos h.changed.u _ _
  refine (PyRel.raiseIf ?_ _).bind fun _ _ _ => .ok ⟨{ h.changed with probes := ?_ }, h.q1, h.q2, h.q3⟩
  · rw [Pos.units_toV3, h.changed.m, show s'.u 0 = fun j => F.lam * s.u 0 j from funext (h.changed.u 0),
      show s'.u s.m = fun j => F.lam * s.u s.m j from funext (h.changed.u s.m)]
    exact (outOfBox_units F.lam_pos _ _ _).symm
  · exact List.rel_append h.changed.probes (.cons ⟨rfl, rfl, hk, h.changed.dt, rfl, trivial⟩ .nil)

/-- **C173** `set_time_step`. -/
theorem C173_time_step {s s' : MTL n p} (h : s.Rescaled F s') (N T : ℝ) :
    PyRel (MTL.Rescaled F) (s.setTimeStep N T) (s'.setTimeStep N (F.tau * T)) :=
  (PyRel.raiseIf Iff.rfl _).bind fun _ _ _ => .ok ⟨{ h.changed with dt := mul_div_assoc _ _ _ }, h.q1, h.q2, h.q3⟩

theorem ordered_units (x y : Pos) : PyRel (fun _ _ => True) (assertOrdered x y) (assertOrdered (x.units F.lam) (y.units F.lam)) := by
  classical
  have hp := F.lam_pos
  cases x <;> cases y <;> simp only [assertOrdered, Pos.units] <;> try exact .error _
  · exact PyRel.pyAssert (by simp [mul_le_mul_iff_of_pos_left hp])
  · refine PyRel.pyAssert ?_
    unfold listGe
    simp only [funext_iff, mul_lt_mul_iff_of_pos_left hp, mul_right_inj' hp.ne']

theorem region_units {m : ℕ} {u u' du du' : ℕ → V3} (hu : ∀ k j, u' k j = F.lam * u k j) (hdu : ∀ k j, du' k j = F.lam * du k j)
    (i1 i2 : ℕ) (y z : ℝ) (hz : z = y / F.lam) (x : ℝ) :
    PyRel (fun v v' => v' = z * v) (regionValue m u du i1 i2 x) (regionValue m u' du' i1 i2 (y * x)) := by
  have hp := F.lam_pos
  have e1 : norm3 (fun j => u' i2 j - u' i1 j) = F.lam * norm3 (fun j => u i2 j - u i1 j) := by
    rw [← norm3_units hp]; congr 1; funext j; rw [hu, hu]; ring
  have e2 : norm3 (du' i1) = F.lam * norm3 (du i1) := by
    rw [← norm3_units hp]; congr 1; funext j; exact hdu _ _
  unfold regionValue
  rw [e1, e2]
  simp only [mul_eq_zero, hp.ne', false_or]
  split
  · split
    · exact .error _
    · split
      · exact .error _
      · rename_i h0
        exact .ok (by rw [hz]; field_simp)
  · split
    · exact .error _
    · split
      · exact .error _
      · rename_i h0
        exact .ok (by rw [hz]; field_simp)

theorem assign_units {rows : ℕ} {x x' : ℕ → Mat n} {y : ℝ} (hx : ∀ k, x' k = y • x k) (i1 i2 c : ℕ) {v v' : ℝ} (hv : v' = y * v) :
    PyRel (fun r r' : ℕ → Mat n => ∀ k, r' k = y • r k) (assignRow rows x i1 i2 c v) (assignRow rows x' i1 i2 c v') := by
  unfold assignRow
  split
  · refine .ok fun k => ?_
    ext a b
    simp only [Matrix.of_apply, Matrix.smul_apply, smul_eq_mul, hx, hv]
    split <;> rfl
  · exact .error _

theorem lrTerms_units {s s' : MTL n p} (h : s.Rescaled F s') : PyRel (MTL.Rescaled F) s.updateLrTerms s'.updateLrTerms := by
  rcases changed_lrTerms h.changed with ⟨a, b, ha, hb, hab⟩ | he
  · refine .inl ⟨a, b, ha, hb, hab, ?_, ?_, ?_⟩ <;>
    · obtain ⟨x, -, h1⟩ := bind_ok_iff.mp ha
      obtain ⟨y, -, h2⟩ := bind_ok_iff.mp hb
      cases h1
      cases h2
      first | exact h.q1 | exact h.q2 | exact h.q3
  · exact .inr he

theorem cgTerms_units {s s' : MTL n p} (h : s.Rescaled F s') : PyRel (MTL.Rescaled F) s.updateCgTerms s'.updateCgTerms := by
  rcases changed_cgTerms h.changed with ⟨a, b, ha, hb, hab⟩ | he
  · refine .inl ⟨a, b, ha, hb, hab, ?_, ?_, ?_⟩ <;>
    · obtain ⟨x, -, h1⟩ := bind_ok_iff.mp ha
      obtain ⟨y, -, h2⟩ := bind_ok_iff.mp hb
      cases h1
      cases h2
      first | exact h.q1 | exact h.q2 | exact h.q3
  · exact .inr he

/-- **C173** `set_resistance_in_region`. -/
theorem C173_resistance {s s' : MTL n p} (h : s.Rescaled F s') (x y : Pos) (c : ℕ) (R : ℝ) :
    PyRel (MTL.Rescaled F) (s.setResistanceInRegion x y c R)
      (s'.setResistanceInRegion (x.units F.lam) (y.units F.lam) c (F.ohm * R)) := by
  have hk : ∀ x : Pos, nearest s'.u s'.m (x.units F.lam).toV3 = nearest s.u s.m x.toV3 := by
    intro x; rw [h.changed.m, Pos.units_toV3]; exact nearest_units F.lam_pos h.changed.u _ _
  have hm := h.changed.m
  unfold MTL.setResistanceInRegion
  refine (ordered_units x y).bind fun _ _ _ => ?_
  simp only [hk]
  obtain ⟨i1, h1⟩ : ∃ q, q = if nearest s.u s.m x.toV3 = s.m then nearest s.u s.m x.toV3 - 1 else nearest s.u s.m x.toV3 := ⟨_, rfl⟩
  obtain ⟨i2, h2⟩ : ∃ q, q = if nearest s.u s.m y.toV3 = s.m then nearest s.u s.m y.toV3 - 1 else nearest s.u s.m y.toV3 := ⟨_, rfl⟩
  have h1' : (if nearest s.u s.m x.toV3 = s'.m then nearest s.u s.m x.toV3 - 1 else nearest s.u s.m x.toV3) = i1 := by rw [hm, h1]
  have h2' : (if nearest s.u s.m y.toV3 = s'.m then nearest s.u s.m y.toV3 - 1 else nearest s.u s.m y.toV3) = i2 := by rw [hm, h2]
  rw [h1', h2', ← h1, ← h2]
  have k1 : PyRel (fun v v' => v' = F.ohm / F.lam * v) (regionValue s.m s.u s.du i1 i2 R)
      (regionValue s'.m s'.u s'.du i1 i2 (F.ohm * R)) := by
    rw [hm]; exact region_units h.changed.u h.changed.du _ _ F.ohm _ rfl R
  refine k1.bind fun v v' hv => ?_
  have hr : ∀ k, s'.r k = (F.ohm / F.lam) • s.r k := fun k => by
    rw [h.changed.r, F.imp_eq, smul_smul]
    congr 1
    show 1 / F.lam * F.ohm = _
    ring
  have k2 : PyRel (fun r r' : ℕ → Mat n => ∀ k, r' k = (F.ohm / F.lam) • r k) (assignRow s.m s.r i1 i2 c v)
      (assignRow s'.m s'.r i1 i2 c v') := by
    rw [hm]; exact assign_units hr _ _ c hv
  refine k2.bind fun r r' hrr => ?_
  refine lrTerms_units ⟨{ h.changed with r := fun k => ?_ }, h.q1, h.q2, h.q3⟩
  show r' k = (1 / F.lam) • _
  rw [hrr, F.imp_eq, smul_smul]
  congr 1
  ring

theorem nearestFlat_units {lam : ℝ} (h : 0 < lam) {u u' : ℕ → V3} (hu : ∀ k j, u' k j = lam * u k j) (m : ℕ) (x : V3) :
    nearestFlat u' m (fun j => lam * x j) = nearestFlat u m x := by
  unfold nearestFlat
  rw [← argmin_units h (fun q => |u (q / 3) ⟨q % 3, Nat.mod_lt _ (by norm_num)⟩ - x ⟨q % 3, Nat.mod_lt _ (by norm_num)⟩|)]
  congr 1
  funext k
  rw [hu, ← mul_sub, abs_mul, abs_of_pos h]

/-- **C173** `add_conductance_in_region`. -/
theorem C173_conductance {s s' : MTL n p} (h : s.Rescaled F s') (x y : Pos) (c : ℕ) (G : ℝ) :
    PyRel (MTL.Rescaled F) (s.addConductanceInRegion x y c G)
      (s'.addConductanceInRegion (x.units F.lam) (y.units F.lam) c (F.ohm⁻¹ * G)) := by
  have hk : ∀ x : Pos, nearestFlat s'.u s'.m (x.units F.lam).toV3 = nearestFlat s.u s.m x.toV3 := by
    intro x; rw [h.changed.m, Pos.units_toV3]; exact nearestFlat_units F.lam_pos h.changed.u _ _
  have hm := h.changed.m
  unfold MTL.addConductanceInRegion
  refine (ordered_units x y).bind fun _ _ _ => ?_
  simp only [hk]
  obtain ⟨i1, h1⟩ : ∃ q, q = nearestFlat s.u s.m x.toV3 := ⟨_, rfl⟩
  obtain ⟨i2, h2⟩ : ∃ q, q = nearestFlat s.u s.m y.toV3 := ⟨_, rfl⟩
  rw [← h1, ← h2]
  have k1 : PyRel (fun v v' => v' = F.ohm⁻¹ / F.lam * v) (regionValue s.m s.u s.du i1 i2 G)
      (regionValue s'.m s'.u s'.du i1 i2 (F.ohm⁻¹ * G)) := by
    rw [hm]; exact region_units h.changed.u h.changed.du _ _ F.ohm⁻¹ _ rfl G
  refine k1.bind fun v v' hv => ?_
  have hg : ∀ k, s'.g k = (F.ohm⁻¹ / F.lam) • s.g k := fun k => by
    rw [h.changed.g, F.adm_eq, smul_smul]
    congr 1
    show 1 / F.lam * F.ohm⁻¹ = _
    ring
  have k2 : PyRel (fun r r' : ℕ → Mat n => ∀ k, r' k = (F.ohm⁻¹ / F.lam) • r k) (assignRow (s.m + 1) s.g i1 i2 c v)
      (assignRow (s'.m + 1) s'.g i1 i2 c v') := by
    rw [hm]; exact assign_units hg _ _ c hv
  refine k2.bind fun r r' hrr => ?_
  refine cgTerms_units ⟨{ h.changed with g := fun k => ?_ }, h.q1, h.q2, h.q3⟩
  show r' k = (1 / F.lam) • _
  rw [hrr, F.adm_eq, smul_smul]
  congr 1
  ring

/-- A rational impedance in the new units: poles are frequencies, residues are impedances times frequencies. -/
noncomputable def RationalModel.units (F : UnitFactors) (M : RationalModel) : RationalModel where
  cte := F.ohm * M.cte
  prop := F.ohm * F.tau * M.prop
  polesReal := M.polesReal.map (· / F.tau)
  polesImag := M.polesImag.map (· / F.tau)
  residuesReal := M.residuesReal.map fun x => F.ohm / F.tau * x
  residuesImag := M.residuesImag.map fun x => F.ohm / F.tau * x

theorem getD_units (f : ℝ → ℝ) (hf : f 0 = 0) (l : List ℝ) (k : ℕ) : (l.map f).getD k 0 = f (l.getD k 0) := by
  simp only [List.getD_eq_getElem?_getD, List.getElem?_map]
  cases l[k]? <;> simp [hf]

theorem pole_units (M : RationalModel) (x : ℕ) : (M.units F).pole x = M.pole x / F.tau := by
  unfold RationalModel.pole RationalModel.units
  simp only
  rw [getD_units (· / F.tau) (zero_div _), getD_units (· / F.tau) (zero_div _)]
  push_cast
  ring

theorem residue_units (M : RationalModel) (du : ℝ) (x : ℕ) :
    (M.units F).residue (F.lam * du) x = (F.ohm / F.tau / F.lam : ℝ) * M.residue du x := by
  unfold RationalModel.residue RationalModel.units
  simp only
  rw [getD_units _ (mul_zero _), getD_units _ (mul_zero _)]
  push_cast
  rw [mul_comm (F.lam : ℂ), ← div_div]
  ring

theorem factors_units {z r : ℂ} (dt : ℝ) :
    coefA (z / F.tau) ((F.ohm / F.tau / F.lam : ℝ) * r) (F.tau * dt) = (F.ohm / F.lam : ℝ) * coefA z r dt ∧
    coefB (z / F.tau) ((F.ohm / F.tau / F.lam : ℝ) * r) (F.tau * dt) = (F.ohm / F.lam : ℝ) * coefB z r dt ∧
    coefE (z / F.tau) (F.tau * dt) = coefE z dt := by
  have ht : (F.tau : ℂ) ≠ 0 := by exact_mod_cast F.tau_pos.ne'
  have e : z / F.tau * ((F.tau * dt : ℝ) : ℂ) = z * dt := by
    push_cast
    field_simp
  have e' : ((F.ohm / F.tau / F.lam : ℝ) : ℂ) * r / (z / F.tau) = (F.ohm / F.lam : ℝ) * (r / z) := by
    push_cast
    by_cases hz : z = 0
    · simp [hz]
    · field_simp
  refine ⟨?_, ?_, ?_⟩
  · unfold coefA; rw [e, e']; ring
  · unfold coefB; rw [e, e']; ring
  · unfold coefE; rw [e]

theorem assertZero_units {q q' : QEntry p} (hn : q' = none ↔ q = none) {z : ℂ} (hz : z ≠ 0) (hv : ∀ x, q'.val x = z * q.val x) :
    PyRel (fun _ _ => True) (assertZero q) (assertZero q') := by
  classical
  cases q with
  | none => rw [hn.mpr rfl]; exact .ok trivial
  | some a =>
    cases q' with
    | none => exact absurd (hn.mp rfl) (by simp)
    | some b =>
      have hb : ∀ x, b x = z * a x := hv
      unfold assertZero
      simp only
      split
      · exact PyRel.pyAssert (by rw [hb]; simp [hz])
      · split <;> exact .error _

/-- The entries of two arrays of coefficients have the ratio `y`. -/
def EntriesScaled (y : ℝ) (q q' : ℕ → Fin n → Fin n → QEntry p) : Prop :=
  (∀ k i j, q' k i j = none ↔ q k i j = none) ∧ ∀ k i j x, (q' k i j).val x = (y : ℂ) * (q k i j).val x

theorem EntriesScaled.set {y : ℝ} {q q' : ℕ → Fin n → Fin n → QEntry p} (h : EntriesScaled y q q') (k : ℕ) (i j : Fin n)
    {a b : Poles p} (hab : ∀ x, b x = (y : ℂ) * a x) : EntriesScaled y (setEntry q k i j (some a)) (setEntry q' k i j (some b)) := by
  constructor
  · intro k' i' j'
    unfold setEntry
    split
    · simp
    · exact h.1 _ _ _
  · intro k' i' j' x
    unfold setEntry
    split
    · exact hab x
    · exact h.2 _ _ _ _

theorem EntriesScaled.sum {y : ℝ} {q q' : ℕ → Fin n → Fin n → QEntry p} (h : EntriesScaled y q q') (k : ℕ) :
    vSum q' k = y • vSum q k := by
  ext i j
  simp only [vSum, poleSum, Matrix.of_apply, Matrix.smul_apply, smul_eq_mul, h.2, ← Finset.mul_sum, Complex.re_ofReal_mul]

theorem setMat_units {y : ℝ} {q q' : ℕ → Mat n} (h : ∀ k, q' k = y • q k) (k : ℕ) (i j : Fin n) {a b : ℝ} (hab : b = y * a) (k' : ℕ) :
    setMat q' k i j b k' = y • setMat q k i j a k' := by
  ext i' j'
  simp only [setMat, Matrix.of_apply, Matrix.smul_apply, smul_eq_mul, h, hab]
  split <;> rfl

/-- **C173** `add_dispersive_connector`. -/
theorem C173_connector {s s' : MTL n p} (h : s.Rescaled F s') (x : V3) (c : Fin n) (M : RationalModel) :
    PyRel (MTL.Rescaled F) (s.addDispersiveConnector x c M)
      (s'.addDispersiveConnector (fun j => F.lam * x j) c (M.units F)) := by
  have hlam := F.lam_pos
  have htau := F.tau_pos
  have hy : F.ohm / F.lam ≠ 0 := (div_pos F.ohm_pos hlam).ne'
  have hyc : ((F.ohm / F.lam : ℝ) : ℂ) ≠ 0 := by exact_mod_cast hy
  have hD := h.changed.conn
  have hDt : s'.conn.dt = F.tau * s.conn.dt := hD.dt
  have hu : ∀ k j, s'.u k j = F.lam * s.u k j := h.changed.u
  have b1 : EntriesScaled (F.ohm / F.lam) s.conn.q1 s'.conn.q1 := ⟨h.q1, fun k i j y => by
    rw [hD.q1, F.cimp_eq, show (F.vars n).lam = F.lam from rfl]; push_cast; ring⟩
  have b2 : EntriesScaled (F.ohm / F.lam) s.conn.q2 s'.conn.q2 := ⟨h.q2, fun k i j y => by
    rw [hD.q2, F.cimp_eq, show (F.vars n).lam = F.lam from rfl]; push_cast; ring⟩
  have b3 : EntriesScaled 1 s.conn.q3 s'.conn.q3 := ⟨h.q3, fun k i j y => by
    rw [hD.q3, F.cvolt_eq]; simp⟩
  have bd : ∀ k, s'.conn.d k = (F.ohm / F.lam) • s.conn.d k := fun k => by
    rw [hD.d, F.imp_eq, smul_smul, show (F.vars n).lam = F.lam from rfl]; congr 1; ring
  have be : ∀ k, s'.conn.e k = (F.ohm * F.tau / F.lam) • s.conn.e k := fun k => by
    rw [hD.e, F.imp_eq, smul_smul, show (F.vars n).lam = F.lam from rfl, show (F.vars n).tau = F.tau from rfl]; congr 1; ring
  have hk : nearest s'.u s'.m (fun j => F.lam * x j) = nearest s.u s.m x := by
    rw [h.changed.m]; exact nearest_units hlam h.changed.u _ _
  unfold MTL.addDispersiveConnector
  have key : PyRel (fun D D' : Disp n p => D.Changed (F.vars n) D' ∧ (∀ k i j, D'.q1 k i j = none ↔ D.q1 k i j = none) ∧
      (∀ k i j, D'.q2 k i j = none ↔ D.q2 k i j = none) ∧ ∀ k i j, D'.q3 k i j = none ↔ D.q3 k i j = none)
      (s.conn.addConnector s.u s.m x c M) (s'.conn.addConnector s'.u s'.m (fun j => F.lam * x j) c (M.units F)) := by
    unfold Disp.addConnector
    simp only [hk]
    refine (PyRel.raiseIf ?_ _).bind fun _ _ _ => ?_
    · rw [h.changed.m, show s'.u 0 = fun j => F.lam * s.u 0 j from funext (h.changed.u 0),
        show s'.u s.m = fun j => F.lam * s.u s.m j from funext (h.changed.u s.m)]
      exact (outOfBox_units hlam _ _ _).symm
    refine (PyRel.raiseIf (by rw [h.changed.m]) _).bind fun _ _ _ => ?_
    obtain ⟨q, hq⟩ : ∃ q, q = nearest s.u s.m x := ⟨_, rfl⟩
    rw [← hq]
    obtain ⟨du, hdu⟩ : ∃ du, du = norm3 fun j => s.u (q + 1) j - s.u q j := ⟨_, rfl⟩
    have hdu' : (norm3 fun j => s'.u (q + 1) j - s'.u q j) = F.lam * du := by
      rw [hdu, ← norm3_units hlam]; congr 1; funext j; rw [hu, hu]; ring
    rw [hdu', ← hdu]
    refine (PyRel.raiseIf (by simp [hlam.ne']) _).bind fun _ _ _ => ?_
    have hc : M.checkLengths = (M.units F).checkLengths := by
      simp [RationalModel.checkLengths, RationalModel.units]
    refine PyRel.bind (R := fun _ _ => True) ?_ fun _ _ _ => ?_
    · rw [← hc]
      cases M.checkLengths
      · exact .error _
      · exact .ok trivial
    refine (PyRel.raiseIf (by simp [RationalModel.units]) _).bind fun _ _ _ => ?_
    refine (PyRel.raiseIf ?_ _).bind fun _ _ _ => ?_
    · rw [hD.dt, show (F.vars n).tau = F.tau from rfl]
      simp only [pole_units, mul_eq_zero, htau.ne', false_or, div_eq_zero_iff, Complex.ofReal_eq_zero, or_false]
    refine (PyRel.pyAssert (by rw [bd]; simp [hy])).bind fun _ _ _ => ?_
    refine (PyRel.pyAssert (by rw [be]; simp [hlam.ne', htau.ne', F.ohm_pos.ne'])).bind fun _ _ _ => ?_
    refine (assertZero_units (b1.1 _ _ _) hyc (b1.2 _ _ _)).bind fun _ _ _ => ?_
    refine (assertZero_units (b2.1 _ _ _) hyc (b2.2 _ _ _)).bind fun _ _ _ => ?_
    refine (assertZero_units (b3.1 _ _ _) (by simp) (b3.2 _ _ _)).bind fun _ _ _ => .ok ?_
    have c1 := b1.set q c c (a := fun y => (s.conn.q1 q c c).val y - coefA (M.pole y) (M.residue du y) s.conn.dt)
      (b := fun y => (s'.conn.q1 q c c).val y - coefA ((M.units F).pole y) ((M.units F).residue (F.lam * du) y) s'.conn.dt)
      (fun y => by rw [b1.2, pole_units, residue_units, hDt]; rw [(factors_units s.conn.dt).1]; ring)
    have c2 := b2.set q c c (a := fun y => (s.conn.q2 q c c).val y + coefB (M.pole y) (M.residue du y) s.conn.dt)
      (b := fun y => (s'.conn.q2 q c c).val y + coefB ((M.units F).pole y) ((M.units F).residue (F.lam * du) y) s'.conn.dt)
      (fun y => by rw [b2.2, pole_units, residue_units, hDt]; rw [(factors_units s.conn.dt).2.1]; ring)
    have c3 := b3.set q c c (a := fun y => (s.conn.q3 q c c).val y + coefE (M.pole y) s.conn.dt)
      (b := fun y => (s'.conn.q3 q c c).val y + coefE ((M.units F).pole y) s'.conn.dt)
      (fun y => by rw [b3.2, pole_units, hDt]; rw [(factors_units (z := M.pole y) (r := 0) s.conn.dt).2.2]; push_cast; ring)
    refine ⟨⟨hD.dt, fun k => ?_, fun k => ?_, fun k => ?_, fun k => ?_, fun k i j y => ?_, fun k i j y => ?_, fun k i j y => ?_⟩,
      c1.1, c2.1, c3.1⟩
    · refine (setMat_units bd q c c (a := s.conn.d q c c + M.cte / du) ?_ k).trans ?_
      · rw [bd]
        simp only [Matrix.smul_apply, smul_eq_mul, RationalModel.units]
        rw [mul_add, ← div_div]
        ring
      · rw [F.imp_eq, smul_smul, show (F.vars n).lam = F.lam from rfl]; congr 1; ring
    · refine (setMat_units be q c c (a := s.conn.e q c c + M.prop / du) ?_ k).trans ?_
      · rw [be]
        simp only [Matrix.smul_apply, smul_eq_mul, RationalModel.units]
        rw [mul_add, ← div_div]
        ring
      · rw [F.imp_eq, smul_smul, show (F.vars n).lam = F.lam from rfl, show (F.vars n).tau = F.tau from rfl]; congr 1; ring
    · refine (c1.sum k).trans ?_
      rw [F.imp_eq, smul_smul, show (F.vars n).lam = F.lam from rfl]; congr 1; ring
    · refine (c2.sum k).trans ?_
      rw [F.imp_eq, smul_smul, show (F.vars n).lam = F.lam from rfl]; congr 1; ring
    · refine (c1.2 k i j y).trans ?_
      rw [F.cimp_eq, show (F.vars n).lam = F.lam from rfl]; push_cast; ring
    · refine (c2.2 k i j y).trans ?_
      rw [F.cimp_eq, show (F.vars n).lam = F.lam from rfl]; push_cast; ring
    · refine (c3.2 k i j y).trans ?_
      rw [F.cvolt_eq]; simp
  refine key.bind fun D D' hDD => .ok ⟨{ h.changed with conn := hDD.1 }, hDD.2.1, hDD.2.2.1, hDD.2.2.2⟩

/-- **C173** `create_clean_copy`. -/
theorem C173_copy {s s' : MTL n p} (h : s.Rescaled F s') : s.createCleanCopy.Rescaled F s'.createCleanCopy := by
  refine ⟨{ h.changed with v := ?v, i := ?i, time := ?t, probes := ?p }, h.q1, h.q2, h.q3⟩
  case v => intro k; exact (Matrix.mulVec_zero _).symm
  case i => intro k; exact (Matrix.mulVec_zero _).symm
  case t => exact (mul_zero _).symm
  case p =>
    simp only [MTL.createCleanCopy, List.forall₂_map_left_iff, List.forall₂_map_right_iff]
    refine h.changed.probes.imp fun q q' hq => ?_
    have hv := hq.val
    have hc : q'.column s'.m s'.v s'.i = (if q.type = "voltage" then (F.vars n).a else (F.vars n).b) *ᵥ q.column s.m s.v s.i := by
      unfold Probe.column
      rw [hq.type, hq.index, h.changed.m]
      split
      · exact h.changed.v _
      · split <;> exact h.changed.i _
    cases e : q.val <;> cases e' : q'.val <;> rw [e, e'] at hv <;> first | exact hv.elim | skip
    · exact hq
    · refine ⟨hq.type, hq.t, hq.index, hq.dt, hq.frame, ?_⟩
      simp [hc]
    · exact hq

/-! ## The constructor -/

/-- An argument of the constructor in the new units. -/
noncomputable def Arg.units (c : ℝ) : Arg → Arg
  | .scalar x => .scalar (c * x)
  | .vec a => .vec (a.map (c * ·))
  | .mat r k a => .mat r k fun i j => c * a i j
  | .other => .other

/-- A termination in the new units. -/
noncomputable def ZArg.units (c : ℝ) : ZArg → ZArg
  | .scalar x => .scalar (c * x)
  | .vec a => .vec (a.map (c * ·))
  | .mat r k a => .mat r k fun i j => c * a i j

theorem initLC_units (x y : ℝ) (l c : Arg) :
    PyRel (fun a b => b.1 = a.1 ∧ (∀ i j, b.2.1 i j = x * a.2.1 i j) ∧ ∀ i j, b.2.2 i j = y * a.2.2 i j)
      (initLC l c) (initLC (l.units x) (c.units y)) := by
  cases l <;> cases c <;> simp only [initLC, Arg.units] <;> try exact .error _
  · exact .ok ⟨rfl, fun _ _ => rfl, fun _ _ => rfl⟩
  · exact (PyRel.pyAssert (by simp)).bind fun _ _ _ => .error _
  · exact (PyRel.pyAssert Iff.rfl).bind fun _ _ _ => (PyRel.pyAssert Iff.rfl).bind fun _ _ _ =>
      .ok ⟨rfl, fun _ _ => rfl, fun _ _ => rfl⟩

theorem initRG_units {x : ℝ} (hx : x ≠ 0) (m : ℕ) (r : Arg) :
    PyRel (fun a b : ℕ → ℕ → ℝ => ∀ i j, b i j = x * a i j) (initRGone m r) (initRGone m (r.units x)) := by
  cases r with
  | scalar y =>
    simp only [initRGone, Arg.units]
    by_cases hy : y = 0
    · simp only [hy, mul_zero, ne_eq, not_true_eq_false, if_false]
      exact .ok fun _ _ => by simp
    · simp only [hy, hx, mul_eq_zero, ne_eq, or_self, not_false_eq_true, if_true]
      exact (PyRel.pyAssert Iff.rfl).bind fun _ _ _ => .ok fun _ _ => rfl
  | vec a => exact (PyRel.pyAssert (by simp)).bind fun _ _ _ => .error _
  | mat r k a => exact (PyRel.pyAssert Iff.rfl).bind fun _ _ _ => (PyRel.pyAssert Iff.rfl).bind fun _ _ _ => .ok fun _ _ => rfl
  | other => exact .error _

theorem getD_mul (c : ℝ) (a : List ℝ) (i : ℕ) : (a.map (c * ·)).getD i 0 = c * a.getD i 0 := getD_units _ (mul_zero _) _ _

theorem initZt_units (x : ℝ) (m : ℕ) (a b : ZArg) :
    PyRel (fun a b => (∀ i j, b.1 i j = x * a.1 i j) ∧ ∀ i j, b.2 i j = x * a.2 i j)
      (initZt m a b) (initZt m (a.units x) (b.units x)) := by
  cases a <;> cases b <;> simp only [initZt, ZArg.units] <;> try exact .error _
  · exact .ok ⟨fun i j => by simp, fun i j => by simp⟩
  · refine (PyRel.pyAssert (by simp)).bind fun _ _ _ => (PyRel.pyAssert (by simp)).bind fun _ _ _ => .ok ⟨fun i j => ?_, fun i j => ?_⟩
    · simp only [getD_mul, mul_ite, mul_zero]
    · simp only [getD_mul, mul_ite, mul_zero]
  · refine (PyRel.pyAssert Iff.rfl).bind fun _ _ _ => (PyRel.pyAssert Iff.rfl).bind fun _ _ _ =>
      (PyRel.pyAssert Iff.rfl).bind fun _ _ _ => ?_
    split
    · exact .ok ⟨fun i j => by simp, fun i j => by simp⟩
    · split
      · exact .ok ⟨fun i j => by simp, fun i j => by simp⟩
      · exact .error _

/-- The memory of the mesh in the new unit of length. -/
def MeshMem.Scaled (lam : ℝ) (a b : MeshMem) : Prop :=
  (∀ k, b.u k = (a.u k).map fun x j => lam * x j) ∧ ∀ k, b.du k = (a.du k).map fun x j => lam * x j

theorem write_units {lam : ℝ} {a b : MeshMem} (h : a.Scaled lam b) (M k : ℕ) {x d x' d' : V3} (hx : x' = fun j => lam * x j)
    (hd : d' = fun j => lam * d j) : PyRel (MeshMem.Scaled lam) (a.write M k x d) (b.write M k x' d') := by
  unfold MeshMem.write
  split
  · refine .ok ⟨fun q => ?_, fun q => ?_⟩
    · simp only [Function.update_apply]
      split
      · rw [hx]; rfl
      · exact h.1 q
    · simp only [Function.update_apply]
      split
      · rw [hd]; rfl
      · exact h.2 q
  · exact .error _

theorem meshInner_units {lam : ℝ} (M i d : ℕ) (x y : V3) : ∀ (fuel k : ℕ) {a b : MeshMem}, a.Scaled lam b →
    PyRel (MeshMem.Scaled lam) (meshInner M i d x y k fuel a)
      (meshInner M i d (fun j => lam * x j) (fun j => lam * y j) k fuel b)
  | 0, _, _, _, h => .ok h
  | fuel + 1, k, _, _, h => (write_units h M _ (by funext j; ring) (by funext j; ring)).bind fun _ _ h' =>
      meshInner_units M i d x y fuel (k + 1) h'

theorem meshOuter_units {lam : ℝ} (M : ℕ) {pos pos' : ℕ → V3} (hp : ∀ k, pos' k = fun j => lam * pos k j) :
    ∀ (ds : List ℕ) (i : ℕ) {a b : MeshMem}, a.Scaled lam b →
    PyRel (MeshMem.Scaled lam) (meshOuter M pos i ds a) (meshOuter M pos' i ds b)
  | [], _, _, _, h => .ok h
  | d :: ds, i, _, _, h => by
    unfold meshOuter
    rw [hp, hp]
    exact (meshInner_units M i d _ _ d 0 h).bind fun _ _ h' => meshOuter_units M hp ds (i + 1) h'

theorem buildMesh_units (lam : ℝ) (pos : List V3) (ndiv : List ℕ) :
    PyRel (MeshMem.Scaled lam) (buildMesh pos ndiv) (buildMesh (pos.map fun x j => lam * x j) ndiv) := by
  have hp : ∀ k, (pos.map fun (x : V3) (j : Fin 3) => lam * x j).getD k (0 : V3) = fun j => lam * pos.getD k (0 : V3) j := by
    intro k
    simp only [List.getD_eq_getElem?_getD, List.getElem?_map]
    cases pos[k]?
    · funext j; simp
    · rfl
  unfold buildMesh
  refine (PyRel.pyAssert (by simp)).bind fun _ _ _ => ?_
  have h0 : MeshMem.init.Scaled lam MeshMem.init := ⟨fun _ => rfl, fun _ => rfl⟩
  refine (meshOuter_units ndiv.sum hp ndiv 0 h0).bind fun a b h => .ok ⟨fun k => ?_, h.2⟩
  simp only [Function.update_apply]
  split
  · rw [hp]; rfl
  · exact h.1 k

theorem mem_roots_units {c : ℝ} (hc : c ≠ 0) (A : Mat n) (z : ℂ) :
    (c : ℂ) * z ∈ ((c • A).map (algebraMap ℝ ℂ)).charpoly.roots ↔ z ∈ (A.map (algebraMap ℝ ℂ)).charpoly.roots := by
  have hc' : (c : ℂ) ≠ 0 := by exact_mod_cast hc
  rw [Polynomial.mem_roots (Matrix.charpoly_monic _).ne_zero, Polynomial.mem_roots (Matrix.charpoly_monic _).ne_zero,
    Polynomial.IsRoot.def, Polynomial.IsRoot.def, Matrix.eval_charpoly, Matrix.eval_charpoly]
  have e : Matrix.scalar (Fin n) ((c : ℂ) * z) - (c • A).map (algebraMap ℝ ℂ)
      = (c : ℂ) • (Matrix.scalar (Fin n) z - A.map (algebraMap ℝ ℂ)) := by
    ext i j
    by_cases hij : i = j
    · subst hij; simp [mul_sub]
    · simp [hij]
  rw [e, Matrix.det_smul]
  simp [hc']

theorem eigRe_units {c : ℝ} (hc : c ≠ 0) (A : Mat n) (y : ℝ) : y ∈ eigRe (c • A) ↔ ∃ x ∈ eigRe A, y = c * x := by
  have hc' : (c : ℂ) ≠ 0 := by exact_mod_cast hc
  constructor
  · rintro ⟨z, hz, rfl⟩
    refine ⟨(z / c).re, ⟨z / c, ?_, rfl⟩, ?_⟩
    · rw [← mem_roots_units hc, mul_div_cancel₀ _ hc']; exact hz
    · rw [← Complex.re_ofReal_mul, mul_div_cancel₀ _ hc']
  · rintro ⟨x, ⟨z, hz, rfl⟩, rfl⟩
    exact ⟨c * z, (mem_roots_units hc A z).mpr hz, (Complex.re_ofReal_mul _ _).symm⟩

open scoped Pointwise in
theorem maxTimestep_units {m : ℕ} {dun dun' : ℕ → ℝ} (hd : ∀ k, dun' k = F.lam * dun k) {L C L' C' : ℕ → Mat n}
    (hLC : ∀ k, L' k * C' (k + 1) = (F.tau / F.lam) ^ 2 • (L k * C (k + 1))) :
    PyRel (fun a b => b = F.tau * a) (maxTimestep m dun L C) (maxTimestep m dun' L' C') := by
  classical
  have hlam := F.lam_pos
  have htau := F.tau_pos
  have hc : 0 < (F.tau / F.lam) ^ 2 := by positivity
  have h1 : (n = 0 ∨ ∀ k < m, dun' k = 0) ↔ (n = 0 ∨ ∀ k < m, dun k = 0) := by
    simp only [hd, mul_eq_zero, hlam.ne', false_or]
  have h2 : (∃ k < m, ∃ x ∈ eigRe (L' k * C' (k + 1)), x ≤ 0) ↔ ∃ k < m, ∃ x ∈ eigRe (L k * C (k + 1)), x ≤ 0 := by
    constructor
    · rintro ⟨k, hk, y, hy, h0⟩
      rw [hLC, eigRe_units hc.ne'] at hy
      obtain ⟨x, hx, rfl⟩ := hy
      exact ⟨k, hk, x, hx, by by_contra h; push Not at h; linarith [mul_pos hc h]⟩
    · rintro ⟨k, hk, x, hx, h0⟩
      refine ⟨k, hk, (F.tau / F.lam) ^ 2 * x, ?_, mul_nonpos_of_nonneg_of_nonpos hc.le h0⟩
      rw [hLC, eigRe_units hc.ne']
      exact ⟨x, hx, rfl⟩
  have hsq : ∀ x, 1 / Real.sqrt ((F.tau / F.lam) ^ 2 * x) = F.lam / F.tau * (1 / Real.sqrt x) := by
    intro x
    rw [Real.sqrt_mul hc.le, Real.sqrt_sq (by positivity), ← one_div_mul_one_div, one_div_div]
  have h3 : {w | ∃ k < m, w ∈ phaseVelocities L' C' k} = (F.lam / F.tau) • {w | ∃ k < m, w ∈ phaseVelocities L C k} := by
    ext w
    rw [Set.mem_smul_set]
    constructor
    · rintro ⟨k, hk, y, hy, rfl⟩
      rw [hLC, eigRe_units hc.ne'] at hy
      obtain ⟨x, hx, rfl⟩ := hy
      exact ⟨1 / Real.sqrt x, ⟨k, hk, x, hx, rfl⟩, (hsq x).symm⟩
    · rintro ⟨_, ⟨k, hk, x, hx, rfl⟩, rfl⟩
      refine ⟨k, hk, (F.tau / F.lam) ^ 2 * x, ?_, (hsq x).symm⟩
      rw [hLC, eigRe_units hc.ne']
      exact ⟨x, hx, rfl⟩
  have h4 : {d | d ≠ 0 ∧ ∃ k < m, d = dun' k} = F.lam • {d | d ≠ 0 ∧ ∃ k < m, d = dun k} := by
    ext w
    rw [Set.mem_smul_set]
    constructor
    · rintro ⟨h0, k, hk, rfl⟩
      rw [hd] at h0 ⊢
      exact ⟨dun k, ⟨fun h => h0 (by rw [h, mul_zero]), k, hk, rfl⟩, rfl⟩
    · rintro ⟨_, ⟨h0, k, hk, rfl⟩, rfl⟩
      exact ⟨mul_ne_zero hlam.ne' h0, k, hk, (hd k).symm⟩
  unfold maxTimestep
  simp only [h1, h2, h3, h4]
  split
  · exact .error _
  · split
    · exact .error _
    · refine .ok ?_
      rw [Real.sInf_smul_of_nonneg hlam.le, Real.sSup_smul_of_nonneg (by positivity), smul_eq_mul, smul_eq_mul]
      rw [← div_div_eq_mul_div, mul_div_assoc]
      rcases eq_or_ne (sSup {w | ∃ k < m, w ∈ phaseVelocities L C k}) 0 with h0 | h0
      · simp [h0]
      · field_simp

/-- The same line, of whatever number of conductors, in the new units. -/
inductive AnyRescaled (F : UnitFactors) : (Σ n, MTL n p) → (Σ n, MTL n p) → Prop
  | mk {n : ℕ} {s s' : MTL n p} (h : s.Rescaled F s') : AnyRescaled F ⟨n, s⟩ ⟨n, s'⟩

theorem terminal_conn {s s' : MTL n p} (h : s.computeTerminalTerms = .ok s') : s'.conn = s.conn := by
  obtain ⟨_, _, h1⟩ := bind_ok_iff.mp h
  obtain ⟨_, _, h2⟩ := bind_ok_iff.mp h1
  obtain ⟨_, _, h3⟩ := bind_ok_iff.mp h2
  cases h3
  rfl

/-- **C173** The constructor: mesh, matrices, time step and terminal coefficients. -/
theorem C173_new (l c r g : Arg) (length : ℝ) (positions : List V3) (ndiv : List ℕ) (Zs Zl : ZArg) (name : String) :
    PyRel (AnyRescaled F) (MTL.new p l c r g length positions ndiv Zs Zl name)
      (MTL.new p (l.units (F.ohm * F.tau / F.lam)) (c.units (F.tau / (F.ohm * F.lam))) (r.units (F.ohm / F.lam))
        (g.units (1 / (F.ohm * F.lam))) (F.lam * length) (positions.map fun x j => F.lam * x j) ndiv (Zs.units F.ohm)
        (Zl.units F.ohm) name) := by
  classical
  have hlam := F.lam_pos
  have htau := F.tau_pos
  have hohm := F.ohm_pos
  unfold MTL.new
  have hpos : (if (positions.map fun (x : V3) (j : Fin 3) => F.lam * x j) = [] then [![0, 0, 0], ![0, 0, F.lam * length]]
      else positions.map fun (x : V3) (j : Fin 3) => F.lam * x j)
      = (if positions = [] then [![0, 0, 0], ![0, 0, length]] else positions).map fun (x : V3) (j : Fin 3) => F.lam * x j := by
    by_cases h : positions = []
    · simp only [h, List.map_nil, if_true, List.map_cons]
      congr 1
      · funext j; fin_cases j <;> simp
      · congr 1; funext j; fin_cases j <;> simp
    · simp [h]
  simp only [hpos]
  refine (initLC_units _ _ l c).bind ?_
  rintro ⟨n', la, ca⟩ ⟨n, la', ca'⟩ ⟨e, hla, hca⟩
  simp only at e hla hca
  subst e
  refine (initRG_units (by positivity) n g).bind fun ga ga' hga => ?_
  refine (initRG_units (by positivity) n r).bind fun ra ra' hra => ?_
  refine (initZt_units _ n Zs Zl).bind ?_
  rintro ⟨za, zb⟩ ⟨za', zb'⟩ ⟨hza, hzb⟩
  simp only at hza hzb
  refine (buildMesh_units F.lam _ ndiv).bind fun mem mem' hmem => ?_
  refine (PyRel.raiseIf (by simp [hmem.1, hmem.2]) _).bind fun _ _ _ => ?_
  have hu : ∀ k, ((mem'.u k).getD 0 : V3) = fun j => F.lam * (mem.u k).getD 0 j := by
    intro k
    rw [hmem.1]
    cases mem.u k
    · funext j; simp
    · rfl
  have hdu : ∀ k, ((mem'.du k).getD 0 : V3) = fun j => F.lam * (mem.du k).getD 0 j := by
    intro k
    rw [hmem.2]
    cases mem.du k
    · funext j; simp
    · rfl
  have hdun : ∀ k, norm3 ((mem'.du k).getD 0) = F.lam * norm3 ((mem.du k).getD 0) := by
    intro k
    rw [hdu, norm3_units hlam]
  have hL : toMat n la' = (F.ohm * F.tau / F.lam) • toMat n la := by ext i j; simp [toMat, hla]
  have hC : toMat n ca' = (F.tau / (F.ohm * F.lam)) • toMat n ca := by ext i j; simp [toMat, hca]
  have hR : toMat n ra' = (F.ohm / F.lam) • toMat n ra := by ext i j; simp [toMat, hra]
  have hG : toMat n ga' = (1 / (F.ohm * F.lam)) • toMat n ga := by ext i j; simp [toMat, hga]
  have hA : toMat n za' = F.ohm • toMat n za := by ext i j; simp [toMat, hza]
  have hB : toMat n zb' = F.ohm • toMat n zb := by ext i j; simp [toMat, hzb]
  refine (maxTimestep_units (F := F) hdun (fun _ => ?_)).bind fun dt dt' hdt => ?_
  · rw [hL, hC, Matrix.smul_mul, Matrix.mul_smul, smul_smul]
    congr 1
    field_simp
  have key : ∀ {s s' : MTL n p}, s.Rescaled F s' → PyRel (AnyRescaled F)
      (s.computeTerminalTerms >>= fun s => .ok (⟨n, s⟩ : Σ n, MTL n p))
      (s'.computeTerminalTerms >>= fun s => .ok (⟨n, s⟩ : Σ n, MTL n p)) := by
    intro s s' h
    rcases C172_terminal h.changed with ⟨a, b, ha, hb, hab⟩ | ⟨e, he, he'⟩
    · refine .inl ⟨⟨n, a⟩, ⟨n, b⟩, by rw [ha]; rfl, by rw [hb]; rfl, .mk ⟨hab, ?_, ?_, ?_⟩⟩ <;>
      · rw [terminal_conn ha, terminal_conn hb]
        first | exact h.q1 | exact h.q2 | exact h.q3
    · exact .inr ⟨e, by rw [he]; rfl, by rw [he']; rfl⟩
  refine key ⟨?_, fun _ _ _ => Iff.rfl, fun _ _ _ => Iff.rfl, fun _ _ _ => Iff.rfl⟩
  have i0 : (F.vars n).imp 0 = 0 := by rw [F.imp_eq, smul_zero]
  refine
    { m := rfl, u := fun k j => congrFun (hu k) j, du := fun k j => congrFun (hdu k) j, dun := hdun, l := ?_, c := ?_, r := ?_,
      g := ?_, zs := ?_, zl := ?_, dt := hdt, time := (mul_zero _).symm, v := fun _ => (Matrix.mulVec_zero _).symm,
      i := fun _ => (Matrix.mulVec_zero _).symm, phi := ?_, probes := .nil, conn := ?_, vSources := ?_, eL := ?_, eT := ?_,
      left1 := (F.volt_eq _).symm, left2 := (F.volt_eq _).symm, right1 := (F.volt_eq _).symm, right2 := (F.volt_eq _).symm,
      lr := trivial, cg := trivial }
  · intro k
    show _ = (F.tau / F.lam) • _
    rw [F.imp_eq, hL, smul_smul]; congr 1; ring
  · intro k
    show _ = (F.tau / F.lam) • _
    rw [F.adm_eq, hC, smul_smul]; congr 1; field_simp
  · intro k
    show _ = (1 / F.lam) • _
    rw [F.imp_eq, hR, smul_smul]; congr 1; ring
  · intro k
    show _ = (1 / F.lam) • _
    rw [F.adm_eq, hG, smul_smul]; congr 1; field_simp
  · exact hA.trans (F.imp_eq _).symm
  · exact hB.trans (F.imp_eq _).symm
  · intro k j x; simp [NewVars.cvec]
  · refine ⟨hdt, fun k => ?_, fun k => ?_, fun k => ?_, fun k => ?_, fun k i j x => ?_, fun k i j x => ?_, fun k i j x => ?_⟩
    · show (0 : Mat n) = _ • (F.vars n).imp 0
      rw [i0, smul_zero]
    · show (0 : Mat n) = _ • (F.vars n).imp 0
      rw [i0, smul_zero]
    · show (0 : Mat n) = _ • (F.vars n).imp 0
      rw [i0, smul_zero]
    · show (0 : Mat n) = _ • (F.vars n).imp 0
      rw [i0, smul_zero]
    · rw [F.cimp_eq]; simp [Disp.new, QEntry.val]
    · rw [F.cimp_eq]; simp [Disp.new, QEntry.val]
    · rw [F.cvolt_eq]; simp [Disp.new]
  · intro k t
    show (0 : Fin n → ℝ) = (F.vars n).a *ᵥ 0
    exact (Matrix.mulVec_zero _).symm
  · intro k t
    show (0 : Fin n → ℝ) = (1 / (F.vars n).lam) • (F.vars n).a *ᵥ (0 : Fin n → ℝ)
    rw [Matrix.mulVec_zero, smul_zero]
  · intro k t
    show (0 : Fin n → ℝ) = (F.vars n).a *ᵥ 0
    exact (Matrix.mulVec_zero _).symm

/-- A call of a method of a line. -/
inductive LineStep (n : ℕ)
  | source (x : Pos) (c : Fin n) (f : ℝ → ℝ)
  | probe (x : Pos) (type : String)
  | timeStep (N T : ℝ)
  | resistance (x y : Pos) (c : ℕ) (R : ℝ)
  | conductance (x y : Pos) (c : ℕ) (G : ℝ)
  | connector (x : V3) (c : Fin n) (M : RationalModel)
  | run (T : ℝ)
  | copy

/-- What the call does. -/
noncomputable def LineStep.call : LineStep n → MTL n p → Py (MTL n p)
  | .source x c f, s => .ok (s.addVoltageSource x c f)
  | .probe x type, s => s.addProbe x type
  | .timeStep N T, s => s.setTimeStep N T
  | .resistance x y c R, s => s.setResistanceInRegion x y c R
  | .conductance x y c G, s => s.addConductanceInRegion x y c G
  | .connector x c M, s => s.addDispersiveConnector x c M
  | .run T, s => s.runUntil T
  | .copy, s => .ok s.createCleanCopy

/-- The call with its arguments in the new units. -/
noncomputable def LineStep.units (F : UnitFactors) : LineStep n → LineStep n
  | .source x c f => .source (x.units F.lam) c fun t => F.volt * f (t / F.tau)
  | .probe x type => .probe (x.units F.lam) type
  | .timeStep N T => .timeStep N (F.tau * T)
  | .resistance x y c R => .resistance (x.units F.lam) (y.units F.lam) c (F.ohm * R)
  | .conductance x y c G => .conductance (x.units F.lam) (y.units F.lam) c (F.ohm⁻¹ * G)
  | .connector x c M => .connector (fun j => F.lam * x j) c (M.units F)
  | .run T => .run (F.tau * T)
  | .copy => .copy

theorem C173_call {s s' : MTL n p} (h : s.Rescaled F s') (q : LineStep n) :
    PyRel (MTL.Rescaled F) (q.call s) ((q.units F).call s') := by
  cases q with
  | source x c f => exact .ok (C173_source h x c f)
  | probe x type => exact C173_probe h x type
  | timeStep N T => exact C173_time_step h N T
  | resistance x y c R => exact C173_resistance h x y c R
  | conductance x y c G => exact C173_conductance h x y c G
  | connector x c M => exact C173_connector h x c M
  | run T => exact C173_run h T
  | copy => exact .ok (C173_copy h)

/-- **C173** Any sequence of calls. -/
theorem C173_calls : ∀ (l : List (LineStep n)) {s s' : MTL n p}, s.Rescaled F s' →
    PyRel (MTL.Rescaled F) (l.foldlM (fun s q => q.call s) s) (l.foldlM (fun s q => (q.units F).call s) s')
  | [], _, _, h => .ok h
  | q :: l, s, s', h => by
    rw [List.foldlM_cons, List.foldlM_cons]
    exact (C173_call h q).bind fun _ _ hab => C173_calls l hab

/-- **C173** Whole programs: a line is built, probed, driven, changed and run; with all arguments in other units the program ends
with the same error, or the probes have recorded the same values in the other units. -/
theorem C173_program (l c r g : Arg) (length : ℝ) (positions : List V3) (ndiv : List ℕ) (Zs Zl : ZArg) (name : String)
    (q : ∀ n, List (LineStep n)) :
    PyRel (AnyRescaled F)
      (do let a ← MTL.new p l c r g length positions ndiv Zs Zl name
          let s ← (q a.1).foldlM (fun s q => q.call s) a.2
          .ok ⟨a.1, s⟩)
      (do let a ← MTL.new p (l.units (F.ohm * F.tau / F.lam)) (c.units (F.tau / (F.ohm * F.lam))) (r.units (F.ohm / F.lam))
            (g.units (1 / (F.ohm * F.lam))) (F.lam * length) (positions.map fun x j => F.lam * x j) ndiv (Zs.units F.ohm)
            (Zl.units F.ohm) name
          let s ← (q a.1).foldlM (fun s q => (q.units F).call s) a.2
          .ok ⟨a.1, s⟩) := by
  refine (C173_new l c r g length positions ndiv Zs Zl name).bind fun a b hab => ?_
  obtain @⟨n, s, s', h⟩ := hab
  exact (C173_calls (q n) h).bind fun _ _ h' => .ok (.mk h')

/-- **C173** What a probe has recorded: times in the new units and volts (or amperes) in the new units. -/
theorem C173_readings {s s' : MTL n p} (h : s.Rescaled F s') : List.Forall₂ (fun q q' => q'.type = q.type ∧
      q'.t = q.t.map (F.tau * ·) ∧ ∀ rows, q.val = .rows rows →
        q'.val = .rows (rows.map fun x j => (if q.type = "voltage" then F.volt else F.amp) * x j)) s.probes s'.probes := by
  refine h.changed.probes.imp fun q q' hq => ⟨hq.type, hq.t, fun rows hr => ?_⟩
  have hv := hq.val
  rw [hr] at hv
  rcases hq' : q'.val with _ | _ | rows'
  · rw [hq'] at hv; exact hv.elim
  · rw [hq'] at hv; exact hv.elim
  · rw [hq'] at hv
    simp only at hv
    rw [hv]
    congr 1
    refine List.map_congr_left fun x _ => ?_
    split
    · rw [F.vec_a]; rfl
    · rw [F.vec_b]; rfl

/-- Millivolts, milliamperes, nanoseconds and millimetres. -/
noncomputable def demoUnits : UnitFactors := ⟨10 ^ 3, 10 ^ 3, 10 ^ 9, 10 ^ 3, by norm_num, by norm_num, by norm_num, by norm_num⟩

/-- Non-vacuity: the demo line is accepted in the new units, and its cells are 1000 times as long. -/
example : ∃ s s' : MTL 1 0, MTL.new 0 (.scalar 1) (.scalar 1) (.scalar 0) (.scalar 0) 2 [] [2] (.scalar 1) (.scalar 1) "demo" = .ok ⟨1, s⟩ ∧
    s.Rescaled demoUnits s' ∧ ∀ k, s'.dun k = 10 ^ 3 * s.dun k := by
  obtain ⟨s, hs⟩ := demoLine_accepted (p := 0)
  rcases C173_new (p := 0) (F := demoUnits) (.scalar 1) (.scalar 1) (.scalar 0) (.scalar 0) 2 [] [2] (.scalar 1) (.scalar 1) "demo" with
    ⟨a, b, ha, -, hab⟩ | ⟨e, he, -⟩
  · rw [hs] at ha
    cases ha
    obtain @⟨_, _, s', h⟩ := hab
    exact ⟨s, s', hs, h, h.changed.dun⟩
  · rw [hs] at he; cases he

end api

end Mtln
