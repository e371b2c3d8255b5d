import Verif.Spec.TransferImpedance
import Verif.Props.Transfer
import Verif.Props.Impedance
import Verif.Props.ManagerSteady

/-! # The impedance that transfer impedances have in a run: C166 -/

namespace Mtln

open Matrix Finset Filter Topology
open scoped ComplexConjugate

variable {n p : ℕ}

/-- What one ampere of an outer conductor induces per unit length of cell `k` in the code: resistance, inductance, and the parts of
the poles for the new and the old current. -/
noncomputable def TransferModel.emf (Z : TransferModel) (k : ℕ) (h new old : ℝ) : ℝ :=
  Z.cte / Z.factor.getD 1 * ((new + old) / 2) + Z.prop / Z.factor.getD 1 * ((new - old) / h)
    + (-cellCoef Z.polesReal.length coefA Z.pole (Z.residue (Z.factor.getD 1)) h k * new
      + cellCoef Z.polesReal.length coefB Z.pole (Z.residue (Z.factor.getD 1)) h k * old).re

/-- How often a pair of an inner conductor `x` and an outer one `y` is in the lists. -/
def pairCount (levels : List ℕ) (ol : ℕ) (oc : List ℕ) (il : ℕ) (ic : List ℕ) (x y : ℕ) : ℕ :=
  (oc.map (conductorsBefore levels ol + ·)).count y * (ic.map (conductorsBefore levels il + ·)).count x

/-- The coefficients after one call with direction `"in"`. -/
theorem transfer_coefficients {D D' : Disp n p} (hD : D.Empty) {nx : ℕ} {levels : List ℕ} {ol il : ℕ} {oc ic : List ℕ}
    {Z : TransferModel} (hdir : Z.direction = "in") (h : D.addTransferImpedance nx levels ol oc il ic Z = .ok D') :
    D'.dt = D.dt ∧ D'.q1sum = vSum D'.q1 ∧ D'.q2sum = vSum D'.q2 ∧
    ∀ k (x y : Fin n), D'.d k x y = -(pairCount levels ol oc il ic x y * (Z.cte / Z.factor.getD 1)) ∧
      D'.e k x y = -(pairCount levels ol oc il ic x y * (Z.prop / Z.factor.getD 1)) ∧
      (∀ s, (D'.q1 k x y).val s = pairCount levels ol oc il ic x y *
        cellCoef Z.polesReal.length coefA Z.pole (Z.residue (Z.factor.getD 1)) D.dt k) ∧
      ∀ s, (D'.q2 k x y).val s = -(pairCount levels ol oc il ic x y *
        cellCoef Z.polesReal.length coefB Z.pole (Z.residue (Z.factor.getD 1)) D.dt k) := by
  obtain ⟨-, -, -, ⟨⟨h1, h2, h3⟩, rfl⟩ | ⟨-, -, -, D1, h4, rfl⟩⟩ := addTransferImpedance_ok h
  · refine ⟨rfl, hD.sum1, hD.sum2, fun k x y => ⟨?_, ?_, fun s => ?_, fun s => ?_⟩⟩
    · rw [hD.d, h1]; ring
    · rw [hD.e, h2]; ring
    · rw [hD.q1, h3]; simp [cellCoef, QEntry.val]
    · rw [hD.q2, h3]; simp [cellCoef, QEntry.val]
  · have t := forPairs_ok _ h4
    rw [hdir] at t
    have hc : ∀ x y : Fin n, ((allPairs (oc.map (conductorsBefore levels ol + ·))
        (ic.map (conductorsBefore levels il + ·))).flatMap fun ij => touched "in" ij.1 ij.2).count
          ((x : ℕ), (y : ℕ)) = pairCount levels ol oc il ic x y := fun x y => by
      rw [count_touched_in, count_allPairs]; rfl
    refine ⟨t.dt, rfl, rfl, fun k x y => ⟨?_, ?_, fun s => ?_, fun s => ?_⟩⟩
    · have := t.d k x y; rw [hc, hD.d] at this; exact this.trans (by ring)
    · have := t.e k x y; rw [hc, hD.e] at this; exact this.trans (by ring)
    · have := t.q1 k x y s; rw [hc, hD.q1] at this; exact this.trans (by simp [QEntry.val])
    · have := t.q2 k x y s; rw [hc, hD.q2] at this; exact this.trans (by simp [QEntry.val])

/-- **C166**, what a step of a bundle computes: along every cell, every outer conductor induces in every inner conductor coupled to it
the voltage `emf` times the length, with the new and the old current of the cell and nothing else, and the currents are the only ones
with this property. -/
theorem C166_emf_partial {b b' : MTLD n p} {time dt : ℝ} {ws : List Write}
    (hready : ∀ lr cg, b.lr = some lr → b.cg = some cg →
      updateLr b.m b.dt b.dun b.l b.r b.tz = .ok lr ∧ updateCg b.m b.dt b.dun b.c b.g = .ok cg)
    (hs : b.stepWith time dt ws = .ok b') {D : Disp n p} (hD : D.Empty) (hdt : D.dt = b.dt) {nx : ℕ} {levels : List ℕ} {ol il : ℕ}
    {oc ic : List ℕ} {Z : TransferModel} (hdir : Z.direction = "in") (hp : Z.polesReal.length ≠ 0 → p = 1)
    (h : D.addTransferImpedance nx levels ol oc il ic Z = .ok b.tz)
    (hdisj : ∀ a ∈ oc.map (conductorsBefore levels ol + ·), a ∉ ic.map (conductorsBefore levels il + ·))
    (hphi : ∀ k (x : Fin n), (x : ℕ) ∈ oc.map (conductorsBefore levels ol + ·) → b.phi k x = 0) {k : ℕ} (hk : k < b.m) (i : Col n) :
    (∀ x, b.extraDrop b'.v i (b.i k) time dt k x =
      -(b.dun k * ∑ y : Fin n, pairCount levels ol oc il ic x y * Z.emf k b.dt (i y) (b.i k y))) ↔ i = b'.i k := by
  obtain ⟨ht, s1, s2, hco⟩ := transfer_coefficients hD hdir h
  have hone := C39_oneWay hdir (fun k x y => ⟨hD.q1 k x y, hD.q2 k x y, hD.q3 k x y⟩) ⟨hD.sum1, hD.sum2⟩ hdisj h
  rw [← (MTLD.stepWith_equations hready hs).2 k hk i]
  unfold CurrentEq
  rw [hone.q3phi hphi, funext_iff]
  refine forall_congr' fun x => ?_
  have hpole : ∀ a : ℂ, (∀ h : Z.polesReal.length = 0, a = 0) → poleSum (fun _ : Fin p => a) = a.re := by
    intro a ha
    unfold poleSum
    by_cases h0 : Z.polesReal.length = 0
    · rw [ha h0]; simp
    · obtain rfl := hp h0
      simp
  have e1 : ∀ v : Col n, (b.tz.d k *ᵥ v) x = -∑ y : Fin n, pairCount levels ol oc il ic x y * (Z.cte / Z.factor.getD 1 * v y) := fun v => by
    rw [mulVec, dotProduct, ← sum_neg_distrib]
    exact sum_congr rfl fun y _ => by rw [(hco k x y).1]; ring
  have e2 : ∀ v : Col n, (b.tz.e k *ᵥ v) x = -∑ y : Fin n, pairCount levels ol oc il ic x y * (Z.prop / Z.factor.getD 1 * v y) := fun v => by
    rw [mulVec, dotProduct, ← sum_neg_distrib]
    exact sum_congr rfl fun y _ => by rw [(hco k x y).2.1]; ring
  have e3 : ∀ v : Col n, (b.tz.q1sum k *ᵥ v) x = ∑ y : Fin n, pairCount levels ol oc il ic x y *
      (cellCoef Z.polesReal.length coefA Z.pole (Z.residue (Z.factor.getD 1)) b.dt k * v y).re := fun v => by
    rw [mulVec, dotProduct, s1]
    refine sum_congr rfl fun y _ => ?_
    have : (b.tz.q1 k x y).val = fun _ => (pairCount levels ol oc il ic x y : ℂ) *
        cellCoef Z.polesReal.length coefA Z.pole (Z.residue (Z.factor.getD 1)) b.dt k := by
      funext s; rw [(hco k x y).2.2.1 s, hdt]
    rw [vSum, Matrix.of_apply, this, hpole _ (fun h0 => by simp [cellCoef, h0]), ← Complex.ofReal_natCast, Complex.re_ofReal_mul,
      Complex.re_mul_ofReal]
    ring
  have e4 : ∀ v : Col n, (b.tz.q2sum k *ᵥ v) x = -∑ y : Fin n, pairCount levels ol oc il ic x y *
      (cellCoef Z.polesReal.length coefB Z.pole (Z.residue (Z.factor.getD 1)) b.dt k * v y).re := fun v => by
    rw [mulVec, dotProduct, s2, ← sum_neg_distrib]
    refine sum_congr rfl fun y _ => ?_
    have : (b.tz.q2 k x y).val = fun _ => -((pairCount levels ol oc il ic x y : ℂ) *
        cellCoef Z.polesReal.length coefB Z.pole (Z.residue (Z.factor.getD 1)) b.dt k) := by
      funext s; rw [(hco k x y).2.2.2 s, hdt]
    rw [vSum, Matrix.of_apply, this, hpole _ (fun h0 => by simp [cellCoef, h0]), Complex.neg_re, ← Complex.ofReal_natCast,
      Complex.re_ofReal_mul, Complex.re_mul_ofReal]
    ring
  have e5 : ∑ y : Fin n, (pairCount levels ol oc il ic x y : ℝ) * Z.emf k b.dt (i y) (b.i k y) =
      (∑ y : Fin n, pairCount levels ol oc il ic x y * (Z.cte / Z.factor.getD 1 * (i + b.i k) y)) / 2
      + (∑ y : Fin n, pairCount levels ol oc il ic x y * (Z.prop / Z.factor.getD 1 * (i - b.i k) y)) / b.dt
      - (∑ y : Fin n, pairCount levels ol oc il ic x y *
        (cellCoef Z.polesReal.length coefA Z.pole (Z.residue (Z.factor.getD 1)) b.dt k * i y).re)
      + ∑ y : Fin n, pairCount levels ol oc il ic x y *
        (cellCoef Z.polesReal.length coefB Z.pole (Z.residue (Z.factor.getD 1)) b.dt k * b.i k y).re := by
    rw [sum_div, sum_div, ← sum_add_distrib, ← sum_sub_distrib, ← sum_add_distrib]
    refine sum_congr rfl fun y _ => ?_
    unfold TransferModel.emf
    simp only [Complex.add_re, neg_mul, Complex.neg_re, Pi.add_apply, Pi.sub_apply]
    ring
  rw [e5]
  simp only [Pi.add_apply, Pi.sub_apply, Pi.smul_apply, Pi.neg_apply, Pi.zero_apply, smul_eq_mul, add_mulVec, e1, e2, e3, e4]
  unfold MTLD.extraDrop
  constructor
  · intro h; linear_combination -h
  · intro h; linear_combination -h

theorem empty_new (dt : ℝ) : (Disp.new dt : Disp n p).Empty where
  q1 _ _ _ := rfl
  q2 _ _ _ := rfl
  q3 _ _ _ := rfl
  d _ _ _ := rfl
  e _ _ _ := rfl
  sum1 := by funext k; ext x y; simp [Disp.new, vSum, QEntry.val, poleSum]
  sum2 := by funext k; ext x y; simp [Disp.new, vSum, QEntry.val, poleSum]

/-- The hypotheses of `C166_emf_partial` hold for a bundle of a shield and a conductor with a transfer impedance with a pole. -/
theorem C166_example : ∃ b b' : MTLD 2 1, (∀ lr cg, b.lr = some lr → b.cg = some cg →
      updateLr b.m b.dt b.dun b.l b.r b.tz = .ok lr ∧ updateCg b.m b.dt b.dun b.c b.g = .ok cg) ∧
    b.stepWith 0 1 [] = .ok b' ∧ (Disp.new 1 : Disp 2 1).addTransferImpedance 3 [1, 1] 0 [0] 1 [0]
      ⟨⟨5, 2, [-1], [0], [1], [0]⟩, none, "in"⟩ = .ok b.tz ∧ b.dt = 1 ∧ 0 < b.m ∧ ∀ k x, b.phi k x = 0 := by
  obtain ⟨D, hD, -⟩ := transfer_example (Disp.new 1 : Disp 2 1) (by simp [Disp.new])
  obtain ⟨-, s1, -, hco⟩ := transfer_coefficients (empty_new 1) rfl hD
  have z : ∀ k (x y : Fin 2), ¬ (x = 1 ∧ y = 0) → D.d k x y = 0 ∧ D.e k x y = 0 ∧ D.q1sum k x y = 0 := by
    intro k x y h
    have h0 : pairCount [1, 1] 0 [0] 1 [0] x y = 0 := by
      fin_cases x <;> fin_cases y <;> first | (exact absurd ⟨rfl, rfl⟩ h) | decide
    obtain ⟨h1, h2, h3, -⟩ := hco k x y
    rw [h0] at h1 h2
    refine ⟨h1.trans (by simp), h2.trans (by simp), ?_⟩
    have : (D.q1 k x y).val = 0 := by funext s; rw [h3 s, h0]; simp
    rw [s1, vSum, Matrix.of_apply, this]
    simp [poleSum]
  have hd1 : ∀ k, (lrF1 1 (fun _ => (1 : ℝ)) (fun _ => (1 : Mat 2)) (fun _ => 0) D k).det ≠ 0 := fun k => by
    rw [Matrix.det_fin_two]
    simp [lrF1, (z k 0 0 (by simp)).1, (z k 0 0 (by simp)).2.1, (z k 0 0 (by simp)).2.2, (z k 0 1 (by simp)).1,
      (z k 0 1 (by simp)).2.1, (z k 0 1 (by simp)).2.2, (z k 1 1 (by simp)).1, (z k 1 1 (by simp)).2.1, (z k 1 1 (by simp)).2.2]
  have hd2 : ∀ k, (cgF1 3 1 (fun _ => (1 : ℝ)) (fun _ => (1 : Mat 2)) (fun _ => 0) k).det ≠ 0 := fun k => by
    have hn : nodalLength 3 (fun _ => (1 : ℝ)) k = 1 := by
      unfold nodalLength
      split_ifs <;> norm_num
    rw [Matrix.det_fin_two]
    simp [cgF1, hn]
  obtain ⟨lr, hlr⟩ : ∃ lr, updateLr 3 1 (fun _ => (1 : ℝ)) (fun _ => (1 : Mat 2)) (fun _ => 0) D = .ok lr :=
    ⟨_, updateLr_ok_iff.2 ⟨one_ne_zero, fun k _ => hd1 k, rfl⟩⟩
  obtain ⟨cg, hcg⟩ : ∃ cg, updateCg 3 1 (fun _ => (1 : ℝ)) (fun _ => (1 : Mat 2)) (fun _ => 0) = .ok cg :=
    ⟨_, updateCg_ok_iff.2 ⟨one_ne_zero, fun k _ => hd2 k, rfl⟩⟩
  refine ⟨{ name := "b", m := 3, u := fun _ => 0, du := fun _ => 0, dun := fun _ => 1, l := fun _ => 1, c := fun _ => 1,
            r := fun _ => 0, g := fun _ => 0, dt := 1, v := fun _ => 0, i := fun _ => 0, phi := fun _ _ => 0, probes := [], tz := D,
            eL := fun _ _ _ => 0, eT := fun _ _ _ => 0, inLevel := [1, 1], lr := some lr, cg := some cg }, _, ?_,
    MTLD.stepWith_ok_iff.2 ⟨lr, cg, rfl, rfl, by simp, rfl⟩, hD, rfl, by simp, fun _ _ => rfl⟩
  intro lr' cg' h1 h2
  obtain rfl := Option.some.inj h1
  obtain rfl := Option.some.inj h2
  exact ⟨hlr, hcg⟩

/-! ## The impedance for exponential currents -/

/-- The transfer impedance per unit length of cell `k` that the time stepping with the time step `h` realises. -/
noncomputable def TransferModel.realised (Z : TransferModel) (k : ℕ) (s : ℂ) (h : ℝ) : ℂ :=
  let A := cellCoef Z.polesReal.length coefA Z.pole (Z.residue (Z.factor.getD 1)) h k
  let B := cellCoef Z.polesReal.length coefB Z.pole (Z.residue (Z.factor.getD 1)) h k
  Complex.exp (-(s * h / 2)) * ((Z.cte / Z.factor.getD 1 : ℝ) * (Complex.exp (s * h) + 1) / 2
    + (Z.prop / Z.factor.getD 1 : ℝ) * ((Complex.exp (s * h) - 1) / h)
    + (-A * Complex.exp (s * h) + B + conj (-A * Complex.exp (conj s * h) + B)) / 2)

/-- **C166**, the response: for an outer current `Re (I e^{st})` the voltage induced in the step from `t` to `t + h` is that of the
impedance `realised` in the middle of the step. -/
theorem C166_response_partial (Z : TransferModel) (k : ℕ) (s I : ℂ) (h t : ℝ) :
    Z.emf k h (I * Complex.exp (s * (t + h))).re (I * Complex.exp (s * t)).re =
      (Z.realised k s h * (I * Complex.exp (s * (t + h / 2)))).re := by
  obtain ⟨A, hA⟩ : ∃ A, A = cellCoef Z.polesReal.length coefA Z.pole (Z.residue (Z.factor.getD 1)) h k := ⟨_, rfl⟩
  obtain ⟨B, hB⟩ : ∃ B, B = cellCoef Z.polesReal.length coefB Z.pole (Z.residue (Z.factor.getD 1)) h k := ⟨_, rfl⟩
  obtain ⟨c, hc⟩ : ∃ c, c = Z.cte / Z.factor.getD 1 := ⟨_, rfl⟩
  obtain ⟨e, he⟩ : ∃ e, e = Z.prop / Z.factor.getD 1 := ⟨_, rfl⟩
  unfold TransferModel.emf TransferModel.realised
  simp only [← hA, ← hB, ← hc, ← he]
  obtain ⟨w, hw⟩ : ∃ w, w = Complex.exp (s * h) := ⟨_, rfl⟩
  obtain ⟨J, hJ⟩ : ∃ J, J = I * Complex.exp (s * t) := ⟨_, rfl⟩
  have hcw : Complex.exp (conj s * h) = conj w := by rw [hw, ← Complex.exp_conj, map_mul, Complex.conj_ofReal]
  have h1 : I * Complex.exp (s * (t + h)) = J * w := by rw [hJ, hw, mul_assoc, ← Complex.exp_add]; congr 2; ring
  have h2 : Complex.exp (-(s * h / 2)) * (I * Complex.exp (s * (t + h / 2))) = J := by
    rw [hJ, mul_left_comm, ← Complex.exp_add]; congr 2; ring
  rw [hcw, h1, ← hw, ← hJ]
  have h3 : ∀ X : ℂ, Complex.exp (-(s * h / 2)) * X * (I * Complex.exp (s * (t + h / 2))) = X * J := fun X => by
    rw [← h2]; ring
  rw [h3, add_mul, add_mul, Complex.add_re, Complex.add_re]
  congr 1
  · congr 1
    · have : (c : ℂ) * (w + 1) / 2 * J = ((c / 2 : ℝ) : ℂ) * (J * w + J) := by push_cast; ring
      rw [this, Complex.re_ofReal_mul, Complex.add_re]
      ring
    · have : (e : ℂ) * ((w - 1) / h) * J = ((e / h : ℝ) : ℂ) * (J * w - J) := by push_cast; ring
      rw [this, Complex.re_ofReal_mul, Complex.sub_re]
      ring
  · have h4 : ((-A * w + B + conj (-A * conj w + B)) / 2 * J).re = ((-A * w + B) * J).re / 2 + ((-A * conj w + B) * conj J).re / 2 := by
      have : (-A * w + B + conj (-A * conj w + B)) / 2 * J = ((-A * w + B) * J + conj ((-A * conj w + B) * conj J)) / 2 := by
        rw [map_mul, Complex.conj_conj]; ring
      rw [this, Complex.div_ofNat_re, Complex.add_re, Complex.conj_re]
      ring
    rw [h4]
    have h5 : (-A * w + B) * J = -A * (J * w) + B * J := by ring
    have h6 : (-A * conj w + B) * conj J = -A * conj (J * w) + B * conj J := by rw [map_mul]; ring
    rw [h5, h6]
    simp only [Complex.add_re, Complex.mul_re, Complex.neg_re, Complex.neg_im, Complex.ofReal_re, Complex.ofReal_im, Complex.conj_re,
      Complex.conj_im, Complex.mul_im]
    ring

theorem tendsto_coefA {pole res : ℂ} (hp : pole ≠ 0) : Tendsto (fun h : ℝ => coefA pole res h) (𝓝[>] 0) (𝓝 0) := by
  have main := (tendsto_const_nhds (x := res / pole)).mul
    ((tendsto_const_nhds (x := (1 : ℂ))).sub ((slope_exp pole).div_const pole))
  rw [div_self hp, sub_self, mul_zero] at main
  refine main.congr fun h => ?_
  unfold coefA
  rw [div_div, mul_comm (h : ℂ)]

theorem tendsto_coefB {pole res : ℂ} (hp : pole ≠ 0) : Tendsto (fun h : ℝ => coefB pole res h) (𝓝[>] 0) (𝓝 0) := by
  have main := (tendsto_const_nhds (x := res / pole)).mul ((tendsto_exp pole).sub ((slope_exp pole).div_const pole))
  rw [div_self hp, sub_self, mul_zero] at main
  refine main.congr' ?_
  filter_upwards [self_mem_nhdsWithin] with h hh
  have hh0 : (h : ℂ) ≠ 0 := by exact_mod_cast (show (0 : ℝ) < h from hh).ne'
  unfold coefB
  field_simp
  ring

theorem tendsto_cellCoef {f : ℂ → ℂ → ℝ → ℂ} (hf : ∀ pole res, pole ≠ 0 → Tendsto (fun h : ℝ => f pole res h) (𝓝[>] 0) (𝓝 0))
    {nPoles k : ℕ} {pole res : ℕ → ℂ} (h0 : ∀ q < nPoles, pole q ≠ 0) (hk : nPoles = 1 ∨ k < nPoles ∨ nPoles = 0) :
    Tendsto (fun h : ℝ => cellCoef nPoles f pole res h k) (𝓝[>] 0) (𝓝 0) := by
  unfold cellCoef
  split
  · exact tendsto_const_nhds
  · rename_i hn
    refine hf _ _ (h0 _ ?_)
    unfold poleInCell
    split <;> omega

/-- **C166 fails**: when the time step is reduced, the transfer impedance that is realised tends to its resistance and inductance; the
poles of the model vanish.  (The poles must fit into the cells, see C38.) -/
theorem C166_limit_partial (Z : TransferModel) (k : ℕ) (s : ℂ) (h0 : ∀ q < Z.polesReal.length, Z.pole q ≠ 0)
    (hk : Z.polesReal.length = 1 ∨ k < Z.polesReal.length ∨ Z.polesReal.length = 0) :
    Tendsto (Z.realised k s) (𝓝[>] 0) (𝓝 (((Z.cte + Z.prop * s) / (Z.factor.getD 1 : ℝ)))) := by
  have hA := tendsto_cellCoef (f := coefA) (res := Z.residue (Z.factor.getD 1)) (fun _ _ => tendsto_coefA) h0 hk
  have hB := tendsto_cellCoef (f := coefB) (res := Z.residue (Z.factor.getD 1)) (fun _ _ => tendsto_coefB) h0 hk
  have hr : Tendsto (fun h : ℝ => Complex.exp (-(s * h / 2))) (𝓝[>] 0) (𝓝 1) := by
    refine (tendsto_exp (-(s / 2))).congr fun h => ?_
    congr 1; ring
  have p1 : ∀ z : ℂ, Tendsto (fun h : ℝ => -cellCoef Z.polesReal.length coefA Z.pole (Z.residue (Z.factor.getD 1)) h k
      * Complex.exp (z * h) + cellCoef Z.polesReal.length coefB Z.pole (Z.residue (Z.factor.getD 1)) h k) (𝓝[>] 0) (𝓝 (-0 * 1 + 0)) :=
    fun z => (hA.neg.mul (tendsto_exp z)).add hB
  have p2 := (Complex.continuous_conj.tendsto _).comp (p1 (conj s))
  have main := hr.mul (((((tendsto_const_nhds (x := ((Z.cte / Z.factor.getD 1 : ℝ) : ℂ))).mul
    ((tendsto_exp s).add_const 1)).div_const 2).add
    ((tendsto_const_nhds (x := ((Z.prop / Z.factor.getD 1 : ℝ) : ℂ))).mul (slope_exp s))).add (((p1 s).add p2).div_const 2))
  have e : ((Z.cte / Z.factor.getD 1 : ℝ) : ℂ) * (1 + 1) / 2 + ((Z.prop / Z.factor.getD 1 : ℝ) : ℂ) * s =
      (Z.cte + Z.prop * s) / (Z.factor.getD 1 : ℝ) := by
    push_cast
    ring
  rw [neg_zero, zero_mul, add_zero, map_zero, add_zero, zero_div, add_zero, one_mul, e] at main
  exact main

/-- **C166**, what remains true: a transfer impedance without poles has the impedance of its model, in the limit of small time
steps. -/
theorem C166_no_poles_partial (Z : TransferModel) (k : ℕ) (s : ℂ) (h0 : Z.polesReal.length = 0) :
    Tendsto (Z.realised k s) (𝓝[>] 0) (𝓝 (Z.impedance s)) := by
  have h := C166_limit_partial Z k s (by omega) (Or.inr (Or.inr h0))
  unfold TransferModel.impedance RationalModel.impedance
  rw [h0, Finset.range_zero, Finset.sum_empty, add_zero]
  exact h

/-- **C166 is refuted**: the model `1 / (s + 1)` has the impedance 1 at direct current; what is realised tends to 0. -/
theorem C166_refuted : ∃ Z : TransferModel, Z.direction = "in" ∧ Z.polesReal.length = 1 ∧ Z.pole 0 = -1 ∧ Z.impedance 0 = 1 ∧
    ∀ k, Tendsto (Z.realised k 0) (𝓝[>] 0) (𝓝 0) := by
  refine ⟨⟨⟨0, 0, [-1], [0], [1], [0]⟩, none, "in"⟩, rfl, rfl, by simp [RationalModel.pole], ?_, fun k => ?_⟩
  · simp [TransferModel.impedance, RationalModel.impedance, RationalModel.pole, RationalModel.residue]
  · have h := C166_limit_partial ⟨⟨0, 0, [-1], [0], [1], [0]⟩, none, "in"⟩ k 0 (by
      intro q hq
      obtain rfl : q = 0 := by simpa using hq
      simp [RationalModel.pole]) (Or.inl rfl)
    simpa using h

end Mtln
