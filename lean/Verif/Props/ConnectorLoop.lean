import Verif.Props.ConnectorEnergy
import Mathlib.Analysis.Complex.ExponentialBounds

/-! # A loop with a connector that is stable or not, depending on its residue: C167 -/

namespace Mtln

open Matrix Finset

/-- One conductor and one cell with `L = C = 1`, both ends shorted, half of the automatic time step, a current of one ampere. -/
noncomputable def loopLine : MTL 1 1 where
  name := "loop"
  m := 1
  u := fun k => if k = 0 then ![0, 0, 0] else if k = 1 then ![0, 0, 1] else 0
  du := fun k => if k < 1 then ![0, 0, 1] else 0
  dun := fun k => if k < 1 then 1 else 0
  l := fun _ => 1
  c := fun _ => 1
  r := fun _ => 0
  g := fun _ => 0
  zs := 0
  zl := 0
  dt := 1 / 2
  time := 0
  v := fun _ => 0
  i := fun k => if k = 0 then fun _ => 1 else 0
  phi := fun _ _ => 0
  probes := []
  conn := Disp.new (1 / 2)
  vSources := fun _ _ _ => 0
  eL := fun _ _ _ => 0
  eT := fun _ _ _ => 0
  left1 := -1
  left2 := 1
  right1 := -1
  right2 := 1
  lr := none
  cg := none

/-- A resistance `ρ` in parallel with a capacitance `1 / ρ`: the impedance `ρ / (s + 1)`. -/
def loopModel (ρ : ℝ) : RationalModel := ⟨0, 0, [-1], [0], [ρ], [0]⟩

theorem loopModel_foster {ρ : ℝ} (hρ : 0 < ρ) : (loopModel ρ).Foster := by
  constructor
  · exact le_rfl
  · show ∑ q ∈ range 1, _ ≤ _
    rw [Finset.sum_range_one]
    simp only [loopModel, List.getD_cons_zero]
    rw [max_le_iff]
    exact ⟨le_rfl, by linarith [show ρ / (-1 : ℝ) = -ρ by ring]⟩
  · intro q hq
    obtain rfl : q = 0 := by simpa [loopModel] using hq
    simp [loopModel]
  · intro q hq
    obtain rfl : q = 0 := by simpa [loopModel] using hq
    simp [loopModel, hρ.ne']

theorem loop_len : ∀ k < loopLine.m, loopLine.dun k = cellLength loopLine.u k := by
  intro k hk
  obtain rfl : k = 0 := by simpa [loopLine] using hk
  unfold cellLength norm3
  simp [loopLine]

theorem loop_term : loopLine.TermConsistent := by
  have e1 : ∀ du : ℝ, (termF1 (1 / 2) du 0 1 0 : Mat 1) = 1 := fun du => by simp [termF1]
  have e2 : ∀ du : ℝ, (termF2 (1 / 2) du 0 1 0 : Mat 1) = -1 := fun du => by simp [termF2]
  constructor
  · show (termF1 (1 / 2) _ 0 1 0 : Mat 1).det ≠ 0
    rw [e1]; simp
  · show (termF1 (1 / 2) _ 0 1 0 : Mat 1).det ≠ 0
    rw [e1]; simp
  · show (-1 : Mat 1) = (termF1 (1 / 2) _ 0 1 0)⁻¹ * termF2 (1 / 2) _ 0 1 0
    rw [e1, e2]; simp
  · show (1 : Mat 1) = (termF1 (1 / 2) _ 0 1 0)⁻¹
    rw [e1]; simp
  · show (-1 : Mat 1) = (termF1 (1 / 2) _ 0 1 0)⁻¹ * termF2 (1 / 2) _ 0 1 0
    rw [e1, e2]; simp
  · show (1 : Mat 1) = (termF1 (1 / 2) _ 0 1 0)⁻¹
    rw [e1]; simp

theorem loop_passive : loopLine.Passive := by
  constructor
  · exact Nat.one_pos
  · show (0 : ℝ) < 1 / 2; norm_num
  · intro k _; show (0 : ℝ) ≤ if k < 1 then 1 else 0; split <;> norm_num
  · intro k _; simp [loopLine, Disp.new]
  · intro k _; simp [loopLine]
  · intro k _ x; simp [loopLine, Disp.new]
  · intro k _ x; simp [loopLine]
  · intro x; simp [loopLine]
  · intro x; simp [loopLine]
  · intro k _; rfl
  · intro k _; rfl
  · intro k _ a b; rfl

theorem spd_smul_one {x : ℝ} (hx : 0 < x) : SPD (x • 1 : Mat 1) := by
  constructor
  · simp
  · intro y hy
    have h0 : y 0 ≠ 0 := fun h => hy (by funext a; rw [Subsingleton.elim a 0, h]; rfl)
    simp only [smul_mulVec, one_mulVec, dotProduct, Pi.smul_apply, smul_eq_mul, Finset.univ_unique, Finset.sum_singleton, Fin.default_eq_zero]
    have := mul_self_pos.2 h0
    nlinarith

theorem loop_regular {x : ℝ} (hx : 0 < x) : MTL.Regular { loopLine with l := fun _ => x • 1 } 1 := by
  constructor
  · intro k _; rfl
  · have := spd_smul_one one_pos
    rwa [one_smul] at this
  · intro k _; exact spd_smul_one hx
  · intro k _ y; simp [loopLine, Disp.new]
  · intro k hk
    have hk : k < 1 := hk
    show (0 : ℝ) < if k < 1 then 1 else 0
    rw [if_pos hk]; norm_num

/-- The automatic time step of the loop. -/
theorem loop_auto {x : ℝ} (hx : 0 < x) : ∃ d, maxTimestep loopLine.m loopLine.dun (fun _ => x • 1) loopLine.c = .ok d ∧ d ^ 2 = x ∧ 0 < d := by
  have he : ∀ k, eigRe ((x • 1 : Mat 1) * loopLine.c (k + 1)) = {x} := fun k => by
    rw [eigRe_one_by_one]; simp [loopLine]
  obtain ⟨d, hd⟩ := maxTimestep_ok (m := loopLine.m) (dun := loopLine.dun) (l := fun _ => (x • 1 : Mat 1)) (c := loopLine.c) one_ne_zero
    ⟨0, Nat.one_pos, by simp [loopLine]⟩ (fun k _ y hy => by
      rw [he, Set.mem_singleton_iff] at hy
      rw [hy]; exact hx)
  obtain ⟨h1, -, k, hk, -, k', -, w, ⟨y, hy, rfl⟩, hw⟩ := C21_courant hd fun k _ => by
    show (0 : ℝ) ≤ if k < 1 then 1 else 0
    split <;> norm_num
  rw [he, Set.mem_singleton_iff] at hy
  subst hy
  obtain rfl : k = 0 := by simpa [loopLine] using hk
  have e : loopLine.dun 0 = 1 := by simp [loopLine]
  rw [e] at hw
  refine ⟨d, hd, ?_, h1⟩
  have h2 : 0 < Real.sqrt y := Real.sqrt_pos.2 hx
  have h3 : d = Real.sqrt y := by field_simp at hw; exact hw
  rw [h3, Real.sq_sqrt hx.le]

/-- Connectors that are accepted are added. -/
theorem addConnector_exists {n p : ℕ} {D : Disp n p} {u : ℕ → V3} {m : ℕ} {x : V3} {c : Fin n} {M : RationalModel}
    (h : ConnectorAccepted D u m x c M (nearest u m x)) : ∃ D', D.addConnector u m x c M = .ok D' := by
  classical
  obtain ⟨q1, h1⟩ : ∃ q1 : ℕ → Fin n → Fin n → QEntry p, ∀ k' a b, q1 k' a b = if k' = nearest u m x ∧ a = c ∧ b = c then
      some (fun s : Fin p => -coefA (M.pole s) (M.residue (cellLength u (nearest u m x)) s) D.dt) else D.q1 k' a b := ⟨_, fun _ _ _ => rfl⟩
  obtain ⟨q2, h2⟩ : ∃ q2 : ℕ → Fin n → Fin n → QEntry p, ∀ k' a b, q2 k' a b = if k' = nearest u m x ∧ a = c ∧ b = c then
      some (fun s : Fin p => coefB (M.pole s) (M.residue (cellLength u (nearest u m x)) s) D.dt) else D.q2 k' a b := ⟨_, fun _ _ _ => rfl⟩
  refine ⟨⟨D.dt, q1, q2, fun k' a b => if k' = nearest u m x ∧ a = c ∧ b = c then some fun s : Fin p => coefE (M.pole s) D.dt else D.q3 k' a b,
    fun k' => Matrix.of fun a b => if k' = nearest u m x ∧ a = c ∧ b = c then M.cte / cellLength u (nearest u m x) else D.d k' a b,
    fun k' => Matrix.of fun a b => if k' = nearest u m x ∧ a = c ∧ b = c then M.prop / cellLength u (nearest u m x) else D.e k' a b,
    vSum q1, vSum q2⟩, C35_placement.2 ⟨_, rfl, h, fun _ _ _ => rfl, fun _ _ _ => rfl, h1, h2, fun _ _ _ => rfl, rfl, rfl, rfl⟩⟩

theorem loop_near : nearest loopLine.u loopLine.m ![0, 0, 0] = 0 := by
  have h3 := nearest_first loopLine.u 1
  have h4 : loopLine.u 0 = ![0, 0, 0] := by simp [loopLine]
  rwa [h4] at h3

theorem loop_connector (ρ : ℝ) : ∃ D, loopLine.addConnectors [(![0, 0, 0], 0, loopModel ρ)] = .ok { loopLine with conn := D } := by
  have hlen : cellLength loopLine.u 0 = 1 := by
    rw [← loop_len 0 Nat.one_pos]; simp [loopLine]
  have h0 : loopLine.u 0 = ![0, 0, 0] := by simp [loopLine]
  have h1 : loopLine.u 1 = ![0, 0, 1] := by simp [loopLine]
  obtain ⟨D, hD⟩ := addConnector_exists (D := loopLine.conn) (u := loopLine.u) (m := loopLine.m) (x := ![0, 0, 0]) (c := 0) (M := loopModel ρ) (by
    rw [loop_near]
    refine ⟨?_, Nat.one_pos, ?_, ⟨rfl, rfl, rfl⟩, rfl, ?_, ?_, rfl, rfl, rfl, rfl, rfl⟩
    · intro j
      show loopLine.u 0 j ≤ _ ∧ _ ≤ loopLine.u 1 j
      rw [h0, h1]
      fin_cases j <;> simp
    · rw [hlen]; norm_num
    · show (1 / 2 : ℝ) ≠ 0; norm_num
    · intro s hs
      obtain rfl : s = 0 := by omega
      simp [loopModel, RationalModel.pole])
  refine ⟨D, ?_⟩
  unfold MTL.addConnectors
  rw [List.foldlM_cons]
  refine bind_ok_iff.2 ⟨{ loopLine with conn := D }, ?_, rfl⟩
  unfold MTL.addDispersiveConnector
  refine bind_ok_iff.2 ⟨D, hD, rfl⟩

theorem loop_placed (ρ : ℝ) (c : Fin 1) : placed loopLine.u loopLine.m [(![0, 0, 0], 0, loopModel ρ)] 0 c = some (loopModel ρ) := by
  have hc : c = 0 := Subsingleton.elim _ _
  unfold placed
  rw [List.foldl_cons, List.foldl_nil]
  exact if_pos ⟨loop_near.symm, hc⟩

/-! ### Small residues -/

/-- Non-vacuity: the loop with the impedance `1 / (s + 1)` meets the hypotheses; all its runs are bounded. -/
example : ∃ s₁, loopLine.addConnectors [(![0, 0, 0], 0, loopModel 1)] = .ok s₁ ∧
    ∃ K, ∀ (T : ℝ) (s' : MTL 1 1) (N : ℕ) (tr : ℕ → MTL 1 1), RunTrace s₁ T s' N tr →
      ∀ j ≤ N, (∀ k ≤ 1, ∀ a, |(tr j).v k a| ≤ K) ∧ (∀ k < 1, ∀ a, |(tr j).i k a| ≤ K) := by
  obtain ⟨D, hD⟩ := loop_connector 1
  obtain ⟨d, hd, hd2, -⟩ := loop_auto (x := 15 / 16) (by norm_num)
  refine ⟨_, hD, C167_bounded_partial (C := 1) (l' := fun _ => (15 / 16 : ℝ) • 1) (d := d) (τ := 1 / 2) rfl hD ?_ loop_passive
    ⟨fun _ _ _ => rfl, fun _ _ _ => rfl, fun _ _ _ => rfl⟩ loop_len le_rfl loop_term.termFor (loop_regular (by norm_num)) ?_ hd ?_⟩
  · intro e he
    rw [List.mem_singleton.1 he]
    exact loopModel_foster one_pos
  · intro k hk x
    obtain rfl : k = 0 := by simpa [loopLine] using hk
    simp only [loop_placed, Option.elim_some]
    simp [loopLine, loopModel, dotProduct, smul_mulVec]
    nlinarith [sq_nonneg (x 0)]
  · show (1 / 2 : ℝ) * (1 / 2) < _
    rw [hd2]; norm_num

/-! ### Large residues -/

theorem exp_half_bounds : 0.6064 < Real.exp (-(1 / 2)) ∧ Real.exp (-(1 / 2)) < 0.6067 := by
  have h1 := Real.exp_one_gt_d9
  have h2 := Real.exp_one_lt_d9
  have h3 : Real.exp (-(1 / 2)) ^ 2 * Real.exp 1 = 1 := by
    rw [sq, ← Real.exp_add, ← Real.exp_add]; norm_num
  have h4 := Real.exp_pos (-(1 / 2))
  constructor
  · by_contra h
    push Not at h
    nlinarith [Real.exp_pos 1]
  · by_contra h
    push Not at h
    nlinarith [Real.exp_pos 1]

/-- A sequence that grows. -/
theorem pairs_grow {a : ℕ → ℝ} {q μ : ℝ} {N : ℕ} (hq : 1 < q) (hμ : 0 < μ) (h0 : μ ≤ a 0) (h1 : μ ≤ a 1)
    (h : ∀ j, j + 2 ≤ N → ∀ x, x ≤ a j → x ≤ a (j + 1) → 0 < x → q * x ≤ a (j + 2)) (k : ℕ) (hk : 2 * k + 1 ≤ N) :
    q ^ k * μ ≤ a (2 * k) ∧ q ^ k * μ ≤ a (2 * k + 1) := by
  induction k with
  | zero => simpa using ⟨h0, h1⟩
  | succ k ih =>
    have ih := ih (by omega)
    have hpos : 0 < q ^ k * μ := mul_pos (pow_pos (by linarith) _) hμ
    have e1 := h (2 * k) (by omega) _ ih.1 ih.2 hpos
    have e2 := h (2 * k + 1) (by omega) _ ih.2 (le_trans (by nlinarith) e1) hpos
    have e3 : q ^ (k + 1) * μ = q * (q ^ k * μ) := by ring
    rw [e3]
    exact ⟨e1, e2⟩

/-- One step of the loop. -/
theorem loop_step {ρ : ℝ} {D : Disp 1 1} (hD : loopLine.addConnectors [(![0, 0, 0], 0, loopModel ρ)] = .ok { loopLine with conn := D })
    {T : ℝ} {s' : MTL 1 1} {N : ℕ} {tr : ℕ → MTL 1 1} (R : RunTrace { loopLine with conn := D } T s' N tr) {E : ℝ}
    (hE : E = Real.exp (-(1 / 2))) {j : ℕ} (hj : j < N) :
    (2 + ρ * (2 * E - 1)) * (tr (j + 1)).i 0 0 + (-2 + ρ * (2 - 3 * E)) * (tr j).i 0 0 + E * ((tr j).phi 0 0 0).re = 0 ∧
      ((tr (j + 1)).phi 0 0 0).re = E * ((tr j).phi 0 0 0).re + ρ * (1 - E) * (tr (j + 1)).i 0 0 := by
  obtain ⟨-, hdt, hEq, -⟩ := addConnectors_ready (s := loopLine) rfl hD
  have hv : ∀ j ≤ N, (tr j).v 0 = 0 ∧ (tr j).v 1 = 0 := by
    intro j
    induction j with
    | zero =>
      intro _
      obtain ⟨lr, cg, -, -, h0⟩ := R.start
      rw [h0]
      exact ⟨rfl, rfl⟩
    | succ j ih =>
      intro hj
      obtain ⟨h0, h1⟩ := ih (by omega)
      have hT : MTL.TermConsistent { loopLine with conn := D } :=
        have h := loop_term
        ⟨h.det_left, h.det_right, h.left1, h.left2, h.right1, h.right2⟩
      have g0 := (C09_terminal_equations R hT Nat.one_pos j hj _).1.2 rfl
      have g1 := (C09_terminal_equations R hT Nat.one_pos j hj _).2.2 rfl
      unfold TerminalEq at g0 g1
      have em : MTL.m { loopLine with conn := D } = 1 := rfl
      have ez : MTL.zs { loopLine with conn := D } = 0 := rfl
      have ez' : MTL.zl { loopLine with conn := D } = 0 := rfl
      have es : ∀ k a t, MTL.vSources { loopLine with conn := D } k a t = 0 := fun _ _ _ => rfl
      rw [h0, ez] at g0
      rw [em, h1, ez'] at g1
      simp only [es, zero_mulVec, add_zero, sub_zero] at g0 g1
      exact ⟨g0.trans (by funext a; exact add_zero _), g1.trans (by funext a; exact add_zero _)⟩
  have hdrop := extraDrop_model R hEq hdt hj (k := 0) Nat.one_pos (loop_placed ρ 0) (loop_len 0 Nat.one_pos)
  have hmem := memory_step R hEq hdt hj (loop_placed ρ 0) (loop_len 0 Nat.one_pos) 0
  have ed : MTL.dun { loopLine with conn := D } 0 = 1 := by simp [loopLine]
  have et : MTL.dt { loopLine with conn := D } = 1 / 2 := rfl
  have el : MTL.l { loopLine with conn := D } 0 = 1 := rfl
  have er : MTL.r { loopLine with conn := D } 0 = 0 := rfl
  have e1 : ∀ k a t, MTL.eT { loopLine with conn := D } k a t = 0 := fun _ _ _ => rfl
  have e2 : ∀ k a t, MTL.eL { loopLine with conn := D } k a t = 0 := fun _ _ _ => rfl
  have hpole : (loopModel ρ).pole ((0 : Fin 1) : ℕ) = ((-1 : ℝ) : ℂ) := by simp [loopModel, RationalModel.pole]
  have hres : (loopModel ρ).residue 1 ((0 : Fin 1) : ℕ) = ((ρ / 1 : ℝ) : ℂ) := by simp [loopModel, RationalModel.residue]
  have hexp : Real.exp (-1 * (1 / 2)) = E := by rw [hE]; norm_num
  constructor
  · unfold MTL.extraDrop modelDrop at hdrop
    rw [ed, et, el, er, (hv (j + 1) hj).1, (hv (j + 1) hj).2] at hdrop
    simp only [e1, e2, one_mulVec, zero_mulVec, Pi.zero_apply, Pi.sub_apply] at hdrop
    rw [Fin.sum_univ_one, hpole, hres, show ((1 / 2 : ℝ) : ℝ) = (1 / 2 : ℝ) from rfl] at hdrop
    have h3 := poleDrop_real (a := -1) (ρ := ρ) (len := 1) (h := 1 / 2) (x := (tr j).i 0 0) (y := (tr (j + 1)).i 0 0)
      (φ := (tr j).phi 0 0 0) one_ne_zero
    rw [h3, hexp] at hdrop
    have ec : (loopModel ρ).cte = 0 := rfl
    have ep : (loopModel ρ).prop = 0 := rfl
    rw [ec, ep] at hdrop
    have e3 : ∀ k a t, loopLine.eT k a t = 0 := fun _ _ _ => rfl
    have e4 : ∀ k a t, loopLine.eL k a t = 0 := fun _ _ _ => rfl
    simp only [e3, e4] at hdrop
    linear_combination -hdrop
  · rw [ed, et, hpole, hres, div_one] at hmem
    have h4 : Complex.exp (((-1 : ℝ) : ℂ) * ((1 / 2 : ℝ) : ℂ)) = ((E : ℝ) : ℂ) := by
      rw [← Complex.ofReal_mul, ← Complex.ofReal_exp, hexp]
    rw [h4] at hmem
    have h5 : (ρ : ℂ) / ((-1 : ℝ) : ℂ) * ((E : ℂ) - 1) * ((tr (j + 1)).i 0 0 : ℂ) = ((ρ * (1 - E) * (tr (j + 1)).i 0 0 : ℝ) : ℂ) := by
      push_cast; ring
    rw [h5] at hmem
    rw [hmem, Complex.add_re, Complex.re_ofReal_mul, Complex.ofReal_re]

/-- The loop with a connector can be run for any number of steps. -/
theorem loop_runs {ρ : ℝ} (hρ : 0 < ρ) {D : Disp 1 1}
    (hD : loopLine.addConnectors [(![0, 0, 0], 0, loopModel ρ)] = .ok { loopLine with conn := D }) (N : ℕ) :
    ∃ T s' tr, RunTrace { loopLine with conn := D } T s' N tr := by
  obtain ⟨-, hdt, hEq, -⟩ := addConnectors_ready (s := loopLine) rfl hD
  obtain ⟨hE1, -⟩ := exp_half_bounds
  obtain ⟨E, hE⟩ : ∃ E, E = Real.exp (-(1 / 2)) := ⟨_, rfl⟩
  rw [← hE] at hE1
  have hexp : Real.exp (-1 * (1 / 2)) = E := by rw [hE]; norm_num
  have hlen : cellLength loopLine.u 0 = 1 := by
    rw [← loop_len 0 Nat.one_pos]; simp [loopLine]
  have hq : D.q1sum 0 0 0 = ρ * (2 * E - 1) := by
    have h := hEq.q1 _ _ _ (loop_placed ρ 0)
    have h1 : D.q1sum = vSum D.q1 := hEq.sum1
    have h2 : D.dt = 1 / 2 := hdt
    rw [h1]
    simp only [vSum, poleSum, Matrix.of_apply]
    have h3 : D.q1 0 0 0 = _ := h
    rw [h3]
    simp only [QEntry.val, Option.getD_some, Fin.sum_univ_one]
    have hpole : (loopModel ρ).pole ((0 : Fin 1) : ℕ) = ((-1 : ℝ) : ℂ) := by simp [loopModel, RationalModel.pole]
    have hres : (loopModel ρ).residue 1 ((0 : Fin 1) : ℕ) = ((ρ : ℝ) : ℂ) := by simp [loopModel, RationalModel.residue]
    show (-coefA ((loopModel ρ).pole ((0 : Fin 1) : ℕ)) ((loopModel ρ).residue (cellLength loopLine.u 0) ((0 : Fin 1) : ℕ)) D.dt).re = _
    rw [hlen, hpole, hres, h2]
    have h4 : -coefA ((-1 : ℝ) : ℂ) (ρ : ℂ) (1 / 2) = ((-(ρ / -1 * (1 - (Real.exp (-1 * (1 / 2)) - 1) / (-1 * (1 / 2)))) : ℝ) : ℂ) := by
      unfold coefA; push_cast; rfl
    rw [h4, Complex.ofReal_re, hexp]
    field_simp
    ring
  have hd : D.d 0 0 0 = 0 := by
    have : D.d 0 0 0 = _ := hEq.d _ _ _ (loop_placed ρ 0)
    rw [this]; simp [loopModel]
  have he : D.e 0 0 0 = 0 := by
    have : D.e 0 0 0 = _ := hEq.e _ _ _ (loop_placed ρ 0)
    rw [this]; simp [loopModel]
  have hlr : ∃ lr, updateLr loopLine.m loopLine.dt loopLine.dun loopLine.l loopLine.r D = .ok lr := by
    refine ⟨_, updateLr_ok_iff.2 ⟨by show (1 / 2 : ℝ) ≠ 0; norm_num, ?_, rfl⟩⟩
    intro k hk
    obtain rfl : k = 0 := by simpa [loopLine] using hk
    rw [Matrix.det_fin_one]
    unfold lrF1
    simp only [Matrix.smul_apply, Matrix.add_apply, hd, he, hq, smul_eq_mul]
    simp [loopLine]
    nlinarith
  have hcg : ∃ cg, updateCg loopLine.m loopLine.dt loopLine.dun loopLine.c loopLine.g = .ok cg := by
    refine ⟨_, updateCg_ok_iff.2 ⟨by show (1 / 2 : ℝ) ≠ 0; norm_num, ?_, rfl⟩⟩
    intro k hk
    have hk' : k ≤ 1 := hk
    interval_cases k <;> norm_num [cgF1, nodalLength, loopLine]
  obtain ⟨s', hs'⟩ := (runUntil_success_iff ((N : ℝ) * (1 / 2)) { loopLine with conn := D }).2
    ⟨by show (1 / 2 : ℝ) ≠ 0; norm_num, hlr, hcg, Or.inr fun q hq => by simp [loopLine] at hq⟩
  obtain ⟨-, N', tr, R⟩ := (runUntil_ok_iff _ _ _).1 hs'
  have hN : N' = N := by
    rw [R.len]
    show ⌊(N : ℝ) * (1 / 2) / (1 / 2)⌋.toNat = N
    rw [mul_div_cancel_right₀ _ (by norm_num : (1 / 2 : ℝ) ≠ 0)]
    simp
  rw [hN] at R
  exact ⟨_, s', tr, R⟩

/-- **C167** is false of the code: a passive line, run with half of its automatic time step, becomes unstable when a resistance of
100 ohm in parallel with a capacitance of a hundredth of a farad is added as a connector. -/
theorem C167_refuted : ∃ (s s₁ : MTL 1 1) (M : RationalModel) (d : ℝ),
    s.conn = Disp.new s.dt ∧ s.Passive ∧ s.Regular 1 ∧ s.Unexcited ∧ s.TermConsistent ∧ (∀ k < s.m, s.dun k = cellLength s.u k) ∧
    maxTimestep s.m s.dun s.l s.c = .ok d ∧ s.dt < d ∧
    (∀ z : ℂ, 0 ≤ z.re → 0 ≤ (M.impedance z).re) ∧ M.Foster ∧ s.addConnectors [(s.u 0, 0, M)] = .ok s₁ ∧
    ∀ K : ℝ, ∃ T s' N tr, RunTrace s₁ T s' N tr ∧ K < |s'.i 0 0| := by
  obtain ⟨D, hD⟩ := loop_connector 100
  obtain ⟨d, hd, hd2, hd0⟩ := loop_auto one_pos
  have hu : loopLine.u 0 = ![0, 0, 0] := by simp [loopLine]
  have hF := loopModel_foster (ρ := 100) (by norm_num)
  have hreg := loop_regular one_pos
  rw [one_smul] at hd hreg
  refine ⟨loopLine, _, loopModel 100, d, rfl, loop_passive, hreg, ⟨fun _ _ _ => rfl, fun _ _ _ => rfl, fun _ _ _ => rfl⟩, loop_term,
    loop_len, hd, ?_, fun z hz => hF.positive_real hz, hF, by rw [hu]; exact hD, ?_⟩
  · show (1 / 2 : ℝ) < d
    nlinarith
  intro K
  obtain ⟨E, hE⟩ : ∃ E, E = Real.exp (-(1 / 2)) := ⟨_, rfl⟩
  obtain ⟨hE1, hE2⟩ := exp_half_bounds
  rw [← hE] at hE1 hE2
  obtain ⟨p2, hp2⟩ : ∃ p2, p2 = 200 * E - 98 := ⟨_, rfl⟩
  obtain ⟨p1, hp1⟩ : ∃ p1, p1 = 198 - 102 * E - 300 * E ^ 2 := ⟨_, rfl⟩
  obtain ⟨p0, hp0⟩ : ∃ p0, p0 = E * (198 - 300 * E) := ⟨_, rfl⟩
  have h2 : 0 < p2 := by rw [hp2]; linarith
  have h1 : 0 < p1 := by rw [hp1]; nlinarith
  have h0 : 0 < p0 := by rw [hp0]; nlinarith
  have hq : 1 < (p1 + p0) / p2 := by
    rw [one_lt_div h2, hp1, hp0, hp2]
    nlinarith
  obtain ⟨μ, hμ⟩ : ∃ μ, μ = (198 - 300 * E) / p2 := ⟨_, rfl⟩
  have hμ0 : 0 < μ := by rw [hμ]; exact div_pos (by linarith) h2
  have hμ1 : μ ≤ 1 := by rw [hμ, div_le_one h2, hp2]; linarith
  obtain ⟨k, hk⟩ := pow_unbounded_of_one_lt (K / μ) hq
  obtain ⟨T, s', tr, R⟩ := loop_runs (by norm_num : (0 : ℝ) < 100) hD (2 * k + 1)
  refine ⟨T, s', _, tr, R, ?_⟩
  obtain ⟨lr, cg, -, -, hstart⟩ := R.start
  have hi0 : (tr 0).i 0 0 = 1 := by rw [hstart]; simp [loopLine]
  have hphi0 : (tr 0).phi 0 0 0 = 0 := by rw [hstart]; simp [loopLine]
  have hrec : ∀ j, j + 2 ≤ 2 * k + 1 → p2 * (tr (j + 2)).i 0 0 + p1 * (tr (j + 1)).i 0 0 - p0 * (tr j).i 0 0 = 0 := by
    intro j hj
    obtain ⟨a1, a2⟩ := loop_step hD R hE (j := j) (by omega)
    obtain ⟨b1, -⟩ := loop_step hD R hE (j := j + 1) (by omega)
    rw [a2] at b1
    rw [hp2, hp1, hp0]
    linear_combination b1 - E * a1
  have hi1 : (tr 1).i 0 0 = -μ := by
    obtain ⟨a1, -⟩ := loop_step hD R hE (j := 0) (by omega)
    rw [hi0, hphi0] at a1
    rw [hμ, eq_neg_iff_add_eq_zero, ← mul_right_inj' h2.ne', mul_add, mul_div_cancel₀ _ h2.ne', hp2]
    simp only [Complex.zero_re, zero_add] at a1
    linarith
  have hgrow := pairs_grow (a := fun j => (-1) ^ j * (tr j).i 0 0) (N := 2 * k + 1) hq hμ0 (by simp [hi0, hμ1]) (by simp [hi1])
    (fun j hj x hx hx' hx0 => by
      rw [div_mul_eq_mul_div, div_le_iff₀ h2]
      have e := hrec j hj
      have e' : (-1) ^ (j + 2) * (tr (j + 2)).i 0 0 * p2 = p1 * ((-1) ^ (j + 1) * (tr (j + 1)).i 0 0) + p0 * ((-1) ^ j * (tr j).i 0 0) := by
        rw [pow_add, pow_add]
        linear_combination (-1) ^ j * e
      show (p1 + p0) * x ≤ (-1) ^ (j + 2) * (tr (j + 2)).i 0 0 * p2
      rw [e']
      nlinarith [mul_le_mul_of_nonneg_left hx h0.le, mul_le_mul_of_nonneg_left hx' h1.le]) k le_rfl
  have h3 := hgrow.2
  rw [← R.final]
  rw [div_lt_iff₀ hμ0] at hk
  refine lt_of_lt_of_le hk (h3.trans ?_)
  have := le_abs_self ((-1) ^ (2 * k + 1) * (tr (2 * k + 1)).i 0 0)
  rwa [abs_mul, abs_pow, abs_neg, abs_one, one_pow, one_mul] at this

end Mtln
