import Verif.Lemmas.Dieout
import Verif.Props.Steady
import Verif.Props.ConvergeBuilt

/-! # Decay of transients: C138, C139 -/

namespace Mtln

open Matrix Filter Topology

variable {n p : ℕ}

theorem MTL.FreeStep.congr {s t : MTL n p} {τ : ℝ} {v i v' i' : Grid n} (hc : s.SameConfig t)
    (h : t.FreeStep τ v i v' i') : s.FreeStep τ v i v' i' := by
  obtain ⟨⟨a, b⟩, c, d⟩ := h
  rw [hc.m, hc.dun, hc.l, hc.conn, hc.dt, hc.r] at a
  rw [hc.m, hc.dun, hc.c, hc.g, hc.dt] at b
  rw [hc.dun, hc.c, hc.g, hc.zs] at c
  rw [hc.m, hc.dun, hc.c, hc.g, hc.zl] at d
  exact ⟨⟨a, b⟩, c, d⟩

/-- A step of the code with sources that do not change in it: the distance to the solution of the circuit for direct current
moves freely. -/
theorem settled_step {s : MTL n p} {lr : LR n} {cg : CG n} {τ : ℝ} (hp : s.Passive) (ht : s.TermFor τ)
    (hlr : updateLr s.m s.dt s.dun s.l s.r s.conn = .ok lr) (hcg : updateCg s.m s.dt s.dun s.c s.g = .ok cg)
    {V0 V1 : Col n} (a0 : s.sample.vNow 0 = V0) (a1 : s.sample.vPrev 0 = V0) (b0 : s.sample.vNow s.m = V1)
    (b1 : s.sample.vPrev s.m = V1) (c0 : s.sample.eTNow = 0) (c1 : s.sample.eTPrev = 0) (d0 : s.sample.eLNow = 0)
    (d1 : s.sample.eLPrev = 0) {V I : Grid n} (h : s.DC V0 V1 V I) :
    s.FreeStep τ (s.v - V) (s.i - I) ((s.advanceFields lr cg).v - V) ((s.advanceFields lr cg).i - I) := by
  obtain ⟨-, hdetL, hlr⟩ := updateLr_ok_iff.1 hlr
  obtain ⟨-, hdetC, hcg⟩ := updateCg_ok_iff.1 hcg
  obtain ⟨s', hs'⟩ : ∃ s', s' = s.advanceFields lr cg := ⟨_, rfl⟩
  rw [← hs']
  have twice : ∀ a b c : Col n, (a - c) + (b - c) = (a + b) - (2 : ℝ) • c := fun a b c => by module
  refine ⟨⟨?_, ?_⟩, ?_, ?_⟩
  · intro k hk
    have h1 := advanceFields_i lr cg s k hk
    rw [← hs', hlr] at h1
    have h2 := (current_update_iff (L := s.l k) (R := s.r k) (D := s.conn.d k) (E := s.conn.e k)
      (Q1 := s.conn.q1sum k) (Q2 := s.conn.q2sum k) rfl rfl (hdetL k hk) (s'.i k) (s.i k)
      (s.conn.q3phi s.phi k) (s'.v (k + 1) - s'.v k) (s.sample.eTNow (k + 1) - s.sample.eTNow k)
      (s.sample.eLNow k) (s.sample.eLPrev k)).1 h1
    have h3 : s.conn.q3phi s.phi k = 0 := by
      funext a
      simp [Disp.q3phi, hp.q3 k hk, QEntry.val, poleSum]
    rw [h3, hp.q1 k hk, hp.q2 k hk, c0, d0, d1] at h2
    unfold CurrentEq at h2
    simp only [zero_mulVec, add_zero, sub_zero, smul_zero, Pi.zero_apply] at h2
    simp only [Pi.sub_apply]
    rw [sub_sub_sub_cancel_right, twice]
    have h4 := h.cell k hk
    simp only [mulVec_sub, mulVec_add, mulVec_smul] at h2 h4 ⊢
    linear_combination (norm := module) h2 - h4
  · intro k h0 hk
    have h1 := advanceFields_v_interior lr cg s k h0 hk
    rw [← hs', hcg] at h1
    have h2 := (voltage_update_iff (C := s.c k) (G := s.g k) rfl rfl (hdetC k hk.le) (s'.v k) (s.v k)
      (s.i k - s.i (k - 1)) (s.sample.eTNow k - s.sample.eTPrev k)).1 h1
    rw [c0, c1] at h2
    have hlen : nodalLength s.m s.dun k = (s.dun (k - 1) + s.dun k) / 2 := by
      unfold nodalLength
      rw [if_neg (by omega), if_pos hk]
      ring
    rw [hlen] at h2
    unfold VoltageEq at h2
    simp only [mulVec_zero, add_zero, sub_zero, smul_zero, Pi.zero_apply] at h2
    simp only [Pi.sub_apply]
    rw [sub_sub_sub_cancel_right, twice]
    have h4 := h.node k h0 hk
    simp only [mulVec_sub, mulVec_add, mulVec_smul] at h2 h4 ⊢
    linear_combination (norm := module) h2 - h4
  · have h1 := advanceFields_v_left lr cg s hp.cells
    rw [← hs', ht.left1, ht.left2, a0, a1, c0, c1] at h1
    have h2 := (terminal_update_iff ht.det_left (s'.v 0) (s.v 0) (s.i 0) (V0 + V0) 0).1 (by rw [h1]; simp)
    simp only [mulVec_zero, add_zero, smul_zero] at h2
    simp only [Pi.sub_apply]
    have h3 := h.first
    rw [sub_sub_sub_cancel_right, twice]
    simp only [mulVec_sub, mulVec_add, mulVec_smul] at h2 h3 ⊢
    linear_combination (norm := module) h2 - (2 : ℝ) • h3
  · have h1 := advanceFields_v_right lr cg s hp.cells
    rw [← hs', ht.right1, ht.right2, b0, b1, c0, c1] at h1
    have h2 := (terminal_update_iff ht.det_right (s'.v s.m) (s.v s.m) (-s.i (s.m - 1)) (V1 + V1) 0).1 (by
      rw [h1]; simp [mulVec_neg])
    simp only [mulVec_zero, add_zero, smul_zero] at h2
    simp only [Pi.sub_apply]
    have h3 := h.last
    rw [sub_sub_sub_cancel_right, twice]
    simp only [mulVec_sub, mulVec_add, mulVec_smul, mulVec_neg] at h2 h3 ⊢
    linear_combination (norm := module) h2 - (2 : ℝ) • h3

/-- The two ends in a step with any sources: up to a voltage that a current causes in the impedance, the voltages of two steps
add up to those of the sources. -/
theorem ends_step {s : MTL n p} {lr : LR n} {cg : CG n} {τ : ℝ} (hm : 0 < s.m) (hτ : τ ≠ 0) (ht : s.TermFor τ) :
    (∃ w, (s.advanceFields lr cg).v 0 - s.sample.vNow 0 = -(s.v 0 - s.sample.vPrev 0) + s.zs *ᵥ w) ∧
    (∃ w, (s.advanceFields lr cg).v s.m - s.sample.vNow s.m = -(s.v s.m - s.sample.vPrev s.m) + s.zl *ᵥ w) := by
  have move : ∀ (d : ℝ) (A : Mat n) (x : Col n), (d / s.dt) • A *ᵥ x = (d / τ) • A *ᵥ ((τ / s.dt) • x) := by
    intro d A x
    rw [mulVec_smul, smul_smul]
    congr 1
    rcases eq_or_ne s.dt 0 with h | h
    · simp [h]
    · field_simp
  have close : ∀ {a b c d e : Col n} {Z : Mat n}, a + b = c + d - Z *ᵥ e → ∃ w, a - c = -(b - d) + Z *ᵥ w := by
    intro a b c d e Z h
    refine ⟨-e, ?_⟩
    rw [mulVec_neg]
    linear_combination (norm := module) h
  constructor
  · have h1 := advanceFields_v_left lr cg s hm
    rw [ht.left1, ht.left2, move] at h1
    exact close ((terminal_update_iff ht.det_left _ _ _ _ _).1 h1)
  · have h1 := advanceFields_v_right lr cg s hm
    rw [ht.right1, ht.right2, move] at h1
    refine close ((terminal_update_iff ht.det_right _ _ (-s.i (s.m - 1)) (s.sample.vNow s.m + s.sample.vPrev s.m)
      ((τ / s.dt) • (s.sample.eTNow s.m - s.sample.eTPrev s.m))).1 ?_)
    rw [h1, mulVec_neg, smul_neg, neg_neg]

/-! ## C138 -/

theorem iterate_succ_fields (lr : LR n) (cg : CG n) (s : MTL n p) (j : ℕ) :
    (MTL.advanceFields lr cg)^[j + 1] s = ((MTL.advanceFields lr cg)^[j] s).advanceFields lr cg :=
  Function.iterate_succ_apply' _ _ _

/-- The free oscillations of a line, step by step. -/
theorem free_orbit {s : MTL n p} {lr : LR n} {cg : CG n} {τ : ℝ} (hp : s.Passive) (hx : s.Unexcited) (ht : s.TermFor τ)
    (hlr : updateLr s.m s.dt s.dun s.l s.r s.conn = .ok lr) (hcg : updateCg s.m s.dt s.dun s.c s.g = .ok cg) (j : ℕ) :
    s.FreeStep τ ((MTL.advanceFields lr cg)^[j] s).v ((MTL.advanceFields lr cg)^[j] s).i
      ((MTL.advanceFields lr cg)^[j + 1] s).v ((MTL.advanceFields lr cg)^[j + 1] s).i := by
  have hc := iterate_advanceFields_config lr cg s j
  rw [iterate_succ_fields]
  refine MTL.FreeStep.congr hc (free_step (hp.congr hc) (hx.congr hc) (ht.congr hc) ?_ ?_)
  · rw [hc.m, hc.dt, hc.dun, hc.l, hc.r, hc.conn]; exact hlr
  · rw [hc.m, hc.dt, hc.dun, hc.c, hc.g]; exact hcg

section

variable {s t : MTL n p} {C : Mat n} {d τ : ℝ}

/-- **C138** Two lines with the same data, the same sources and fields and the same clock forget their initial states: where one
end absorbs power, and the voltages of the ends differ by nothing a short would keep, the difference of all voltages and
currents of their runs becomes and stays as small as one likes. -/
theorem C138_forget (hp : s.Passive) (hr : s.Regular C) (hτ : s.dt ≤ τ) (ht : s.TermFor τ)
    (hauto : maxTimestep s.m s.dun s.l s.c = .ok d) (hlt : s.dt * τ < d ^ 2) (ha : Absorbing s.zs ∨ Absorbing s.zl)
    (hst : s.SameMedium t) (htime : t.time = s.time) (hS : ∀ k x u, t.vSources k x u = s.vSources k x u)
    (hL : ∀ k x u, t.eL k x u = s.eL k x u) (hT : ∀ k x u, t.eT k x u = s.eT k x u)
    (h0 : Compatible s.zs (s.v 0 - t.v 0)) (h1 : Compatible s.zl (s.v s.m - t.v s.m)) :
    ∀ ε > 0, ∃ J, ∀ (T : ℝ) (s' t' : MTL n p) (N : ℕ) (tr tr' : ℕ → MTL n p), RunTrace s T s' N tr → RunTrace t T t' N tr' →
      ∀ j ≥ J, j ≤ N → (∀ k ≤ s.m, ∀ a, |(tr j).v k a - (tr' j).v k a| ≤ ε) ∧
        ∀ k < s.m, ∀ a, |(tr j).i k a - (tr' j).i k a| ≤ ε := by
  by_cases hok : (∃ lr, updateLr s.m s.dt s.dun s.l s.r s.conn = .ok lr) ∧ ∃ cg, updateCg s.m s.dt s.dun s.c s.g = .ok cg
  · obtain ⟨⟨lr, hlr⟩, cg, hcg⟩ := hok
    obtain ⟨z, hz⟩ : ∃ z : MTL n p, z = { s with
        v := fun k => s.v k - t.v k
        i := fun k => s.i k - t.i k
        phi := fun k x σ => s.phi k x σ - t.phi k x σ
        vSources := fun _ _ _ => 0
        eL := fun _ _ _ => 0
        eT := fun _ _ _ => 0 } := ⟨_, rfl⟩
    have hsz : s.SameMedium z := by rw [hz]; exact ⟨rfl, rfl, rfl, rfl, rfl, rfl, rfl, rfl, rfl, rfl, rfl, rfl, rfl, rfl⟩
    have comb : ∀ j, StateComb 1 (-1) ((MTL.advanceFields lr cg)^[j] s) ((MTL.advanceFields lr cg)^[j] t)
        ((MTL.advanceFields lr cg)^[j] z) := by
      intro j
      refine iterate_comb lr cg j hst hsz htime (by rw [hz]) ⟨?_, ?_, ?_⟩ ⟨?_, ?_, ?_⟩
      · intro k x u; rw [hz, hS]; simp
      · intro k x u; rw [hz, hL]; simp
      · intro k x u; rw [hz, hT]; simp
      · intro k x; rw [hz]; simp [sub_eq_add_neg]
      · intro k x; rw [hz]; simp [sub_eq_add_neg]
      · intro k x σ; rw [hz]; simp [sub_eq_add_neg]
    have hpz : z.Passive := by
      rw [hz]; exact ⟨hp.cells, hp.dt_pos, hp.dun, hp.l, hp.c, hp.r, hp.g, hp.zs, hp.zl, hp.q1, hp.q2, hp.q3⟩
    have hxz : z.Unexcited := by rw [hz]; exact ⟨fun _ _ _ => rfl, fun _ _ _ => rfl, fun _ _ _ => rfl⟩
    have hrz : z.Regular C := by rw [hz]; exact ⟨hr.c, hr.c_spd, hr.l_spd, hr.e, hr.dun⟩
    have htz : z.TermFor τ := by rw [hz]; exact ⟨ht.det_left, ht.det_right, ht.left1, ht.left2, ht.right1, ht.right2⟩
    have die := oscillations_die (s := z) (τ := τ) (C := C) (d := d)
      (x := fun j => ((MTL.advanceFields lr cg)^[j] z).v) (y := fun j => ((MTL.advanceFields lr cg)^[j] z).i) hpz hrz
      (by rw [hz]; exact hτ) (by rw [hz]; exact hauto) (by rw [hz]; exact hlt)
      (fun j => free_orbit hpz hxz htz (by rw [hz]; exact hlr) (by rw [hz]; exact hcg) j) (by rw [hz]; exact ha)
      (by rw [hz]; exact h0) (by rw [hz]; exact h1)
    intro ε hε
    obtain ⟨J, hJ⟩ := die ε hε
    refine ⟨J, fun T s' t' N tr tr' R R' j hj hN => ?_⟩
    have e1 := R.fields hlr hcg j hN
    have e2 := R'.fields (by rw [hst.updateLr]; exact hlr) (by rw [hst.updateCg]; exact hcg) j hN
    obtain ⟨a, b⟩ := hJ j hj
    rw [hsz.m] at a b
    rw [e1, e2]
    refine ⟨fun k hk x => ?_, fun k hk x => ?_⟩
    · have := a k hk x
      simp only [(comb j).v k x, one_mul, neg_mul, ← sub_eq_add_neg] at this
      exact this
    · have := b k hk x
      simp only [(comb j).i k x, one_mul, neg_mul, ← sub_eq_add_neg] at this
      exact this
  · intro ε _
    refine ⟨0, fun T s' t' N tr tr' R _ => ?_⟩
    obtain ⟨lr, cg, hlr, hcg, -⟩ := R.closed
    exact absurd ⟨⟨lr, hlr⟩, cg, hcg⟩ hok

/-- **C138** Without excitation a line returns to rest: where one end absorbs power, and the voltages of the ends are nothing a
short would keep, all voltages and currents become and stay as small as one likes. -/
theorem C138_relax (hp : s.Passive) (hr : s.Regular C) (hx : s.Unexcited) (hτ : s.dt ≤ τ) (ht : s.TermFor τ)
    (hauto : maxTimestep s.m s.dun s.l s.c = .ok d) (hlt : s.dt * τ < d ^ 2) (ha : Absorbing s.zs ∨ Absorbing s.zl)
    (h0 : Compatible s.zs (s.v 0)) (h1 : Compatible s.zl (s.v s.m)) :
    ∀ ε > 0, ∃ J, ∀ (T : ℝ) (s' : MTL n p) (N : ℕ) (tr : ℕ → MTL n p), RunTrace s T s' N tr →
      ∀ j ≥ J, j ≤ N → (∀ k ≤ s.m, ∀ a, |(tr j).v k a| ≤ ε) ∧ ∀ k < s.m, ∀ a, |(tr j).i k a| ≤ ε := by
  by_cases hok : (∃ lr, updateLr s.m s.dt s.dun s.l s.r s.conn = .ok lr) ∧ ∃ cg, updateCg s.m s.dt s.dun s.c s.g = .ok cg
  · obtain ⟨⟨lr, hlr⟩, cg, hcg⟩ := hok
    intro ε hε
    obtain ⟨J, hJ⟩ := oscillations_die (x := fun j => ((MTL.advanceFields lr cg)^[j] s).v)
      (y := fun j => ((MTL.advanceFields lr cg)^[j] s).i) hp hr hτ hauto hlt (free_orbit hp hx ht hlr hcg) ha h0 h1 ε hε
    refine ⟨J, fun T s' N tr R j hj hN => ?_⟩
    rw [R.fields hlr hcg j hN]
    exact hJ j hj
  · intro ε _
    refine ⟨0, fun T s' N tr R => ?_⟩
    obtain ⟨lr, cg, hlr, hcg, -⟩ := R.closed
    exact absurd ⟨⟨lr, hlr⟩, cg, hcg⟩ hok

/-- **C138** The condition on the ends cannot be dropped: a voltage at a short alternates for ever. -/
theorem C138_short {s' : MTL n p} {T : ℝ} {N : ℕ} {tr : ℕ → MTL n p} (R : RunTrace s T s' N tr) (hm : 0 < s.m) (hτ : τ ≠ 0)
    (ht : s.TermFor τ) (hx : s.Unexcited) :
    (s.zs = 0 → ∀ j ≤ N, (tr j).v 0 = (-1 : ℝ) ^ j • s.v 0) ∧ (s.zl = 0 → ∀ j ≤ N, (tr j).v s.m = (-1 : ℝ) ^ j • s.v s.m) := by
  obtain ⟨lr, cg, hlr, hcg, hc⟩ := R.closed
  have step : ∀ j, (s.zs = 0 → ((MTL.advanceFields lr cg)^[j] s).v 0 = (-1 : ℝ) ^ j • s.v 0) ∧
      (s.zl = 0 → ((MTL.advanceFields lr cg)^[j] s).v s.m = (-1 : ℝ) ^ j • s.v s.m) := by
    intro j
    induction j with
    | zero => simp
    | succ j ih =>
      have hcf := iterate_advanceFields_config lr cg s j
      have hx' := hx.congr hcf
      obtain ⟨⟨w, a⟩, w', b⟩ := ends_step (s := (MTL.advanceFields lr cg)^[j] s) (lr := lr) (cg := cg) (by rw [hcf.m]; exact hm)
        hτ (ht.congr hcf)
      rw [← iterate_succ_fields, hx'.sample_vNow, hx'.sample_vPrev, sub_zero, sub_zero, hcf.zs] at a
      rw [← iterate_succ_fields, hx'.sample_vNow, hx'.sample_vPrev, sub_zero, sub_zero, hcf.zl, hcf.m] at b
      refine ⟨fun h => ?_, fun h => ?_⟩
      · rw [a, h, zero_mulVec, add_zero, ih.1 h, pow_succ]
        module
      · rw [b, h, zero_mulVec, add_zero, ih.2 h, pow_succ]
        module
  refine ⟨fun h j hj => ?_, fun h j hj => ?_⟩
  · rw [hc j hj]; exact (step j).1 h
  · rw [hc j hj]; exact (step j).2 h

end

/-- **C138** Nor can the time step be the largest one: at the Courant time step a voltage and a current that change their sign from
cell to cell never decay, whatever the resistances of the ends. -/
theorem C138_courant {s s' : MTL 1 p} {T : ℝ} {N : ℕ} {tr : ℕ → MTL 1 p} (R : RunTrace s T s' N tr) {d L C Zs Zl a : ℝ}
    (hi : s.Ideal d L C Zs Zl fun _ => 0) (hv : ∀ k ≤ s.m, s.v k 0 = (-1) ^ k * a)
    (hw : ∀ k < s.m, Real.sqrt (L / C) * s.i k 0 = (-1) ^ k * a) :
    ∀ j ≤ N, (∀ k ≤ s.m, (tr j).v k 0 = (-1) ^ j * ((-1) ^ k * a)) ∧
      ∀ k < s.m, Real.sqrt (L / C) * (tr j).i k 0 = (-1) ^ j * ((-1) ^ k * a) := by
  obtain ⟨hZ0, -, -⟩ := hi.impedance rfl
  obtain ⟨e1, e2, e3, e4⟩ := hi.recurrences R rfl rfl rfl
  have hm := hi.cells
  obtain ⟨Z, hZ⟩ : ∃ Z, Z = Real.sqrt (L / C) := ⟨_, rfl⟩
  rw [← hZ] at hZ0 e1 e2 e3 e4 hw ⊢
  obtain ⟨h0, h0'⟩ : (tr 0).v = s.v ∧ (tr 0).i = s.i := by
    obtain ⟨lr, cg, -, -, h⟩ := R.start
    rw [h]
    exact ⟨rfl, rfl⟩
  intro j
  induction j with
  | zero =>
    intro _
    rw [h0, h0']
    exact ⟨fun k hk => by rw [hv k hk, pow_zero, one_mul], fun k hk => by rw [hw k hk, pow_zero, one_mul]⟩
  | succ j ih =>
    intro hj
    obtain ⟨iv, iw⟩ := ih (by omega)
    have hv' : ∀ k ≤ s.m, (tr (j + 1)).v k 0 = (-1) ^ (j + 1) * ((-1) ^ k * a) := by
      intro k hk
      rcases Nat.eq_zero_or_pos k with rfl | hpos
      · have := e3 j (by omega)
        simp only [iv 0 (by omega), iw 0 hm, pow_zero, one_mul, add_zero, mul_zero, zero_sub] at this
        have h1 : (Z + Zs) * ((tr (j + 1)).v 0 0 + (-1) ^ j * a) = 0 := by linear_combination this
        have h2 : (tr (j + 1)).v 0 0 + (-1) ^ j * a = 0 :=
          (mul_eq_zero.1 h1).resolve_left (by have := hi.zs_nonneg; linarith)
        rw [pow_succ]
        linear_combination h2
      · obtain ⟨q, rfl⟩ : ∃ q, k = q + 1 := ⟨k - 1, by omega⟩
        rcases hk.lt_or_eq with hlt | heq
        · have := e1 j (by omega) (q + 1) hpos hlt
          simp only [iv (q + 1) hk, iw (q + 1) hlt, Nat.add_sub_cancel, iw q (by omega)] at this
          rw [this, pow_succ, pow_succ]
          ring
        · have := e4 j (by omega)
          rw [← heq] at this
          simp only [iv (q + 1) hk, Nat.add_sub_cancel, iw q (by omega)] at this
          have h1 : (Z + Zl) * ((tr (j + 1)).v (q + 1) 0 + (-1) ^ j * ((-1) ^ (q + 1) * a)) = 0 := by
            rw [pow_succ (-1 : ℝ) q] at this ⊢
            linear_combination this
          have h2 := (mul_eq_zero.1 h1).resolve_left (by have := hi.zl_nonneg; linarith)
          rw [pow_succ (-1 : ℝ) j]
          linear_combination h2
    refine ⟨hv', fun k hk => ?_⟩
    have := e2 j (by omega) k hk
    simp only [iw k hk, hv' (k + 1) hk, hv' k hk.le] at this
    rw [this, pow_succ, pow_succ]
    ring

/-! ## C139 -/

section

variable {s : MTL n p} {V0 V1 : Col n}

/-- Power in the circuit for direct current without voltages at the ends: none. -/
theorem dc_power (hp : s.Passive) {v i : Grid n} (h : s.DC 0 0 v i) {J J' : Col n}
    (hJ : J = i 0 + (s.dun 0 / 2) • (s.g 0 *ᵥ v 0)) (hJ' : J' = i (s.m - 1) - (s.dun (s.m - 1) / 2) • (s.g s.m *ᵥ v s.m)) :
    J ⬝ᵥ (s.zs *ᵥ J) ≤ 0 ∧ J' ⬝ᵥ (s.zl *ᵥ J') ≤ 0 := by
  have hm := hp.cells
  have parts : ∀ q < s.m, i q ⬝ᵥ v (q + 1) - i 0 ⬝ᵥ v 0 ≤ 0 := by
    intro q
    induction q with
    | zero =>
      intro hq
      have h1 := congrArg (fun x => i 0 ⬝ᵥ x) (h.cell 0 hq)
      simp only [dotProduct_sub, dotProduct_neg, dotProduct_smul, smul_eq_mul] at h1
      rw [h1]
      have := mul_nonneg (hp.dun 0 hq) (hp.r 0 hq (i 0))
      linarith
    | succ q ih =>
      intro hq
      have h0 := ih (by omega)
      have h1 := congrArg (fun x => i (q + 1) ⬝ᵥ x) (h.cell (q + 1) hq)
      have h2 := congrArg (fun x => v (q + 1) ⬝ᵥ x) (h.node (q + 1) (by omega) hq)
      simp only [dotProduct_sub, dotProduct_neg, dotProduct_smul, smul_eq_mul, Nat.add_sub_cancel] at h1 h2
      have h3 := mul_nonneg (hp.dun _ hq) (hp.r _ hq (i (q + 1)))
      have h4 := mul_nonneg (by have := hp.dun q (by omega); have := hp.dun (q + 1) hq; linarith :
        0 ≤ (s.dun q + s.dun (q + 1)) / 2) (hp.g (q + 1) hq.le (v (q + 1)))
      rw [dotProduct_comm (v (q + 1)) (i (q + 1)), dotProduct_comm (v (q + 1)) (i q)] at h2
      linarith
  have h1 := parts (s.m - 1) (by omega)
  rw [Nat.sub_add_cancel hm] at h1
  have a0 : v 0 = -(s.zs *ᵥ J) := by rw [hJ, ← zero_sub]; exact h.first
  have a1 : v s.m = s.zl *ᵥ J' := by rw [hJ', ← zero_add (s.zl *ᵥ _)]; exact h.last
  have b0 : J ⬝ᵥ v 0 = -(J ⬝ᵥ (s.zs *ᵥ J)) := by rw [a0, dotProduct_neg]
  have b1 : J' ⬝ᵥ v s.m = J' ⬝ᵥ (s.zl *ᵥ J') := by rw [a1]
  have c0 : J ⬝ᵥ v 0 = i 0 ⬝ᵥ v 0 + s.dun 0 / 2 * (v 0 ⬝ᵥ (s.g 0 *ᵥ v 0)) := by
    rw [hJ, add_dotProduct, smul_dotProduct, smul_eq_mul, dotProduct_comm (s.g 0 *ᵥ v 0)]
  have c1 : J' ⬝ᵥ v s.m = i (s.m - 1) ⬝ᵥ v s.m - s.dun (s.m - 1) / 2 * (v s.m ⬝ᵥ (s.g s.m *ᵥ v s.m)) := by
    rw [hJ', sub_dotProduct, smul_dotProduct, smul_eq_mul, dotProduct_comm (s.g s.m *ᵥ v s.m)]
  have d0 := mul_nonneg (by have := hp.dun 0 hm; linarith : 0 ≤ s.dun 0 / 2) (hp.g 0 (by omega) (v 0))
  have d1 := mul_nonneg (by have := hp.dun (s.m - 1) (by omega); linarith : 0 ≤ s.dun (s.m - 1) / 2) (hp.g s.m le_rfl (v s.m))
  have e0 := hp.zs J
  have e1 := hp.zl J'
  constructor <;> linarith

theorem dc_zero (hp : s.Passive) (ha : Absorbing s.zs ∨ Absorbing s.zl) {v i : Grid n} (h : s.DC 0 0 v i) :
    (∀ k ≤ s.m, v k = 0) ∧ ∀ k < s.m, i k = 0 := by
  have hm := hp.cells
  obtain ⟨p0, p1⟩ := dc_power hp h rfl rfl
  rcases ha with ha | ha
  · have hJ : i 0 + (s.dun 0 / 2) • (s.g 0 *ᵥ v 0) = 0 := by
      by_contra hne
      exact absurd (ha _ hne) (not_lt.2 p0)
    have hv0 : v 0 = 0 := by rw [h.first, hJ, mulVec_zero, sub_zero]
    have hi0 : i 0 = 0 := by rwa [hv0, mulVec_zero, smul_zero, add_zero] at hJ
    have all : ∀ k < s.m, v k = 0 ∧ i k = 0 := by
      intro k
      induction k with
      | zero => exact fun _ => ⟨hv0, hi0⟩
      | succ k ih =>
        intro hk
        obtain ⟨a, b⟩ := ih (by omega)
        have h1 := h.cell k (by omega)
        rw [a, b, mulVec_zero, smul_zero, neg_zero, sub_zero] at h1
        have h2 := h.node (k + 1) (by omega) hk
        rw [h1, Nat.add_sub_cancel, b, mulVec_zero, smul_zero, neg_zero, sub_zero] at h2
        exact ⟨h1, h2⟩
    refine ⟨fun k hk => ?_, fun k hk => (all k hk).2⟩
    rcases hk.lt_or_eq with hlt | rfl
    · exact (all k hlt).1
    · have h1 := h.cell (s.m - 1) (by omega)
      obtain ⟨a, b⟩ := all (s.m - 1) (by omega)
      rwa [a, b, mulVec_zero, smul_zero, neg_zero, sub_zero, Nat.sub_add_cancel hm] at h1
  · have hJ : i (s.m - 1) - (s.dun (s.m - 1) / 2) • (s.g s.m *ᵥ v s.m) = 0 := by
      by_contra hne
      exact absurd (ha _ hne) (not_lt.2 p1)
    have hvm : v s.m = 0 := by rw [h.last, hJ, mulVec_zero, add_zero]
    have him : i (s.m - 1) = 0 := by rwa [hvm, mulVec_zero, smul_zero, sub_zero] at hJ
    have all : ∀ q < s.m, v (s.m - q) = 0 ∧ i (s.m - 1 - q) = 0 := by
      intro q
      induction q with
      | zero => exact fun _ => ⟨hvm, him⟩
      | succ q ih =>
        intro hq
        obtain ⟨a, b⟩ := ih (by omega)
        obtain ⟨k, hk⟩ : ∃ k, s.m = q + k + 2 := ⟨s.m - q - 2, by omega⟩
        have e1 : s.m - q = k + 2 := by omega
        have e2 : s.m - 1 - q = k + 1 := by omega
        have e3 : s.m - (q + 1) = k + 1 := by omega
        have e4 : s.m - 1 - (q + 1) = k := by omega
        rw [e1] at a
        rw [e2] at b
        rw [e3, e4]
        have h1 := h.cell (k + 1) (by omega)
        rw [a, b, mulVec_zero, smul_zero, neg_zero, zero_sub, neg_eq_zero] at h1
        have h2 := h.node (k + 1) (by omega) (by omega)
        rw [h1, Nat.add_sub_cancel, b, mulVec_zero, smul_zero, neg_zero, zero_sub, neg_eq_zero] at h2
        exact ⟨h1, h2⟩
    have hi : ∀ k < s.m, i k = 0 := fun k hk => by
      have := (all (s.m - 1 - k) (by omega)).2
      rwa [show s.m - 1 - (s.m - 1 - k) = k by omega] at this
    refine ⟨fun k hk => ?_, hi⟩
    rcases Nat.eq_zero_or_pos k with rfl | hpos
    · have h1 := h.cell 0 hm
      have h2 := (all (s.m - 1) (by omega)).1
      rw [show s.m - (s.m - 1) = 1 by omega] at h2
      rw [h2, hi 0 hm, mulVec_zero, smul_zero, neg_zero, zero_sub, neg_eq_zero] at h1
      exact h1
    · have := (all (s.m - k) (by omega)).1
      rwa [show s.m - (s.m - k) = k by omega] at this

/-- **C139** The circuit for direct current has at most one solution. -/
theorem C139_unique (hp : s.Passive) (ha : Absorbing s.zs ∨ Absorbing s.zl) {v i v' i' : Grid n} (h : s.DC V0 V1 v i)
    (h' : s.DC V0 V1 v' i') : (∀ k ≤ s.m, v' k = v k) ∧ ∀ k < s.m, i' k = i k := by
  have key : s.DC 0 0 (v' - v) (i' - i) := by
    constructor
    · intro k hk
      have h1 := h.cell k hk
      have h2 := h'.cell k hk
      simp only [Pi.sub_apply, mulVec_sub]
      linear_combination (norm := module) h2 - h1
    · intro k h0 hk
      have h1 := h.node k h0 hk
      have h2 := h'.node k h0 hk
      simp only [Pi.sub_apply, mulVec_sub]
      linear_combination (norm := module) h2 - h1
    · have h1 := h.first
      have h2 := h'.first
      simp only [Pi.sub_apply, mulVec_sub, mulVec_add, mulVec_smul] at h1 h2 ⊢
      linear_combination (norm := module) h2 - h1
    · have h1 := h.last
      have h2 := h'.last
      simp only [Pi.sub_apply, mulVec_sub, mulVec_add, mulVec_smul] at h1 h2 ⊢
      linear_combination (norm := module) h2 - h1
  obtain ⟨a, b⟩ := dc_zero hp ha key
  exact ⟨fun k hk => sub_eq_zero.1 (a k hk), fun k hk => sub_eq_zero.1 (b k hk)⟩

/-- A function of finitely many indices, continued by zero. -/
def extend {m : ℕ} (v : Fin m → Col n) : Grid n := fun k => if h : k < m then v ⟨k, h⟩ else 0

theorem extend_add {m : ℕ} (v w : Fin m → Col n) (k : ℕ) : extend (v + w) k = extend v k + extend w k := by
  unfold extend
  split_ifs <;> simp

theorem extend_smul {m : ℕ} (c : ℝ) (v : Fin m → Col n) (k : ℕ) : extend (c • v) k = c • extend v k := by
  unfold extend
  split_ifs <;> simp

/-- What the equations of the nodes leave over. -/
noncomputable def nodeRest (s : MTL n p) (v i : Grid n) (k : ℕ) : Col n :=
  if k = 0 then v 0 + s.zs *ᵥ (i 0 + (s.dun 0 / 2) • (s.g 0 *ᵥ v 0))
  else if k < s.m then i k - i (k - 1) + ((s.dun (k - 1) + s.dun k) / 2) • (s.g k *ᵥ v k)
  else v s.m - s.zl *ᵥ (i (s.m - 1) - (s.dun (s.m - 1) / 2) • (s.g s.m *ᵥ v s.m))

/-- What the equations of the cells leave over. -/
noncomputable def cellRest (s : MTL n p) (v i : Grid n) (k : ℕ) : Col n :=
  v (k + 1) - v k + s.dun k • ((s.r k + s.conn.d k) *ᵥ i k)

/-- Both, as a linear map. -/
noncomputable def dcMap (s : MTL n p) :
    ((Fin (s.m + 1) → Col n) × (Fin s.m → Col n)) →ₗ[ℝ] ((Fin (s.m + 1) → Col n) × (Fin s.m → Col n)) where
  toFun x := (fun k => nodeRest s (extend x.1) (extend x.2) k, fun k => cellRest s (extend x.1) (extend x.2) k)
  map_add' x y := by
    refine Prod.ext (funext fun k => ?_) (funext fun k => ?_)
    · simp only [Prod.fst_add, Prod.snd_add, Pi.add_apply, nodeRest, extend_add]
      split_ifs
      · simp only [mulVec_add, mulVec_smul, mulVec_sub, smul_add]; module
      · simp only [mulVec_add, mulVec_smul, mulVec_sub, smul_add]; module
      · simp only [mulVec_add, mulVec_smul, mulVec_sub, smul_add]; module
    · simp only [Prod.fst_add, Prod.snd_add, Pi.add_apply, cellRest, extend_add]
      simp only [mulVec_add, mulVec_smul, mulVec_sub, smul_add]; module
  map_smul' c x := by
    refine Prod.ext (funext fun k => ?_) (funext fun k => ?_)
    · simp only [Prod.smul_fst, Prod.smul_snd, Pi.smul_apply, nodeRest, extend_smul, RingHom.id_apply]
      split_ifs
      · simp only [mulVec_add, mulVec_smul, mulVec_sub, smul_add]; module
      · simp only [mulVec_add, mulVec_smul, mulVec_sub, smul_add]; module
      · simp only [mulVec_add, mulVec_smul, mulVec_sub, smul_add]; module
    · simp only [Prod.smul_fst, Prod.smul_snd, Pi.smul_apply, cellRest, extend_smul, RingHom.id_apply]
      simp only [mulVec_add, mulVec_smul, mulVec_sub, smul_add]; module

theorem dc_of_rest (hm : 0 < s.m) {v i : Grid n} (h0 : nodeRest s v i 0 = V0) (h1 : nodeRest s v i s.m = V1)
    (h2 : ∀ k, 0 < k → k < s.m → nodeRest s v i k = 0) (h3 : ∀ k < s.m, cellRest s v i k = 0) : s.DC V0 V1 v i := by
  constructor
  · intro k hk
    have := h3 k hk
    unfold cellRest at this
    exact eq_neg_of_add_eq_zero_left this
  · intro k hk hk'
    have := h2 k hk hk'
    unfold nodeRest at this
    rw [if_neg (by omega), if_pos hk'] at this
    exact eq_neg_of_add_eq_zero_left this
  · unfold nodeRest at h0
    rw [if_pos rfl] at h0
    rw [← h0]
    abel
  · unfold nodeRest at h1
    rw [if_neg (by omega), if_neg (by omega)] at h1
    rw [← h1]
    abel

/-- **C139** It has a solution. -/
theorem C139_exists (hp : s.Passive) (ha : Absorbing s.zs ∨ Absorbing s.zl) (V0 V1 : Col n) : ∃ v i, s.DC V0 V1 v i := by
  have hm := hp.cells
  have inj : Function.Injective (dcMap s) := by
    rw [injective_iff_map_eq_zero]
    rintro ⟨v, i⟩ h
    have hn : ∀ k (hk : k < s.m + 1), nodeRest s (extend v) (extend i) k = 0 := fun k hk =>
      congrFun (congrArg Prod.fst h) ⟨k, hk⟩
    have hc : ∀ k (hk : k < s.m), cellRest s (extend v) (extend i) k = 0 := fun k hk =>
      congrFun (congrArg Prod.snd h) ⟨k, hk⟩
    obtain ⟨a, b⟩ := dc_zero hp ha (dc_of_rest hm (hn 0 (by omega)) (hn s.m (by omega)) (fun k _ hk => hn k (by omega)) hc)
    refine Prod.ext (funext fun k => ?_) (funext fun k => ?_)
    · have := a k (by omega)
      unfold extend at this
      rwa [dif_pos k.2] at this
    · have := b k k.2
      unfold extend at this
      rwa [dif_pos k.2] at this
  obtain ⟨⟨v, i⟩, h⟩ := LinearMap.injective_iff_surjective.1 inj
    (fun k => if k.1 = 0 then V0 else if k.1 = s.m then V1 else 0, 0)
  have hn : ∀ k (hk : k < s.m + 1), nodeRest s (extend v) (extend i) k = if k = 0 then V0 else if k = s.m then V1 else 0 :=
    fun k hk => congrFun (congrArg Prod.fst h) ⟨k, hk⟩
  have hc : ∀ k (hk : k < s.m), cellRest s (extend v) (extend i) k = 0 := fun k hk =>
    congrFun (congrArg Prod.snd h) ⟨k, hk⟩
  refine ⟨extend v, extend i, dc_of_rest hm ?_ ?_ ?_ hc⟩
  · rw [hn 0 (by omega), if_pos rfl]
  · rw [hn s.m (by omega), if_neg (by omega), if_pos rfl]
  · intro k h0 hk
    rw [hn k (by omega), if_neg (by omega), if_neg (by omega)]

/-- From the time `t` on the voltages at the ends are constant, and there are no external fields. -/
structure MTL.ConstantFrom (s : MTL n p) (t : ℝ) (V0 V1 : Col n) : Prop where
  first : ∀ x, ∀ u ≥ t, s.vSources 0 x u = V0 x
  last : ∀ x, ∀ u ≥ t, s.vSources s.m x u = V1 x
  eL : ∀ k x, ∀ u ≥ t, s.eL k x u = 0
  eT : ∀ k x, ∀ u ≥ t, s.eT k x u = 0

theorem Compatible.step {Z : Mat n} {a b : Col n} (h : Compatible Z a) (hb : ∃ w, b = -a + Z *ᵥ w) : Compatible Z b := by
  rcases h with h | ⟨hs, w, rfl⟩
  · exact Or.inl h
  · obtain ⟨w', rfl⟩ := hb
    exact Or.inr ⟨hs, -w + w', by rw [mulVec_add, mulVec_neg]⟩

theorem Compatible.shift {Z : Mat n} {a b : Col n} (h : Compatible Z a) (hb : ∃ w, b = a + Z *ᵥ w) : Compatible Z b := by
  rcases h with h | ⟨hs, w, rfl⟩
  · exact Or.inl h
  · obtain ⟨w', rfl⟩ := hb
    exact Or.inr ⟨hs, w + w', by rw [mulVec_add]⟩

/-- Compatibility of the ends with their sources lasts. -/
theorem ends_compatible {lr : LR n} {cg : CG n} {τ : ℝ} (hm : 0 < s.m) (hτ : τ ≠ 0) (ht : s.TermFor τ)
    (h0 : Compatible s.zs (s.v 0 - fun x => s.vSources 0 x (s.time - s.dt)))
    (h1 : Compatible s.zl (s.v s.m - fun x => s.vSources s.m x (s.time - s.dt))) (j : ℕ) :
    Compatible s.zs (((MTL.advanceFields lr cg)^[j] s).v 0 - fun x => s.vSources 0 x (s.time + j * s.dt - s.dt)) ∧
    Compatible s.zl (((MTL.advanceFields lr cg)^[j] s).v s.m - fun x => s.vSources s.m x (s.time + j * s.dt - s.dt)) := by
  induction j with
  | zero => simpa using ⟨h0, h1⟩
  | succ j ih =>
    have hcf := iterate_advanceFields_config lr cg s j
    obtain ⟨a, b⟩ := ends_step (s := (MTL.advanceFields lr cg)^[j] s) (lr := lr) (cg := cg) (by rw [hcf.m]; exact hm) hτ
      (ht.congr hcf)
    have e : s.time + ((j + 1 : ℕ) : ℝ) * s.dt - s.dt = s.time + j * s.dt := by push_cast; ring
    simp only [MTL.sample, sampleSources, iterate_advanceFields_time, hcf.vSources, hcf.dt, hcf.zs, hcf.zl, hcf.m] at a b
    rw [e, iterate_succ_fields]
    exact ⟨ih.1.step a, ih.2.step b⟩

/-- **C139** Once the sources are constant and the fields are gone, a line settles: all voltages and currents converge to the
solution of the circuit for direct current. -/
theorem C139_settles {C : Mat n} {d τ t : ℝ} (hp : s.Passive) (hr : s.Regular C) (hτ : s.dt ≤ τ) (ht : s.TermFor τ)
    (hauto : maxTimestep s.m s.dun s.l s.c = .ok d) (hlt : s.dt * τ < d ^ 2) (ha : Absorbing s.zs ∨ Absorbing s.zl)
    (hc : s.ConstantFrom t V0 V1) (h0 : Compatible s.zs (s.v 0 - fun x => s.vSources 0 x (s.time - s.dt)))
    (h1 : Compatible s.zl (s.v s.m - fun x => s.vSources s.m x (s.time - s.dt))) {V I : Grid n} (hdc : s.DC V0 V1 V I) :
    ∀ ε > 0, ∃ J, ∀ (T : ℝ) (s' : MTL n p) (N : ℕ) (tr : ℕ → MTL n p), RunTrace s T s' N tr →
      ∀ j ≥ J, j ≤ N → (∀ k ≤ s.m, ∀ a, |(tr j).v k a - V k a| ≤ ε) ∧ ∀ k < s.m, ∀ a, |(tr j).i k a - I k a| ≤ ε := by
  by_cases hok : (∃ lr, updateLr s.m s.dt s.dun s.l s.r s.conn = .ok lr) ∧ ∃ cg, updateCg s.m s.dt s.dun s.c s.g = .ok cg
  · obtain ⟨⟨lr, hlr⟩, cg, hcg⟩ := hok
    have hdt := hp.dt_pos
    have hτ0 : 0 < τ := lt_of_lt_of_le hdt hτ
    obtain ⟨q, hq⟩ := exists_nat_ge ((t - s.time + s.dt) / s.dt)
    rw [div_le_iff₀ hdt] at hq
    obtain ⟨x, hx⟩ : ∃ x : ℕ → Grid n, x = fun j => ((MTL.advanceFields lr cg)^[q + j] s).v - V := ⟨_, rfl⟩
    obtain ⟨y, hy⟩ : ∃ y : ℕ → Grid n, y = fun j => ((MTL.advanceFields lr cg)^[q + j] s).i - I := ⟨_, rfl⟩
    have step : ∀ j, s.FreeStep τ (x j) (y j) (x (j + 1)) (y (j + 1)) := by
      intro j
      have hcf := iterate_advanceFields_config lr cg s (q + j)
      have late : ∀ w : ℝ, -s.dt ≤ w → t ≤ s.time + ((q + j : ℕ) : ℝ) * s.dt + w := by
        intro w hw
        push_cast
        have : (0 : ℝ) ≤ j * s.dt := by positivity
        nlinarith
      rw [hx, hy]
      show s.FreeStep τ (((MTL.advanceFields lr cg)^[q + j] s).v - V) (((MTL.advanceFields lr cg)^[q + j] s).i - I)
        (((MTL.advanceFields lr cg)^[q + j + 1] s).v - V) (((MTL.advanceFields lr cg)^[q + j + 1] s).i - I)
      rw [iterate_succ_fields]
      refine MTL.FreeStep.congr hcf (settled_step (V0 := V0) (V1 := V1) (hp.congr hcf) (ht.congr hcf) ?_ ?_ ?_ ?_ ?_ ?_ ?_ ?_ ?_ ?_ ?_)
      · rw [hcf.m, hcf.dt, hcf.dun, hcf.l, hcf.r, hcf.conn]; exact hlr
      · rw [hcf.m, hcf.dt, hcf.dun, hcf.c, hcf.g]; exact hcg
      · funext a
        simp only [MTL.sample, sampleSources, iterate_advanceFields_time, hcf.vSources]
        exact hc.first a _ (by have := late 0 (by linarith); linarith)
      · funext a
        simp only [MTL.sample, sampleSources, iterate_advanceFields_time, hcf.vSources, hcf.dt]
        exact hc.first a _ (by have := late (-s.dt) le_rfl; linarith)
      · funext a
        simp only [MTL.sample, sampleSources, iterate_advanceFields_time, hcf.vSources, hcf.m]
        exact hc.last a _ (by have := late 0 (by linarith); linarith)
      · funext a
        simp only [MTL.sample, sampleSources, iterate_advanceFields_time, hcf.vSources, hcf.dt, hcf.m]
        exact hc.last a _ (by have := late (-s.dt) le_rfl; linarith)
      · funext k a
        simp only [MTL.sample, sampleSources, iterate_advanceFields_time, hcf.eT]
        exact hc.eT k a _ (by have := late 0 (by linarith); linarith)
      · funext k a
        simp only [MTL.sample, sampleSources, iterate_advanceFields_time, hcf.eT, hcf.dt]
        exact hc.eT k a _ (by have := late (-s.dt) le_rfl; linarith)
      · funext k a
        simp only [MTL.sample, sampleSources, iterate_advanceFields_time, hcf.eL, hcf.dt]
        exact hc.eL k a _ (by have := late (s.dt / 2) (by linarith); linarith)
      · funext k a
        simp only [MTL.sample, sampleSources, iterate_advanceFields_time, hcf.eL, hcf.dt]
        exact hc.eL k a _ (by have := late (-(s.dt / 2)) (by linarith); linarith)
      · obtain ⟨a, b, c, e⟩ := hdc
        constructor
        · rw [hcf.m, hcf.dun, hcf.r, hcf.conn]; exact a
        · rw [hcf.m, hcf.dun, hcf.g]; exact b
        · rw [hcf.dun, hcf.g, hcf.zs]; exact c
        · rw [hcf.m, hcf.dun, hcf.g, hcf.zl]; exact e
    have late' : s.time + (q : ℝ) * s.dt - s.dt ≥ t := by linarith
    obtain ⟨k0, k1⟩ := ends_compatible (lr := lr) (cg := cg) hp.cells hτ0.ne' ht h0 h1 q
    have e0 : (fun x => s.vSources 0 x (s.time + q * s.dt - s.dt)) = V0 := funext fun a => hc.first a _ late'
    have e1 : (fun x => s.vSources s.m x (s.time + q * s.dt - s.dt)) = V1 := funext fun a => hc.last a _ late'
    rw [e0] at k0
    rw [e1] at k1
    have c0 : Compatible s.zs (x 0 0) := by
      refine k0.shift ⟨I 0 + (s.dun 0 / 2) • (s.g 0 *ᵥ V 0), ?_⟩
      rw [hx]
      simp only [Pi.sub_apply, add_zero]
      have := hdc.first
      conv_lhs => rw [this]
      abel
    have c1 : Compatible s.zl (x 0 s.m) := by
      refine k1.shift ⟨-(I (s.m - 1) - (s.dun (s.m - 1) / 2) • (s.g s.m *ᵥ V s.m)), ?_⟩
      rw [hx]
      simp only [Pi.sub_apply, add_zero]
      have := hdc.last
      rw [mulVec_neg]
      conv_lhs => rw [this]
      abel
    intro ε hε
    obtain ⟨J, hJ⟩ := oscillations_die hp hr hτ hauto hlt step ha c0 c1 ε hε
    refine ⟨q + J, fun T s' N tr R j hj hN => ?_⟩
    obtain ⟨a, b⟩ := hJ (j - q) (by omega)
    rw [hx] at a
    rw [hy] at b
    simp only [Nat.add_sub_cancel' (show q ≤ j by omega)] at a b
    rw [R.fields hlr hcg j hN]
    exact ⟨a, b⟩
  · intro ε _
    refine ⟨0, fun T s' N tr R => ?_⟩
    obtain ⟨lr, cg, hlr, hcg, -⟩ := R.closed
    exact absurd ⟨⟨lr, hlr⟩, cg, hcg⟩ hok

end

/-! ## From the constructor -/

theorem absorbing_diagonal {Z : ZArg} (h : ∀ i < n, 0 < Z.value i) : Absorbing (Matrix.diagonal fun i : Fin n => Z.value i) := by
  intro x hx
  obtain ⟨a, ha⟩ := Function.ne_iff.1 hx
  simp only [dotProduct, mulVec_diagonal]
  have e : ∀ i : Fin n, x i * (Z.value i * x i) = Z.value i * x i ^ 2 := fun i => by ring
  simp only [e]
  refine Finset.sum_pos' (fun i _ => mul_nonneg (h i i.2).le (sq_nonneg _)) ⟨a, Finset.mem_univ a, mul_pos (h a a.2) ?_⟩
  have : x a ≠ 0 := ha
  positivity

theorem compatible_diagonal {Z : ZArg} {v : Col n} (h : v = 0) : Compatible (Matrix.diagonal fun i : Fin n => Z.value i) v :=
  Or.inr ⟨diagonal_transpose _, 0, by rw [h, mulVec_zero]⟩

/-- **C139** for programs: a line from the constructor, with resistances at one end, then a time step below the automatic one and
sources that begin after the start and are constant from some time on.  Its run settles at the solution of the circuit for
direct current. -/
theorem C139_program {l c r g : Arg} {length : ℝ} {positions : List V3} {ndiv : List ℕ} {Zs Zl : ZArg} {name : String} {s : MTL n p}
    (h : MTL.new p l c r g length positions ndiv Zs Zl name = .ok ⟨n, s⟩) (hl : SPD (l.matrix n)) (hc : SPD (c.matrix n))
    (hr : Dissipative (r.matrix n)) (hg : Dissipative (g.matrix n)) (hzs : ∀ i < n, 0 ≤ Zs.value i)
    (hzl : ∀ i < n, 0 ≤ Zl.value i) (hz : (∀ i < n, 0 < Zs.value i) ∨ ∀ i < n, 0 < Zl.value i)
    (hdu : ∀ k < s.m, s.du k ≠ 0) {dt t : ℝ} (hdt : 0 < dt) (hlt : dt < s.dt) {S : Src n} {V0 V1 : Col n}
    (hS : ∀ k x, ∀ u < 0, S k x u = 0) (hS0 : ∀ x, ∀ u ≥ t, S 0 x u = V0 x) (hS1 : ∀ x, ∀ u ≥ t, S s.m x u = V1 x) :
    ∃ V I, s.DC V0 V1 V I ∧ ∀ ε > 0, ∃ J, ∀ (T : ℝ) (s' : MTL n p) (N : ℕ) (tr : ℕ → MTL n p),
      RunTrace { s with dt := dt, vSources := S } T s' N tr →
      ∀ j ≥ J, j ≤ N → (∀ k ≤ s.m, ∀ a, |(tr j).v k a - V k a| ≤ ε) ∧ ∀ k < s.m, ∀ a, |(tr j).i k a - I k a| ≤ ε := by
  obtain ⟨-, -, -, -, -, -, -, -, ezs, ezl, -⟩ := new_ok_contents h
  obtain ⟨hp, hR, ht, hauto⟩ := constructed_physical h hl hc hr hg hzs hzl hdu
  obtain ⟨hv, htime, heL, heT⟩ : (∀ k, s.v k = 0) ∧ s.time = 0 ∧ (∀ k x u, s.eL k x u = 0) ∧ ∀ k x u, s.eT k x u = 0 := by
    obtain ⟨la, ca, ga, ra, zsa, zla, mem, d, -, -, -, -, -, -, -, h8⟩ := new_ok_iff.1 h
    obtain ⟨-, -, -, rfl⟩ := computeTerminalTerms_ok_iff.1 h8
    exact ⟨fun _ => rfl, rfl, fun _ _ _ => rfl, fun _ _ _ => rfl⟩
  have ha : Absorbing s.zs ∨ Absorbing s.zl := by
    rw [ezs, ezl]
    exact hz.imp absorbing_diagonal absorbing_diagonal
  obtain ⟨V, I, hdc⟩ := C139_exists hp ha V0 V1
  refine ⟨V, I, hdc, ?_⟩
  have zero : ∀ k, (s.v k - fun x => S k x (s.time - dt)) = 0 := by
    intro k
    funext x
    rw [Pi.sub_apply, hv, htime, hS k x _ (by linarith)]
    simp
  refine C139_settles (s := { s with dt := dt, vSources := S }) (C := c.matrix n) (d := s.dt) (τ := s.dt) (t := t)
    ⟨hp.cells, hdt, hp.dun, hp.l, hp.c, hp.r, hp.g, hp.zs, hp.zl, hp.q1, hp.q2, hp.q3⟩
    ⟨hR.c, hR.c_spd, hR.l_spd, hR.e, hR.dun⟩ hlt.le
    ⟨ht.det_left, ht.det_right, ht.left1, ht.left2, ht.right1, ht.right2⟩ hauto (by show dt * s.dt < s.dt ^ 2; nlinarith) ha
    ⟨hS0, hS1, fun k x u _ => heL k x u, fun k x u _ => heT k x u⟩ ?_ ?_ ⟨hdc.cell, hdc.node, hdc.first, hdc.last⟩
  · show Compatible s.zs (s.v 0 - fun x => S 0 x (s.time - dt))
    rw [ezs]
    exact compatible_diagonal (zero 0)
  · show Compatible s.zl (s.v s.m - fun x => S s.m x (s.time - dt))
    rw [ezl]
    exact compatible_diagonal (zero s.m)

/-- **C138** for programs: a line from the constructor with resistances at one end, a time step below the automatic one, and any
voltages and currents such that no voltage is at a short, returns to rest. -/
theorem C138_program {l c r g : Arg} {length : ℝ} {positions : List V3} {ndiv : List ℕ} {Zs Zl : ZArg} {name : String} {s : MTL n p}
    (h : MTL.new p l c r g length positions ndiv Zs Zl name = .ok ⟨n, s⟩) (hl : SPD (l.matrix n)) (hc : SPD (c.matrix n))
    (hr : Dissipative (r.matrix n)) (hg : Dissipative (g.matrix n)) (hzs : ∀ i < n, 0 ≤ Zs.value i)
    (hzl : ∀ i < n, 0 ≤ Zl.value i) (hz : (∀ i < n, 0 < Zs.value i) ∨ ∀ i < n, 0 < Zl.value i)
    (hdu : ∀ k < s.m, s.du k ≠ 0) {dt : ℝ} (hdt : 0 < dt) (hlt : dt < s.dt) {v0 i0 : Grid n}
    (h0 : ∀ a : Fin n, Zs.value a = 0 → v0 0 a = 0) (h1 : ∀ a : Fin n, Zl.value a = 0 → v0 s.m a = 0) :
    ∀ ε > 0, ∃ J, ∀ (T : ℝ) (s' : MTL n p) (N : ℕ) (tr : ℕ → MTL n p),
      RunTrace { s with dt := dt, v := v0, i := i0 } T s' N tr →
      ∀ j ≥ J, j ≤ N → (∀ k ≤ s.m, ∀ a, |(tr j).v k a| ≤ ε) ∧ ∀ k < s.m, ∀ a, |(tr j).i k a| ≤ ε := by
  obtain ⟨-, -, -, -, -, -, -, -, ezs, ezl, -⟩ := new_ok_contents h
  obtain ⟨hp, hR, ht, hauto⟩ := constructed_physical h hl hc hr hg hzs hzl hdu
  have hx : ({ s with dt := dt, v := v0, i := i0 } : MTL n p).Unexcited := by
    obtain ⟨la, ca, ga, ra, zsa, zla, mem, d, -, -, -, -, -, -, -, h8⟩ := new_ok_iff.1 h
    obtain ⟨-, -, -, rfl⟩ := computeTerminalTerms_ok_iff.1 h8
    exact ⟨fun _ _ _ => rfl, fun _ _ _ => rfl, fun _ _ _ => rfl⟩
  have comp : ∀ (Z : ZArg) (v : Col n), (∀ a : Fin n, Z.value a = 0 → v a = 0) →
      Compatible (Matrix.diagonal fun i : Fin n => Z.value i) v := by
    intro Z v hv
    refine Or.inr ⟨diagonal_transpose _, fun a => v a / Z.value a, funext fun a => ?_⟩
    rw [mulVec_diagonal]
    by_cases hq : Z.value a = 0
    · rw [hq, hv a hq, zero_mul]
    · field_simp
  refine C138_relax (s := { s with dt := dt, v := v0, i := i0 }) (C := c.matrix n) (d := s.dt) (τ := s.dt)
    ⟨hp.cells, hdt, hp.dun, hp.l, hp.c, hp.r, hp.g, hp.zs, hp.zl, hp.q1, hp.q2, hp.q3⟩
    ⟨hR.c, hR.c_spd, hR.l_spd, hR.e, hR.dun⟩ hx hlt.le
    ⟨ht.det_left, ht.det_right, ht.left1, ht.left2, ht.right1, ht.right2⟩ hauto (by show dt * s.dt < s.dt ^ 2; nlinarith) ?_ ?_ ?_
  · show Absorbing s.zs ∨ Absorbing s.zl
    rw [ezs, ezl]
    exact hz.imp absorbing_diagonal absorbing_diagonal
  · show Compatible s.zs (v0 0)
    rw [ezs]
    exact comp Zs _ h0
  · show Compatible s.zl (v0 s.m)
    rw [ezl]
    exact comp Zl _ h1

/-! ## Non-vacuity -/

theorem demoLine_cells {s : MTL 1 p} (hs : MTL.new p (.scalar 1) (.scalar 1) (.scalar 0) (.scalar 0) 2 [] [2]
    (.scalar 1) (.scalar 1) "demo" = .ok ⟨1, s⟩) : ∀ k < s.m, s.du k ≠ 0 := by
  have hS := C24_mesh_partial (d := 2) (by norm_num) (by simp) hs
  intro k hk h0
  have hm : s.m = 2 := by have := hS.cells; simpa using this
  have := hS.equal 0 (by simp) k (by simpa [hm] using hk) 2
  simp [h0] at this

/-- Non-vacuity of C138 and C139: the demo line with half of its time step, charged or with a step at its beginning; it runs. -/
example : ∃ s : MTL 1 0, MTL.new 0 (.scalar 1) (.scalar 1) (.scalar 0) (.scalar 0) 2 [] [2] (.scalar 1) (.scalar 1) "demo" = .ok ⟨1, s⟩ ∧
    (∀ k < s.m, s.du k ≠ 0) ∧ 0 < 1 / 2 * s.dt ∧ 1 / 2 * s.dt < s.dt ∧
    (∀ T, ∃ s' N tr, RunTrace { s with dt := 1 / 2 * s.dt, v := fun _ _ => 1, i := fun _ _ => 1 } T s' N tr) ∧
    ∀ T, ∃ s' N tr, RunTrace { s with dt := 1 / 2 * s.dt, vSources := fun k _ u => if k = 0 then stepSource 5 0 u else 0 }
      T s' N tr := by
  obtain ⟨s, hs⟩ := demoLine_accepted (p := 0)
  have hdu := demoLine_cells hs
  obtain ⟨hU, -, -, -, hdt, -, -, hpr⟩ := constructed_uniform two_pos two_pos hs
    (Vs := fun t _ => stepSource 5 0 t) (Vl := fun _ _ => 0) (S := fun k _ u => if k = 0 then stepSource 5 0 u else 0)
    (fun t a => by simp) (fun t a => by simp) (q := 1 / 2) (by norm_num)
  have runs := hU.runs two_pos (line_data (spd_one one_pos) (spd_one one_pos) dissipative_zero dissipative_zero
    (fun _ _ => zero_le_one) (fun _ _ => zero_le_one)) (by
      show ∀ q ∈ s.probes, _
      rw [hpr]
      simp)
  refine ⟨s, hs, hdu, by linarith, by linarith, fun T => ?_, fun T => ?_⟩
  · have h1 := (C01_run_succeeds_iff _ T).1 (runs T)
    obtain ⟨s', h'⟩ := (C01_run_succeeds_iff { s with dt := 1 / 2 * s.dt, v := fun _ _ => 1, i := fun _ _ => 1 } T).2 h1
    obtain ⟨-, N, tr, R⟩ := (runUntil_ok_iff _ _ _).1 h'
    exact ⟨s', N, tr, R⟩
  · obtain ⟨s', h'⟩ := runs T
    obtain ⟨-, N, tr, R⟩ := (runUntil_ok_iff _ _ _).1 h'
    exact ⟨s', N, tr, R⟩

/-- Non-vacuity of `C138_courant`: the demo line, charged with alternating signs. -/
example : ∃ s : MTL 1 0, s.Ideal 1 1 1 1 1 (fun _ => 0) ∧ (∀ k ≤ s.m, s.v k 0 = (-1) ^ k * 3) ∧
    (∀ k < s.m, Real.sqrt (1 / 1) * s.i k 0 = (-1) ^ k * 3) ∧ ∀ T, ∃ s', s.runUntil T = .ok s' := by
  obtain ⟨hi, -, -, hp, -, -⟩ := constructed_ideal (p := 0) (D := 2) (m := 2) one_pos one_pos two_pos zero_le_one zero_le_one
    (by norm_num) demoBare_constructed (fun _ => 0)
  have e : (2 : ℝ) / (2 : ℕ) = 1 := by norm_num
  rw [e] at hi
  have hi' : ({ ((demoBare 0).addVoltageSource (.list ![0, 0, 0]) 0 fun _ => 0) with
      v := fun k _ => (-1) ^ k * 3, i := fun k _ => (-1) ^ k * 3 } : MTL 1 0).Ideal 1 1 1 1 1 (fun _ => 0) :=
    ⟨hi.cells, hi.d_pos, hi.L_pos, hi.C_pos, hi.dun, hi.l, hi.c, hi.r, hi.g, hi.conn, hi.zs, hi.zl, hi.zs_nonneg, hi.zl_nonneg,
      hi.source, hi.load, hi.eL, hi.eT, hi.courant,
      ⟨hi.terms.1, hi.terms.2, hi.terms.3, hi.terms.4, hi.terms.5, hi.terms.6⟩⟩
  refine ⟨_, hi', fun k _ => rfl, fun k _ => by simp, fun T => hi'.runs (by
    show ∀ q ∈ (demoBare 0).probes, _
    rw [hp]
    simp) T⟩

end Mtln
