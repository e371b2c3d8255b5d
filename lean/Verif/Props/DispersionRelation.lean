import Verif.Lemmas.Stability
import Verif.Lemmas.Relational
import Verif.Props.ConvergeBuilt
import Verif.Props.Exact
import Mathlib.Analysis.SpecialFunctions.Trigonometric.Basic
import Mathlib.Analysis.Convex.SpecificFunctions.Deriv

/-! # Waves in the interior of a line and their velocity: C171 -/

namespace Mtln

open Matrix

variable {n p : ℕ}

/-- A uniform line without losses, connectors and fields: `m` cells of length `h`. -/
structure MTL.Lossless (s : MTL n p) (h : ℝ) (L C : Mat n) : Prop where
  dun : ∀ k < s.m, s.dun k = h
  l : ∀ k < s.m, s.l k = L
  c : ∀ k ≤ s.m, s.c k = C
  r : ∀ k < s.m, s.r k = 0
  g : ∀ k ≤ s.m, s.g k = 0
  conn : ∃ δ, s.conn = Disp.new δ
  eL : ∀ k x t, s.eL k x t = 0
  eT : ∀ k x t, s.eT k x t = 0

theorem MTL.Lossless.congr {s s' : MTL n p} {h : ℝ} {L C : Mat n} (hc : s.SameConfig s') (hs : s.Lossless h L C) :
    s'.Lossless h L C := by
  constructor
  · rw [hc.m, hc.dun]; exact hs.dun
  · rw [hc.m, hc.l]; exact hs.l
  · rw [hc.m, hc.c]; exact hs.c
  · rw [hc.m, hc.r]; exact hs.r
  · rw [hc.m, hc.g]; exact hs.g
  · rw [hc.conn]; exact hs.conn
  · rw [hc.eL]; exact hs.eL
  · rw [hc.eT]; exact hs.eT

section

variable {s : MTL n p} {h : ℝ} {L C : Mat n} {lr : LR n} {cg : CG n}

/-- The equation of a node between the ends. -/
theorem lossless_node (hs : s.Lossless h L C) (hcg : updateCg s.m s.dt s.dun s.c s.g = .ok cg) {k : ℕ} (h0 : 0 < k)
    (hk : k < s.m) (x : Col n) :
    (s.advanceFields lr cg).v k = x ↔ (h / s.dt) • (C *ᵥ (x - s.v k)) = -(s.i k - s.i (k - 1)) := by
  obtain ⟨-, hdetC, hcg⟩ := updateCg_ok_iff.1 hcg
  have h1 := advanceFields_v_interior lr cg s k h0 hk
  have eT : s.sample.eTNow k - s.sample.eTPrev k = 0 := by
    funext a
    simp [MTL.sample, sampleSources, hs.eT]
  have h2 := voltage_update_iff (C := s.c k) (G := s.g k) rfl rfl (hdetC k hk.le) x (s.v k) (s.i k - s.i (k - 1))
    (s.sample.eTNow k - s.sample.eTPrev k)
  have hlen : nodalLength s.m s.dun k = h := by
    unfold nodalLength
    rw [if_neg (by omega), if_pos hk, hs.dun k hk, hs.dun (k - 1) (by omega)]
    ring
  rw [h1, eq_comm]
  refine Iff.trans (by rw [hcg]; rfl) (h2.trans ?_)
  rw [hlen, eT, hs.c k hk.le, hs.g k hk.le]
  unfold VoltageEq
  simp only [mulVec_zero, zero_mulVec, smul_zero, add_zero, sub_zero, smul_smul]
  rw [mul_one_div]

/-- The equation of a cell. -/
theorem lossless_cell (hs : s.Lossless h L C) (hlr : updateLr s.m s.dt s.dun s.l s.r s.conn = .ok lr) {k : ℕ}
    (hk : k < s.m) (x : Col n) :
    (s.advanceFields lr cg).i k = x ↔ (h / s.dt) • (L *ᵥ (x - s.i k)) =
      -((s.advanceFields lr cg).v (k + 1) - (s.advanceFields lr cg).v k) := by
  obtain ⟨-, hdetL, hlr⟩ := updateLr_ok_iff.1 hlr
  have h1 := advanceFields_i lr cg s k hk
  obtain ⟨δ, hconn⟩ := hs.conn
  have eT : s.sample.eTNow (k + 1) - s.sample.eTNow k = 0 := by
    funext a
    simp [MTL.sample, sampleSources, hs.eT]
  have e1 : s.sample.eLNow k = 0 := by
    funext a
    simp [MTL.sample, sampleSources, hs.eL]
  have e2 : s.sample.eLPrev k = 0 := by
    funext a
    simp [MTL.sample, sampleSources, hs.eL]
  have e3 : s.conn.q3phi s.phi k = 0 := by
    funext a
    rw [hconn]
    simp [Disp.q3phi, Disp.new, QEntry.val, poleSum]
  have h2 := current_update_iff (L := s.l k) (R := s.r k) (D := s.conn.d k) (E := s.conn.e k)
    (Q1 := s.conn.q1sum k) (Q2 := s.conn.q2sum k) rfl rfl (hdetL k hk) x (s.i k) (s.conn.q3phi s.phi k)
    ((s.advanceFields lr cg).v (k + 1) - (s.advanceFields lr cg).v k) (s.sample.eTNow (k + 1) - s.sample.eTNow k)
    (s.sample.eLNow k) (s.sample.eLPrev k)
  rw [h1, eq_comm]
  refine Iff.trans ?_ (h2.trans ?_)
  · rw [hlr]; rfl
  · have c1 : s.conn.d k = 0 := by rw [hconn]; rfl
    have c2 : s.conn.e k = 0 := by rw [hconn]; rfl
    have c3 : s.conn.q1sum k = 0 := by rw [hconn]; ext a b; simp [Disp.new, Disp.q1sum, QEntry.val, poleSum]
    have c4 : s.conn.q2sum k = 0 := by rw [hconn]; ext a b; simp [Disp.new, Disp.q2sum, QEntry.val, poleSum]
    rw [e1, e2, e3, eT, c1, c2, c3, c4, hs.l k hk, hs.r k hk, hs.dun k hk]
    unfold CurrentEq
    simp only [zero_mulVec, smul_zero, add_zero, sub_zero, smul_smul, mul_one_div]

/-! ## Waves -/

/-- A plane wave of amplitude `A`, angular frequency `ω` and wave number `κ`, at the time `t` and the place `x`. -/
noncomputable def wave (ω κ φ : ℝ) (A : Col n) (t x : ℝ) : Col n := Real.cos (ω * t - κ * x + φ) • A

/-- The amplitudes `A` of the voltages and `B` of the currents of a wave of the scheme: those of a wave of the continuous
line, `ω C A = κ B` and `ω L B = κ A`, with sines for frequency and wave number. -/
structure SchemeWave (h dt : ℝ) (L C : Mat n) (ω κ : ℝ) (A B : Col n) : Prop where
  node : (h * Real.sin (ω * dt / 2)) • (C *ᵥ A) = (dt * Real.sin (κ * h / 2)) • B
  cell : (h * Real.sin (ω * dt / 2)) • (L *ᵥ B) = (dt * Real.sin (κ * h / 2)) • A

/-- The voltages of the nodes and the currents of the cells are those of a wave after `j` steps, for the nodes that are `j`
nodes or more away from the ends. -/
structure MTL.Waving (s : MTL n p) (h ω κ φ : ℝ) (A B : Col n) (j : ℕ) : Prop where
  v : ∀ k, j ≤ k → k + j ≤ s.m → s.v k = wave ω κ φ A (j * s.dt) (k * h)
  i : ∀ k, j ≤ k → k + j < s.m → s.i k = wave ω κ φ B ((j + 1 / 2) * s.dt) ((k + 1 / 2) * h)

theorem cos_after (x y : ℝ) : Real.cos (x + 2 * y) - Real.cos x = -(2 * Real.sin y * Real.sin (x + y)) := by
  rw [Real.cos_sub_cos, show (x + 2 * y + x) / 2 = x + y by ring, show (x + 2 * y - x) / 2 = y by ring]
  ring

variable {ω κ φ : ℝ} {A B : Col n}

/-- The change of a wave in a time step. -/
theorem wave_later (t x δ : ℝ) (X : Col n) :
    wave ω κ φ X (t + δ) x - wave ω κ φ X t x = -((2 * Real.sin (ω * δ / 2) * Real.sin (ω * (t + δ / 2) - κ * x + φ)) • X) := by
  unfold wave
  rw [← sub_smul, ← neg_smul]
  congr 1
  have := cos_after (ω * t - κ * x + φ) (ω * δ / 2)
  rw [show ω * (t + δ) - κ * x + φ = ω * t - κ * x + φ + 2 * (ω * δ / 2) by ring, this,
    show ω * (t + δ / 2) - κ * x + φ = ω * t - κ * x + φ + ω * δ / 2 by ring]

/-- The change of a wave from one place to another. -/
theorem wave_further (t x δ : ℝ) (X : Col n) :
    wave ω κ φ X t (x + δ) - wave ω κ φ X t x = (2 * Real.sin (κ * δ / 2) * Real.sin (ω * t - κ * (x + δ / 2) + φ)) • X := by
  unfold wave
  rw [← sub_smul]
  congr 1
  have := cos_after (ω * t - κ * x + φ) (-(κ * δ / 2))
  rw [show ω * t - κ * (x + δ) + φ = ω * t - κ * x + φ + 2 * (-(κ * δ / 2)) by ring, this, Real.sin_neg,
    show ω * t - κ * (x + δ / 2) + φ = ω * t - κ * x + φ + -(κ * δ / 2) by ring]
  ring

/-- One step of a wave: the nodes that are further from the ends by one. -/
theorem waving_step (hs : s.Lossless h L C) (hdt : s.dt ≠ 0) (hlr : updateLr s.m s.dt s.dun s.l s.r s.conn = .ok lr)
    (hcg : updateCg s.m s.dt s.dun s.c s.g = .ok cg) (hw : SchemeWave h s.dt L C ω κ A B) {j : ℕ}
    (hj : s.Waving h ω κ φ A B j) : (s.advanceFields lr cg).Waving h ω κ φ A B (j + 1) := by
  have hv : ∀ k, j + 1 ≤ k → k + (j + 1) ≤ s.m →
      (s.advanceFields lr cg).v k = wave ω κ φ A ((j + 1 : ℕ) * s.dt) (k * h) := by
    intro k h1 h2
    rw [lossless_node hs hcg (by omega) (by omega), hj.v k (by omega) (by omega), hj.i k (by omega) (by omega),
      hj.i (k - 1) (by omega) (by omega)]
    obtain ⟨q, rfl⟩ := Nat.exists_eq_add_of_le' (show 1 ≤ k by omega)
    rw [Nat.add_sub_cancel]
    have e1 : ((j + 1 : ℕ) : ℝ) * s.dt = j * s.dt + s.dt := by push_cast; ring
    have e2 : (((q + 1 : ℕ) : ℝ) + 1 / 2) * h = ((q : ℝ) + 1 / 2) * h + h := by push_cast; ring
    rw [e1, wave_later, e2, wave_further]
    have e3 : ((q : ℝ) + 1 / 2) * h + h / 2 = ((q + 1 : ℕ) : ℝ) * h := by push_cast; ring
    have e4 : ((j : ℝ) + 1 / 2) * s.dt = j * s.dt + s.dt / 2 := by ring
    rw [e3, e4, mulVec_neg, mulVec_smul, smul_neg, smul_smul]
    have := congrArg (fun X => (2 / s.dt * Real.sin (ω * (j * s.dt + s.dt / 2) - κ * (((q + 1 : ℕ) : ℝ) * h) + φ)) • X) hw.node
    simp only [smul_smul] at this
    congr 1
    have e5 : h / s.dt * (2 * Real.sin (ω * s.dt / 2) * Real.sin (ω * (j * s.dt + s.dt / 2) - κ * (((q + 1 : ℕ) : ℝ) * h) + φ)) =
        2 / s.dt * Real.sin (ω * (j * s.dt + s.dt / 2) - κ * (((q + 1 : ℕ) : ℝ) * h) + φ) * (h * Real.sin (ω * s.dt / 2)) := by ring
    have e6 : 2 * Real.sin (κ * h / 2) * Real.sin (ω * (j * s.dt + s.dt / 2) - κ * (((q + 1 : ℕ) : ℝ) * h) + φ) =
        2 / s.dt * Real.sin (ω * (j * s.dt + s.dt / 2) - κ * (((q + 1 : ℕ) : ℝ) * h) + φ) * (s.dt * Real.sin (κ * h / 2)) := by
      field_simp
    rw [e5, e6, this]
  refine ⟨hv, fun k h1 h2 => ?_⟩
  change k + (j + 1) < s.m at h2
  show _ = wave ω κ φ B (((j + 1 : ℕ) + 1 / 2) * s.dt) _
  rw [lossless_cell hs hlr (by omega), hv k (by omega) (by omega), hv (k + 1) (by omega) (by omega), hj.i k (by omega) (by omega)]
  have e1 : (((j + 1 : ℕ) : ℝ) + 1 / 2) * s.dt = (j + 1 / 2) * s.dt + s.dt := by push_cast; ring
  have e2 : ((k + 1 : ℕ) : ℝ) * h = k * h + h := by push_cast; ring
  rw [e1, wave_later, e2, wave_further]
  have e3 : (k : ℝ) * h + h / 2 = ((k : ℝ) + 1 / 2) * h := by ring
  have e4 : ((j : ℝ) + 1 / 2) * s.dt + s.dt / 2 = ((j + 1 : ℕ) : ℝ) * s.dt := by push_cast; ring
  rw [e3, e4, mulVec_neg, mulVec_smul, smul_neg, smul_smul]
  obtain ⟨σ, hσ⟩ : ∃ σ, σ = Real.sin (ω * (((j + 1 : ℕ) : ℝ) * s.dt) - κ * (((k : ℝ) + 1 / 2) * h) + φ) := ⟨_, rfl⟩
  rw [← hσ]
  have := congrArg (fun X => (2 / s.dt * σ) • X) hw.cell
  simp only [smul_smul] at this
  congr 1
  have e5 : h / s.dt * (2 * Real.sin (ω * s.dt / 2) * σ) = 2 / s.dt * σ * (h * Real.sin (ω * s.dt / 2)) := by ring
  have e6 : 2 * Real.sin (κ * h / 2) * σ = 2 / s.dt * σ * (s.dt * Real.sin (κ * h / 2)) := by
    field_simp
  rw [e5, e6, this]

/-- **C171** A line that begins with the voltages and currents of a wave of the scheme carries it: after `j` steps all nodes
and cells that nothing from the ends has reached have the voltages and currents of the wave at that time. -/
theorem C171_wave {s' : MTL n p} {T : ℝ} {N : ℕ} {tr : ℕ → MTL n p} (R : RunTrace s T s' N tr) (hs : s.Lossless h L C)
    (hw : SchemeWave h s.dt L C ω κ A B) (h0 : s.Waving h ω κ φ A B 0) : ∀ j ≤ N, (tr j).Waving h ω κ φ A B j := by
  obtain ⟨lr, cg, hlr, hcg, -⟩ := R.closed
  have hdt : s.dt ≠ 0 := (updateLr_ok_iff.1 hlr).1
  have all : ∀ j, ((MTL.advanceFields lr cg)^[j] s).Waving h ω κ φ A B j := by
    intro j
    induction j with
    | zero => exact h0
    | succ j ih =>
      have hc := iterate_advanceFields_config lr cg s j
      rw [Function.iterate_succ_apply']
      refine waving_step (hs.congr hc) (by rw [hc.dt]; exact hdt) ?_ ?_ (by rw [hc.dt]; exact hw) ih
      · rw [hc.m, hc.dt, hc.dun, hc.l, hc.r, hc.conn]; exact hlr
      · rw [hc.m, hc.dt, hc.dun, hc.c, hc.g]; exact hcg
  intro j hj
  rw [R.fields hlr hcg j hj]
  exact ⟨(all j).v, (all j).i⟩

/-- **C171** Only waves of the scheme are carried: if some first step keeps a wave at a node and a cell where it changes, its
amplitudes, frequency and wave number satisfy the relation of the scheme. -/
theorem C171_only {s' : MTL n p} {T : ℝ} {N : ℕ} {tr : ℕ → MTL n p} (R : RunTrace s T s' N tr) (hs : s.Lossless h L C)
    (h0 : s.Waving h ω κ φ A B 0) (hN : 0 < N) (h1 : (tr 1).Waving h ω κ φ A B 1) {k k' : ℕ} (hk0 : 0 < k) (hk : k < s.m)
    (hkv : Real.sin (ω * (s.dt / 2) - κ * (k * h) + φ) ≠ 0) (hk0' : 0 < k') (hk' : k' + 1 < s.m)
    (hki : Real.sin (ω * s.dt - κ * ((k' + 1 / 2) * h) + φ) ≠ 0) : SchemeWave h s.dt L C ω κ A B := by
  obtain ⟨lr, cg, hlr, hcg, -⟩ := R.closed
  have hdt : s.dt ≠ 0 := (updateLr_ok_iff.1 hlr).1
  have e := R.fields hlr hcg 1 hN
  have hv : ∀ k, 1 ≤ k → k + 1 ≤ s.m → (s.advanceFields lr cg).v k = wave ω κ φ A s.dt (k * h) := by
    intro k a b
    rw [e] at h1
    have := h1.v k a b
    change (s.advanceFields lr cg).v k = wave ω κ φ A ((1 : ℕ) * s.dt) (k * h) at this
    rwa [Nat.cast_one, one_mul] at this
  have hi : ∀ k, 1 ≤ k → k + 1 < s.m → (s.advanceFields lr cg).i k = wave ω κ φ B ((1 + 1 / 2) * s.dt) ((k + 1 / 2) * h) := by
    intro k a b
    rw [e] at h1
    have := h1.i k a b
    change (s.advanceFields lr cg).i k = wave ω κ φ B (((1 : ℕ) + 1 / 2) * s.dt) ((k + 1 / 2) * h) at this
    rwa [Nat.cast_one] at this
  constructor
  · have g1 := (lossless_node hs hcg hk0 hk _).1 (hv k hk0 hk)
    rw [h0.v k (by omega) (by omega), h0.i k (by omega) (by omega), h0.i (k - 1) (by omega) (by omega)] at g1
    obtain ⟨q, rfl⟩ := Nat.exists_eq_add_of_le' (show 1 ≤ k by omega)
    rw [Nat.add_sub_cancel] at g1
    have e2 : (((q + 1 : ℕ) : ℝ) + 1 / 2) * h = ((q : ℝ) + 1 / 2) * h + h := by push_cast; ring
    have e0 : ((0 : ℕ) : ℝ) * s.dt = 0 := by simp
    have e7 : wave ω κ φ A s.dt (((q + 1 : ℕ) : ℝ) * h) = wave ω κ φ A (0 + s.dt) (((q + 1 : ℕ) : ℝ) * h) := by rw [zero_add]
    rw [e0, e7, wave_later, e2, wave_further] at g1
    have e3 : ((q : ℝ) + 1 / 2) * h + h / 2 = ((q + 1 : ℕ) : ℝ) * h := by push_cast; ring
    have e4 : (((0 : ℕ) : ℝ) + 1 / 2) * s.dt = s.dt / 2 := by push_cast; ring
    rw [e3, e4, zero_add, mulVec_neg, mulVec_smul, smul_neg, smul_smul, neg_inj] at g1
    have := congrArg (fun X => (s.dt / (2 * Real.sin (ω * (s.dt / 2) - κ * (((q + 1 : ℕ) : ℝ) * h) + φ))) • X) g1
    simp only [smul_smul] at this
    generalize Real.sin (ω * (s.dt / 2) - κ * (((q + 1 : ℕ) : ℝ) * h) + φ) = σ at this hkv
    rw [show s.dt / (2 * σ) * (h / s.dt * (2 * Real.sin (ω * s.dt / 2) * σ)) = h * Real.sin (ω * s.dt / 2) by field_simp,
      show s.dt / (2 * σ) * (2 * Real.sin (κ * h / 2) * σ) = s.dt * Real.sin (κ * h / 2) by field_simp] at this
    exact this
  · have g1 := (lossless_cell hs hlr (by omega) _).1 (hi k' hk0' hk')
    rw [hv k' (by omega) (by omega), hv (k' + 1) (by omega) (by omega), h0.i k' (by omega) (by omega)] at g1
    have e1 : ((1 : ℝ) + 1 / 2) * s.dt = ((0 : ℕ) + 1 / 2) * s.dt + s.dt := by push_cast; ring
    have e2 : ((k' + 1 : ℕ) : ℝ) * h = k' * h + h := by push_cast; ring
    rw [e1, wave_later, e2, wave_further] at g1
    have e3 : (k' : ℝ) * h + h / 2 = ((k' : ℝ) + 1 / 2) * h := by ring
    have e4 : (((0 : ℕ) : ℝ) + 1 / 2) * s.dt + s.dt / 2 = s.dt := by push_cast; ring
    rw [e3, e4, mulVec_neg, mulVec_smul, smul_neg, smul_smul, neg_inj] at g1
    have := congrArg (fun X => (s.dt / (2 * Real.sin (ω * s.dt - κ * ((k' + 1 / 2) * h) + φ))) • X) g1
    simp only [smul_smul] at this
    generalize Real.sin (ω * s.dt - κ * ((k' + 1 / 2) * h) + φ) = σ at this hki
    rw [show s.dt / (2 * σ) * (h / s.dt * (2 * Real.sin (ω * s.dt / 2) * σ)) = h * Real.sin (ω * s.dt / 2) by field_simp,
      show s.dt / (2 * σ) * (2 * Real.sin (κ * h / 2) * σ) = s.dt * Real.sin (κ * h / 2) by field_simp] at this
    exact this

end

/-! ## The relation between frequency and wave number -/

section

variable {h dt ω κ : ℝ} {L C : Mat n} {A B : Col n}

/-- **C171** The voltages of a wave of the scheme are a mode of the line: with sines for frequency and wave number they satisfy
the wave equation `ω² L C A = κ² A`. -/
theorem C171_relation (hw : SchemeWave h dt L C ω κ A B) :
    (h * Real.sin (ω * dt / 2)) ^ 2 • (L *ᵥ (C *ᵥ A)) = (dt * Real.sin (κ * h / 2)) ^ 2 • A := by
  have h1 := congrArg (fun X => (h * Real.sin (ω * dt / 2)) • (L *ᵥ X)) hw.node
  simp only [mulVec_smul] at h1
  rw [smul_comm (h * Real.sin (ω * dt / 2)) (dt * Real.sin (κ * h / 2)), hw.cell, smul_smul, smul_smul] at h1
  rw [pow_two, pow_two]
  exact h1

/-- **C171** For every mode there is a wave. -/
theorem C171_mode (hdt : dt ≠ 0) (hκ : Real.sin (κ * h / 2) ≠ 0)
    (hA : (h * Real.sin (ω * dt / 2)) ^ 2 • (L *ᵥ (C *ᵥ A)) = (dt * Real.sin (κ * h / 2)) ^ 2 • A) : ∃ B, SchemeWave h dt L C ω κ A B := by
  have hne : dt * Real.sin (κ * h / 2) ≠ 0 := mul_ne_zero hdt hκ
  refine ⟨((h * Real.sin (ω * dt / 2)) / (dt * Real.sin (κ * h / 2))) • (C *ᵥ A), ?_, ?_⟩
  · rw [smul_smul, mul_div_cancel₀ _ hne]
  · rw [mulVec_smul, smul_smul, show h * Real.sin (ω * dt / 2) * (h * Real.sin (ω * dt / 2) / (dt * Real.sin (κ * h / 2))) =
      (1 / (dt * Real.sin (κ * h / 2))) * (h * Real.sin (ω * dt / 2)) ^ 2 by ring, ← smul_smul, hA, smul_smul]
    congr 1
    field_simp

end

section

variable {h dt ω κ L C : ℝ} {A B : Col 1}

/-- The relation of a line with one conductor. -/
theorem single_relation (hL : 0 < L) (hC : 0 < C) (hh : 0 < h) (hdt : 0 < dt) (hκ : 0 ≤ κ) (hκ' : κ * h ≤ Real.pi) (hω : 0 ≤ ω)
    (hω' : ω * dt ≤ Real.pi) (hA : A ≠ 0) (hw : SchemeWave h dt (L • (1 : Mat 1)) (C • (1 : Mat 1)) ω κ A B) :
    h * Real.sqrt (L * C) * Real.sin (ω * dt / 2) = dt * Real.sin (κ * h / 2) := by
  have h1 := C171_relation hw
  simp only [smul_mulVec, one_mulVec, smul_smul] at h1
  obtain ⟨a, ha⟩ := Function.ne_iff.1 hA
  have h2 := congrFun h1 a
  simp only [Pi.smul_apply, smul_eq_mul] at h2
  have h3 := mul_right_cancel₀ ha h2
  have s1 : 0 ≤ Real.sin (ω * dt / 2) :=
    Real.sin_nonneg_of_nonneg_of_le_pi (by positivity) (by nlinarith [Real.pi_pos])
  have s2 : 0 ≤ Real.sin (κ * h / 2) :=
    Real.sin_nonneg_of_nonneg_of_le_pi (by positivity) (by nlinarith [Real.pi_pos])
  have hq : Real.sqrt (L * C) ^ 2 = L * C := Real.sq_sqrt (mul_pos hL hC).le
  refine (pow_left_inj₀ (by positivity) (by positivity) two_ne_zero).1 ?_
  rw [← h3, mul_pow, mul_pow, hq]
  ring

/-- **C171** No wave of a line with one conductor is faster than the waves of the continuous line; at the automatic time step they
all have that velocity, below it they are slower. -/
theorem C171_velocity (hL : 0 < L) (hC : 0 < C) (hh : 0 < h) (hdt : 0 < dt) (hmax : dt ≤ h * Real.sqrt (L * C)) (hκ : 0 < κ)
    (hκ' : κ * h ≤ Real.pi) (hω : 0 ≤ ω) (hω' : ω * dt ≤ Real.pi) (hA : A ≠ 0)
    (hw : SchemeWave h dt (L • (1 : Mat 1)) (C • (1 : Mat 1)) ω κ A B) :
    (dt = h * Real.sqrt (L * C) → ω / κ = 1 / Real.sqrt (L * C)) ∧ (dt < h * Real.sqrt (L * C) → ω / κ < 1 / Real.sqrt (L * C)) := by
  have hq : 0 < Real.sqrt (L * C) := Real.sqrt_pos.2 (mul_pos hL hC)
  have hrel := single_relation hL hC hh hdt hκ.le hκ' hω hω' hA hw
  have i1 : ω * dt / 2 ∈ Set.Icc (-(Real.pi / 2)) (Real.pi / 2) :=
    ⟨by have := Real.pi_pos; have : 0 ≤ ω * dt / 2 := by positivity
        linarith, by linarith⟩
  refine ⟨fun e => ?_, fun e => ?_⟩
  · have i2 : κ * h / 2 ∈ Set.Icc (-(Real.pi / 2)) (Real.pi / 2) :=
      ⟨by have := Real.pi_pos; have : 0 ≤ κ * h / 2 := by positivity
          linarith, by linarith⟩
    rw [← e] at hrel
    have := Real.injOn_sin i1 i2 (mul_left_cancel₀ hdt.ne' hrel)
    have h4 : ω * dt = κ * h := by linarith
    rw [e] at h4
    rw [div_eq_div_iff hκ.ne' hq.ne']
    have : h * (ω * Real.sqrt (L * C)) = h * (1 * κ) := by linarith
    exact mul_left_cancel₀ hh.ne' this
  · obtain ⟨r, hr⟩ : ∃ r, r = dt / (h * Real.sqrt (L * C)) := ⟨_, rfl⟩
    have hr0 : 0 < r := by rw [hr]; positivity
    have hr1 : r < 1 := by rw [hr, div_lt_one (by positivity)]; exact e
    have hx : 0 < κ * h / 2 := by positivity
    have hconc := strictConcaveOn_sin_Icc.2 (x := κ * h / 2) ⟨hx.le, by linarith [Real.pi_pos]⟩ (y := 0)
      ⟨le_rfl, Real.pi_pos.le⟩ hx.ne' hr0 (sub_pos.2 hr1) (by ring)
    simp only [smul_eq_mul, Real.sin_zero, mul_zero, add_zero] at hconc
    have hs : Real.sin (ω * dt / 2) = r * Real.sin (κ * h / 2) := by
      rw [hr, div_mul_eq_mul_div, eq_div_iff (by positivity)]
      linarith
    rw [← hs] at hconc
    have i3 : r * (κ * h / 2) ∈ Set.Icc (-(Real.pi / 2)) (Real.pi / 2) :=
      ⟨by have := Real.pi_pos; have : 0 ≤ r * (κ * h / 2) := by positivity
          linarith, by nlinarith⟩
    have hlt := (Real.strictMonoOn_sin.lt_iff_lt i1 i3).1 hconc
    rw [div_lt_div_iff₀ hκ hq]
    have h5 : r * (h * Real.sqrt (L * C)) = dt := by rw [hr]; field_simp
    have h6 : ω * dt < r * (κ * h) := by linarith
    rw [← h5] at h6
    have h7 : (r * h) * (ω * Real.sqrt (L * C)) < (r * h) * (1 * κ) := by linarith
    exact lt_of_mul_lt_mul_left h7 (by positivity)

/-- **C171** For every wave number up to half a wave per cell there is a wave, at every time step up to the automatic one. -/
theorem C171_exists (hL : 0 < L) (hC : 0 < C) (hh : 0 < h) (hdt : 0 < dt) (hmax : dt ≤ h * Real.sqrt (L * C)) (hκ : 0 < κ)
    (hκ' : κ * h ≤ Real.pi) (A : Col 1) :
    ∃ ω B, 0 ≤ ω ∧ ω * dt ≤ Real.pi ∧ SchemeWave h dt (L • (1 : Mat 1)) (C • (1 : Mat 1)) ω κ A B := by
  have hq : 0 < Real.sqrt (L * C) := Real.sqrt_pos.2 (mul_pos hL hC)
  have hsin : 0 < Real.sin (κ * h / 2) := Real.sin_pos_of_pos_of_lt_pi (by positivity) (by linarith [Real.pi_pos])
  obtain ⟨r, hr⟩ : ∃ r, r = dt / (h * Real.sqrt (L * C)) := ⟨_, rfl⟩
  have hr0 : 0 < r := by rw [hr]; positivity
  have hr1 : r ≤ 1 := by rw [hr, div_le_one (by positivity)]; exact hmax
  have b0 : 0 ≤ r * Real.sin (κ * h / 2) := by positivity
  have b1 : r * Real.sin (κ * h / 2) ≤ 1 := by nlinarith [Real.sin_le_one (κ * h / 2)]
  obtain ⟨ω, hω⟩ : ∃ ω, ω = 2 * Real.arcsin (r * Real.sin (κ * h / 2)) / dt := ⟨_, rfl⟩
  have e : ω * dt / 2 = Real.arcsin (r * Real.sin (κ * h / 2)) := by rw [hω]; field_simp
  have es : Real.sin (ω * dt / 2) = r * Real.sin (κ * h / 2) := by
    rw [e, Real.sin_arcsin (by linarith) b1]
  have hrel : h * Real.sqrt (L * C) * Real.sin (ω * dt / 2) = dt * Real.sin (κ * h / 2) := by
    rw [es, hr]
    field_simp
  obtain ⟨B, hB⟩ := C171_mode (n := 1) (h := h) (dt := dt) (ω := ω) (κ := κ) (L := L • 1) (C := C • 1) (A := A) hdt.ne' hsin.ne' (by
    simp only [smul_mulVec, one_mulVec, smul_smul]
    congr 1
    rw [← hrel, mul_pow, mul_pow, mul_pow, Real.sq_sqrt (mul_pos hL hC).le]
    ring)
  refine ⟨ω, B, ?_, ?_, hB⟩
  · rw [hω]
    have := Real.arcsin_nonneg.2 b0
    positivity
  · have := Real.arcsin_le_pi_div_two (r * Real.sin (κ * h / 2))
    have : ω * dt = 2 * (ω * dt / 2) := by ring
    rw [this, e]
    linarith

end

/-! ## From the constructor -/

/-- **C171** for programs: a straight line with one conductor from the constructor, without losses, and a time step up to the
automatic one.  For every wave number up to half a wave per cell there is a wave that it carries, of the velocity of the
continuous line at the automatic time step and slower below it. -/
theorem C171_program {L C D Zs Zl : ℝ} {m : ℕ} {name : String} {s : MTL 1 p} (hL : 0 < L) (hC : 0 < C) (hD : 0 < D)
    (hs : 0 ≤ Zs) (hl : 0 ≤ Zl) (hm : 0 < m)
    (h : MTL.new p (.scalar L) (.scalar C) (.scalar 0) (.scalar 0) D [] [m] (.scalar Zs) (.scalar Zl) name = .ok ⟨1, s⟩)
    {dt κ φ : ℝ} (hdt : 0 < dt) (hmax : dt ≤ s.dt) (hκ : 0 < κ) (hκ' : κ * (D / m) ≤ Real.pi) {A : Col 1} (hA : A ≠ 0) :
    ∃ ω B, 0 ≤ ω ∧ ω * dt ≤ Real.pi ∧ (dt = s.dt → ω / κ = 1 / Real.sqrt (L * C)) ∧ (dt < s.dt → ω / κ < 1 / Real.sqrt (L * C)) ∧
      ∀ (z : MTL 1 p), z = { s with
          dt := dt
          v := fun k => wave ω κ φ A 0 (k * (D / m))
          i := fun k => wave ω κ φ B (1 / 2 * dt) ((k + 1 / 2) * (D / m)) } →
        (∀ T, ∃ z', z.runUntil T = .ok z') ∧
        ∀ T z' N tr, RunTrace z T z' N tr → ∀ j ≤ N, (tr j).Waving (D / m) ω κ φ A B j := by
  obtain ⟨hi, -, -, hpr, hsm, -⟩ := constructed_ideal hL hC hD hs hl hm h (fun _ => 0)
  obtain ⟨δ, hδ⟩ : ∃ δ, s.conn = Disp.new δ := ⟨_, hi.conn⟩
  have hauto : s.dt = D / m * Real.sqrt (L * C) := hi.courant
  obtain ⟨ω, B, h1, h2, hw⟩ := C171_exists (κ := κ) hL hC hi.d_pos hdt (hauto ▸ hmax) hκ hκ' A
  obtain ⟨c1, c2⟩ := C171_velocity hL hC hi.d_pos hdt (hauto ▸ hmax) hκ hκ' h1 h2 hA hw
  rw [← hauto] at c1 c2
  refine ⟨ω, B, h1, h2, c1, c2, ?_⟩
  rintro z rfl
  refine ⟨fun T => ?_, fun T z' N tr R => C171_wave R ⟨hi.dun, hi.l, hi.c, hi.r, hi.g, ⟨δ, hδ⟩, hi.eL, hi.eT⟩ hw ⟨?_, ?_⟩⟩
  · have hd := hi.d_pos
    have spd : ∀ {x : ℝ}, 0 < x → SPD (x • (1 : Mat 1)) := by
      intro x hx
      have : (x • (1 : Mat 1)) = (Arg.scalar x).matrix 1 := by
        ext a b
        rw [Subsingleton.elim a b]
        simp [Arg.matrix]
      rw [this]
      exact spd_one hx
    obtain ⟨lr, hlr⟩ := updateLr_exists (D := s.conn) (m := s.m) (l := s.l) (r := s.r) (dun := s.dun) (dt := dt) hdt
      (fun k hk => by rw [show s.dun k = D / m from hi.dun k hk]; exact hd) (fun k hk => by rw [show s.l k = _ from hi.l k hk]; exact spd hL)
      (fun k _ => by rw [hδ]; exact dissipative_zero)
      (fun k hk => by rw [show s.r k = 0 from hi.r k hk, hδ]; simpa [Disp.new] using dissipative_zero) (fun k _ => by rw [hδ]; rfl)
    obtain ⟨cg, hcg⟩ := updateCg_exists (m := s.m) (c := s.c) (g := s.g) (dun := s.dun) hi.cells hdt
      (fun k hk => by rw [show s.dun k = D / m from hi.dun k hk]; exact hd) (fun k hk => by rw [show s.c k = _ from hi.c k hk]; exact spd hC)
      (fun k hk => by rw [show s.g k = 0 from hi.g k hk]; exact dissipative_zero)
    refine (runUntil_success_iff _ _).2 ⟨hdt.ne', ⟨lr, hlr⟩, ⟨cg, hcg⟩, Or.inr ?_⟩
    show ∀ q ∈ s.probes, _
    rw [hpr]
    simp
  · intro k _ _
    show wave ω κ φ A 0 (k * (D / m)) = wave ω κ φ A ((0 : ℕ) * dt) _
    rw [Nat.cast_zero, zero_mul]
  · intro k _ _
    show wave ω κ φ B (1 / 2 * dt) _ = wave ω κ φ B (((0 : ℕ) + 1 / 2) * dt) _
    rw [Nat.cast_zero, zero_add]

/-- Non-vacuity of C171: lines of any number of cells of length one, a wave of eight cells, at half the automatic time step. -/
example (m : ℕ) (hm : 0 < m) : ∃ s : MTL 1 0, MTL.new 0 (.scalar 1) (.scalar 1) (.scalar 0) (.scalar 0) m [] [m] (.scalar 1)
    (.scalar 1) "waves" = .ok ⟨1, s⟩ ∧ 0 < s.dt / 2 ∧ s.dt / 2 < s.dt ∧ Real.pi / 4 * (m / m) ≤ Real.pi := by
  have hm' : (0 : ℝ) < m := by exact_mod_cast hm
  obtain ⟨s, hs⟩ := straight_accepted (n := 1) (p := 0) (l := .scalar 1) (c := .scalar 1) (r := .scalar 0) (g := .scalar 0)
    (Zs := .scalar 1) (Zl := .scalar 1) one_ne_zero (.floats 1 1) .zero .zero (.numbers 1 1) (spd_one one_pos) (spd_one one_pos)
    dissipative_zero (fun _ _ => zero_le_one) (fun _ _ => zero_le_one) hm' hm "waves"
  obtain ⟨hi, -⟩ := constructed_ideal one_pos one_pos hm' zero_le_one zero_le_one hm hs (fun _ => 0)
  have hdt : 0 < s.dt := by
    have : s.dt = (m : ℝ) / m * Real.sqrt (1 * 1) := hi.courant
    rw [this]
    simp [hm'.ne']
  refine ⟨s, hs, by linarith, by linarith, ?_⟩
  rw [div_self hm'.ne']
  linarith [Real.pi_pos]

end Mtln
