import Verif.Lemmas.Fields
import Verif.Spec.Relations

/-! # Relations preserved by the field update -/

namespace Mtln

open Matrix

variable {n p : ℕ}

theorem MTL.SameMedium.updateLr {s t : MTL n p} (h : s.SameMedium t) :
    updateLr t.m t.dt t.dun t.l t.r t.conn = updateLr s.m s.dt s.dun s.l s.r s.conn := by
  rw [h.m, h.dt, h.dun, h.l, h.r, h.conn]

theorem MTL.SameMedium.updateCg {s t : MTL n p} (h : s.SameMedium t) :
    updateCg t.m t.dt t.dun t.c t.g = updateCg s.m s.dt s.dun s.c s.g := by
  rw [h.m, h.dt, h.dun, h.c, h.g]

theorem MTL.SameConfig.sameMedium {s t : MTL n p} (h : s.SameConfig t) : s.SameMedium t :=
  ⟨h.m, h.dun, h.l, h.c, h.r, h.g, h.zs, h.zl, h.dt, h.conn, h.left1, h.left2, h.right1, h.right2⟩

theorem MTL.SameMedium.symm {s t : MTL n p} (h : s.SameMedium t) : t.SameMedium s :=
  ⟨h.m.symm, h.dun.symm, h.l.symm, h.c.symm, h.r.symm, h.g.symm, h.zs.symm, h.zl.symm, h.dt.symm,
    h.conn.symm, h.left1.symm, h.left2.symm, h.right1.symm, h.right2.symm⟩

theorem MTL.SameMedium.trans {s t w : MTL n p} (h : s.SameMedium t) (h' : t.SameMedium w) :
    s.SameMedium w :=
  ⟨h'.m.trans h.m, h'.dun.trans h.dun, h'.l.trans h.l, h'.c.trans h.c, h'.r.trans h.r, h'.g.trans h.g,
    h'.zs.trans h.zs, h'.zl.trans h.zl, h'.dt.trans h.dt, h'.conn.trans h.conn, h'.left1.trans h.left1,
    h'.left2.trans h.left2, h'.right1.trans h.right1, h'.right2.trans h.right2⟩

/-- A relation preserved by the field update holds along two runs of equal hardware. -/
theorem two_runs {s₁ s₂ s₁' s₂' : MTL n p} {T : ℝ} {N : ℕ} {tr₁ tr₂ : ℕ → MTL n p}
    (hm : s₁.SameMedium s₂)
    (R₁ : RunTrace s₁ T s₁' N tr₁) (R₂ : RunTrace s₂ T s₂' N tr₂) :
    ∃ lr cg, updateLr s₁.m s₁.dt s₁.dun s₁.l s₁.r s₁.conn = .ok lr ∧
      updateCg s₁.m s₁.dt s₁.dun s₁.c s₁.g = .ok cg ∧
      (∀ j ≤ N, tr₁ j = { (MTL.advanceFields lr cg)^[j] s₁ with
        lr := some lr, cg := some cg, probes := (tr₁ j).probes }) ∧
      (∀ j ≤ N, tr₂ j = { (MTL.advanceFields lr cg)^[j] s₂ with
        lr := some lr, cg := some cg, probes := (tr₂ j).probes }) := by
  obtain ⟨lr, cg, hlr, hcg, hc₁⟩ := R₁.closed
  refine ⟨lr, cg, hlr, hcg, hc₁, ?_⟩
  exact R₂.fields (by rw [hm.updateLr]; exact hlr) (by rw [hm.updateCg]; exact hcg)

theorem vec_comb {a b : ℝ} {x y z : Col n} : (∀ j, z j = a * x j + b * y j) ↔ z = a • x + b • y := by
  constructor
  · intro h; funext j; simp [h j]
  · rintro rfl j; simp

theorem mulVec_comb (A : Mat n) {a b : ℝ} {x y z : Col n} (h : z = a • x + b • y) :
    A *ᵥ z = a • (A *ᵥ x) + b • (A *ᵥ y) := by
  rw [h, mulVec_add, mulVec_smul, mulVec_smul]

theorem poleSum_comb {a b : ℝ} {x y z : Poles p} (h : ∀ σ, z σ = a * x σ + b * y σ) :
    poleSum z = a * poleSum x + b * poleSum y := by
  unfold poleSum
  simp only [h, Finset.sum_add_distrib, ← Finset.mul_sum, Complex.add_re, Complex.re_ofReal_mul]

theorem q3phi_comb (D : Disp n p) {a b : ℝ} {x y z : Memory n p} (k : ℕ)
    (h : ∀ i σ, z k i σ = a * x k i σ + b * y k i σ) :
    D.q3phi z k = a • D.q3phi x k + b • D.q3phi y k := by
  funext i
  unfold Disp.q3phi
  simp only [Pi.add_apply, Pi.smul_apply, smul_eq_mul]
  apply poleSum_comb
  intro σ
  simp only [h, mul_add, Finset.sum_add_distrib, Finset.mul_sum]
  congr 1 <;> exact Finset.sum_congr rfl fun j _ => by ring

theorem updatePhi_comb (D : Disp n p) {a b : ℝ} {x y z : Memory n p} {i₁ i₂ i₃ : Grid n} (k : ℕ)
    (h : ∀ i σ, z k i σ = a * x k i σ + b * y k i σ)
    (hi : ∀ j, i₃ k j = a * i₁ k j + b * i₂ k j) (i : Fin n) (σ : Fin p) :
    D.updatePhi z i₃ i₃ k i σ = a * D.updatePhi x i₁ i₁ k i σ + b * D.updatePhi y i₂ i₂ k i σ := by
  unfold Disp.updatePhi
  simp only [h, hi, mul_add, Finset.mul_sum, ← Finset.sum_add_distrib]
  refine Finset.sum_congr rfl fun j _ => ?_
  push_cast
  ring

theorem advanceFields_comb (lr : LR n) (cg : CG n) {a b : ℝ} {s₁ s₂ s₃ : MTL n p}
    (h₂ : s₁.SameMedium s₂) (h₃ : s₁.SameMedium s₃) (ht₂ : s₂.time = s₁.time) (ht₃ : s₃.time = s₁.time)
    (hs : SourceComb a b s₁ s₂ s₃) (h : StateComb a b s₁ s₂ s₃) :
    StateComb a b (s₁.advanceFields lr cg) (s₂.advanceFields lr cg) (s₃.advanceFields lr cg) := by
  have hv : ∀ k, s₃.v k = a • s₁.v k + b • s₂.v k := fun k => vec_comb.1 (h.v k)
  have hi : ∀ k, s₃.i k = a • s₁.i k + b • s₂.i k := fun k => vec_comb.1 (h.i k)
  have e1 : ∀ k, s₃.sample.vNow k = a • s₁.sample.vNow k + b • s₂.sample.vNow k := fun k =>
    vec_comb.1 fun j => by simp [MTL.sample, sampleSources, hs.vS, ht₂, ht₃]
  have e2 : ∀ k, s₃.sample.vPrev k = a • s₁.sample.vPrev k + b • s₂.sample.vPrev k := fun k =>
    vec_comb.1 fun j => by simp [MTL.sample, sampleSources, hs.vS, ht₂, ht₃, h₂.dt, h₃.dt]
  have e3 : ∀ k, s₃.sample.eLNow k = a • s₁.sample.eLNow k + b • s₂.sample.eLNow k := fun k =>
    vec_comb.1 fun j => by simp [MTL.sample, sampleSources, hs.eL, ht₂, ht₃, h₂.dt, h₃.dt]
  have e4 : ∀ k, s₃.sample.eLPrev k = a • s₁.sample.eLPrev k + b • s₂.sample.eLPrev k := fun k =>
    vec_comb.1 fun j => by simp [MTL.sample, sampleSources, hs.eL, ht₂, ht₃, h₂.dt, h₃.dt]
  have e5 : ∀ k, s₃.sample.eTNow k = a • s₁.sample.eTNow k + b • s₂.sample.eTNow k := fun k =>
    vec_comb.1 fun j => by simp [MTL.sample, sampleSources, hs.eT, ht₂, ht₃]
  have e6 : ∀ k, s₃.sample.eTPrev k = a • s₁.sample.eTPrev k + b • s₂.sample.eTPrev k := fun k =>
    vec_comb.1 fun j => by simp [MTL.sample, sampleSources, hs.eT, ht₂, ht₃, h₂.dt, h₃.dt]
  have hL : ∀ (v₁ v₂ v₃ : Grid n), (∀ k, v₃ k = a • v₁ k + b • v₂ k) → ∀ k,
      s₃.advanceLeftTerminal s₃.sample v₃ s₃.i k = a • s₁.advanceLeftTerminal s₁.sample v₁ s₁.i k
        + b • s₂.advanceLeftTerminal s₂.sample v₂ s₂.i k := by
    intro v₁ v₂ v₃ hv k
    unfold MTL.advanceLeftTerminal
    by_cases hk : k = 0
    · subst hk
      simp only [Function.update_self]
      rw [h₂.left1, h₂.left2, h₂.zs, h₂.dun, h₂.dt, h₂.c, h₃.left1, h₃.left2, h₃.zs, h₃.dun, h₃.dt, h₃.c,
        hv, hi, e1, e2, e5, e6]
      simp only [mulVec_add, mulVec_sub, mulVec_smul, mulVec_neg]
      module
    · simp only [Function.update_of_ne hk]
      exact hv k
  have hI : ∀ (v₁ v₂ v₃ : Grid n), (∀ k, v₃ k = a • v₁ k + b • v₂ k) → ∀ k,
      advanceVoltage s₃.m cg s₃.sample v₃ s₃.i k = a • advanceVoltage s₁.m cg s₁.sample v₁ s₁.i k
        + b • advanceVoltage s₂.m cg s₂.sample v₂ s₂.i k := by
    intro v₁ v₂ v₃ hv k
    unfold advanceVoltage
    rw [h₂.m, h₃.m]
    split
    · rw [hv, hi, hi, e5, e6]
      simp only [mulVec_add, mulVec_sub, mulVec_smul]
      module
    · exact hv k
  have hR : ∀ (v₁ v₂ v₃ : Grid n), (∀ k, v₃ k = a • v₁ k + b • v₂ k) → ∀ k,
      s₃.advanceRightTerminal s₃.sample v₃ s₃.i k = a • s₁.advanceRightTerminal s₁.sample v₁ s₁.i k
        + b • s₂.advanceRightTerminal s₂.sample v₂ s₂.i k := by
    intro v₁ v₂ v₃ hv k
    unfold MTL.advanceRightTerminal
    rw [h₂.m, h₃.m]
    by_cases hk : k = s₁.m
    · subst hk
      simp only [Function.update_self]
      rw [h₂.right1, h₂.right2, h₂.zl, h₂.dun, h₂.dt, h₂.c, h₃.right1, h₃.right2, h₃.zl, h₃.dun, h₃.dt, h₃.c,
        hv, hi, e1, e2, e5, e6]
      simp only [mulVec_add, mulVec_sub, mulVec_smul]
      module
    · simp only [Function.update_of_ne hk]
      exact hv k
  have hv' : ∀ k, (s₃.advanceFields lr cg).v k =
      a • (s₁.advanceFields lr cg).v k + b • (s₂.advanceFields lr cg).v k :=
    hR _ _ _ (hI _ _ _ (hL _ _ _ hv))
  have hi' : ∀ k, (s₃.advanceFields lr cg).i k =
      a • (s₁.advanceFields lr cg).i k + b • (s₂.advanceFields lr cg).i k := by
    intro k
    by_cases hk : k < s₁.m
    · rw [advanceFields_i _ _ _ _ (by rw [h₃.m]; exact hk), advanceFields_i _ _ s₁ _ hk,
        advanceFields_i _ _ s₂ _ (by rw [h₂.m]; exact hk), hv', hv', hi, e3, e4, e5, e5, h₂.dun, h₃.dun,
        h₂.conn, h₃.conn, q3phi_comb s₁.conn k (h.phi k)]
      simp only [mulVec_add, mulVec_sub, mulVec_smul]
      module
    · rw [advanceFields_i_beyond _ _ _ _ (by rw [h₃.m]; omega),
        advanceFields_i_beyond _ _ s₁ _ (by omega), advanceFields_i_beyond _ _ s₂ _ (by rw [h₂.m]; omega)]
      exact hi k
  refine ⟨fun k => vec_comb.2 (hv' k), fun k => vec_comb.2 (hi' k), ?_⟩
  intro k x σ
  rw [advanceFields_phi, advanceFields_phi, advanceFields_phi, h₂.conn, h₃.conn]
  exact updatePhi_comb _ k (h.phi k) (vec_comb.2 (hi' k)) x σ

theorem iterate_comb (lr : LR n) (cg : CG n) {a b : ℝ} (j : ℕ) {s₁ s₂ s₃ : MTL n p}
    (h₂ : s₁.SameMedium s₂) (h₃ : s₁.SameMedium s₃) (ht₂ : s₂.time = s₁.time) (ht₃ : s₃.time = s₁.time)
    (hs : SourceComb a b s₁ s₂ s₃) (h : StateComb a b s₁ s₂ s₃) :
    StateComb a b ((MTL.advanceFields lr cg)^[j] s₁) ((MTL.advanceFields lr cg)^[j] s₂)
      ((MTL.advanceFields lr cg)^[j] s₃) := by
  induction j generalizing s₁ s₂ s₃ with
  | zero => exact h
  | succ j ih =>
    simp only [Function.iterate_succ_apply]
    refine ih ⟨h₂.m, h₂.dun, h₂.l, h₂.c, h₂.r, h₂.g, h₂.zs, h₂.zl, h₂.dt, h₂.conn, h₂.left1, h₂.left2,
      h₂.right1, h₂.right2⟩ ⟨h₃.m, h₃.dun, h₃.l, h₃.c, h₃.r, h₃.g, h₃.zs, h₃.zl, h₃.dt, h₃.conn, h₃.left1,
      h₃.left2, h₃.right1, h₃.right2⟩ ?_ ?_ ⟨hs.vS, hs.eL, hs.eT⟩
      (advanceFields_comb lr cg h₂ h₃ ht₂ ht₃ hs h)
    · show s₂.time + s₂.dt = s₁.time + s₁.dt
      rw [ht₂, h₂.dt]
    · show s₃.time + s₃.dt = s₁.time + s₁.dt
      rw [ht₃, h₃.dt]

end Mtln

namespace Mtln

open Matrix

variable {n p : ℕ}

/-- The field update sees the sources only through the samples at the two end nodes and the samples of the
external field. -/
theorem advanceFields_congr (lr : LR n) (cg : CG n) {s t : MTL n p} (h : s.SameMedium t)
    (hs : s.SameState t) (h0 : t.sample.vNow 0 = s.sample.vNow 0) (h0' : t.sample.vPrev 0 = s.sample.vPrev 0)
    (hm : t.sample.vNow s.m = s.sample.vNow s.m) (hm' : t.sample.vPrev s.m = s.sample.vPrev s.m)
    (e1 : t.sample.eLNow = s.sample.eLNow) (e2 : t.sample.eLPrev = s.sample.eLPrev)
    (e3 : t.sample.eTNow = s.sample.eTNow) (e4 : t.sample.eTPrev = s.sample.eTPrev) :
    (s.advanceFields lr cg).SameState (t.advanceFields lr cg) := by
  have hL : ∀ v, t.advanceLeftTerminal t.sample v t.i = s.advanceLeftTerminal s.sample v s.i := by
    intro v
    unfold MTL.advanceLeftTerminal
    rw [h.left1, h.left2, h.zs, h.dun, h.dt, h.c, h0, h0', e3, e4, hs.i]
  have hI : ∀ v, advanceVoltage t.m cg t.sample v t.i = advanceVoltage s.m cg s.sample v s.i := by
    intro v
    unfold advanceVoltage
    rw [h.m, e3, e4, hs.i]
  have hR : ∀ v, t.advanceRightTerminal t.sample v t.i = s.advanceRightTerminal s.sample v s.i := by
    intro v
    unfold MTL.advanceRightTerminal
    rw [h.m, h.right1, h.right2, h.zl, h.dun, h.dt, h.c, hm, hm', e3, e4, hs.i]
  have hv : (t.advanceFields lr cg).v = (s.advanceFields lr cg).v := by
    simp only [MTL.advanceFields]
    rw [hR, hI, hL, hs.v]
  have hi : (t.advanceFields lr cg).i = (s.advanceFields lr cg).i := by
    have : ∀ w : MTL n p, (w.advanceFields lr cg).i =
      advanceCurrent w.m lr w.dun (w.conn.q3phi w.phi) w.sample (w.advanceFields lr cg).v w.i := fun _ => rfl
    rw [this t, this s, hv, h.m, h.dun, h.conn, hs.phi, hs.i]
    unfold advanceCurrent
    rw [e1, e2, e3]
  refine ⟨hv, hi, ?_⟩
  rw [advanceFields_phi, advanceFields_phi, hi, hs.phi, h.conn]

theorem MTL.SameMedium.advance {lr : LR n} {cg : CG n} {s t : MTL n p} (h : s.SameMedium t) :
    (s.advanceFields lr cg).SameMedium (t.advanceFields lr cg) :=
  ⟨h.m, h.dun, h.l, h.c, h.r, h.g, h.zs, h.zl, h.dt, h.conn, h.left1, h.left2, h.right1, h.right2⟩

theorem MTL.SameMedium.iterate {lr : LR n} {cg : CG n} {s t : MTL n p} (h : s.SameMedium t) (j : ℕ) :
    ((MTL.advanceFields lr cg)^[j] s).SameMedium ((MTL.advanceFields lr cg)^[j] t) := by
  induction j with
  | zero => exact h
  | succ j ih => rw [Function.iterate_succ_apply', Function.iterate_succ_apply']; exact ih.advance

theorem iterate_sample (lr : LR n) (cg : CG n) (s : MTL n p) (j : ℕ) :
    ((MTL.advanceFields lr cg)^[j] s).sample =
      sampleSources s.vSources s.eL s.eT (s.time + j * s.dt) s.dt := by
  have h := iterate_advanceFields_config lr cg s j
  unfold MTL.sample
  rw [h.vSources, h.eL, h.eT, h.dt, iterate_advanceFields_time]

/-- If the samples agree at every step, the states agree after every step. -/
theorem iterate_congr (lr : LR n) (cg : CG n) {s t : MTL n p} (h : s.SameMedium t)
    (hs : s.SameState t) (N : ℕ)
    (hsample : ∀ j < N, ∀ a b : Sampled n, a = sampleSources s.vSources s.eL s.eT (s.time + j * s.dt) s.dt →
      b = sampleSources t.vSources t.eL t.eT (t.time + j * t.dt) t.dt →
      b.vNow 0 = a.vNow 0 ∧ b.vPrev 0 = a.vPrev 0 ∧ b.vNow s.m = a.vNow s.m ∧ b.vPrev s.m = a.vPrev s.m ∧
      b.eLNow = a.eLNow ∧ b.eLPrev = a.eLPrev ∧ b.eTNow = a.eTNow ∧ b.eTPrev = a.eTPrev) :
    ∀ j ≤ N, ((MTL.advanceFields lr cg)^[j] s).SameState ((MTL.advanceFields lr cg)^[j] t) := by
  intro j
  induction j with
  | zero => intro _; exact hs
  | succ j ih =>
    intro hj
    rw [Function.iterate_succ_apply', Function.iterate_succ_apply']
    obtain ⟨a1, a2, a3, a4, a5, a6, a7, a8⟩ := hsample j (by omega) _ _
      (iterate_sample lr cg s j) (iterate_sample lr cg t j)
    refine advanceFields_congr lr cg (h.iterate j) (ih (by omega)) a1 a2 ?_ ?_ a5 a6 a7 a8
    · rw [(iterate_advanceFields_config lr cg s j).m]; exact a3
    · rw [(iterate_advanceFields_config lr cg s j).m]; exact a4

/-! ## Locality -/

theorem q3phi_congr (D : Disp n p) {x y : Memory n p} {k : ℕ} (h : x k = y k) :
    D.q3phi x k = D.q3phi y k := by
  unfold Disp.q3phi; rw [h]

theorem updatePhi_congr (D : Disp n p) {x y : Memory n p} {i₁ i₂ : Grid n} {k : ℕ} (h : x k = y k)
    (hi : i₁ k = i₂ k) : D.updatePhi x i₁ i₁ k = D.updatePhi y i₂ i₂ k := by
  unfold Disp.updatePhi; rw [h, hi]

theorem advanceFields_local_v (lr : LR n) (cg : CG n) {s t : MTL n p} (h : s.SameMedium t)
    (ht : t.time = s.time) (hm : 0 < s.m) (k : ℕ) (hS : t.vSources k = s.vSources k) (hT : t.eT k = s.eT k)
    (hv : t.v k = s.v k) (hi : k < s.m → t.i k = s.i k) (hi' : 0 < k → k ≤ s.m → t.i (k - 1) = s.i (k - 1)) :
    (t.advanceFields lr cg).v k = (s.advanceFields lr cg).v k := by
  have e1 : t.sample.vNow k = s.sample.vNow k := by simp [MTL.sample, sampleSources, hS, ht]
  have e2 : t.sample.vPrev k = s.sample.vPrev k := by simp [MTL.sample, sampleSources, hS, ht, h.dt]
  have e3 : t.sample.eTNow k = s.sample.eTNow k := by simp [MTL.sample, sampleSources, hT, ht]
  have e4 : t.sample.eTPrev k = s.sample.eTPrev k := by simp [MTL.sample, sampleSources, hT, ht, h.dt]
  rcases Nat.eq_zero_or_pos k with rfl | hk
  · rw [advanceFields_v_left _ _ _ hm, advanceFields_v_left _ _ _ (by rw [h.m]; exact hm), h.left1, h.left2,
      h.zs, h.dun, h.dt, h.c, e1, e2, e3, e4, hv, hi hm]
  · rcases lt_trichotomy k s.m with hlt | heq | hgt
    · rw [advanceFields_v_interior _ _ _ _ hk hlt, advanceFields_v_interior _ _ _ _ hk (by rw [h.m]; exact hlt),
        e3, e4, hv, hi hlt, hi' hk hlt.le]
    · subst heq
      have := advanceFields_v_right lr cg t (by rw [h.m]; exact hm)
      rw [h.m] at this
      rw [advanceFields_v_right _ _ _ hm, this, h.right1, h.right2, h.zl, h.dun, h.dt, h.c, e1, e2, e3, e4, hv,
        hi' hk le_rfl]
    · rw [advanceFields_v_beyond _ _ _ _ hm hgt, advanceFields_v_beyond _ _ _ _ (by rw [h.m]; exact hm)
        (by rw [h.m]; exact hgt), hv]

theorem advanceFields_local_i (lr : LR n) (cg : CG n) {s t : MTL n p} (h : s.SameMedium t)
    (ht : t.time = s.time) (k : ℕ) (hL : t.eL k = s.eL k) (hT : t.eT k = s.eT k)
    (hT' : t.eT (k + 1) = s.eT (k + 1))
    (hv : (t.advanceFields lr cg).v k = (s.advanceFields lr cg).v k)
    (hv' : (t.advanceFields lr cg).v (k + 1) = (s.advanceFields lr cg).v (k + 1))
    (hi : t.i k = s.i k) (hphi : t.phi k = s.phi k) :
    (t.advanceFields lr cg).i k = (s.advanceFields lr cg).i k ∧
    (t.advanceFields lr cg).phi k = (s.advanceFields lr cg).phi k := by
  have e1 : t.sample.eLNow k = s.sample.eLNow k := by simp [MTL.sample, sampleSources, hL, ht, h.dt]
  have e2 : t.sample.eLPrev k = s.sample.eLPrev k := by simp [MTL.sample, sampleSources, hL, ht, h.dt]
  have e3 : t.sample.eTNow k = s.sample.eTNow k := by simp [MTL.sample, sampleSources, hT, ht]
  have e4 : t.sample.eTNow (k + 1) = s.sample.eTNow (k + 1) := by simp [MTL.sample, sampleSources, hT', ht]
  have hi' : (t.advanceFields lr cg).i k = (s.advanceFields lr cg).i k := by
    by_cases hk : k < s.m
    · rw [advanceFields_i _ _ _ _ hk, advanceFields_i _ _ _ _ (by rw [h.m]; exact hk), hv, hv', e1, e2, e3, e4,
        hi, h.dun, h.conn, q3phi_congr _ hphi]
    · rw [advanceFields_i_beyond _ _ s _ (by omega), advanceFields_i_beyond _ _ t _ (by rw [h.m]; omega), hi]
  refine ⟨hi', ?_⟩
  rw [advanceFields_phi, advanceFields_phi, h.conn]
  exact updatePhi_congr _ hphi hi'

/-- Agreement to the right of node `a` shrinks by one node per step. -/
theorem iterate_agree_right (lr : LR n) (cg : CG n) {s t : MTL n p} (h : s.SameMedium t)
    (ht : t.time = s.time) (hm : 0 < s.m) (a : ℕ)
    (hS : ∀ k > a, t.vSources k = s.vSources k) (hL : ∀ k > a, t.eL k = s.eL k)
    (hT : ∀ k > a, t.eT k = s.eT k)
    (hv : ∀ k ≥ a, t.v k = s.v k) (hi : ∀ k ≥ a, t.i k = s.i k) (hphi : ∀ k ≥ a, t.phi k = s.phi k) (j : ℕ) :
    ∀ k ≥ a + j, ((MTL.advanceFields lr cg)^[j] t).v k = ((MTL.advanceFields lr cg)^[j] s).v k ∧
      ((MTL.advanceFields lr cg)^[j] t).i k = ((MTL.advanceFields lr cg)^[j] s).i k ∧
      ((MTL.advanceFields lr cg)^[j] t).phi k = ((MTL.advanceFields lr cg)^[j] s).phi k := by
  induction j with
  | zero => intro k hk; exact ⟨hv k hk, hi k hk, hphi k hk⟩
  | succ j ih =>
    simp only [Function.iterate_succ_apply']
    have cs := iterate_advanceFields_config lr cg s j
    have ct := iterate_advanceFields_config lr cg t j
    have hmed := h.iterate (lr := lr) (cg := cg) j
    have htime : ((MTL.advanceFields lr cg)^[j] t).time = ((MTL.advanceFields lr cg)^[j] s).time := by
      rw [iterate_advanceFields_time, iterate_advanceFields_time, ht, h.dt]
    have hv' : ∀ k ≥ a + (j + 1), (((MTL.advanceFields lr cg)^[j] t).advanceFields lr cg).v k =
        (((MTL.advanceFields lr cg)^[j] s).advanceFields lr cg).v k := by
      intro k hk
      refine advanceFields_local_v lr cg hmed htime (by rw [cs.m]; exact hm) k ?_ ?_ (ih k (by omega)).1
        (fun _ => (ih k (by omega)).2.1) (fun _ _ => (ih (k - 1) (by omega)).2.1)
      · rw [cs.vSources, ct.vSources, hS k (by omega)]
      · rw [cs.eT, ct.eT, hT k (by omega)]
    intro k hk
    refine ⟨hv' k hk, advanceFields_local_i lr cg hmed htime k ?_ ?_ ?_ (hv' k hk) (hv' (k + 1) (by omega))
      (ih k (by omega)).2.1 (ih k (by omega)).2.2⟩
    · rw [cs.eL, ct.eL, hL k (by omega)]
    · rw [cs.eT, ct.eT, hT k (by omega)]
    · rw [cs.eT, ct.eT, hT (k + 1) (by omega)]

/-- Agreement to the left of node `b` shrinks by one node per step. -/
theorem iterate_agree_left (lr : LR n) (cg : CG n) {s t : MTL n p} (h : s.SameMedium t)
    (ht : t.time = s.time) (hm : 0 < s.m) (b : ℕ)
    (hS : ∀ k < b, t.vSources k = s.vSources k) (hL : ∀ k, k + 1 < b → t.eL k = s.eL k)
    (hT : ∀ k < b, t.eT k = s.eT k)
    (hv : ∀ k ≤ b, t.v k = s.v k) (hi : ∀ k < b, t.i k = s.i k) (hphi : ∀ k < b, t.phi k = s.phi k) (j : ℕ) :
    (∀ k, k + j ≤ b → ((MTL.advanceFields lr cg)^[j] t).v k = ((MTL.advanceFields lr cg)^[j] s).v k) ∧
    ∀ k, k + j < b → ((MTL.advanceFields lr cg)^[j] t).i k = ((MTL.advanceFields lr cg)^[j] s).i k ∧
      ((MTL.advanceFields lr cg)^[j] t).phi k = ((MTL.advanceFields lr cg)^[j] s).phi k := by
  induction j with
  | zero => exact ⟨hv, fun k hk => ⟨hi k hk, hphi k hk⟩⟩
  | succ j ih =>
    simp only [Function.iterate_succ_apply']
    have cs := iterate_advanceFields_config lr cg s j
    have ct := iterate_advanceFields_config lr cg t j
    have hmed := h.iterate (lr := lr) (cg := cg) j
    have htime : ((MTL.advanceFields lr cg)^[j] t).time = ((MTL.advanceFields lr cg)^[j] s).time := by
      rw [iterate_advanceFields_time, iterate_advanceFields_time, ht, h.dt]
    have hv' : ∀ k, k + (j + 1) ≤ b → (((MTL.advanceFields lr cg)^[j] t).advanceFields lr cg).v k =
        (((MTL.advanceFields lr cg)^[j] s).advanceFields lr cg).v k := by
      intro k hk
      refine advanceFields_local_v lr cg hmed htime (by rw [cs.m]; exact hm) k ?_ ?_ (ih.1 k (by omega))
        (fun _ => (ih.2 k (by omega)).1) (fun _ _ => (ih.2 (k - 1) (by omega)).1)
      · rw [cs.vSources, ct.vSources, hS k (by omega)]
      · rw [cs.eT, ct.eT, hT k (by omega)]
    refine ⟨hv', ?_⟩
    intro k hk
    refine advanceFields_local_i lr cg hmed htime k ?_ ?_ ?_ (hv' k (by omega)) (hv' (k + 1) (by omega))
      (ih.2 k (by omega)).1 (ih.2 k (by omega)).2
    · rw [cs.eL, ct.eL, hL k (by omega)]
    · rw [cs.eT, ct.eT, hT k (by omega)]
    · rw [cs.eT, ct.eT, hT (k + 1) (by omega)]

/-- Without excitation and at rest nothing moves. -/
theorem iterate_rest (lr : LR n) (cg : CG n) {s : MTL n p} (hr : s.AtRest) (hu : s.Unexcited) (j : ℕ) :
    ((MTL.advanceFields lr cg)^[j] s).AtRest := by
  have h := iterate_comb lr cg (a := 0) (b := 0) j (s₁ := s) (s₂ := s) (s₃ := s)
    ((MTL.SameConfig.refl s).sameMedium) ((MTL.SameConfig.refl s).sameMedium) rfl rfl
    ⟨by intro k x t; simp [hu.vS], by intro k x t; simp [hu.eL], by intro k x t; simp [hu.eT]⟩
    ⟨by intro k x; simp [hr.v], by intro k x; simp [hr.i], by intro k x σ; simp [hr.phi]⟩
  constructor
  · intro k; funext x; simpa using h.v k x
  · intro k; funext x; simpa using h.i k x
  · intro k x; funext σ; simpa using h.phi k x σ

end Mtln
