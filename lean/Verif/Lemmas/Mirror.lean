import Verif.Lemmas.Fields
import Verif.Spec.Symmetry

/-! # The mirrored line -/

namespace Mtln

open Matrix

variable {n p : ℕ}

/-- `lr`, `cg` of the mirrored line. -/
structure MirroredCoeffs (m : ℕ) (lr lr' : LR n) (cg cg' : CG n) : Prop where
  iTerm : ∀ k < m, lr'.iTerm k = lr.iTerm (m - 1 - k)
  vDiff : ∀ k < m, lr'.vDiff k = lr.vDiff (m - 1 - k)
  vTerm : ∀ k ≤ m, cg'.vTerm k = cg.vTerm (m - k)
  iDiff : ∀ k ≤ m, cg'.iDiff k = cg.iDiff (m - k)

theorem nodalLength_mirror {m : ℕ} {dun dun' : ℕ → ℝ} (h : ∀ k < m, dun' k = dun (m - 1 - k)) (hm : 0 < m)
    {k : ℕ} (hk : k ≤ m) : nodalLength m dun' k = nodalLength m dun (m - k) := by
  unfold nodalLength
  rcases Nat.eq_zero_or_pos k with rfl | hk0
  · rw [if_pos rfl, if_neg (by omega), if_neg (by omega), h 0 hm]; rfl
  · rw [if_neg (by omega)]
    rcases hk.lt_or_eq with hlt | rfl
    · rw [if_pos hlt, if_neg (by omega), if_pos (by omega), h k hlt, h (k - 1) (by omega)]
      rw [show m - 1 - (k - 1) = m - k by omega, show m - k - 1 = m - 1 - k by omega, add_comm]
    · rw [if_neg (by omega), if_pos (by omega), h (k - 1) (by omega)]
      congr 1; omega

theorem mirror_coeffs {s t : MTL n p} (h : MirroredMedium s t) (hm : 0 < s.m) {lr lr' : LR n} {cg cg' : CG n}
    (hlr : updateLr s.m s.dt s.dun s.l s.r s.conn = .ok lr)
    (hlr' : updateLr t.m t.dt t.dun t.l t.r t.conn = .ok lr')
    (hcg : updateCg s.m s.dt s.dun s.c s.g = .ok cg)
    (hcg' : updateCg t.m t.dt t.dun t.c t.g = .ok cg') : MirroredCoeffs s.m lr lr' cg cg' := by
  obtain ⟨-, -, rfl⟩ := updateLr_ok_iff.1 hlr
  obtain ⟨-, -, rfl⟩ := updateLr_ok_iff.1 hlr'
  obtain ⟨-, -, rfl⟩ := updateCg_ok_iff.1 hcg
  obtain ⟨-, -, rfl⟩ := updateCg_ok_iff.1 hcg'
  have a1 : ∀ k < s.m, lrF1 t.dt t.dun t.l t.r t.conn k = lrF1 s.dt s.dun s.l s.r s.conn (s.m - 1 - k) := by
    intro k hk
    unfold lrF1
    rw [h.dt, h.dun k hk, h.l k hk, h.r k hk, h.d k hk, h.e k hk, h.q1sum k hk]
  have a2 : ∀ k < s.m, lrF2 t.dt t.dun t.l t.r t.conn k = lrF2 s.dt s.dun s.l s.r s.conn (s.m - 1 - k) := by
    intro k hk
    unfold lrF2
    rw [h.dt, h.dun k hk, h.l k hk, h.r k hk, h.d k hk, h.e k hk, h.q2sum k hk]
  have b1 : ∀ k ≤ s.m, cgF1 t.m t.dt t.dun t.c t.g k = cgF1 s.m s.dt s.dun s.c s.g (s.m - k) := by
    intro k hk
    unfold cgF1
    rw [h.dt, h.c k hk, h.g k hk, h.m, nodalLength_mirror h.dun hm hk]
  have b2 : ∀ k ≤ s.m, cgF2 t.m t.dt t.dun t.c t.g k = cgF2 s.m s.dt s.dun s.c s.g (s.m - k) := by
    intro k hk
    unfold cgF2
    rw [h.dt, h.c k hk, h.g k hk, h.m, nodalLength_mirror h.dun hm hk]
  constructor
  · intro k hk; simp only; rw [a1 k hk, a2 k hk]
  · intro k hk; simp only; rw [a1 k hk]
  · intro k hk; simp only; rw [b1 k hk, b2 k hk]
  · intro k hk; simp only; rw [b1 k hk]

theorem poleSum_neg (a : Poles p) : poleSum (fun σ => -a σ) = -poleSum a := by
  unfold poleSum; simp

theorem mirror_advance {s t : MTL n p} {lr lr' : LR n} {cg cg' : CG n} (h : MirroredMedium s t) (hm : 0 < s.m)
    (hc : MirroredCoeffs s.m lr lr' cg cg') (ht : t.time = s.time) (hS : MirroredSources s t)
    (hst : MirroredState s t) : MirroredState (s.advanceFields lr cg) (t.advanceFields lr' cg') := by
  have e1 : ∀ k ≤ s.m, t.sample.vNow k = s.sample.vNow (s.m - k) := fun k hk => by
    simp [MTL.sample, sampleSources, hS.vS k hk, ht]
  have e2 : ∀ k ≤ s.m, t.sample.vPrev k = s.sample.vPrev (s.m - k) := fun k hk => by
    simp [MTL.sample, sampleSources, hS.vS k hk, ht, h.dt]
  have e3 : ∀ k ≤ s.m, t.sample.eTNow k = s.sample.eTNow (s.m - k) := fun k hk => by
    simp [MTL.sample, sampleSources, hS.eT k hk, ht]
  have e4 : ∀ k ≤ s.m, t.sample.eTPrev k = s.sample.eTPrev (s.m - k) := fun k hk => by
    simp [MTL.sample, sampleSources, hS.eT k hk, ht, h.dt]
  have e5 : ∀ k < s.m, t.sample.eLNow k = -s.sample.eLNow (s.m - 1 - k) := fun k hk => by
    funext x; simp [MTL.sample, sampleSources, hS.eL k hk, ht, h.dt]
  have e6 : ∀ k < s.m, t.sample.eLPrev k = -s.sample.eLPrev (s.m - 1 - k) := fun k hk => by
    funext x; simp [MTL.sample, sampleSources, hS.eL k hk, ht, h.dt]
  have hv : ∀ k ≤ s.m, (t.advanceFields lr' cg').v k = (s.advanceFields lr cg).v (s.m - k) := by
    intro k hk
    rcases Nat.eq_zero_or_pos k with rfl | hk0
    · rw [Nat.sub_zero, advanceFields_v_right _ _ _ hm, advanceFields_v_left _ _ _ (by rw [h.m]; exact hm),
        h.left1, h.left2, h.zs, h.dun 0 hm, h.dt, h.c 0 (by omega), hst.v 0 (by omega), hst.i 0 hm,
        e1 0 (by omega), e2 0 (by omega), e3 0 (by omega), e4 0 (by omega)]
      simp only [Nat.sub_zero, mulVec_neg, smul_neg, neg_neg]
    · rcases hk.lt_or_eq with hlt | rfl
      · rw [advanceFields_v_interior _ _ s _ (by omega) (by omega),
          advanceFields_v_interior _ _ _ _ hk0 (by rw [h.m]; exact hlt), hc.vTerm k hk, hc.iDiff k hk,
          hst.v k hk, hst.i k hlt, hst.i (k - 1) (by omega), e3 k hk, e4 k hk,
          show s.m - 1 - (k - 1) = s.m - k by omega, show s.m - k - 1 = s.m - 1 - k by omega]
        congr 3
        abel
      · have := advanceFields_v_right lr' cg' t (by rw [h.m]; exact hm)
        rw [h.m] at this
        rw [this, Nat.sub_self, advanceFields_v_left _ _ _ hm, h.right1, h.right2, h.zl, h.dun _ (by omega),
          h.dt, h.c _ le_rfl, hst.v _ le_rfl, hst.i _ (by omega), e1 _ le_rfl, e2 _ le_rfl, e3 _ le_rfl,
          e4 _ le_rfl]
        simp only [Nat.sub_self, mulVec_neg, smul_neg]
  have hi : ∀ k < s.m, (t.advanceFields lr' cg').i k = -(s.advanceFields lr cg).i (s.m - 1 - k) := by
    intro k hk
    have hq : t.conn.q3phi t.phi k = -s.conn.q3phi s.phi (s.m - 1 - k) := by
      funext x
      unfold Disp.q3phi
      simp only [Pi.neg_apply]
      rw [← poleSum_neg]
      congr 1
      funext σ
      rw [h.q3 k hk, ← Finset.sum_neg_distrib]
      exact Finset.sum_congr rfl fun j _ => by rw [hst.phi k hk]; ring
    rw [advanceFields_i _ _ s _ (by omega), advanceFields_i _ _ _ _ (by rw [h.m]; exact hk), hv k hk.le,
      hv (k + 1) (by omega), hc.iTerm k hk, hc.vDiff k hk, hst.i k hk, h.dun k hk, e3 k hk.le,
      e3 (k + 1) (by omega), e5 k hk, e6 k hk, hq,
      show s.m - (k + 1) = s.m - 1 - k by omega, show s.m - 1 - k + 1 = s.m - k by omega]
    simp only [mulVec_add, mulVec_sub, mulVec_smul, mulVec_neg, smul_neg, smul_add]
    abel
  refine ⟨hv, hi, ?_⟩
  intro k hk x σ
  have hk : k < s.m := hk
  show _ = -((s.advanceFields lr cg).phi (s.m - 1 - k) x σ)
  rw [advanceFields_phi, advanceFields_phi]
  unfold Disp.updatePhi
  rw [h.q1 k hk, h.q2 k hk, h.q3 k hk, hi k hk, neg_add, neg_add, ← Finset.sum_neg_distrib,
    ← Finset.sum_neg_distrib, ← Finset.sum_neg_distrib]
  congr 1
  · congr 1 <;>
    · refine Finset.sum_congr rfl fun j _ => ?_
      simp
  · refine Finset.sum_congr rfl fun j _ => ?_
    rw [hst.phi k hk]; ring

theorem mirror_iterate {s t : MTL n p} {lr lr' : LR n} {cg cg' : CG n} (h : MirroredMedium s t) (hm : 0 < s.m)
    (hc : MirroredCoeffs s.m lr lr' cg cg') (ht : t.time = s.time) (hS : MirroredSources s t)
    (hst : MirroredState s t) (j : ℕ) :
    MirroredState ((MTL.advanceFields lr cg)^[j] s) ((MTL.advanceFields lr' cg')^[j] t) := by
  induction j generalizing s t with
  | zero => exact hst
  | succ j ih =>
    rw [Function.iterate_succ_apply, Function.iterate_succ_apply]
    refine ih (s := s.advanceFields lr cg) (t := t.advanceFields lr' cg') ?_ hm hc ?_ ?_
      (mirror_advance h hm hc ht hS hst)
    · exact ⟨h.m, h.dt, h.dun, h.l, h.r, h.c, h.g, h.zs, h.zl, h.left1, h.left2, h.right1, h.right2, h.q1, h.q2,
        h.q3, h.d, h.e, h.q1sum, h.q2sum⟩
    · show t.time + t.dt = s.time + s.dt
      rw [ht, h.dt]
    · exact ⟨hS.vS, hS.eT, hS.eL⟩

end Mtln
