import Verif.Lemmas.Bundle

/-! # A block of conductors of a bundle follows the line -/

namespace Mtln

open Matrix

variable {n N p : ℕ} {e : Fin n → Fin N}

/-- The relation between a bundle and one of its lines that does not change during a run. -/
structure BlockMedium (e : Fin n → Fin N) (lr : LR n) (cg : CG n) (x : MTLD N p) (s : MTL n p) : Prop where
  m : s.m = x.m
  dun : ∀ k < x.m, s.dun k = x.dun k
  q1 : ∀ k, SubQ e (x.tz.q1 k) (s.conn.q1 k)
  q2 : ∀ k, SubQ e (x.tz.q2 k) (s.conn.q2 k)
  q3 : ∀ k, SubQ e (x.tz.q3 k) (s.conn.q3 k)
  lr : ∃ lrN, x.lr = some lrN ∧ (∀ k < x.m, SubMat e (lrN.iTerm k) (lr.iTerm k)) ∧
    ∀ k < x.m, SubMat e (lrN.vDiff k) (lr.vDiff k)
  cg : ∃ cgN, x.cg = some cgN ∧ (∀ k ≤ x.m, SubMat e (cgN.vTerm k) (cg.vTerm k)) ∧
    ∀ k ≤ x.m, SubMat e (cgN.iDiff k) (cg.iDiff k)
  fields : BlockFields e x s

theorem block_step (he : Function.Injective e) {lr : LR n} {cg : CG n} {x x' : MTLD N p} {s : MTL n p}
    (hm0 : 0 < x.m) (h : BlockMedium e lr cg x s) (hst : BlockState e x s)
    (hstep : BundleStep s.time s.dt x x')
    (h0 : ∀ a, (s.advanceFields lr cg).v 0 a = x'.v 0 (e a))
    (hL : ∀ a, (s.advanceFields lr cg).v s.m a = x'.v s.m (e a)) :
    BlockState e x' (s.advanceFields lr cg) ∧ BlockMedium e lr cg x' (s.advanceFields lr cg) := by
  obtain ⟨b1, b2, hb1, ⟨⟨w, hb2⟩, hends⟩, hb3⟩ := hstep
  obtain ⟨cgN, hcgN, hvT, hiD⟩ := h.cg
  obtain ⟨lrN, hlrN, hiT, hvD⟩ := h.lr
  obtain ⟨cg', hcg', rfl⟩ := MTLD.stepVoltage_ok_iff.1 hb1
  rw [hcgN, Option.some.injEq] at hcg'
  subst hcg'
  subst hb2
  obtain ⟨lr', hlr', rfl⟩ := MTLD.stepCurrent_ok_iff.1 hb3
  simp only at hlr'
  rw [hlrN, Option.some.injEq] at hlr'
  subst hlr'
  simp only at hends h0 hL
  have hmm := h.m
  have e3 : ∀ k ≤ s.m, ∀ a, s.sample.eTNow k a = (x.sample s.time s.dt).eTNow k (e a) := fun k hk a => by
    simp [MTL.sample, MTLD.sample, sampleSources, h.fields.eT k hk]
  have e4 : ∀ k ≤ s.m, ∀ a, s.sample.eTPrev k a = (x.sample s.time s.dt).eTPrev k (e a) := fun k hk a => by
    simp [MTL.sample, MTLD.sample, sampleSources, h.fields.eT k hk]
  have e5 : ∀ k < s.m, ∀ a, s.sample.eLNow k a = (x.sample s.time s.dt).eLNow k (e a) := fun k hk a => by
    simp [MTL.sample, MTLD.sample, sampleSources, h.fields.eL k hk]
  have e6 : ∀ k < s.m, ∀ a, s.sample.eLPrev k a = (x.sample s.time s.dt).eLPrev k (e a) := fun k hk a => by
    simp [MTL.sample, MTLD.sample, sampleSources, h.fields.eL k hk]
  have hv : ∀ k ≤ s.m, ∀ a, (s.advanceFields lr cg).v k a = w k (e a) := by
    intro k hk a
    rcases Nat.eq_zero_or_pos k with rfl | hk0
    · exact h0 a
    rcases hk.lt_or_eq with hlt | rfl
    · rw [hends k (by omega) (by omega), advanceFields_v_interior _ _ _ _ hk0 hlt]
      unfold advanceVoltage
      rw [if_pos ⟨hk0, by omega⟩]
      simp only [Pi.sub_apply]
      rw [e3 k hk, e4 k hk, (hvT k (by omega)).mulVec he (hst.v k hk) a,
        (hiD k (by omega)).mulVec he (fun b => ?_) a]
      simp only [Pi.sub_apply]
      rw [hst.i k hlt, hst.i (k - 1) (by omega)]
    · exact hL a
  have hq3 : ∀ k < s.m, ∀ a, s.conn.q3phi s.phi k a = x.tz.q3phi x.phi k (e a) := by
    intro k hk a
    unfold Disp.q3phi
    congr 1
    funext σ
    rw [sum_sub he]
    · exact Finset.sum_congr rfl fun b _ => by rw [(h.q3 k).inside, hst.phi k hk]
    · intro z hz; rw [(h.q3 k).outside a z hz]; simp
  have hi : ∀ k < s.m, ∀ a, (s.advanceFields lr cg).i k a =
      advanceCurrent x.m lrN x.dun (x.tz.q3phi x.phi) (x.sample s.time s.dt) w x.i k (e a) := by
    intro k hk a
    rw [advanceFields_i _ _ _ _ hk]
    unfold advanceCurrent
    rw [if_pos (by omega)]
    simp only [Pi.sub_apply]
    rw [(hiT k (by omega)).mulVec he (hst.i k hk) a]
    congr 1
    · congr 1
      refine (hvD k (by omega)).mulVec he ?_ a
      intro b
      simp only [Pi.sub_apply, Pi.add_apply, Pi.smul_apply, smul_eq_mul]
      rw [hv (k + 1) (by omega), hv k hk.le, e3 (k + 1) (by omega), e3 k hk.le, e5 k hk, e6 k hk,
        h.dun k (by omega)]
    · refine (hvD k (by omega)).mulVec he ?_ a
      intro b
      simp only [Pi.smul_apply, smul_eq_mul]
      rw [hq3 k hk, h.dun k (by omega)]
  refine ⟨⟨hv, hi, ?_⟩, ⟨h.m, h.dun, h.q1, h.q2, h.q3, h.lr, h.cg, ⟨h.fields.eL, h.fields.eT⟩⟩⟩
  intro k hk a
  rw [advanceFields_phi]
  funext σ
  unfold Disp.updatePhi
  simp only [hi k hk, hst.phi k hk]
  congr 1
  · congr 1
    · symm
      rw [sum_sub he]
      · exact Finset.sum_congr rfl fun b _ => by rw [(h.q1 k).inside]; rfl
      · intro z hz; rw [(h.q1 k).outside a z hz]; simp
    · symm
      rw [sum_sub he]
      · exact Finset.sum_congr rfl fun b _ => by rw [(h.q2 k).inside]; rfl
      · intro z hz; rw [(h.q2 k).outside a z hz]; simp
  · symm
    rw [sum_sub he]
    · exact Finset.sum_congr rfl fun b _ => by rw [(h.q3 k).inside]
    · intro z hz; rw [(h.q3 k).outside a z hz]; simp

end Mtln
