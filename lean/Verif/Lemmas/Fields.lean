import Verif.Lemmas.Equations

/-! # The field update at each node and cell -/

namespace Mtln

open Matrix

variable {n p : ℕ}

theorem advanceFields_v_left (lr : LR n) (cg : CG n) (s : MTL n p) (hm : 0 < s.m) :
    (s.advanceFields lr cg).v 0 = s.left1 *ᵥ s.v 0
      + s.left2 *ᵥ (-((2 : ℝ) • s.zs *ᵥ s.i 0) + (s.sample.vNow 0 + s.sample.vPrev 0)
        - (s.dun 0 / s.dt) • (s.zs * s.c 0) *ᵥ (s.sample.eTNow 0 - s.sample.eTPrev 0)) := by
  simp only [MTL.advanceFields, MTL.advanceRightTerminal, MTL.advanceLeftTerminal, advanceVoltage]
  rw [Function.update_of_ne (by omega)]
  simp [advanceVoltage]

theorem advanceFields_v_interior (lr : LR n) (cg : CG n) (s : MTL n p) (k : ℕ) (h0 : 0 < k) (hk : k < s.m) :
    (s.advanceFields lr cg).v k = cg.vTerm k *ᵥ s.v k - cg.iDiff k *ᵥ (s.i k - s.i (k - 1))
      - (s.sample.eTNow k - s.sample.eTPrev k) := by
  simp only [MTL.advanceFields, MTL.advanceRightTerminal, MTL.advanceLeftTerminal, advanceVoltage]
  rw [Function.update_of_ne (by omega)]
  simp only [advanceVoltage]
  rw [if_pos ⟨h0, hk⟩, Function.update_of_ne (by omega)]

theorem advanceFields_v_right (lr : LR n) (cg : CG n) (s : MTL n p) (hm : 0 < s.m) :
    (s.advanceFields lr cg).v s.m = s.right1 *ᵥ s.v s.m
      + s.right2 *ᵥ ((2 : ℝ) • s.zl *ᵥ s.i (s.m - 1) + (s.sample.vNow s.m + s.sample.vPrev s.m)
        - (s.dun (s.m - 1) / s.dt) • (s.zl * s.c s.m) *ᵥ (s.sample.eTNow s.m - s.sample.eTPrev s.m)) := by
  simp only [MTL.advanceFields, MTL.advanceRightTerminal, MTL.advanceLeftTerminal, advanceVoltage]
  rw [Function.update_self, if_neg (by omega), Function.update_of_ne (by omega)]

theorem advanceFields_v_beyond (lr : LR n) (cg : CG n) (s : MTL n p) (k : ℕ) (hm : 0 < s.m) (hk : s.m < k) :
    (s.advanceFields lr cg).v k = s.v k := by
  simp only [MTL.advanceFields, MTL.advanceRightTerminal, MTL.advanceLeftTerminal, advanceVoltage]
  rw [Function.update_of_ne (by omega)]
  simp only [advanceVoltage]
  rw [if_neg (by omega), Function.update_of_ne (by omega)]

theorem advanceFields_i (lr : LR n) (cg : CG n) (s : MTL n p) (k : ℕ) (hk : k < s.m) :
    (s.advanceFields lr cg).i k = lr.iTerm k *ᵥ s.i k
      - lr.vDiff k *ᵥ (((s.advanceFields lr cg).v (k + 1) - (s.advanceFields lr cg).v k)
          + (s.sample.eTNow (k + 1) - s.sample.eTNow k)
          - (s.dun k / 2) • (s.sample.eLNow k + s.sample.eLPrev k))
      - lr.vDiff k *ᵥ (s.dun k • s.conn.q3phi s.phi k) := by
  simp only [MTL.advanceFields, advanceCurrent]
  rw [if_pos hk]

theorem advanceFields_i_beyond (lr : LR n) (cg : CG n) (s : MTL n p) (k : ℕ) (hk : s.m ≤ k) :
    (s.advanceFields lr cg).i k = s.i k := by
  simp only [MTL.advanceFields, advanceCurrent]
  rw [if_neg (by omega)]

theorem advanceFields_phi (lr : LR n) (cg : CG n) (s : MTL n p) :
    (s.advanceFields lr cg).phi =
      s.conn.updatePhi s.phi (s.advanceFields lr cg).i (s.advanceFields lr cg).i := rfl

theorem MTL.SameConfig.termConsistent {s s' : MTL n p} (h : s.SameConfig s') (ht : s.TermConsistent) :
    s'.TermConsistent := by
  constructor
  · rw [h.dt, h.dun, h.zs, h.c, h.g]; exact ht.det_left
  · rw [h.dt, h.dun, h.zl, h.c, h.g, h.m]; exact ht.det_right
  · rw [h.dt, h.dun, h.zs, h.c, h.g, h.left1]; exact ht.left1
  · rw [h.dt, h.dun, h.zs, h.c, h.g, h.left2]; exact ht.left2
  · rw [h.dt, h.dun, h.zl, h.c, h.g, h.m, h.right1]; exact ht.right1
  · rw [h.dt, h.dun, h.zl, h.c, h.g, h.m, h.right2]; exact ht.right2

theorem computeTerminalTerms_consistent {s s' : MTL n p} (h : s.computeTerminalTerms = .ok s') :
    s'.TermConsistent := by
  unfold MTL.computeTerminalTerms at h
  obtain ⟨_, -, h⟩ := bind_ok_iff.1 h
  obtain ⟨_, ha, h⟩ := bind_ok_iff.1 h
  obtain ⟨_, hb, h⟩ := bind_ok_iff.1 h
  injection h with h
  subst h
  exact ⟨raiseIf_ok_iff.1 ha, raiseIf_ok_iff.1 hb, rfl, rfl, rfl, rfl⟩

end Mtln
