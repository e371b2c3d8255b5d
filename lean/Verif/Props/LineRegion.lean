import Verif.Props.BundleRegion

/-! # Resistances and conductances of regions and points of a line: when the calls succeed, C29 and C30 -/

namespace Mtln

variable {n p : ℕ}

theorem MTL.cellAt_lt {s : MTL n p} (hm : 0 < s.m) (x : V3) : s.cellAt x < s.m := by
  have := (C25_nearest s.u s.m x).1
  unfold MTL.cellAt
  split_ifs <;> omega

/-- **C29**, exactly when `set_resistance_in_region` of a line succeeds, for positions of every kind, and what it does then. -/
theorem C29_iff {s s' : MTL n p} {start stop : Pos} {c : ℕ} {R : ℝ} (hm : 0 < s.m) :
    s.setResistanceInRegion start stop c R = .ok s' ↔
      assertOrdered start stop = .ok () ∧ c < n ∧ s.cellAt start.toV3 + c ≤ s.cellAt stop.toV3 ∧
      s.spanLength (s.cellAt start.toV3) (s.cellAt stop.toV3) ≠ 0 ∧
      ∃ r lr, (∀ k x y, r k x y = if k = s.cellAt start.toV3 + c ∧ x.val = c then
          R / s.spanLength (s.cellAt start.toV3) (s.cellAt stop.toV3) else s.r k x y) ∧
        updateLr s.m s.dt s.dun s.l r s.conn = .ok lr ∧ s' = { s with r := r, lr := some lr } := by
  have hc : ∀ x, (if nearest s.u s.m x = s.m then nearest s.u s.m x - 1 else nearest s.u s.m x) = s.cellAt x := by
    intro x
    unfold MTL.cellAt
    split_ifs with h
    · rw [h]
    · rfl
  have h1 := MTL.cellAt_lt hm start.toV3
  have h2 := MTL.cellAt_lt hm stop.toV3
  unfold MTL.setResistanceInRegion MTL.updateLrTerms
  simp only [bind_ok_iff, hc]
  generalize s.cellAt start.toV3 = i1 at *
  generalize s.cellAt stop.toV3 = i2 at *
  constructor
  · rintro ⟨_, e1, v, e2, r, e3, lr, e4, e5⟩
    obtain ⟨h0, rfl⟩ := (regionValue_ok_iff h1 h2).1 e2
    obtain ⟨⟨a1, a2, a3⟩, rfl⟩ := assignRow_ok_iff.1 e3
    injection e5 with e5
    refine ⟨e1, a3, a1, ?_, _, lr, fun k x y => rfl, e4, e5.symm⟩
    unfold MTL.spanLength; exact h0
  · rintro ⟨e1, a3, a1, h0, r, lr, hr, e4, rfl⟩
    refine ⟨(), e1, _, (regionValue_ok_iff h1 h2).2 ⟨?_, rfl⟩, r, assignRow_ok_iff.2 ⟨⟨a1, by omega, a3⟩, ?_⟩, lr, e4, rfl⟩
    · unfold MTL.spanLength at h0; exact h0
    · funext k
      ext x y
      exact hr k x y

/-- **C29, points.** Exactly when `set_resistance_at_point` succeeds: only on conductor 0. -/
theorem C29_point_iff {s s' : MTL n p} {x : Pos} {c : ℕ} {R : ℝ} (hm : 0 < s.m) :
    s.setResistanceAtPoint x c R = .ok s' ↔
      assertOrdered x x = .ok () ∧ c = 0 ∧ 0 < n ∧ norm3 (s.du (s.cellAt x.toV3)) ≠ 0 ∧
      ∃ r lr, (∀ k a b, r k a b = if k = s.cellAt x.toV3 ∧ a.val = 0 then R / norm3 (s.du (s.cellAt x.toV3)) else s.r k a b) ∧
        updateLr s.m s.dt s.dun s.l r s.conn = .ok lr ∧ s' = { s with r := r, lr := some lr } := by
  unfold MTL.setResistanceAtPoint
  rw [C29_iff hm]
  have hspan : s.spanLength (s.cellAt x.toV3) (s.cellAt x.toV3) = norm3 (s.du (s.cellAt x.toV3)) := if_neg (by simp)
  rw [hspan]
  constructor
  · rintro ⟨h1, h2, h3, h4, h5⟩
    obtain rfl : c = 0 := by omega
    exact ⟨h1, rfl, h2, h4, h5⟩
  · rintro ⟨h1, rfl, h2, h4, h5⟩
    exact ⟨h1, h2, by omega, h4, h5⟩

theorem assertOrdered_self (x : Pos) : assertOrdered x x = .ok () ↔ ∀ a, x ≠ .array a := by
  classical
  cases x with
  | float a => exact ⟨fun _ _ h => by simp at h, fun _ => pyAssert_ok_iff.2 le_rfl⟩
  | list a => exact ⟨fun _ _ h => by simp at h, fun _ => pyAssert_ok_iff.2 (Or.inl rfl)⟩
  | array a => exact ⟨fun h => by simp [assertOrdered] at h, fun h => absurd rfl (h a)⟩

/-- **C29, points.** On every other conductor `set_resistance_at_point` raises `IndexError`. -/
theorem C29_point_other {s : MTL n p} {x : Pos} (hx : ∀ a, x ≠ .array a) {c : ℕ} (hc : c ≠ 0) (R : ℝ) (hm : 0 < s.m)
    (h0 : norm3 (s.du (s.cellAt x.toV3)) ≠ 0) : s.setResistanceAtPoint x c R = .error .IndexError := by
  have hcell : (if nearest s.u s.m x.toV3 = s.m then nearest s.u s.m x.toV3 - 1 else nearest s.u s.m x.toV3) = s.cellAt x.toV3 := by
    unfold MTL.cellAt
    split_ifs with h
    · rw [h]
    · rfl
  have h1 := MTL.cellAt_lt hm x.toV3
  unfold MTL.setResistanceAtPoint MTL.setResistanceInRegion
  rw [(assertOrdered_self x).2 hx]
  simp only [hcell, bind, Except.bind]
  generalize s.cellAt x.toV3 = i at *
  have hv : regionValue s.m s.u s.du i i R = .ok (R / norm3 (s.du i)) := by
    unfold regionValue
    rw [if_neg (by simp), if_neg (by omega), if_neg h0]
  have ha : ∀ v, assignRow s.m s.r i i c v = .error .IndexError := fun v => by
    unfold assignRow
    rw [if_neg (by omega)]
  rw [hv]
  dsimp only
  rw [ha]

/-- **C30**, exactly when `add_conductance_in_region` of a line succeeds, and what it does then.  The indices are those of the nearest
coordinates in the flattened array of positions; they must not exceed the number of cells. -/
theorem C30_iff {s s' : MTL n p} {start stop : Pos} {c : ℕ} {G : ℝ} :
    s.addConductanceInRegion start stop c G = .ok s' ↔
      assertOrdered start stop = .ok () ∧ c < n ∧ nearestFlat s.u s.m start.toV3 + c ≤ nearestFlat s.u s.m stop.toV3 ∧
      nearestFlat s.u s.m stop.toV3 ≤ s.m ∧ (nearestFlat s.u s.m start.toV3 = nearestFlat s.u s.m stop.toV3 →
        nearestFlat s.u s.m start.toV3 < s.m) ∧
      s.spanLength (nearestFlat s.u s.m start.toV3) (nearestFlat s.u s.m stop.toV3) ≠ 0 ∧
      ∃ g cg, (∀ k x y, g k x y = if k = nearestFlat s.u s.m start.toV3 + c ∧ x.val = c then
          G / s.spanLength (nearestFlat s.u s.m start.toV3) (nearestFlat s.u s.m stop.toV3) else s.g k x y) ∧
        updateCg s.m s.dt s.dun s.c g = .ok cg ∧ s' = { s with g := g, cg := some cg } := by
  unfold MTL.addConductanceInRegion MTL.updateCgTerms
  simp only [bind_ok_iff]
  generalize nearestFlat s.u s.m start.toV3 = i1 at *
  generalize nearestFlat s.u s.m stop.toV3 = i2 at *
  have hv : ∀ v, regionValue s.m s.u s.du i1 i2 G = .ok v ↔
      i1 ≤ s.m ∧ i2 ≤ s.m ∧ (i1 = i2 → i1 < s.m) ∧ s.spanLength i1 i2 ≠ 0 ∧ v = G / s.spanLength i1 i2 := by
    intro v
    have hsub : (fun j => s.u i2 j - s.u i1 j) = s.u i2 - s.u i1 := rfl
    unfold regionValue MTL.spanLength
    rw [hsub]
    by_cases h : i1 = i2
    · subst h
      simp only [ne_eq, not_true_eq_false, if_false]
      by_cases h1 : s.m ≤ i1
      · rw [if_pos h1]
        exact ⟨fun h => by simp at h, fun h => absurd (h.2.2.1 trivial) (by omega)⟩
      · rw [if_neg h1]
        by_cases h2 : norm3 (s.du i1) = 0
        · rw [if_pos h2]; simp [h2]
        · rw [if_neg h2]
          simp only [Except.ok.injEq]
          exact ⟨fun h => ⟨by omega, by omega, fun _ => by omega, h2, h.symm⟩, fun h => h.2.2.2.2.symm⟩
    · rw [if_pos h, if_pos h]
      by_cases h1 : s.m < i1 ∨ s.m < i2
      · rw [if_pos h1]
        exact ⟨fun h => by simp at h, fun h => by omega⟩
      · rw [if_neg h1]
        by_cases h2 : norm3 (s.u i2 - s.u i1) = 0
        · rw [if_pos h2]; simp [h2]
        · rw [if_neg h2]
          simp only [Except.ok.injEq]
          exact ⟨fun h' => ⟨by omega, by omega, fun e => absurd e h, h2, h'.symm⟩, fun h => h.2.2.2.2.symm⟩
  constructor
  · rintro ⟨_, e1, v, e2, r, e3, lr, e4, e5⟩
    obtain ⟨-, g2, g3, g4, rfl⟩ := (hv v).1 e2
    obtain ⟨⟨a1, a2, a3⟩, rfl⟩ := assignRow_ok_iff.1 e3
    injection e5 with e5
    exact ⟨e1, a3, a1, g2, g3, g4, _, lr, fun k x y => rfl, e4, e5.symm⟩
  · rintro ⟨e1, a3, a1, g2, g3, h0, r, lr, hr, e4, rfl⟩
    refine ⟨(), e1, _, (hv _).2 ⟨by omega, g2, g3, h0, rfl⟩, r, assignRow_ok_iff.2 ⟨⟨a1, by omega, a3⟩, ?_⟩, lr, e4, rfl⟩
    funext k
    ext x y
    exact hr k x y

/-- **C30, points.** Exactly when `add_conductance_at_point` succeeds: only on conductor 0. -/
theorem C30_point_iff {s s' : MTL n p} {x : Pos} {c : ℕ} {G : ℝ} :
    s.addConductanceAtPoint x c G = .ok s' ↔
      assertOrdered x x = .ok () ∧ c = 0 ∧ 0 < n ∧ nearestFlat s.u s.m x.toV3 < s.m ∧ norm3 (s.du (nearestFlat s.u s.m x.toV3)) ≠ 0 ∧
      ∃ g cg, (∀ k a b, g k a b = if k = nearestFlat s.u s.m x.toV3 ∧ a.val = 0 then G / norm3 (s.du (nearestFlat s.u s.m x.toV3))
          else s.g k a b) ∧ updateCg s.m s.dt s.dun s.c g = .ok cg ∧ s' = { s with g := g, cg := some cg } := by
  unfold MTL.addConductanceAtPoint
  rw [C30_iff]
  have hspan : s.spanLength (nearestFlat s.u s.m x.toV3) (nearestFlat s.u s.m x.toV3) = norm3 (s.du (nearestFlat s.u s.m x.toV3)) :=
    if_neg (by simp)
  rw [hspan]
  constructor
  · rintro ⟨h1, h2, h3, h4, h5, h6, h7⟩
    obtain rfl : c = 0 := by omega
    exact ⟨h1, rfl, h2, h5 rfl, h6, h7⟩
  · rintro ⟨h1, rfl, h2, h4, h5, h6⟩
    exact ⟨h1, h2, by omega, h4.le, fun _ => h4, h5, h6⟩

end Mtln
