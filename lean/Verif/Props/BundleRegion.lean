import Verif.Props.Region
import Verif.Props.FieldApi

/-!
# `MTLD.set_resistance_in_region`, `MTLD.add_conductance_in_region`: C140
-/

namespace Mtln

open Matrix

variable {n p : ℕ}

/-- The length by which the total of a region of a bundle is divided (mtl.py:974-977). -/
noncomputable def MTLD.spanLength (b : MTLD n p) (i1 i2 : ℕ) : ℝ :=
  if i1 = i2 then norm3 (b.du i1) else norm3 (b.u i2 - b.u i1)

/-- The nearest node of a bundle to a position. -/
noncomputable def MTLD.nodeAt (b : MTLD n p) (x : Pos) : ℕ := nearest b.u b.m x.toV3

theorem MTLD.nodeAt_le (b : MTLD n p) (x : Pos) : b.nodeAt x ≤ b.m := (C25_nearest b.u b.m _).1

theorem regionValue_bundle {b : MTLD n p} {i1 i2 : ℕ} (h1 : i1 ≤ b.m) (h2 : i2 ≤ b.m) {total v : ℝ} :
    regionValue b.m b.u b.du i1 i2 total = .ok v ↔
      (i1 = i2 → i1 < b.m) ∧ b.spanLength i1 i2 ≠ 0 ∧ v = total / b.spanLength i1 i2 := by
  unfold regionValue MTLD.spanLength
  have e : (fun j => b.u i2 j - b.u i1 j) = b.u i2 - b.u i1 := rfl
  by_cases h : i1 = i2
  · rw [if_neg (not_not.2 h), if_pos h]
    by_cases hm : b.m ≤ i1
    · rw [if_pos hm]
      simp [h]
      omega
    · rw [if_neg hm]
      by_cases h0 : norm3 (b.du i1) = 0
      · simp [h0]
      · rw [if_neg h0]
        simp only [Except.ok.injEq, h, true_implies, ne_eq]
        constructor
        · intro hv
          exact ⟨by omega, h ▸ h0, h ▸ hv.symm⟩
        · rintro ⟨-, -, hv⟩
          rw [hv]
  · rw [if_pos h, if_neg h, if_neg (by omega), e]
    by_cases h0 : norm3 (b.u i2 - b.u i1) = 0
    · simp [h0]
    · rw [if_neg h0]
      simp only [Except.ok.injEq, h, ne_eq, h0, not_false_eq_true, true_and, false_implies]
      exact eq_comm

/-- **C140**, what `set_resistance_in_region` of a bundle really does: exactly when the arguments are in order, the nodes
nearest to the ends of the region are `conductor` or more cells apart and cell `i1 + conductor` exists, one row of one
matrix is written, row `conductor` of cell `i1 + conductor`, with the resistance over the distance of the two nodes, and the
coefficients of the current update are computed again.  The node is not moved back from the end of the bundle as it is for
lines. -/
theorem C140_resistance_iff {b b' : MTLD n p} {start stop : Pos} {c : ℕ} {R : ℝ} :
    b.setResistanceInRegion start stop c R = .ok b' ↔
      assertOrdered start stop = .ok () ∧ c < n ∧ b.nodeAt start + c ≤ b.nodeAt stop ∧ b.nodeAt start + c < b.m ∧
      b.spanLength (b.nodeAt start) (b.nodeAt stop) ≠ 0 ∧
      ∃ r lr, (∀ k x y, r k x y = if k = b.nodeAt start + c ∧ x.val = c then
          R / b.spanLength (b.nodeAt start) (b.nodeAt stop) else b.r k x y) ∧
        updateLr b.m b.dt b.dun b.l r b.tz = .ok lr ∧ b' = { b with r := r, lr := some lr } := by
  unfold MTLD.setResistanceInRegion MTLD.updateLrTerms
  simp only [bind_ok_iff]
  constructor
  · rintro ⟨_, e1, v, e2, r, e3, lr, e4, e5⟩
    obtain ⟨-, h0, rfl⟩ := (regionValue_bundle (b.nodeAt_le start) (b.nodeAt_le stop)).1 e2
    obtain ⟨⟨a1, a2, a3⟩, rfl⟩ := assignRow_ok_iff.1 e3
    injection e5 with e5
    exact ⟨e1, a3, a1, a2, h0, _, lr, fun k x y => rfl, e4, e5.symm⟩
  · rintro ⟨e1, a3, a1, a2, h0, r, lr, hr, e4, rfl⟩
    refine ⟨(), e1, _, (regionValue_bundle (b.nodeAt_le start) (b.nodeAt_le stop)).2 ⟨?_, h0, rfl⟩, r,
      assignRow_ok_iff.2 ⟨⟨a1, a2, a3⟩, ?_⟩, lr, e4, rfl⟩
    · intro _
      omega
    · funext k
      ext x y
      exact hr k x y

/-- **C140**, what `add_conductance_in_region` of a bundle really does: as for the resistances, but the node `i1 + conductor`
may be the last one, unless the region is this point only. -/
theorem C140_conductance_iff {b b' : MTLD n p} {start stop : Pos} {c : ℕ} {G : ℝ} :
    b.addConductanceInRegion start stop c G = .ok b' ↔
      assertOrdered start stop = .ok () ∧ c < n ∧ b.nodeAt start + c ≤ b.nodeAt stop ∧
      (b.nodeAt start = b.nodeAt stop → b.nodeAt start < b.m) ∧
      b.spanLength (b.nodeAt start) (b.nodeAt stop) ≠ 0 ∧
      ∃ g cg, (∀ k x y, g k x y = if k = b.nodeAt start + c ∧ x.val = c then
          G / b.spanLength (b.nodeAt start) (b.nodeAt stop) else b.g k x y) ∧
        updateCg b.m b.dt b.dun b.c g = .ok cg ∧ b' = { b with g := g, cg := some cg } := by
  have hle := b.nodeAt_le stop
  unfold MTLD.addConductanceInRegion MTLD.updateCgTerms
  simp only [bind_ok_iff]
  constructor
  · rintro ⟨_, e1, v, e2, r, e3, lr, e4, e5⟩
    obtain ⟨hp, h0, rfl⟩ := (regionValue_bundle (b.nodeAt_le start) (b.nodeAt_le stop)).1 e2
    obtain ⟨⟨a1, a2, a3⟩, rfl⟩ := assignRow_ok_iff.1 e3
    injection e5 with e5
    exact ⟨e1, a3, a1, hp, h0, _, lr, fun k x y => rfl, e4, e5.symm⟩
  · rintro ⟨e1, a3, a1, hp, h0, r, lr, hr, e4, rfl⟩
    refine ⟨(), e1, _, (regionValue_bundle (b.nodeAt_le start) (b.nodeAt_le stop)).2 ⟨hp, h0, rfl⟩, r,
      assignRow_ok_iff.2 ⟨⟨a1, ?_, a3⟩, ?_⟩, lr, e4, rfl⟩
    · show b.nodeAt start + c < b.m + 1
      omega
    · funext k
      ext x y
      exact hr k x y

/-- Regions that end at the last node of a bundle and start there raise `IndexError`; on a line the same call puts the
resistance into the last cell (`C29_effect`). -/
theorem C140_last_node {b : MTLD n p} {start stop : Pos} (ho : assertOrdered start stop = .ok ()) (c : ℕ) (x : ℝ)
    (h1 : b.nodeAt start = b.m) (h2 : b.nodeAt stop = b.m) :
    b.setResistanceInRegion start stop c x = .error .IndexError ∧
    b.addConductanceInRegion start stop c x = .error .IndexError := by
  have e1 : nearest b.u b.m start.toV3 = b.m := h1
  have e2 : nearest b.u b.m stop.toV3 = b.m := h2
  unfold MTLD.setResistanceInRegion MTLD.addConductanceInRegion
  simp [ho, e1, e2, regionValue, bind, Except.bind]

/-- Series resistance of conductor `c` of a bundle over all cells. -/
noncomputable def MTLD.seriesResistance (b : MTLD n p) (c : Fin n) : ℝ :=
  ∑ k ∈ Finset.range b.m, b.dun k * b.r k c c

/-- **C140** where it holds: a region that ends at most one node after its start, conductor 0.  The self resistance of the
cell becomes `R`, no other conductor and no other cell changes. -/
theorem C140_one_cell_partial {b b' : MTLD (n + 1) p} {start stop : Pos} {R : ℝ}
    (h : b.setResistanceInRegion start stop 0 R = .ok b')
    (hmesh : ∀ k < b.m, b.u (k + 1) = b.u k + b.du k) (hdun : ∀ k < b.m, b.dun k = norm3 (b.du k))
    (hcell : b.nodeAt stop ≤ b.nodeAt start + 1) :
    b.dun (b.nodeAt start) * b'.r (b.nodeAt start) 0 0 = R ∧
    (∀ k x y, k ≠ b.nodeAt start ∨ x ≠ 0 → b'.r k x y = b.r k x y) ∧ { b' with r := b.r, lr := b.lr } = b := by
  obtain ⟨-, -, h1, h2, h3, r, lr, hr, -, rfl⟩ := C140_resistance_iff.1 h
  have hlt : b.nodeAt start < b.m := by omega
  have hs : b.spanLength (b.nodeAt start) (b.nodeAt stop) = b.dun (b.nodeAt start) := by
    unfold MTLD.spanLength
    rw [hdun _ hlt]
    split_ifs with hne
    · rfl
    · rw [show b.nodeAt stop = b.nodeAt start + 1 by omega, hmesh _ hlt, add_sub_cancel_left]
  refine ⟨?_, ?_, rfl⟩
  · show _ * r _ _ _ = R
    rw [hr, if_pos ⟨rfl, rfl⟩, hs]
    rw [hs] at h3
    field_simp
  · intro k x y hk
    show r k x y = _
    rw [hr, if_neg]
    rintro ⟨a1, a2⟩
    rcases hk with hk | hk
    · exact hk a1
    · exact hk (Fin.ext a2)

/-- **C140** where it holds, for conductances: the conductance per length of a region that ends at most one node after its
start becomes `G` over the length of the cell after the start, at this node only. -/
theorem C140_one_node_partial {b b' : MTLD (n + 1) p} {start stop : Pos} {G : ℝ}
    (h : b.addConductanceInRegion start stop 0 G = .ok b')
    (hmesh : ∀ k < b.m, b.u (k + 1) = b.u k + b.du k) (hdun : ∀ k < b.m, b.dun k = norm3 (b.du k))
    (hcell : b.nodeAt stop ≤ b.nodeAt start + 1) :
    b.dun (b.nodeAt start) * b'.g (b.nodeAt start) 0 0 = G ∧
    (∀ k x y, k ≠ b.nodeAt start ∨ x ≠ 0 → b'.g k x y = b.g k x y) ∧ { b' with g := b.g, cg := b.cg } = b := by
  obtain ⟨-, -, h1, h2, h3, r, lr, hr, -, rfl⟩ := C140_conductance_iff.1 h
  have hle := b.nodeAt_le stop
  have hlt : b.nodeAt start < b.m := by
    rcases Nat.lt_or_ge (b.nodeAt start) (b.nodeAt stop) with hh | hh
    · omega
    · exact h2 (by omega)
  have hs : b.spanLength (b.nodeAt start) (b.nodeAt stop) = b.dun (b.nodeAt start) := by
    unfold MTLD.spanLength
    rw [hdun _ hlt]
    split_ifs with hne
    · rfl
    · rw [show b.nodeAt stop = b.nodeAt start + 1 by omega, hmesh _ hlt, add_sub_cancel_left]
  refine ⟨?_, ?_, rfl⟩
  · show _ * r _ _ _ = G
    rw [hr, if_pos ⟨rfl, rfl⟩, hs]
    rw [hs] at h3
    field_simp
  · intro k x y hk
    show r k x y = _
    rw [hr, if_neg]
    rintro ⟨a1, a2⟩
    rcases hk with hk | hk
    · exact hk a1
    · exact hk (Fin.ext a2)

theorem demoBundle_node (k : ℕ) (hk : k ≤ 2) : (MTLD.single (demoBare p) "b").nodeAt (.float k) = k := by
  have hu : ∀ j ≤ 2, (demoBare p).u j = ![0, 0, (j : ℝ)] := by
    intro j hj
    interval_cases j <;> simp [demoBare]
  show nearest (demoBare p).u 2 ![0, 0, (k : ℝ)] = k
  rw [← hu k hk]
  refine nearest_node _ _ k hk ?_
  intro a ha h
  rw [hu a ha, hu k hk] at h
  simpa using congrFun h 2

theorem demoBundle_span {i j : ℕ} (hi : i < j) (hj : j ≤ 2) : (MTLD.single (demoBare p) "b").spanLength i j = j - i := by
  unfold MTLD.spanLength
  rw [if_neg (by omega)]
  show norm3 ((demoBare p).u j - (demoBare p).u i) = _
  interval_cases j <;> interval_cases i <;> simp [demoBare, norm3] <;> norm_num

theorem demoBundle_dt : (MTLD.single (demoBare p) "b").dt = 1 := by norm_num [MTLD.single, demoBare]

/-- Resistances over regions of the demo bundle. -/
theorem demoBundle_set {i j : ℕ} (hi : i < j) (hj : j ≤ 2) {R : ℝ} (hR : 0 ≤ R) : ∃ b',
    (MTLD.single (demoBare p) "b").setResistanceInRegion (.float i) (.float j) 0 R = .ok b' := by
  obtain ⟨r, hr⟩ : ∃ r : ℕ → Mat 1, r = fun k => Matrix.of fun x _ => if k = i + 0 ∧ x.val = 0 then R / (j - i) else 0 := ⟨_, rfl⟩
  have hji : (0 : ℝ) < j - i := sub_pos.2 (Nat.cast_lt.2 hi)
  have hrk : ∀ k, 0 ≤ r k 0 0 := by
    intro k
    rw [hr]
    simp only [Matrix.of_apply]
    split_ifs
    · positivity
    · exact le_rfl
  obtain ⟨lr, hlr⟩ : ∃ lr, updateLr (MTLD.single (demoBare p) "b").m (MTLD.single (demoBare p) "b").dt
      (MTLD.single (demoBare p) "b").dun (MTLD.single (demoBare p) "b").l r (MTLD.single (demoBare p) "b").tz = .ok lr := by
    refine ⟨_, updateLr_ok_iff.2 ⟨by rw [demoBundle_dt]; norm_num, fun k hk => ?_, rfl⟩⟩
    have hk : k < 2 := hk
    have := hrk k
    unfold lrF1
    rw [demoBundle_dt, Matrix.det_fin_one]
    have hd : (MTLD.single (demoBare p) "b").dun k = 1 := if_pos hk
    have hl : (MTLD.single (demoBare p) "b").l k = 1 := rfl
    rw [hd, hl]
    simp [MTLD.single, demoBare, Disp.new, vSum]
    have hz : poleSum (QEntry.val (none : QEntry p)) = 0 := by simp [poleSum, QEntry.val]
    rw [hz, add_zero]
    positivity
  refine ⟨_, C140_resistance_iff.2 ⟨pyAssert_ok_iff.2 (by exact_mod_cast hi.le), by norm_num, ?_, ?_, ?_, r, lr, ?_, hlr, rfl⟩⟩
  · rw [demoBundle_node i (by omega), demoBundle_node j hj]
    omega
  · rw [demoBundle_node i (by omega)]
    show i + 0 < 2
    omega
  · rw [demoBundle_node i (by omega), demoBundle_node j hj, demoBundle_span hi hj]
    exact hji.ne'
  · intro k x y
    rw [demoBundle_node i (by omega), demoBundle_node j hj, demoBundle_span hi hj, hr]
    rfl

/-- Conductances over regions of the demo bundle. -/
theorem demoBundle_add {i j : ℕ} (hi : i < j) (hj : j ≤ 2) {G : ℝ} (hG : 0 ≤ G) : ∃ b',
    (MTLD.single (demoBare p) "b").addConductanceInRegion (.float i) (.float j) 0 G = .ok b' := by
  obtain ⟨r, hr⟩ : ∃ r : ℕ → Mat 1, r = fun k => Matrix.of fun x _ => if k = i + 0 ∧ x.val = 0 then G / (j - i) else 0 := ⟨_, rfl⟩
  have hji : (0 : ℝ) < j - i := sub_pos.2 (Nat.cast_lt.2 hi)
  have hrk : ∀ k, 0 ≤ r k 0 0 := by
    intro k
    rw [hr]
    simp only [Matrix.of_apply]
    split_ifs
    · positivity
    · exact le_rfl
  obtain ⟨cg, hcg⟩ : ∃ cg, updateCg (MTLD.single (demoBare p) "b").m (MTLD.single (demoBare p) "b").dt
      (MTLD.single (demoBare p) "b").dun (MTLD.single (demoBare p) "b").c r = .ok cg := by
    refine ⟨_, updateCg_ok_iff.2 ⟨by rw [demoBundle_dt]; norm_num, fun k hk => ?_, rfl⟩⟩
    have hk : k ≤ 2 := hk
    have := hrk k
    unfold cgF1
    rw [demoBundle_dt, Matrix.det_fin_one]
    interval_cases k <;> norm_num [MTLD.single, demoBare, nodalLength] <;> positivity
  refine ⟨_, C140_conductance_iff.2 ⟨pyAssert_ok_iff.2 (by exact_mod_cast hi.le), by norm_num, ?_, ?_, ?_, r, cg, ?_, hcg, rfl⟩⟩
  · rw [demoBundle_node i (by omega), demoBundle_node j hj]
    omega
  · rw [demoBundle_node i (by omega), demoBundle_node j hj]
    omega
  · rw [demoBundle_node i (by omega), demoBundle_node j hj, demoBundle_span hi hj]
    exact hji.ne'
  · intro k x y
    rw [demoBundle_node i (by omega), demoBundle_node j hj, demoBundle_span hi hj, hr]
    rfl

/-- **C140 is false**: on a bundle of one line of two cells of length 1, a total resistance `R` over the whole bundle gives a
series resistance of `R/2`, all of it in the first cell; a conductance over the whole bundle reaches the first node only;
and at the last node both calls raise. -/
theorem C140_refuted {R : ℝ} (hR : 0 < R) : ∃ B b₁ b₂ : MTLD 1 p,
    MTLD.new [[⟨1, demoBare p⟩]] "b" = .ok ⟨1, B⟩ ∧ B.seriesResistance 0 = 0 ∧
    B.setResistanceInRegion (.float 0) (.float 2) 0 R = .ok b₁ ∧ b₁.seriesResistance 0 = R / 2 ∧ b₁.r 1 0 0 = 0 ∧
    B.addConductanceInRegion (.float 0) (.float 2) 0 R = .ok b₂ ∧ b₂.g 0 0 0 = R / 2 ∧ b₂.g 1 0 0 = 0 ∧ b₂.g 2 0 0 = 0 ∧
    B.setResistanceInRegion (.float 2) (.float 2) 0 R = .error .IndexError ∧
    B.addConductanceInRegion (.float 2) (.float 2) 0 R = .error .IndexError := by
  obtain ⟨b₁, h1⟩ := demoBundle_set (p := p) (i := 0) (j := 2) (by norm_num) le_rfl hR.le
  obtain ⟨b₂, h2⟩ := demoBundle_add (p := p) (i := 0) (j := 2) (by norm_num) le_rfl hR.le
  obtain ⟨-, -, -, -, -, r, lr, hr, -, e1⟩ := C140_resistance_iff.1 h1
  obtain ⟨-, -, -, -, -, g, cg, hg, -, e2⟩ := C140_conductance_iff.1 h2
  rw [demoBundle_node 0 (by norm_num), demoBundle_node 2 le_rfl, demoBundle_span (by norm_num) le_rfl] at hr hg
  have hn := demoBundle_node (p := p) 2 le_rfl
  have h3 := C140_last_node (b := MTLD.single (demoBare p) "b") (start := .float (2 : ℕ)) (stop := .float (2 : ℕ))
    (pyAssert_ok_iff.2 le_rfl) 0 R hn hn
  have er : ∀ k, b₁.r k 0 0 = if k = 0 then R / 2 else 0 := by
    intro k
    rw [e1]
    show r k 0 0 = _
    rw [hr]
    simp [MTLD.single, demoBare]
  have eg : ∀ k, b₂.g k 0 0 = if k = 0 then R / 2 else 0 := by
    intro k
    rw [e2]
    show g k 0 0 = _
    rw [hg]
    simp [MTLD.single, demoBare]
  have em : b₁.m = 2 ∧ ∀ k < 2, b₁.dun k = 1 := by
    rw [e1]
    exact ⟨rfl, fun k hk => if_pos hk⟩
  simp only [Nat.cast_zero, Nat.cast_ofNat] at h1 h2 h3
  refine ⟨_, b₁, b₂, single_new _ _, ?_, h1, ?_, ?_, h2, ?_, ?_, ?_, h3⟩
  · simp [MTLD.seriesResistance, MTLD.single, demoBare]
  · unfold MTLD.seriesResistance
    simp [em.1, er, em.2 0 (by norm_num)]
  · simp [er]
  · simp [eg]
  · simp [eg]
  · simp [eg]

/-- Non-vacuity of the parts that hold: the second cell of the demo bundle. -/
example {x : ℝ} (hx : 0 < x) : ∃ b₁ b₂ : MTLD 1 p,
    (MTLD.single (demoBare p) "b").setResistanceInRegion (.float 1) (.float 2) 0 x = .ok b₁ ∧ b₁.r 1 0 0 = x ∧
    (MTLD.single (demoBare p) "b").addConductanceInRegion (.float 1) (.float 2) 0 x = .ok b₂ ∧ b₂.g 1 0 0 = x := by
  obtain ⟨b₁, h1⟩ := demoBundle_set (p := p) (i := 1) (j := 2) (by norm_num) le_rfl hx.le
  obtain ⟨b₂, h2⟩ := demoBundle_add (p := p) (i := 1) (j := 2) (by norm_num) le_rfl hx.le
  have n1 := demoBundle_node (p := p) 1 (by norm_num)
  have n2 := demoBundle_node (p := p) 2 le_rfl
  have hmesh : ∀ k < (MTLD.single (demoBare p) "b").m, (MTLD.single (demoBare p) "b").u (k + 1) =
      (MTLD.single (demoBare p) "b").u k + (MTLD.single (demoBare p) "b").du k := by
    intro k hk
    have hk : k < 2 := hk
    funext j
    interval_cases k <;> fin_cases j <;> norm_num [MTLD.single, demoBare]
  have hdun : ∀ k < (MTLD.single (demoBare p) "b").m, (MTLD.single (demoBare p) "b").dun k =
      norm3 ((MTLD.single (demoBare p) "b").du k) := by
    intro k hk
    have hk : k < 2 := hk
    have e1 : (MTLD.single (demoBare p) "b").dun k = 1 := if_pos hk
    have e2 : (MTLD.single (demoBare p) "b").du k = ![0, 0, 1] := if_pos hk
    rw [e1, e2]
    simp [norm3]
  have h3 := (C140_one_cell_partial (n := 0) h1 hmesh hdun (by rw [n1, n2])).1
  have h4 := (C140_one_node_partial (n := 0) h2 hmesh hdun (by rw [n1, n2])).1
  have hd : (MTLD.single (demoBare p) "b").dun 1 = 1 := by simp [MTLD.single, demoBare]
  rw [n1, hd, one_mul] at h3 h4
  simp only [Nat.cast_one, Nat.cast_ofNat] at h1 h2
  exact ⟨b₁, b₂, h1, h3, h2, h4⟩

end Mtln
