import Verif.Props.LineApi

/-!
# `set_resistance_in_region`, `add_conductance_in_region`: C29, C30
-/

namespace Mtln

open Matrix

variable {n p : ℕ}

theorem assignRow_ok_iff {rows : ℕ} {x y : ℕ → Mat n} {i1 i2 c : ℕ} {value : ℝ} :
    assignRow rows x i1 i2 c value = .ok y ↔ (i1 + c ≤ i2 ∧ i1 + c < rows ∧ c < n) ∧
      y = fun k => Matrix.of fun a b => if k = i1 + c ∧ a.val = c then value else x k a b := by
  unfold assignRow
  split
  · rename_i h
    constructor
    · intro e
      injection e with e
      exact ⟨h, e.symm⟩
    · rintro ⟨-, rfl⟩
      rfl
  · rename_i h
    simp [h]

theorem regionValue_ok_iff {m : ℕ} {u du : ℕ → V3} {i1 i2 : ℕ} {total v : ℝ} (h1 : i1 < m) (h2 : i2 < m) :
    regionValue m u du i1 i2 total = .ok v ↔
      (if i1 ≠ i2 then norm3 (u i2 - u i1) else norm3 (du i1)) ≠ 0 ∧
      v = total / (if i1 ≠ i2 then norm3 (u i2 - u i1) else norm3 (du i1)) := by
  unfold regionValue
  have e : (fun j => u i2 j - u i1 j) = u i2 - u i1 := rfl
  by_cases h : i1 ≠ i2
  · rw [if_pos h, if_pos h, if_neg (by omega), e]
    by_cases h0 : norm3 (u i2 - u i1) = 0
    · simp [h0]
    · rw [if_neg h0]
      simp only [Except.ok.injEq, ne_eq, h0, not_false_eq_true, true_and]
      exact eq_comm
  · rw [if_neg h, if_neg h, if_neg (by omega)]
    by_cases h0 : norm3 (du i1) = 0
    · simp [h0]
    · rw [if_neg h0]
      simp only [Except.ok.injEq, ne_eq, h0, not_false_eq_true, true_and]
      exact eq_comm

/-- The cell a position is assigned to: the nearest node, the last cell for the last node
(mtl.py:382-389). -/
noncomputable def MTL.cellAt (s : MTL n p) (x : V3) : ℕ :=
  if nearest s.u s.m x = s.m then s.m - 1 else nearest s.u s.m x

/-- The length by which the resistance is divided (mtl.py:391-394). -/
noncomputable def MTL.spanLength (s : MTL n p) (i1 i2 : ℕ) : ℝ :=
  if i1 ≠ i2 then norm3 (s.u i2 - s.u i1) else norm3 (s.du i1)

/-- **C29**, what the method really does, for every line, region and conductor: one single matrix row is
written, row `conductor` of the matrix of cell `i1 + conductor`; all of its entries become the resistance
divided by the distance of the two nodes; everything else, except the recomputed coefficients, is as before.
A call with `i1 + conductor > i2` raises `IndexError`. -/
theorem C29_effect {s s' : MTL n p} {z₁ z₂ : ℝ} {c : ℕ} {R : ℝ} (hm : 0 < s.m)
    (h : s.setResistanceInRegion (.float z₁) (.float z₂) c R = .ok s') :
    z₁ ≤ z₂ ∧ s.cellAt ![0, 0, z₁] + c ≤ s.cellAt ![0, 0, z₂] ∧ c < n ∧
    (∀ k a b, s'.r k a b = if k = s.cellAt ![0, 0, z₁] + c ∧ a.val = c then
      R / s.spanLength (s.cellAt ![0, 0, z₁]) (s.cellAt ![0, 0, z₂]) else s.r k a b) ∧
    { s' with r := s.r, lr := s.lr } = s := by
  unfold MTL.setResistanceInRegion at h
  simp only [bind_ok_iff] at h
  obtain ⟨_, e1, v, e2, r, e3, h⟩ := h
  have hn : ∀ x, nearest s.u s.m x ≤ s.m := fun x => (C25_nearest s.u s.m x).1
  have e1' : z₁ ≤ z₂ := pyAssert_ok_iff.1 e1
  have hc1 : (if nearest s.u s.m (Pos.toV3 (.float z₁)) = s.m then nearest s.u s.m (Pos.toV3 (.float z₁)) - 1
      else nearest s.u s.m (Pos.toV3 (.float z₁))) = s.cellAt ![0, 0, z₁] := by
    unfold MTL.cellAt Pos.toV3
    split_ifs with h
    · rw [h]
    · rfl
  have hc2 : (if nearest s.u s.m (Pos.toV3 (.float z₂)) = s.m then nearest s.u s.m (Pos.toV3 (.float z₂)) - 1
      else nearest s.u s.m (Pos.toV3 (.float z₂))) = s.cellAt ![0, 0, z₂] := by
    unfold MTL.cellAt Pos.toV3
    split_ifs with h
    · rw [h]
    · rfl
  rw [hc1, hc2] at e2 e3
  have hlt : ∀ x, s.cellAt x < s.m := by
    intro x
    have := hn x
    unfold MTL.cellAt
    split_ifs <;> omega
  obtain ⟨-, e2⟩ := (regionValue_ok_iff (hlt _) (hlt _)).1 e2
  obtain ⟨⟨a1, a2, a3⟩, e3⟩ := assignRow_ok_iff.1 e3
  unfold MTL.updateLrTerms at h
  simp only [bind_ok_iff] at h
  obtain ⟨lr, -, h⟩ := h
  injection h with h
  subst h
  refine ⟨e1', a1, a3, ?_, rfl⟩
  intro k a b
  simp only [e3, Matrix.of_apply]
  split_ifs
  · exact e2
  · rfl

/-- Series resistance of conductor `c` over the cells `0 … m-1`. -/
noncomputable def MTL.seriesResistance (s : MTL n p) (c : Fin n) : ℝ :=
  ∑ k ∈ Finset.range s.m, s.dun k * s.r k c c

/-- The code disagrees with **C29** on lines with several conductors: the call also writes the mutual
resistances of the conductor. -/
theorem C29_off_diagonal {s s' : MTL n p} {z₁ z₂ : ℝ} {c b : Fin n} {R : ℝ} (hm : 0 < s.m)
    (h : s.setResistanceInRegion (.float z₁) (.float z₂) c R = .ok s') :
    s'.r (s.cellAt ![0, 0, z₁] + c) c b
      = R / s.spanLength (s.cellAt ![0, 0, z₁]) (s.cellAt ![0, 0, z₂]) := by
  obtain ⟨-, -, -, h, -⟩ := C29_effect hm h
  rw [h, if_pos ⟨rfl, rfl⟩]

theorem demo3 : ∃ s : MTL 1 p, MTL.new p (.scalar 1) (.scalar 1) (.scalar 0) (.scalar 0) 3 [] [3]
    (.scalar 1) (.scalar 1) "" = .ok ⟨1, s⟩ ∧ s.m = 3 ∧ (∀ k ≤ 3, s.u k = ![0, 0, (k : ℝ)]) ∧
    (∀ k < 3, s.du k = ![0, 0, 1]) ∧ (∀ k < 3, s.dun k = 1) ∧ (∀ k, s.r k = 0) ∧ (∀ k, s.l k = 1) ∧
    s.conn = Disp.new s.dt ∧ s.dt = 1 ∧ (∀ k, s.g k = 0) ∧ (∀ k, s.c k = 1) := by
  obtain ⟨s, hs⟩ : ∃ s : MTL 1 p, MTL.new p (.scalar 1) (.scalar 1) (.scalar 0) (.scalar 0) 3 [] [3]
    (.scalar 1) (.scalar 1) "" = .ok ⟨1, s⟩ := by
    refine C32_physical_accepted (d := 3) "" one_ne_zero (.floats 1 1) .zero .zero (.numbers 1 1)
      (spd_one one_pos) (spd_one one_pos) dissipative_zero (fun _ _ => zero_le_one) (fun _ _ => zero_le_one)
      (by norm_num) (by simp) rfl (by simp) ⟨0, by simp, ?_⟩
    intro h
    have := congrFun h 2
    simp at this
  obtain ⟨hm, hu, hdu, -, -⟩ := straight_mesh (a := ![0, 0, 0]) (b := ![0, 0, 3]) (by norm_num) rfl hs
  obtain ⟨-, -, -, -, el, ec, er, eg, -, -, -, -, -, hdun, hconn⟩ := new_ok_contents hs
  have hdu' : ∀ k < 3, s.du k = ![0, 0, 1] := by
    intro k hk
    rw [hdu k hk]
    funext j
    fin_cases j <;> simp
  have hdun' : ∀ k < 3, s.dun k = 1 := by
    intro k hk
    rw [hdun]
    show norm3 (s.du k) = 1
    rw [hdu' k hk]
    simp [norm3]
  have hone : ∀ x : ℝ, (Arg.scalar x).matrix 1 = x • (1 : Mat 1) := by
    intro x
    ext a b
    fin_cases a; fin_cases b
    simp [Arg.matrix]
  refine ⟨s, hs, hm, ?_, hdu', hdun', ?_, ?_, hconn, ?_, ?_, ?_⟩
  · intro k hk
    rw [hu k hk]
    funext j
    fin_cases j <;> simp
  · intro k
    rw [er, hone, zero_smul]
  · intro k
    rw [el, hone, one_smul]
  · obtain ⟨k, hk, -, -, h⟩ := C21_one_conductor hs
    rw [h, hdun' k (by omega)]
    simp
  · intro k
    rw [eg, hone, zero_smul]
  · intro k
    rw [ec, hone, one_smul]

theorem demo3_nearest {s : MTL n p} (hm : s.m = 3) (hu : ∀ k ≤ 3, s.u k = ![0, 0, (k : ℝ)]) (k : ℕ)
    (hk : k ≤ 3) : nearest s.u s.m ![0, 0, (k : ℝ)] = k := by
  rw [← hu k hk]
  refine nearest_node _ _ k (by omega) ?_
  intro a ha h
  rw [hu a (by omega), hu k hk] at h
  have := congrFun h 2
  simpa using this

/-- **C29** is false of the code: on a line of three cells of length 1 without losses, setting a total
resistance `R` from `z = 0` to `z = 2` leaves the whole line with a series resistance of `R/2`, all of it in the
first cell. -/
theorem C29_total_fails (R : ℝ) (hR : 0 < R) : ∃ s s' : MTL 1 p,
    MTL.new p (.scalar 1) (.scalar 1) (.scalar 0) (.scalar 0) 3 [] [3] (.scalar 1) (.scalar 1) "" = .ok ⟨1, s⟩ ∧
    s.setResistanceInRegion (.float 0) (.float 2) 0 R = .ok s' ∧ s'.seriesResistance 0 = R / 2 ∧
    s'.r 1 0 0 = 0 := by
  obtain ⟨s, hs, hm, hu, hdu, hdun, hr, hl, hconn, hdt, -, -⟩ := demo3 (p := p)
  have n0 : nearest s.u s.m ![0, 0, 0] = 0 := by simpa using demo3_nearest hm hu 0 (by norm_num)
  have n2 : nearest s.u s.m ![0, 0, 2] = 2 := by simpa using demo3_nearest hm hu 2 (by norm_num)
  rw [hm] at n0 n2
  have hspan : norm3 (s.u 2 - s.u 0) = 2 := by
    rw [hu 2 (by norm_num), hu 0 (by norm_num)]
    unfold norm3
    simp
  set r' : ℕ → Mat 1 := fun k => Matrix.of fun a b => if k = 0 + 0 ∧ a.val = 0 then R / 2 else s.r k a b with er
  obtain ⟨lr, hlr⟩ : ∃ lr, updateLr s.m s.dt s.dun s.l r' s.conn = .ok lr := by
    refine ⟨_, updateLr_ok_iff.2 ⟨by rw [hdt]; norm_num, ?_, rfl⟩⟩
    intro k hk
    rw [hm] at hk
    unfold lrF1
    rw [hdun k hk, hl, hconn, hdt, er, Matrix.det_fin_one]
    simp only [Disp.new, hr]
    by_cases hk0 : k = 0
    · simp [hk0]
      norm_num
      positivity
    · simp [hk0]
  have hset : s.setResistanceInRegion (.float 0) (.float 2) 0 R
      = .ok { s with r := r', lr := some lr } := by
    unfold MTL.setResistanceInRegion
    simp only [bind_ok_iff]
    refine ⟨(), pyAssert_ok_iff.2 (by norm_num), R / 2, ?_, r', ?_, ?_⟩
    · simp only [Pos.toV3, n0, n2, hm]
      norm_num
      refine (regionValue_ok_iff (by norm_num) (by norm_num)).2 ?_
      norm_num [hspan]
    · simp only [Pos.toV3, n0, n2, hm]
      exact assignRow_ok_iff.2 ⟨by norm_num, rfl⟩
    · unfold MTL.updateLrTerms
      exact bind_ok_iff.2 ⟨lr, hlr, rfl⟩
  refine ⟨s, _, hs, hset, ?_, ?_⟩
  · unfold MTL.seriesResistance
    simp only [hm, er, Finset.sum_range_succ, Finset.sum_range_zero, hr]
    norm_num [hdun]
  · simp [er, hr]

/-- **C29** where it holds: one conductor and a region that lies in one cell (in particular a single point,
`set_resistance_at_point`) or extends between neighbouring nodes.  Then that cell has series resistance `R`
afterwards and no other cell has changed. -/
theorem C29_one_cell_partial {s s' : MTL 1 p} {z₁ z₂ : ℝ} {R : ℝ} (hm : 0 < s.m)
    (h : s.setResistanceInRegion (.float z₁) (.float z₂) 0 R = .ok s')
    (hmesh : ∀ k < s.m, s.u (k + 1) = s.u k + s.du k) (hdun : ∀ k < s.m, s.dun k = norm3 (s.du k))
    (hcell : s.cellAt ![0, 0, z₂] ≤ s.cellAt ![0, 0, z₁] + 1) (hpos : s.du (s.cellAt ![0, 0, z₁]) ≠ 0) :
    s.dun (s.cellAt ![0, 0, z₁]) * s'.r (s.cellAt ![0, 0, z₁]) 0 0 = R ∧
    (∀ k ≠ s.cellAt ![0, 0, z₁], s'.r k = s.r k) ∧ { s' with r := s.r, lr := s.lr } = s := by
  obtain ⟨-, h1, -, h2, h3⟩ := C29_effect hm h
  have hlt : s.cellAt ![0, 0, z₁] < s.m := by
    have := (C25_nearest s.u s.m ![0, 0, z₁]).1
    unfold MTL.cellAt
    split_ifs <;> omega
  have hspan : s.spanLength (s.cellAt ![0, 0, z₁]) (s.cellAt ![0, 0, z₂]) = s.dun (s.cellAt ![0, 0, z₁]) := by
    unfold MTL.spanLength
    rw [hdun _ hlt]
    split_ifs with hne
    · have : s.cellAt ![0, 0, z₂] = s.cellAt ![0, 0, z₁] + 1 := by omega
      rw [this, hmesh _ hlt, add_sub_cancel_left]
    · rfl
  have hd0 : s.dun (s.cellAt ![0, 0, z₁]) ≠ 0 := by
    rw [hdun _ hlt]
    intro h0
    exact hpos (norm3_eq_zero.1 h0)
  refine ⟨?_, ?_, h3⟩
  · rw [h2, if_pos ⟨by simp, rfl⟩, hspan]
    field_simp
  · intro k hk
    ext a b
    rw [h2, if_neg (fun hh => hk (by simpa using hh.1))]

/-- Non-vacuity: a resistance at the point `z = 1` of the three-cell line. -/
example (R : ℝ) (hR : 0 < R) : ∃ s s' : MTL 1 p, s.setResistanceAtPoint (.float 1) 0 R = .ok s' ∧ 0 < s.m ∧
    (∀ k < s.m, s.u (k + 1) = s.u k + s.du k) ∧ (∀ k < s.m, s.dun k = norm3 (s.du k)) ∧
    s.cellAt ![0, 0, 1] ≤ s.cellAt ![0, 0, 1] + 1 ∧ s.du (s.cellAt ![0, 0, 1]) ≠ 0 ∧
    s'.seriesResistance 0 = R := by
  obtain ⟨s, hs, hm, hu, hdu, hdun, hr, hl, hconn, hdt, -, -⟩ := demo3 (p := p)
  have n1 : nearest s.u s.m ![0, 0, 1] = 1 := by simpa using demo3_nearest hm hu 1 (by norm_num)
  rw [hm] at n1
  set r' : ℕ → Mat 1 := fun k => Matrix.of fun a b => if k = 1 + 0 ∧ a.val = 0 then R / 1 else s.r k a b with er
  obtain ⟨lr, hlr⟩ : ∃ lr, updateLr s.m s.dt s.dun s.l r' s.conn = .ok lr := by
    refine ⟨_, updateLr_ok_iff.2 ⟨by rw [hdt]; norm_num, ?_, rfl⟩⟩
    intro k hk
    rw [hm] at hk
    unfold lrF1
    rw [hdun k hk, hl, hconn, hdt, er, Matrix.det_fin_one]
    simp only [Disp.new, hr]
    by_cases hk0 : k = 1
    · simp [hk0]
      norm_num
      positivity
    · simp [hk0]
  have hn : norm3 ![0, 0, 1] = 1 := by simp [norm3]
  have hset : s.setResistanceAtPoint (.float 1) 0 R = .ok { s with r := r', lr := some lr } := by
    unfold MTL.setResistanceAtPoint MTL.setResistanceInRegion
    simp only [bind_ok_iff]
    refine ⟨(), pyAssert_ok_iff.2 (by norm_num), R / 1, ?_, r', ?_, ?_⟩
    · simp only [Pos.toV3, n1, hm]
      norm_num
      refine (regionValue_ok_iff (by norm_num) (by norm_num)).2 ?_
      simp [hdu, hn]
    · simp only [Pos.toV3, n1, hm]
      exact assignRow_ok_iff.2 ⟨by norm_num, rfl⟩
    · unfold MTL.updateLrTerms
      exact bind_ok_iff.2 ⟨lr, hlr, rfl⟩
  have hc : s.cellAt ![0, 0, 1] = 1 := by
    unfold MTL.cellAt
    rw [hm, n1]
    norm_num
  refine ⟨s, _, hset, by omega, ?_, ?_, by omega, ?_, ?_⟩
  · intro k hk
    rw [hm] at hk
    rw [hu (k + 1) (by omega), hu k (by omega), hdu k hk]
    funext j
    fin_cases j <;> simp
  · intro k hk
    rw [hm] at hk
    rw [hdun k hk, hdu k hk, hn]
  · rw [hc, hdu 1 (by norm_num)]
    intro h
    have := congrFun h 2
    simp at this
  · unfold MTL.seriesResistance
    simp only [hm, er, Finset.sum_range_succ, Finset.sum_range_zero, hr]
    norm_num [hdun]

/-! ## C30 -/

/-- On every line whose first node has `x = 0` (the default geometry), `add_conductance_in_region` takes
every float position for node 0. -/
theorem nearestFlat_axis (u : ℕ → V3) (m : ℕ) (h : u 0 0 = 0) (z : ℝ) :
    nearestFlat u m ![0, 0, z] = 0 := by
  unfold nearestFlat
  set f := fun q : ℕ => |u (q / 3) ⟨q % 3, Nat.mod_lt _ (by norm_num)⟩
    - (![0, 0, z] : V3) ⟨q % 3, Nat.mod_lt _ (by norm_num)⟩| with hf
  obtain ⟨-, -, h3⟩ := argmin_spec f (3 * m + 2)
  rcases Nat.eq_zero_or_pos (argmin f (3 * m + 2)) with h0 | h0
  · exact h0
  · have := h3 0 h0
    have e : f 0 = 0 := by
      simp only [hf]
      show |u 0 0 - (![0, 0, z] : V3) 0| = 0
      rw [h]
      simp
    rw [e] at this
    exact absurd this (not_lt.2 (abs_nonneg _))

/-- **C30**, what `add_conductance_in_region` really does on lines of the default geometry, for all float
positions: conductor 0 gets its conductance at node 0, wherever the region is; any other conductor raises
`IndexError`. -/
theorem C30_effect {s : MTL n p} (h0 : s.u 0 0 = 0) (hm : 0 < s.m) (hdu : s.du 0 ≠ 0) (z₁ z₂ : ℝ) (hz : z₁ ≤ z₂)
    (c : ℕ) (G : ℝ) :
    (0 < c → s.addConductanceInRegion (.float z₁) (.float z₂) c G = .error .IndexError) ∧
    (∀ s', s.addConductanceInRegion (.float z₁) (.float z₂) c G = .ok s' → c = 0 ∧
      (∀ k a b, s'.g k a b = if k = 0 ∧ a.val = 0 then G / norm3 (s.du 0) else s.g k a b) ∧
      { s' with g := s.g, cg := s.cg } = s) := by
  have hn : norm3 (s.du 0) ≠ 0 := fun h => hdu (norm3_eq_zero.1 h)
  have hv : regionValue s.m s.u s.du 0 0 G = .ok (G / norm3 (s.du 0)) := by
    refine (regionValue_ok_iff hm hm).2 ?_
    simp [hn]
  constructor
  · intro hc
    unfold MTL.addConductanceInRegion
    simp only [Pos.toV3, nearestFlat_axis s.u s.m h0, hv, assertOrdered, pyAssert, bind, Except.bind]
    rw [if_pos hz]
    simp only [assignRow]
    rw [if_neg (by omega)]
  · intro s' h
    unfold MTL.addConductanceInRegion at h
    simp only [bind_ok_iff, Pos.toV3, nearestFlat_axis s.u s.m h0, hv] at h
    obtain ⟨_, -, v, e2, g, e3, h⟩ := h
    injection e2 with e2
    obtain ⟨⟨a1, a2, a3⟩, e3⟩ := assignRow_ok_iff.1 e3
    unfold MTL.updateCgTerms at h
    simp only [bind_ok_iff] at h
    obtain ⟨cg, -, h⟩ := h
    injection h with h
    subst h
    obtain rfl : c = 0 := by omega
    refine ⟨rfl, ?_, rfl⟩
    intro k a b
    simp only [e3, Matrix.of_apply, add_zero, e2]

theorem demo_addConductance (z G : ℝ) (hG : 0 ≤ G) : ∃ s' : MTL 1 p,
    (demoBare p).addConductanceAtPoint (.float z) 0 G = .ok s' := by
  have h0 : (demoBare p).u 0 0 = 0 := by simp [demoBare]
  have hn : norm3 ((demoBare p).du 0) = 1 := by simp [demoBare, norm3]
  have hv : regionValue (demoBare p).m (demoBare p).u (demoBare p).du 0 0 G = .ok (G / 1) := by
    refine (regionValue_ok_iff (by norm_num [demoBare]) (by norm_num [demoBare])).2 ?_
    simp [hn]
  unfold MTL.addConductanceAtPoint MTL.addConductanceInRegion
  simp only [bind_ok_iff, Pos.toV3, nearestFlat_axis _ _ h0, hv]
  set g' : ℕ → Mat 1 := fun k => Matrix.of fun a b => if k = 0 + 0 ∧ a.val = 0 then G / 1 else (demoBare p).g k a b with eg
  obtain ⟨cg, hcg⟩ : ∃ cg, updateCg (demoBare p).m (demoBare p).dt (demoBare p).dun (demoBare p).c g' = .ok cg := by
    refine ⟨_, updateCg_ok_iff.2 ⟨by norm_num [demoBare], ?_, rfl⟩⟩
    intro k hk
    have hk : k ≤ 2 := hk
    unfold cgF1
    rw [eg, Matrix.det_fin_one]
    interval_cases k
    · norm_num [demoBare, nodalLength]
      positivity
    · norm_num [demoBare, nodalLength]
    · norm_num [demoBare, nodalLength]
  refine ⟨{ demoBare p with g := g', cg := some cg }, (), pyAssert_ok_iff.2 le_rfl, G / 1, rfl, g', assignRow_ok_iff.2 ⟨by norm_num [demoBare], rfl⟩, ?_⟩
  unfold MTL.updateCgTerms
  exact bind_ok_iff.2 ⟨cg, hcg, rfl⟩

/-- **C30** is false of the code: on the demo line a conductance added at `z = 1`, which is node 1, appears at
node 0; node 1 keeps none. -/
theorem C30_misplaced (G : ℝ) (hG : 0 < G) : ∃ s' : MTL 1 p,
    (demoBare p).addConductanceAtPoint (.float 1) 0 G = .ok s' ∧
      nearest (demoBare p).u (demoBare p).m ![0, 0, 1] = 1 ∧ s'.g 0 0 0 = G ∧ s'.g 1 0 0 = 0 := by
  obtain ⟨s', hs⟩ := demo_addConductance (p := p) 1 G hG.le
  obtain ⟨-, h, -⟩ := (C30_effect (s := demoBare p) (by simp [demoBare]) (by norm_num [demoBare]) (by
    intro h
    have := congrFun h 2
    simp [demoBare] at this) 1 1 le_rfl 0 G).2 s' hs
  refine ⟨s', hs, ?_, ?_, ?_⟩
  · have e : (demoBare p).u 1 = ![0, 0, 1] := by simp [demoBare]
    rw [← e]
    refine nearest_node _ _ 1 (by norm_num [demoBare]) ?_
    intro a ha hu
    have ha : a ≤ 2 := ha
    have := congrFun hu 2
    interval_cases a <;> simp [demoBare] at this ⊢
  · rw [h]
    simp [demoBare, norm3]
  · rw [h]
    simp [demoBare]

/-- **C30** where it holds: the region is the first node, one conductor.  Then the total conductance of the cell
length at node 0 is `G` and nothing else changes. -/
theorem C30_first_node_partial {s s' : MTL 1 p} (h0 : s.u 0 0 = 0) (hm : 0 < s.m) (hdu : s.du 0 ≠ 0) (G : ℝ)
    (h : s.addConductanceAtPoint (.float (s.u 0 2)) 0 G = .ok s') :
    norm3 (s.du 0) * s'.g 0 0 0 = G ∧ (∀ k ≠ 0, s'.g k = s.g k) ∧ { s' with g := s.g, cg := s.cg } = s := by
  obtain ⟨-, h1, h2⟩ := (C30_effect h0 hm hdu _ _ le_rfl 0 G).2 s' h
  have hn : norm3 (s.du 0) ≠ 0 := fun h => hdu (norm3_eq_zero.1 h)
  refine ⟨?_, ?_, h2⟩
  · rw [h1, if_pos ⟨rfl, rfl⟩]
    field_simp
  · intro k hk
    ext a b
    rw [h1, if_neg (fun hh => hk hh.1)]

/-- Non-vacuity. -/
example (G : ℝ) (hG : 0 < G) : ∃ s' : MTL 1 p,
    (demoBare p).addConductanceAtPoint (.float ((demoBare p).u 0 2)) 0 G = .ok s' :=
  demo_addConductance _ G hG.le

end Mtln
