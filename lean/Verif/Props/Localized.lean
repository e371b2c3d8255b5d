import Verif.Props.Geometry

/-! # Localized longitudinal fields: C45 -/

namespace Mtln

variable {n p : ℕ}

/-! ## The dictionary of weights -/

/-- The sum of the values of the dictionary. -/
def Factors.total (d : Factors) : ℝ := (d.map Prod.snd).sum

theorem Factors.set_total_new {d : Factors} {k : ℤ} {x : ℝ} (h : k ∉ d.map Prod.fst) :
    (d.set k x).total = d.total + x := by
  unfold Factors.set
  rw [if_neg h]
  simp [Factors.total]

theorem Factors.map_update_not_mem {k : ℤ} {x : ℝ} : ∀ {d : Factors}, k ∉ d.map Prod.fst →
    (d.map fun e => if e.1 = k then (k, x) else e) = d
  | [], _ => rfl
  | e :: d, h => by
    simp only [List.map_cons, List.mem_cons, not_or] at h
    rw [List.map_cons, Factors.map_update_not_mem h.2, if_neg (fun h' => h.1 h'.symm)]

theorem Factors.set_total_old {k : ℤ} {x v : ℝ} {d : Factors} (hnd : (d.map Prod.fst).Nodup) (h : (k, v) ∈ d) :
    (d.set k x).total = d.total - v + x := by
  have hk : k ∈ d.map Prod.fst := List.mem_map_of_mem (f := Prod.fst) h
  unfold Factors.set
  rw [if_pos hk]
  clear hk
  induction d with
  | nil => simp at h
  | cons e d ih =>
    simp only [List.map_cons, List.nodup_cons] at hnd
    rcases List.mem_cons.1 h with rfl | h
    · simp only [List.map_cons, if_true]
      rw [Factors.map_update_not_mem hnd.1]
      simp [Factors.total]
      ring
    · have hne : e.1 ≠ k := fun h' => hnd.1 (h' ▸ List.mem_map_of_mem (f := Prod.fst) h)
      have := ih hnd.2 h
      simp only [Factors.total, List.map_cons, List.sum_cons, if_neg hne] at this ⊢
      linarith

theorem Factors.set_keys_old {k : ℤ} {x : ℝ} {d : Factors} (h : k ∈ d.map Prod.fst) :
    (d.set k x).map Prod.fst = d.map Prod.fst := by
  unfold Factors.set
  rw [if_pos h, List.map_map]
  apply List.map_congr_left
  intro e _
  simp only [Function.comp]
  split_ifs with h1
  · exact h1.symm
  · rfl

theorem Factors.set_keys_new {k : ℤ} {x : ℝ} {d : Factors} (h : k ∉ d.map Prod.fst) :
    (d.set k x).map Prod.fst = d.map Prod.fst ++ [k] := by
  unfold Factors.set
  rw [if_neg h]
  simp

theorem Factors.mem_set_other {k k' : ℤ} {x v : ℝ} {d : Factors} (h : (k', v) ∈ d) (hne : k' ≠ k) :
    (k', v) ∈ d.set k x := by
  unfold Factors.set
  split_ifs
  · refine List.mem_map.2 ⟨(k', v), h, ?_⟩
    rw [if_neg hne]
  · exact List.mem_append_left _ h

/-- The weights written into `e_L` add up to the values of the dictionary. -/
theorem fold_addWeighted {m : ℕ} {c : Fin n} {mag : ℝ → ℝ} {scale : ℝ} : ∀ (d : Factors) (eL : Src n),
    (∀ k ∈ d.map Prod.fst, 0 ≤ k ∧ k < (m : ℤ)) →
    ∃ w : ℕ → ℝ, d.foldlM (fun eL (e : ℤ × ℝ) => addWeighted m c mag eL e.1 (e.2 / scale)) eL =
        .ok (fun k j t => eL k j t + if j = c then w k * mag t else 0) ∧
      ∑ k ∈ Finset.range m, w k = d.total / scale
  | [], eL, _ => ⟨fun _ => 0, by simp [pure, Except.pure], by simp [Factors.total]⟩
  | e :: d, eL, h => by
    have he := h e.1 (by simp)
    have hstep : addWeighted m c mag eL e.1 (e.2 / scale) = .ok fun k j t =>
        if k = e.1.toNat ∧ j = c then eL k j t + e.2 / scale * mag t else eL k j t := by
      simp [addWeighted, cellOfIndex, he, bind, Except.bind]
    obtain ⟨w, hw, hsum⟩ := fold_addWeighted (scale := scale) (mag := mag) (c := c) d
      (fun k j t => if k = e.1.toNat ∧ j = c then eL k j t + e.2 / scale * mag t else eL k j t)
      (fun k hk => h k (by simp only [List.map_cons, List.mem_cons]; exact Or.inr hk))
    refine ⟨fun k => w k + if k = e.1.toNat then e.2 / scale else 0, ?_, ?_⟩
    · rw [List.foldlM_cons, hstep]
      show List.foldlM _ _ d = _
      rw [hw]
      congr 1
      funext k j t
      by_cases hk : k = e.1.toNat <;> by_cases hj : j = c <;> simp [hk, hj]
      ring
    · rw [Finset.sum_add_distrib, hsum, Finset.sum_ite_eq']
      rw [if_pos (by rw [Finset.mem_range]; omega)]
      simp only [Factors.total, List.map_cons, List.sum_cons]
      ring

/-! ## Straight uniform lines -/

/-- The nodes lie on a straight line at distance `h > 0` from each other. -/
structure Uniform (u du : ℕ → V3) (m : ℕ) (a d : V3) (h : ℝ) : Prop where
  unit : norm3 d = 1
  pos : 0 < h
  u : ∀ k ≤ m, u k = a + (k * h) • d
  du : ∀ k < m, du k = h • d

theorem cross3_smul_smul (x y : ℝ) (d : V3) : cross3 (x • d) (y • d) = 0 := by
  funext j
  fin_cases j <;> simp [cross3] <;> ring

theorem dot3_smul_smul (x y : ℝ) {d : V3} (hd : norm3 d = 1) : dot3 (x • d) (y • d) = x * y := by
  have := norm3_sq d
  rw [hd] at this
  simp only [dot3, Pi.smul_apply, smul_eq_mul]
  linear_combination -(x * y) * this

section

variable {u du : ℕ → V3} {m : ℕ} {a d : V3} {h : ℝ}

/-- The dictionary of whole cells. -/
theorem range_factors (si ei : ℕ) (hle : si ≤ ei) :
    let D : Factors := (List.range (ei - si)).map fun k => (((si + k : ℕ) : ℤ), (1 : ℝ))
    D.total = (ei : ℝ) - si ∧ (D.map Prod.fst).Nodup ∧
      (∀ k ∈ D.map Prod.fst, (si : ℤ) ≤ k ∧ k < ei) ∧ ∀ k : ℕ, si ≤ k → k < ei → ((k : ℤ), (1 : ℝ)) ∈ D := by
  refine ⟨?_, ?_, ?_, ?_⟩
  · have : ∀ N : ℕ, (((List.range N).map fun k => (((si + k : ℕ) : ℤ), (1 : ℝ))).map Prod.snd).sum = N := by
      intro N
      simp [List.map_map, Function.comp_def]
    show (((List.range (ei - si)).map fun k => (((si + k : ℕ) : ℤ), (1 : ℝ))).map Prod.snd).sum = _
    rw [this, Nat.cast_sub hle]
  · rw [List.map_map]
    refine List.Nodup.map ?_ List.nodup_range
    intro x y hxy
    simp only [Function.comp] at hxy
    omega
  · intro k hk
    simp only [List.map_map, List.mem_map, List.mem_range, Function.comp] at hk
    obtain ⟨x, hx, rfl⟩ := hk
    omega
  · intro k h1 h2
    exact List.mem_map.2 ⟨k - si, List.mem_range.2 (by omega), by
      rw [show si + (k - si) = k by omega]⟩

/-- The corrections of both ends on a straight uniform line. -/
theorem sourceFactors_straight (hU : Uniform u du m a d h) {start stop : V3} {x y : ℝ}
    (hx : start = a + x • d) (hy : stop = a + y • d) {si ei : ℕ} (hsi : nearest u m start = si)
    (hei : nearest u m stop = ei) (hm : ei ≤ m)
    (hs : x = si * h ∨ (1 ≤ si ∧ 1 / 10 ^ 10 < |x - si * h|))
    (he : y = ei * h ∨ (ei < m ∧ 1 / 10 ^ 10 < |y - ei * h|))
    (hgap : si + 2 ≤ ei ∨ (si ≤ ei ∧ x = si * h ∧ y = ei * h)) :
    ∃ D, sourceFactors u du m start stop = .ok D ∧ D.total * h = y - x ∧
      ∀ k ∈ D.map Prod.fst, 0 ≤ k ∧ k < (m : ℤ) := by
  have hle : si ≤ ei := by omega
  obtain ⟨t0, nd0, k0, m0⟩ := range_factors si ei hle
  set D0 : Factors := (List.range (ei - si)).map fun k => (((si + k : ℕ) : ℤ), (1 : ℝ)) with hD0
  have hpos := hU.pos
  have hne := hpos.ne'
  have hnd : norm3 (h • d) = h := by rw [norm3_smul, hU.unit, abs_of_pos hpos, mul_one]
  have es : start - u si = (x - si * h) • d := by rw [hx, hU.u si (by omega)]; module
  have ee : stop - u ei = (y - ei * h) • d := by rw [hy, hU.u ei hm]; module
  have c0 : ∀ z : ℝ, norm3 (cross3 (h • d) (z • d)) < 1 / 10 ^ 10 := fun z => by
    rw [cross3_smul_smul, norm3_zero]; norm_num
  -- the start
  obtain ⟨D1, hD1, t1, nd1, k1, m1⟩ : ∃ D1, startFactor u du m start si D0 = .ok D1 ∧
      D1.total * h = ei * h - x ∧ (D1.map Prod.fst).Nodup ∧ (∀ k ∈ D1.map Prod.fst, 0 ≤ k ∧ k < (ei : ℤ)) ∧
      (1 ≤ ei → y ≠ ei * h → (((ei - 1 : ℕ) : ℤ), (1 : ℝ)) ∈ D1) := by
    rcases hs with hs | ⟨hs1, hs2⟩
    · refine ⟨D0, ?_, by rw [t0, hs]; ring, nd0, fun k hk => by have := k0 k hk; omega, ?_⟩
      · unfold startFactor
        simp only
        rw [es, hs, sub_self, zero_smul, norm3_zero, if_neg (by norm_num)]
      · intro h1 h2
        exact m0 _ (by rcases hgap with hg | hg; · omega
                       · exact absurd hg.2.2 h2) (by omega)
    · have hg : si + 2 ≤ ei := by
        rcases hgap with hg | hg
        · exact hg
        · rw [hg.2.1, sub_self, abs_zero] at hs2; norm_num at hs2
      have hne0 : x - si * h ≠ 0 := by
        intro h0; rw [h0, abs_zero] at hs2; norm_num at hs2
      have hm1 : si ≠ m := by omega
      have hstep : startFactor u du m start si D0 = .ok (if x - si * h < 0 then
          D0.set ((si : ℤ) - 1) (|x - si * h| / h) else D0.set si (1 - |x - si * h| / h)) := by
        unfold startFactor
        simp only
        rw [es, norm3_smul, hU.unit, mul_one, if_pos ⟨hs2, by omega⟩, if_neg hm1, hU.du (si - 1) (by omega),
          hU.du si (by omega), hnd, if_neg (by simp [hne]), if_pos ⟨c0 _, c0 _⟩, dot3_smul_smul _ _ hU.unit]
        rcases lt_or_gt_of_ne hne0 with hlt | hgt
        · rw [if_pos (mul_neg_of_neg_of_pos hlt hpos), if_pos hlt]
        · rw [if_neg (by nlinarith), if_pos (mul_pos hgt hpos), if_neg (by linarith)]
      refine ⟨_, hstep, ?_, ?_, ?_, ?_⟩
      · split_ifs with hlt
        · rw [Factors.set_total_new (by intro hk; have := k0 _ hk; omega), t0, abs_of_neg hlt]
          field_simp
          ring
        · rw [Factors.set_total_old nd0 (m0 si le_rfl (by omega)), t0, abs_of_nonneg (by linarith)]
          field_simp
          ring
      · split_ifs with hlt
        · have hnm : ((si : ℤ) - 1) ∉ D0.map Prod.fst := by intro hk; have := k0 _ hk; omega
          rw [Factors.set_keys_new hnm]
          exact List.nodup_append.2 ⟨nd0, by simp, by
            intro k hk k' hk' hkk
            rw [List.mem_singleton] at hk'
            exact hnm (hk' ▸ hkk ▸ hk)⟩
        · rw [Factors.set_keys_old (List.mem_map_of_mem (f := Prod.fst) (m0 si le_rfl (by omega)))]
          exact nd0
      · intro k hk
        split_ifs at hk with hlt
        · rw [Factors.set_keys_new (by intro hk; have := k0 _ hk; omega), List.mem_append,
            List.mem_singleton] at hk
          rcases hk with hk | rfl
          · have := k0 _ hk; omega
          · omega
        · rw [Factors.set_keys_old (List.mem_map_of_mem (f := Prod.fst) (m0 si le_rfl (by omega)))] at hk
          have := k0 _ hk; omega
      · intro _ _
        have := m0 (ei - 1) (by omega) (by omega)
        split_ifs
        · exact Factors.mem_set_other this (by omega)
        · exact Factors.mem_set_other this (by omega)
  have hsf : sourceFactors u du m start stop = endFactor u du m stop ei D1 := by
    unfold sourceFactors
    rw [hsi, hei]
    simp only
    rw [← hD0, hD1]
    rfl
  rw [hsf]
  rcases he with he | ⟨he1, he2⟩
  · refine ⟨D1, ?_, by rw [t1, he], fun k hk => by have := k1 k hk; omega⟩
    unfold endFactor
    simp only
    rw [ee, he, sub_self, zero_smul, norm3_zero, if_neg (by norm_num)]
  · have hg : si + 2 ≤ ei := by
      rcases hgap with hg | hg
      · exact hg
      · rw [hg.2.2, sub_self, abs_zero] at he2; norm_num at he2
    have hne0 : y - ei * h ≠ 0 := by
      intro h0; rw [h0, abs_zero] at he2; norm_num at he2
    have hmem := m1 (by omega) (fun h0 => hne0 (by rw [h0]; ring))
    have hstep : endFactor u du m stop ei D1 = .ok (if y - ei * h < 0 then
        (D1.set ((ei : ℤ) - 1) (1 - |y - ei * h| / h)).set ei 0 else D1.set ei (|y - ei * h| / h)) := by
      unfold endFactor
      simp only
      simp only [if_neg (show ei ≠ 0 by omega)]
      rw [ee, norm3_smul, hU.unit, mul_one, if_pos he2, if_neg (show ei ≠ m by omega),
        hU.du (ei - 1) (by omega), hU.du ei (by omega), hnd, if_neg (by simp [hne]), if_pos ⟨c0 _, c0 _⟩,
        dot3_smul_smul _ _ hU.unit]
      rcases lt_or_gt_of_ne hne0 with hlt | hgt
      · rw [if_pos (mul_neg_of_neg_of_pos hlt hpos), if_pos hlt]
      · rw [if_neg (by nlinarith), if_pos (mul_pos hgt hpos), if_neg (by linarith)]
    have hei1 : ((ei - 1 : ℕ) : ℤ) = (ei : ℤ) - 1 := by omega
    rw [hei1] at hmem
    have hnm : (ei : ℤ) ∉ D1.map Prod.fst := by intro hk; have := k1 _ hk; omega
    have hk' : (D1.set ((ei : ℤ) - 1) (1 - |y - ei * h| / h)).map Prod.fst = D1.map Prod.fst :=
      Factors.set_keys_old (List.mem_map_of_mem (f := Prod.fst) hmem)
    refine ⟨_, hstep, ?_, ?_⟩
    · split_ifs with hlt
      · rw [Factors.set_total_new (by rw [hk']; exact hnm), Factors.set_total_old nd1 hmem, abs_of_neg hlt]
        have : (D1.total - 1 + (1 - -(y - ei * h) / h) + 0) * h = D1.total * h + (y - ei * h) := by
          field_simp; ring
        rw [this, t1]; ring
      · rw [Factors.set_total_new hnm, abs_of_nonneg (by linarith)]
        have : (D1.total + (y - ei * h) / h) * h = D1.total * h + (y - ei * h) := by field_simp
        rw [this, t1]; ring
    · intro k hk
      split_ifs at hk with hlt
      · rw [Factors.set_keys_new (by rw [hk']; exact hnm), hk', List.mem_append, List.mem_singleton] at hk
        rcases hk with hk | rfl
        · have := k1 _ hk; omega
        · omega
      · rw [Factors.set_keys_new hnm, List.mem_append, List.mem_singleton] at hk
        rcases hk with hk | rfl
        · have := k1 _ hk; omega
        · omega

end

/-- **C45 (partial)** On a straight uniform line, for positions `start = a + x d`, `end = a + y d` inside the box of the
line: the call succeeds and adds the magnitude with weights whose sum times the cell length is the length `y - x`,
*provided*

* each position is a node, or an interior node is nearest to it (the first node for the start and the last node for
  the end are excluded) at a distance above `1e-10`;
* at least two nodes apart, unless both positions are nodes.

All other conductors keep their fields. -/
theorem C45_weights_partial {b : MTLD n p} {a d : V3} {h : ℝ} (hU : Uniform b.u b.du b.m a d h)
    {start stop : Pos} {x y : ℝ} (hx : start.toV3 = a + x • d) (hy : stop.toV3 = a + y • d)
    (hb1 : ¬ outOfBox (b.u 0) (b.u b.m) start.toV3) (hb2 : ¬ outOfBox (b.u 0) (b.u b.m) stop.toV3)
    {si ei : ℕ} (hsi : nearest b.u b.m start.toV3 = si) (hei : nearest b.u b.m stop.toV3 = ei) (hm : ei ≤ b.m)
    (hs : x = si * h ∨ (1 ≤ si ∧ 1 / 10 ^ 10 < |x - si * h|))
    (he : y = ei * h ∨ (ei < b.m ∧ 1 / 10 ^ 10 < |y - ei * h|))
    (hgap : si + 2 ≤ ei ∨ (si ≤ ei ∧ x = si * h ∧ y = ei * h))
    (c : Fin n) (mag : ℝ → ℝ) {type : String} (ht : type ≠ "Planewave") :
    ∃ w : ℕ → ℝ, b.addLocalizedField start stop c mag type =
        .ok { b with eL := fun k j t => b.eL k j t + if j = c then w k * mag t else 0 } ∧
      (∑ k ∈ Finset.range b.m, w k) * h = y - x := by
  obtain ⟨D, hD, htot, hkeys⟩ := sourceFactors_straight hU hx hy hsi hei hm hs he hgap
  obtain ⟨w, hw, hsum⟩ := fold_addWeighted (m := b.m) (c := c) (mag := mag) (scale := 1) D b.eL hkeys
  refine ⟨w, ?_, by rw [hsum, div_one, htot]⟩
  unfold MTLD.addLocalizedField
  simp only [raiseIf]
  rw [if_neg hb1, if_neg hb2, hD]
  simp only [bind, Except.bind]
  rw [if_neg (fun h => ht h.1), if_neg ht]
  simp only
  rw [hw]

/-- The demo bundle is straight and uniform. -/
theorem demoBundle_uniform (p : ℕ) : Uniform (MTLD.assemble ⟨1, demoBare p⟩ (demoLevels p) "b").u
    (MTLD.assemble ⟨1, demoBare p⟩ (demoLevels p) "b").du 2 0 ![0, 0, 1] 1 := by
  refine ⟨by simp [norm3], one_pos, ?_, ?_⟩
  · intro k hk
    interval_cases k <;> funext j <;> fin_cases j <;> simp [MTLD.assemble, demoBare]
  · intro k hk
    interval_cases k <;> funext j <;> fin_cases j <;> simp [MTLD.assemble, demoBare]

theorem demo_norm (x : ℝ) : norm3 (![0, 0, x] : V3) = |x| := by
  simp [norm3, Real.sqrt_sq_eq_abs]

/-- **C45, non-vacuity**: from node 0 to node 2 of the demo bundle. -/
theorem C45_example (p : ℕ) : ∃ w : ℕ → ℝ,
    (MTLD.assemble ⟨1, demoBare p⟩ (demoLevels p) "b").addLocalizedField (.float 0) (.float 2)
      ⟨0, by simp [demoLevels, totalConductors]⟩ (fun t => t) "Lumped" =
      .ok { MTLD.assemble ⟨1, demoBare p⟩ (demoLevels p) "b" with
        eL := fun k j t => (MTLD.assemble ⟨1, demoBare p⟩ (demoLevels p) "b").eL k j t +
          if j = ⟨0, by simp [demoLevels, totalConductors]⟩ then w k * t else 0 } ∧
    (∑ k ∈ Finset.range 2, w k) * 1 = 2 - 0 := by
  have u0 : (MTLD.assemble ⟨1, demoBare p⟩ (demoLevels p) "b").u 0 = ![0, 0, 0] := rfl
  have u2 : (MTLD.assemble ⟨1, demoBare p⟩ (demoLevels p) "b").u 2 = ![0, 0, 2] := rfl
  have hU := demoBundle_uniform p
  have hinj : ∀ k : ℕ, k ≤ 2 → ∀ a ≤ 2, (MTLD.assemble ⟨1, demoBare p⟩ (demoLevels p) "b").u a =
      (MTLD.assemble ⟨1, demoBare p⟩ (demoLevels p) "b").u k → a = k := by
    intro k hk a ha h
    rw [hU.u a ha, hU.u k hk] at h
    have := congrFun h 2
    simp at this
    exact_mod_cast this
  refine C45_weights_partial (b := MTLD.assemble ⟨1, demoBare p⟩ (demoLevels p) "b") (a := 0) (d := ![0, 0, 1])
    (h := 1) (x := 0) (y := 2) (si := 0) (ei := 2) (hU) ?_ ?_ ?_ ?_ ?_ ?_ le_rfl (Or.inl (by norm_num))
    (Or.inl (by norm_num)) (Or.inl le_rfl) _ _ (by decide)
  · funext j; fin_cases j <;> simp [Pos.toV3]
  · funext j; fin_cases j <;> simp [Pos.toV3]
  · rintro (⟨j, h⟩ | ⟨j, h⟩) <;> revert h <;> fin_cases j <;> simp [Pos.toV3, MTLD.assemble, demoBare]
  · rintro (⟨j, h⟩ | ⟨j, h⟩) <;> revert h <;> fin_cases j <;> simp [Pos.toV3, MTLD.assemble, demoBare]
  · rw [Pos.toV3, ← u0]; exact nearest_node _ _ 0 (by simp) (hinj 0 (by omega))
  · rw [Pos.toV3, ← u2]; exact nearest_node _ _ 2 le_rfl (hinj 2 le_rfl)

/-- **C45 is false of the code**: on the demo bundle (two cells of length 1 from `z = 0` to `z = 2`) a field from
`z = 1/4` to `z = 2` is applied with weight 1 to both cells: the weights cover the length 2, not 7/4. -/
theorem C45_first_cell_wrong (p : ℕ) :
    (MTLD.assemble ⟨1, demoBare p⟩ (demoLevels p) "b").addLocalizedField (.float (1 / 4)) (.float 2)
      ⟨0, by simp [demoLevels, totalConductors]⟩ (fun _ => 1) "Lumped" =
      .ok { MTLD.assemble ⟨1, demoBare p⟩ (demoLevels p) "b" with
        eL := fun k j _ => if j = ⟨0, by simp [demoLevels, totalConductors]⟩ ∧ k < 2 then 1 else 0 } := by
  have hU := demoBundle_uniform p
  set B := MTLD.assemble ⟨1, demoBare p⟩ (demoLevels p) "b" with hB
  have u2 : B.u 2 = ![0, 0, 2] := rfl
  have hm : B.m = 2 := rfl
  have n1 : nearest B.u 2 ![0, 0, 1 / 4] = 0 := by
    obtain ⟨h1, h2, -⟩ := C25_nearest B.u 2 ![0, 0, 1 / 4]
    have h3 := h2 0 (by omega)
    generalize nearest B.u 2 ![0, 0, 1 / 4] = k at h1 h3
    have hd : ∀ k ≤ 2, norm3 (B.u k - ![0, 0, 1 / 4]) = |(k : ℝ) - 1 / 4| := by
      intro k hk
      rw [hU.u k hk, ← demo_norm]
      congr 1
      funext j; fin_cases j <;> simp
    rw [hd k h1, hd 0 (by omega)] at h3
    interval_cases k
    · rfl
    · norm_num [abs_of_pos] at h3
    · norm_num [abs_of_pos] at h3
  have n2 : nearest B.u 2 ![0, 0, 2] = 2 := by
    rw [← u2]
    refine nearest_node _ _ 2 le_rfl ?_
    intro a ha h
    rw [hU.u a ha, hU.u 2 le_rfl] at h
    have := congrFun h 2
    simp at this
    exact_mod_cast this
  have hs : sourceFactors B.u B.du 2 ![0, 0, 1 / 4] ![0, 0, 2] = .ok [(0, 1), (1, 1)] := by
    unfold sourceFactors
    rw [n1, n2]
    simp only
    have h1 : startFactor B.u B.du 2 ![0, 0, 1 / 4] 0
        ((List.range (2 - 0)).map fun k => (((0 + k : ℕ) : ℤ), (1 : ℝ))) = .ok [(0, 1), (1, 1)] := by
      unfold startFactor
      simp only
      rw [if_neg (by simp)]
      simp [List.range_succ]
    rw [h1]
    simp only [bind, Except.bind]
    unfold endFactor
    simp only
    rw [u2, sub_self, norm3_zero, if_neg (by norm_num)]
  unfold MTLD.addLocalizedField
  have b1 : ¬ outOfBox (B.u 0) (B.u B.m) (Pos.float (1 / 4)).toV3 := by
    rintro (⟨j, h⟩ | ⟨j, h⟩) <;> revert h <;> fin_cases j <;>
      norm_num [Pos.toV3, hB, MTLD.assemble, demoBare]
  have b2 : ¬ outOfBox (B.u 0) (B.u B.m) (Pos.float 2).toV3 := by
    rintro (⟨j, h⟩ | ⟨j, h⟩) <;> revert h <;> fin_cases j <;>
      norm_num [Pos.toV3, hB, MTLD.assemble, demoBare]
  simp only [raiseIf]
  rw [if_neg b1, if_neg b2, hm]
  simp only [Pos.toV3]
  rw [hs]
  simp only [bind, Except.bind]
  simp only [show ("Lumped" = "Planewave") = False by simp, false_and, if_false]
  simp only [List.foldlM_cons, List.foldlM_nil, addWeighted, cellOfIndex, bind, Except.bind, pure, Except.pure]
  norm_num
  congr 1
  funext k j t
  have e0 : B.eL k j t = 0 := rfl
  rw [e0]
  by_cases hj : j = ⟨0, by simp [demoLevels, totalConductors]⟩
  · by_cases h0 : k = 0
    · simp [h0, hj]
    · by_cases h1 : k = 1
      · simp [h1, hj]
      · simp [h0, h1, hj]; omega
  · simp [hj]

end Mtln
