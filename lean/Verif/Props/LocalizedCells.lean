import Verif.Props.Localized
import Verif.Props.Construct
import Verif.Lemmas.Single

/-! # The cells that localized longitudinal fields change: C143 -/

namespace Mtln

variable {n p : ℕ}

theorem Factors.mem_keys_set {d : Factors} {k k' : ℤ} {x : ℝ} (h : k' ∈ (d.set k x).map Prod.fst) :
    k' = k ∨ k' ∈ d.map Prod.fst := by
  by_cases hk : k ∈ d.map Prod.fst
  · rw [Factors.set_keys_old hk] at h
    exact .inr h
  · rw [Factors.set_keys_new hk] at h
    rcases List.mem_append.1 h with h | h
    · exact .inr h
    · exact .inl (List.mem_singleton.1 h)

/-- What the correction at the start position adds to the dictionary. -/
theorem startFactor_keys {u du : ℕ → V3} {m si : ℕ} {start : V3} {d D : Factors} (h : startFactor u du m start si d = .ok D)
    {k : ℤ} (hk : k ∈ D.map Prod.fst) : k ∈ d.map Prod.fst ∨ (0 < si ∧ si < m ∨ m < si) ∧ (k = si - 1 ∨ k = si) := by
  unfold startFactor at h
  simp only at h
  split_ifs at h with h1 h2 h3 h4 h5 h6 h7 h8 <;> simp only [Except.ok.injEq, reduceCtorEq] at h <;> subst h
  all_goals first
    | exact .inl hk
    | rcases Factors.mem_keys_set hk with e | e
      · exact .inr ⟨by omega, by omega⟩
      · exact .inl e

/-- What the correction at the end position adds to the dictionary. -/
theorem endFactor_keys {u du : ℕ → V3} {m ei : ℕ} {stop : V3} {d D : Factors} (h : endFactor u du m stop ei d = .ok D)
    {k : ℤ} (hk : k ∈ D.map Prod.fst) : k ∈ d.map Prod.fst ∨
      1 / 10 ^ 10 < norm3 (stop - u ei) ∧ ei ≠ m ∧ (k = ei - 1 ∨ k = ei) := by
  unfold endFactor at h
  simp only at h
  split_ifs at h with h1 h2 h3 h4 h5 h6 h7 h8 <;> simp only [Except.ok.injEq, reduceCtorEq] at h <;> subst h
  all_goals first
    | exact .inl hk
    | rcases Factors.mem_keys_set hk with e | e
      · exact .inr ⟨h1, h2, .inr e⟩
      · rcases Factors.mem_keys_set e with e | e
        · exact .inr ⟨h1, h2, .inl e⟩
        · exact .inl e
    | rcases Factors.mem_keys_set hk with e | e
      · exact .inr ⟨h1, h2, .inr e⟩
      · exact .inl e

/-- The cells of the dictionary of weights. -/
theorem sourceFactors_keys {u du : ℕ → V3} {m : ℕ} {start stop : V3} {D : Factors} (h : sourceFactors u du m start stop = .ok D)
    {si ei : ℕ} (hsi : nearest u m start = si) (hei : nearest u m stop = ei) {k : ℤ} (hk : k ∈ D.map Prod.fst) :
    (si : ℤ) ≤ k ∧ k < ei ∨ (0 < si ∧ si < m) ∧ (k = si - 1 ∨ k = si) ∨
      1 / 10 ^ 10 < norm3 (stop - u ei) ∧ ei < m ∧ (k = ei - 1 ∨ k = ei) := by
  have hsm : si ≤ m := hsi ▸ (C25_nearest u m start).1
  have hem : ei ≤ m := hei ▸ (C25_nearest u m stop).1
  unfold sourceFactors at h
  rw [hsi, hei] at h
  obtain ⟨D1, h1, h2⟩ := bind_ok_iff.1 h
  rcases endFactor_keys h2 hk with h3 | ⟨h3, h4, h5⟩
  · rcases startFactor_keys h1 h3 with h6 | ⟨h6, h7⟩
    · left
      simp only [List.map_map, List.mem_map, List.mem_range, Function.comp] at h6
      obtain ⟨a, ha, rfl⟩ := h6
      push_cast
      omega
    · exact .inr (.inl ⟨by omega, h7⟩)
  · exact .inr (.inr ⟨h3, by omega, h5⟩)

/-- The weights written into `e_L` and where. -/
theorem fold_addWeighted_cells {m : ℕ} {c : Fin n} {mag : ℝ → ℝ} {scale : ℝ} : ∀ (d : Factors) (eL : Src n),
    (∀ k ∈ d.map Prod.fst, 0 ≤ k ∧ k < (m : ℤ)) →
    ∃ w : ℕ → ℝ, d.foldlM (fun eL (e : ℤ × ℝ) => addWeighted m c mag eL e.1 (e.2 / scale)) eL =
        .ok (fun k j t => eL k j t + if j = c then w k * mag t else 0) ∧
      ∀ k : ℕ, (k : ℤ) ∉ d.map Prod.fst → w k = 0
  | [], eL, _ => ⟨fun _ => 0, by simp [pure, Except.pure], by simp⟩
  | e :: d, eL, h => by
    have he := h e.1 (by simp)
    have hstep : addWeighted m c mag eL e.1 (e.2 / scale) = .ok fun k j t =>
        if k = e.1.toNat ∧ j = c then eL k j t + e.2 / scale * mag t else eL k j t := by
      simp [addWeighted, cellOfIndex, he, bind, Except.bind]
    obtain ⟨w, hw, hz⟩ := fold_addWeighted_cells (scale := scale) (mag := mag) (c := c) d
      (fun k j t => if k = e.1.toNat ∧ j = c then eL k j t + e.2 / scale * mag t else eL k j t)
      (fun k hk => h k (by simp only [List.map_cons, List.mem_cons]; exact Or.inr hk))
    refine ⟨fun k => w k + if k = e.1.toNat then e.2 / scale else 0, ?_, ?_⟩
    · rw [List.foldlM_cons, hstep]
      show List.foldlM _ _ d = _
      rw [hw]
      congr 1
      funext k j t
      by_cases hk : k = e.1.toNat <;> by_cases hj : j = c <;> simp [hk, hj]
      ring
    · intro k hk
      simp only [List.map_cons, List.mem_cons, not_or] at hk
      show w k + _ = 0
      rw [hz k hk.2, if_neg (by omega), add_zero]

/-- **C143** (what holds) On any bundle, bent or straight: unless the first node is nearest to the end position and the end
position is off it, a localized field changes only the chosen conductor, and only in the cells between the nodes nearest to the
two positions and the cells at these nodes. -/
theorem C143_cells_partial {b b' : MTLD n p} {start stop : Pos} {c : Fin n} {mag : ℝ → ℝ} {type : String}
    (h : b.addLocalizedField start stop c mag type = .ok b') {si ei : ℕ} (hsi : nearest b.u b.m start.toV3 = si)
    (hei : nearest b.u b.m stop.toV3 = ei) (hend : 0 < ei ∨ norm3 (stop.toV3 - b.u 0) ≤ 1 / 10 ^ 10) :
    ∃ w : ℕ → ℝ, b' = { b with eL := fun k j t => b.eL k j t + if j = c then w k * mag t else 0 } ∧
      ∀ k, w k ≠ 0 → k < b.m ∧ (si ≤ k ∧ k < ei ∨ k + 1 = si ∨ k = si ∨ k + 1 = ei ∨ k = ei) := by
  unfold MTLD.addLocalizedField at h
  simp only [bind_ok_iff] at h
  obtain ⟨_, -, _, -, D, hD, _, -, eL, hfold, e⟩ := h
  have hem : ei ≤ b.m := hei ▸ (C25_nearest b.u b.m stop.toV3).1
  have hkeys := fun {k : ℤ} (hk : k ∈ D.map Prod.fst) => sourceFactors_keys hD hsi hei hk
  have hrange : ∀ k ∈ D.map Prod.fst, 0 ≤ k ∧ k < (b.m : ℤ) := by
    intro k hk
    have := hkeys hk
    rcases hend with h0 | h0
    · omega
    · rcases Nat.eq_zero_or_pos ei with rfl | h1
      · rcases this with h2 | h2 | h2
        · omega
        · omega
        · exact absurd h2.1 (not_lt.2 h0)
      · omega
  obtain ⟨w, hw, hz⟩ := fold_addWeighted_cells (c := c) (mag := mag)
    (scale := if type = "Planewave" then ((nearest b.u b.m stop.toV3 : ℕ) : ℝ) - (nearest b.u b.m start.toV3 : ℕ) else 1) D b.eL hrange
  rw [hw, Except.ok.injEq] at hfold
  subst hfold
  refine ⟨w, (Except.ok.inj e).symm, fun k hk => ?_⟩
  have hk' : (k : ℤ) ∈ D.map Prod.fst := by
    by_contra hc
    exact hk (hz k hc)
  have h1 := hrange _ hk'
  have h2 := hkeys hk'
  omega

/-- **C143** Positions for which the last node is the nearest, but off it, raise an error. -/
theorem C143_last_node {b : MTLD n p} {start stop : Pos} {c : Fin n} {mag : ℝ → ℝ} {type : String} (hm : b.m ≠ 0)
    (hb1 : ¬ outOfBox (b.u 0) (b.u b.m) start.toV3) (hb2 : ¬ outOfBox (b.u 0) (b.u b.m) stop.toV3)
    (hs : nearest b.u b.m start.toV3 = b.m ∧ 1 / 10 ^ 10 < norm3 (start.toV3 - b.u b.m)) :
    b.addLocalizedField start stop c mag type = .error .IndexError := by
  unfold MTLD.addLocalizedField
  simp only [raiseIf]
  rw [if_neg hb1, if_neg hb2]
  simp only [bind, Except.bind, sourceFactors]
  rw [hs.1]
  have : startFactor b.u b.du b.m start.toV3 b.m
      ((List.range (nearest b.u b.m stop.toV3 - b.m)).map fun k => ((b.m + k : ℕ), 1)) = .error .IndexError := by
    unfold startFactor
    simp only
    rw [if_pos ⟨hs.2, hm⟩, if_pos trivial]
  rw [this]

/-! ## A bent line -/

/-- The line of the witness: one cell along `z`, one along `y`. -/
theorem demoBent_new (p : ℕ) : ∃ s : MTL 1 p, MTL.new p (.scalar 1) (.scalar 1) (.scalar 0) (.scalar 0) 1
      [![0, 0, 0], ![0, 0, 1], ![0, 1, 1]] [1, 1] (.scalar 1) (.scalar 1) "" = .ok ⟨1, s⟩ ∧ s.m = 2 ∧ s.u 0 = ![0, 0, 0] ∧
      s.u 1 = ![0, 0, 1] ∧ s.u 2 = ![0, 1, 1] ∧ s.du 0 = ![0, 0, 1] ∧ s.du 1 = ![0, 1, 0] ∧ s.eL = fun _ _ _ => 0 := by
  obtain ⟨s, hs⟩ : ∃ s : MTL 1 p, MTL.new p (.scalar 1) (.scalar 1) (.scalar 0) (.scalar 0) 1
      [![0, 0, 0], ![0, 0, 1], ![0, 1, 1]] [1, 1] (.scalar 1) (.scalar 1) "" = .ok ⟨1, s⟩ := by
    refine C32_physical_accepted (d := 1) "" one_ne_zero (.floats 1 1) .zero .zero (.numbers 1 1)
      (spd_one one_pos) (spd_one one_pos) dissipative_zero (fun _ _ => zero_le_one) (fun _ _ => zero_le_one) one_pos (by simp)
      rfl (by simp) ⟨0, by simp, ?_⟩
    intro h
    have := congrFun h 2
    simp at this
  have S := C24_mesh_partial (d := 1) one_pos (by simp) hs
  obtain ⟨la, ca, ga, ra, zsa, zla, mem, dt, h1, h2, h3, h4, h5, h6, h7, h8⟩ := new_ok_iff.1 hs
  obtain ⟨-, -, -, e⟩ := computeTerminalTerms_ok_iff.1 h8
  have hm : s.m = 2 := S.cells
  refine ⟨s, hs, hm, ?_, ?_, ?_, ?_, ?_, by rw [e]; rfl⟩
  · simpa using S.through 0 (by simp)
  · simpa using S.through 1 (by simp)
  · simpa using S.through 2 (by simp)
  · funext j
    have := S.equal 0 (by simp) 0 (by simp) j
    simp at this
    rw [this]
    fin_cases j <;> simp
  · funext j
    have := S.equal 1 (by simp) 0 (by simp) j
    simp at this
    rw [this]
    fin_cases j <;> simp

/-- **C143** is false of the code: on a bent line the position `(0, 3/10, 0)`, nearest to the first node, is accepted as the end
of a field that starts at the first node, and the field acts on the last cell, with the weight `7/10`. -/
theorem C143_refuted (p : ℕ) : ∃ (s : MTL 1 p) (b b' : MTLD 1 p),
    MTL.new p (.scalar 1) (.scalar 1) (.scalar 0) (.scalar 0) 1 [![0, 0, 0], ![0, 0, 1], ![0, 1, 1]] [1, 1] (.scalar 1)
      (.scalar 1) "" = .ok ⟨1, s⟩ ∧ MTLD.new [[⟨1, s⟩]] "b" = .ok ⟨1, b⟩ ∧
    b.addLocalizedField (.list ![0, 0, 0]) (.list ![0, 3 / 10, 0]) 0 (fun _ => 1) "Lumped" = .ok b' ∧
    nearest b.u b.m ![0, 0, 0] = 0 ∧ nearest b.u b.m ![0, 3 / 10, 0] = 0 ∧ b.m = 2 ∧ b.eL 1 0 0 = 0 ∧ b'.eL 1 0 0 = 7 / 10 := by
  obtain ⟨s, hs, hm, u0, u1, u2, d0, d1, hE⟩ := demoBent_new p
  obtain ⟨b, eb⟩ : ∃ b, b = MTLD.single s "b" := ⟨_, rfl⟩
  have bm : b.m = 2 := by rw [eb]; exact hm
  have bu0 : b.u 0 = ![0, 0, 0] := by rw [eb]; exact u0
  have bu1 : b.u 1 = ![0, 0, 1] := by rw [eb]; exact u1
  have bu2 : b.u 2 = ![0, 1, 1] := by rw [eb]; exact u2
  have bd0 : b.du 0 = ![0, 0, 1] := by rw [eb]; exact d0
  have bd1 : b.du 1 = ![0, 1, 0] := by rw [eb]; exact d1
  have bE : b.eL = fun _ _ _ => 0 := by rw [eb]; rfl
  have near : ∀ x : V3, norm3 (b.u 0 - x) < norm3 (b.u 1 - x) → norm3 (b.u 0 - x) < norm3 (b.u 2 - x) →
      nearest b.u b.m x = 0 := by
    intro x h1 h2
    obtain ⟨h3, h4, -⟩ := C25_nearest b.u b.m x
    have h5 := h4 0 (Nat.zero_le _)
    generalize nearest b.u b.m x = k at h3 h5
    rw [bm] at h3
    interval_cases k
    · rfl
    · linarith
    · linarith
  have n1 : nearest b.u b.m ![0, 0, 0] = 0 := by
    apply near
    · rw [bu0, bu1]
      simp [norm3]
    · rw [bu0, bu2]
      simp [norm3]
  have n2 : nearest b.u b.m ![0, 3 / 10, 0] = 0 := by
    apply near
    · rw [bu0, bu1]
      simp [norm3]
      apply Real.sqrt_lt_sqrt <;> norm_num
    · rw [bu0, bu2]
      simp [norm3]
      apply Real.sqrt_lt_sqrt <;> norm_num
  have hx : (![0, 3 / 10, 0] : V3) - ![0, 0, 0] = ![0, 3 / 10, 0] := by
    funext j
    fin_cases j <;> simp
  have hnx : norm3 ![0, 3 / 10, 0] = 3 / 10 := by
    simp [norm3]
    rw [Real.sqrt_sq (by norm_num)]
  have hn1 : norm3 ![0, 1, 0] = 1 := by simp [norm3]
  have hn0 : norm3 ![0, 0, 1] = 1 := by simp [norm3]
  have hc1 : norm3 (cross3 ![0, 1, 0] ![0, 3 / 10, 0]) = 0 := by simp [norm3, cross3]
  have hc0 : norm3 (cross3 ![0, 0, 1] ![0, 3 / 10, 0]) = 3 / 10 := by
    simp [norm3, cross3]
    rw [Real.sqrt_sq (by norm_num)]
  have hf : sourceFactors b.u b.du b.m ![0, 0, 0] ![0, 3 / 10, 0] = .ok [(-1, 7 / 10), (0, 0)] := by
    unfold sourceFactors
    rw [n1, n2]
    simp only
    have h1 : startFactor b.u b.du b.m ![0, 0, 0] 0 ((List.range (0 - 0)).map fun k => (((0 + k : ℕ) : ℤ), (1 : ℝ))) = .ok [] := by
      unfold startFactor
      simp only
      rw [if_neg (by simp)]
      simp
    rw [h1]
    simp only [bind, Except.bind]
    unfold endFactor
    simp only
    rw [bu0, hx, hnx, bm, if_pos (by norm_num), if_neg (by norm_num), if_pos trivial, show 2 - 1 = 1 from rfl, bd1, bd0, hn1, hn0,
      hc1, hc0, if_neg (by norm_num), if_neg (by norm_num), if_pos (by norm_num)]
    simp [Factors.set]
    norm_num
  have b1 : ¬ outOfBox (b.u 0) (b.u b.m) (Pos.list ![0, 0, 0]).toV3 := by
    rw [bm, bu0, bu2]
    rintro (⟨j, h⟩ | ⟨j, h⟩) <;> revert h <;> fin_cases j <;> norm_num [Pos.toV3]
  have b2 : ¬ outOfBox (b.u 0) (b.u b.m) (Pos.list ![0, 3 / 10, 0]).toV3 := by
    rw [bm, bu0, bu2]
    rintro (⟨j, h⟩ | ⟨j, h⟩) <;> revert h <;> fin_cases j <;> norm_num [Pos.toV3]
  refine ⟨s, b, { b with eL := fun k j t => if k = 1 ∧ j = 0 then 7 / 10 else 0 }, hs, by rw [eb]; exact single_new s "b", ?_, n1,
    n2, bm, by rw [bE], by simp⟩
  unfold MTLD.addLocalizedField
  simp only [raiseIf]
  rw [if_neg b1, if_neg b2]
  simp only [Pos.toV3]
  rw [hf]
  simp only [bind, Except.bind]
  simp only [show ("Lumped" = "Planewave") = False by simp, false_and, if_false]
  simp only [List.foldlM_cons, List.foldlM_nil, addWeighted, cellOfIndex, bind, Except.bind, pure, Except.pure, bm, bE]
  norm_num

end Mtln
