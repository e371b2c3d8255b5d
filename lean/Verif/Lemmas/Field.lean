import Verif.Props.PlaneWave

/-!
# What `add_external_field` stores
-/

namespace Mtln

open Matrix

/-- The environment at a point of space and time. -/
def envAt (r : V3) (t v : ℝ) : Env := ⟨r 0, r 1, r 2, t, v⟩

/-- The middle of the offset used for the longitudinal field: half a cell before the node. -/
noncomputable def before (x du : V3) : V3 := fun j => x j - 1 / 2 * du j

variable {n p : ℕ}

theorem fieldSources_ok {m rows start stop : ℕ} {u du : ℕ → V3} {l c : ℕ → Mat n} {F : Field} {D : Distances}
    {eL eT : Src n} {e : Src n × Src n} (h : fieldSources m rows start stop u du l c F D eL eT = .ok e)
    (hr : rows ≠ 0) :
    start < stop ∧ stop ≤ m ∧ (∀ j < rows, D.d j m ≠ 0 ∧ ∀ k, start ≤ k → k < stop → D.d j k ≠ 0) ∧
    (∀ k, start ≤ k → k < stop → norm3 (du k) ≠ 0) ∧
    (∀ k (j : Fin n) t, start ≤ k → k < stop → j.val < rows → e.1 k j t =
      (dot3 (F.at (envAt (before (fun i => u k i + D.d j k i) (du k)) t (maxVelocity l c k))) (du k) -
        dot3 (F.at (envAt (before (u k) (du k)) t (maxVelocity l c k))) (du k)) / norm3 (du k)) ∧
    (∀ k (j : Fin n), ¬ (start ≤ k ∧ k < stop ∧ j.val < rows) → e.1 k j = eL k j) ∧
    (∀ k (j : Fin n), start ≤ k → k < stop → j.val < rows →
      e.2 k j = eTAt F (u k) (D.d j k) (maxVelocity l c k)) ∧
    (∀ j : Fin n, j.val < rows → e.2 m j = eTAt F (u (stop - 1)) (D.d j m) (maxVelocity l c (m - 1))) ∧
    (∀ k (j : Fin n), ¬ (j.val < rows ∧ (k = m ∨ start ≤ k ∧ k < stop)) → e.2 k j = eT k j) := by
  unfold fieldSources at h
  simp only [bind_ok_iff, raiseIf_ok_iff, pyAssert_ok_iff, exists_const, if_neg hr, Except.ok.injEq] at h
  obtain ⟨-, h1, h4', h2, h3, rfl⟩ := h
  push Not at h3
  have h2' := not_lt.1 h2
  have h4 : ∀ k, start ≤ k → k < stop → norm3 (du k) ≠ 0 := fun k a b => h4' k a b (by omega)
  refine ⟨not_le.1 h1, h2', fun j hj => ⟨(h3 j hj).1, fun k a b => (h3 j hj).2 k a b⟩, h4, ?_, ?_, ?_, ?_, ?_⟩
  · intro k j t ha hb hj
    show (if start ≤ k ∧ k < stop ∧ j.val < rows then _ else _ : ℝ → ℝ) t = _
    rw [if_pos ⟨ha, hb, hj⟩]
    rw [computeEL_ok_iff.2 ⟨h4 k ha hb, rfl⟩]
    unfold eLAt
    rw [sub_div]
    rfl
  · intro k j hn
    exact if_neg hn
  · intro k j ha hb hj
    show (if j.val < rows ∧ k = m then _ else _ : ℝ → ℝ) = _
    rw [if_neg (by omega), if_pos ⟨ha, hb, hj⟩]
  · intro j hj
    exact if_pos ⟨hj, rfl⟩
  · intro k j hn
    show (if j.val < rows ∧ k = m then _ else _ : ℝ → ℝ) = _
    rw [if_neg (fun h => hn ⟨h.1, Or.inl h.2⟩), if_neg (fun h => hn ⟨h.2.2, Or.inr ⟨h.1, h.2.1⟩⟩)]

/-- The conditions under which `fieldSources` succeeds. -/
theorem fieldSources_success {m rows start stop : ℕ} {u du : ℕ → V3} {l c : ℕ → Mat n} {F : Field} {D : Distances}
    {eL eT : Src n} (h0 : ∀ k < m, ∀ x ∈ eigRe (l k * c (k + 1)), 0 < x) (h1 : start < stop) (h2 : stop ≤ m)
    (h3 : ∀ j < rows, ∀ k ≤ m, D.d j k ≠ 0) (h4 : ∀ k < m, norm3 (du k) ≠ 0) :
    ∃ e, fieldSources m rows start stop u du l c F D eL eT = .ok e := by
  unfold fieldSources
  simp only [bind_ok_iff, raiseIf_ok_iff, pyAssert_ok_iff, exists_const]
  by_cases hr : rows = 0
  · simp only [hr, if_true]
    refine ⟨_, ?_, rfl⟩
    rintro ⟨k, hk, x, hx, hle⟩
    exact absurd (h0 k hk x hx) (not_lt.2 hle)
  · simp only [if_neg hr, bind_ok_iff, raiseIf_ok_iff, pyAssert_ok_iff, exists_const]
    refine ⟨_, ?_, not_le.2 h1, fun k _ _ hb => h4 k hb, not_lt.2 h2, ?_, rfl⟩
    · rintro ⟨k, hk, x, hx, hle⟩
      exact absurd (h0 k hk x hx) (not_lt.2 hle)
    · rintro ⟨j, hj, hz | ⟨k, -, hb, hz⟩⟩
      · exact h3 j hj m le_rfl hz
      · exact h3 j hj k (by omega) hz

/-- The conditions of `fieldSources`, which do not depend on the field. -/
def FieldAccepted (m rows start stop : ℕ) (du : ℕ → V3) (l c : ℕ → Mat n) (D : Distances) : Prop :=
  (∀ k < m, ∀ x ∈ eigRe (l k * c (k + 1)), 0 < x) ∧
    (rows ≠ 0 → start < stop ∧ stop ≤ m ∧ (∀ j < rows, D.d j m ≠ 0 ∧ ∀ k, start ≤ k → k < stop → D.d j k ≠ 0) ∧
      ∀ k, start ≤ k → k < stop → norm3 (du k) ≠ 0)

open Classical in
/-- The longitudinal fields that `fieldSources` stores. -/
noncomputable def storedL (rows start stop : ℕ) (u du : ℕ → V3) (l c : ℕ → Mat n) (F : Field) (D : Distances)
    (eL : Src n) : Src n := fun k j =>
  if start ≤ k ∧ k < stop ∧ j.val < rows then fun t =>
    (dot3 (F.at (envAt (before (fun i => u k i + D.d j k i) (du k)) t (maxVelocity l c k))) (du k) -
      dot3 (F.at (envAt (before (u k) (du k)) t (maxVelocity l c k))) (du k)) / norm3 (du k)
  else eL k j

open Classical in
/-- The transverse voltages that `fieldSources` stores. -/
noncomputable def storedT (m rows start stop : ℕ) (u : ℕ → V3) (l c : ℕ → Mat n) (F : Field) (D : Distances)
    (eT : Src n) : Src n := fun k j =>
  if j.val < rows ∧ k = m then eTAt F (u (stop - 1)) (D.d j m) (maxVelocity l c (m - 1))
  else if start ≤ k ∧ k < stop ∧ j.val < rows then eTAt F (u k) (D.d j k) (maxVelocity l c k)
  else eT k j

theorem fieldSources_ok_iff {m rows start stop : ℕ} {u du : ℕ → V3} {l c : ℕ → Mat n} {F : Field} {D : Distances}
    {eL eT : Src n} {e : Src n × Src n} : fieldSources m rows start stop u du l c F D eL eT = .ok e ↔
      FieldAccepted m rows start stop du l c D ∧
        e = (storedL rows start stop u du l c F D eL, storedT m rows start stop u l c F D eT) := by
  have heig : (¬ ∃ k < m, ∃ x ∈ eigRe (l k * c (k + 1)), x ≤ 0) ↔
      ∀ k < m, ∀ x ∈ eigRe (l k * c (k + 1)), 0 < x := by push Not; rfl
  by_cases hr : rows = 0
  · unfold fieldSources FieldAccepted
    simp only [bind_ok_iff, raiseIf_ok_iff, exists_const, if_pos hr, Except.ok.injEq, heig]
    have e1 : storedL rows start stop u du l c F D eL = eL := by
      funext k j; exact if_neg (by omega)
    have e2 : storedT m rows start stop u l c F D eT = eT := by
      funext k j; show (if _ then _ else _ : ℝ → ℝ) = _; rw [if_neg (by omega), if_neg (by omega)]
    rw [e1, e2]
    constructor
    · rintro ⟨h, rfl⟩; exact ⟨⟨h, fun h0 => absurd hr h0⟩, rfl⟩
    · rintro ⟨⟨h, -⟩, rfl⟩; exact ⟨h, rfl⟩
  · constructor
    · intro h
      obtain ⟨h1, h2, h3, h4, a1, a2, a3, a4, a5⟩ := fieldSources_ok h hr
      refine ⟨⟨?_, fun _ => ⟨h1, h2, h3, h4⟩⟩, ?_⟩
      · unfold fieldSources at h
        simp only [bind_ok_iff, raiseIf_ok_iff, exists_const] at h
        exact heig.1 h.1
      · refine Prod.ext ?_ ?_
        · funext k j
          show _ = (if _ then _ else _ : ℝ → ℝ)
          split
          · rename_i hc; funext t; exact a1 k j t hc.1 hc.2.1 hc.2.2
          · rename_i hc; exact a2 k j hc
        · funext k j
          show _ = (if _ then _ else _ : ℝ → ℝ)
          split
          · rename_i hc; rw [hc.2]; exact a4 j hc.1
          · rename_i hc
            split
            · rename_i hd; exact a3 k j hd.1 hd.2.1 hd.2.2
            · rename_i hd; exact a5 k j (by tauto)
    · rintro ⟨⟨h0, hrest⟩, he⟩
      obtain ⟨h1, h2, h3, h4⟩ := hrest hr
      obtain ⟨e', he'⟩ : ∃ e', fieldSources m rows start stop u du l c F D eL eT = .ok e' := by
        unfold fieldSources
        simp only [bind_ok_iff, raiseIf_ok_iff, pyAssert_ok_iff, exists_const, if_neg hr]
        refine ⟨_, heig.2 h0, not_le.2 h1, fun k a b _ => h4 k a b, not_lt.2 h2, ?_, rfl⟩
        rintro ⟨j, hj, hz | ⟨k, ha, hb, hz⟩⟩
        · exact (h3 j hj).1 hz
        · exact (h3 j hj).2 k ha hb hz
      rw [he']
      obtain ⟨-, -, -, -, a1, a2, a3, a4, a5⟩ := fieldSources_ok he' hr
      rw [he]
      congr 1
      refine Prod.ext ?_ ?_
      · funext k j
        show _ = (if _ then _ else _ : ℝ → ℝ)
        split
        · rename_i hc; funext t; exact a1 k j t hc.1 hc.2.1 hc.2.2
        · rename_i hc; exact a2 k j hc
      · funext k j
        show _ = (if _ then _ else _ : ℝ → ℝ)
        split
        · rename_i hc; rw [hc.2]; exact a4 j hc.1
        · rename_i hc
          split
          · rename_i hd; exact a3 k j hd.1 hd.2.1 hd.2.2
          · rename_i hd; exact a5 k j (by tauto)

/-- The first and the end cell of a localization of a field on a line. -/
noncomputable def lineCells (u : ℕ → V3) (m : ℕ) : Option (V3 × V3) → ℕ × ℕ
  | none => (0, m)
  | some ab => (nearest u m ab.1, nearest u m ab.2)

/-- The first and the end cell of a localization of a field on a bundle. -/
noncomputable def bundleCells (u : ℕ → V3) (m : ℕ) : Option (V3 × V3) → ℕ × ℕ
  | none => (0, m)
  | some ab => (nearest u m ab.1, nearest u m ab.2 + 1)

theorem addExternalField_ok_iff {s s' : MTL n p} {F : Field} {D : Distances} {loc : Option (V3 × V3)} :
    s.addExternalField F D loc = .ok s' ↔ D.rows = n ∧ D.cols = s.m + 1 ∧
      ∃ e, fieldSources s.m n (lineCells s.u s.m loc).1 (lineCells s.u s.m loc).2 s.u s.du s.l s.c F D s.eL s.eT
        = .ok e ∧ s' = { s with eL := e.1, eT := e.2 } := by
  unfold MTL.addExternalField
  simp only [bind_ok_iff, pyAssert_ok_iff, exists_const, Except.ok.injEq, and_assoc]
  cases loc <;> simp only [lineCells] <;> refine and_congr_right fun _ => and_congr_right fun _ =>
    exists_congr fun e => and_congr_right fun _ => eq_comm

theorem bundleField_ok_iff {b b' : MTLD n p} {F : Field} {D : Distances} {loc : Option (V3 × V3)} :
    b.addExternalField F D loc = .ok b' ↔ D.rows = b.inLevel.headD 0 ∧ D.cols = b.m + 1 ∧
      ∃ e, fieldSources b.m (b.inLevel.headD 0) (bundleCells b.u b.m loc).1 (bundleCells b.u b.m loc).2 b.u b.du
        b.l b.c F D b.eL b.eT = .ok e ∧ b' = { b with eL := e.1, eT := e.2 } := by
  unfold MTLD.addExternalField
  simp only [bind_ok_iff, pyAssert_ok_iff, exists_const, Except.ok.injEq, and_assoc]
  cases loc <;> simp only [bundleCells] <;> refine and_congr_right fun _ => and_congr_right fun _ =>
    exists_congr fun e => and_congr_right fun _ => eq_comm

end Mtln
