import Mathlib.MeasureTheory.Integral.IntervalIntegral.Basic
import Verif.Lemmas.Field
import Verif.Props.Geometry
import Verif.Props.Bundle

/-!
# Incident fields on lines and bundles (C76, C77)
-/

namespace Mtln

open Matrix

variable {n p : ℕ}

/-- The integral of a field along the straight path from `x` to `x + d`. -/
noncomputable def pathIntegral (F : Field) (x d : V3) (t v : ℝ) : ℝ :=
  ∫ s in (0 : ℝ)..1, dot3 (F.at (envAt (fun j => x j + s * d j) t v)) d

/-- An offset along one of the coordinate axes. -/
def AxisAligned (d : V3) : Prop := ∃ i, d i ≠ 0 ∧ ∀ j, j ≠ i → d j = 0

theorem norm3_abs (d : V3) : (norm3 fun j => |d j|) = norm3 d := by unfold norm3; simp

/-- For an offset along an axis, what is stored is the path integral. -/
theorem eTAt_axis (F : Field) (x : V3) {d : V3} (hd : AxisAligned d) (v t : ℝ) :
    eTAt F x d v t = pathIntegral F x d t v := by
  have sub : ∀ (f : ℝ → ℝ) (a c : ℝ), ∫ s in a..(a + c), f s = ∫ s in (0 : ℝ)..1, f (a + s * c) * c := by
    intro f a c
    have := intervalIntegral.smul_integral_comp_add_mul (a := 0) (b := 1) f c a
    rw [mul_zero, mul_one, add_zero, smul_eq_mul] at this
    rw [← this, intervalIntegral.integral_mul_const, mul_comm]
    simp only [mul_comm c]
  obtain ⟨i, hi, h0⟩ := hd
  have hone : ∀ a : ℝ, a ≠ 0 → |a| / Real.sqrt (a ^ 2) = 1 := fun a ha => by
    rw [Real.sqrt_sq_eq_abs, div_self (abs_ne_zero.2 ha)]
  unfold eTAt pathIntegral
  simp only [norm3_abs]
  fin_cases i
  · have h1 : d 1 = 0 := h0 1 (by decide)
    have h2 : d 2 = 0 := h0 2 (by decide)
    have hn : |d 0| / norm3 d = 1 := by unfold norm3; simp only [h1, h2]; simpa using hone _ hi
    rw [hn, sub]
    simp [h1, h2, dot3, Field.at, envAt]
  · have h1 : d 0 = 0 := h0 0 (by decide)
    have h2 : d 2 = 0 := h0 2 (by decide)
    have hn : |d 1| / norm3 d = 1 := by unfold norm3; simp only [h1, h2]; simpa using hone _ hi
    rw [hn, sub (fun s => F.ey ⟨x 0, s, x 2, t, v⟩)]
    simp [h1, h2, dot3, Field.at, envAt]
  · have h1 : d 0 = 0 := h0 0 (by decide)
    have h2 : d 1 = 0 := h0 1 (by decide)
    have hn : |d 2| / norm3 d = 1 := by unfold norm3; simp only [h1, h2]; simpa using hone _ hi
    rw [hn, sub (fun s => F.ez ⟨x 0, x 1, s, t, v⟩)]
    simp [h1, h2, dot3, Field.at, envAt]

/-- **C76 (part), lines**: for offsets along a coordinate axis, the transverse voltage of every node but the last is
the integral of the field from the node to the conductor; that of the last node is the integral of the same offset
taken from the node before it. -/
theorem C76_line_partial {s s' : MTL n p} {F : Field} {D : Distances} (h : s.addExternalField F D none = .ok s')
    (j : Fin n) :
    (∀ k < s.m, AxisAligned (D.d j k) → ∀ t,
      s'.eT k j t = pathIntegral F (s.u k) (D.d j k) t (maxVelocity s.l s.c k)) ∧
    (AxisAligned (D.d j s.m) → ∀ t,
      s'.eT s.m j t = pathIntegral F (s.u (s.m - 1)) (D.d j s.m) t (maxVelocity s.l s.c (s.m - 1))) := by
  obtain ⟨-, -, e, he, rfl⟩ := addExternalField_ok_iff.1 h
  obtain ⟨-, -, -, -, -, -, h1, h2, -⟩ := fieldSources_ok he (Fin.pos j).ne'
  refine ⟨fun k hk ha t => ?_, fun ha t => ?_⟩
  · rw [← eTAt_axis F _ ha]; exact congrFun (h1 k j (Nat.zero_le _) hk j.2) t
  · rw [← eTAt_axis F _ ha]; exact congrFun (h2 j j.2) t

/-- **C76 (part), bundles**: the same for the conductors of level 0; the others keep what they had. -/
theorem C76_bundle_partial {b b' : MTLD n p} {F : Field} {D : Distances} (h : b.addExternalField F D none = .ok b')
    (j : Fin n) :
    (j.val < b.inLevel.headD 0 →
      (∀ k < b.m, AxisAligned (D.d j k) → ∀ t,
        b'.eT k j t = pathIntegral F (b.u k) (D.d j k) t (maxVelocity b.l b.c k)) ∧
      (AxisAligned (D.d j b.m) → ∀ t,
        b'.eT b.m j t = pathIntegral F (b.u (b.m - 1)) (D.d j b.m) t (maxVelocity b.l b.c (b.m - 1)))) ∧
    (b.inLevel.headD 0 ≤ j.val → b.inLevel.headD 0 ≠ 0 → ∀ k, b'.eT k j = b.eT k j ∧ b'.eL k j = b.eL k j) := by
  obtain ⟨-, -, e, he, rfl⟩ := bundleField_ok_iff.1 h
  refine ⟨fun hj => ⟨fun k hk ha t => ?_, fun ha t => ?_⟩, fun hj h0 k => ?_⟩
  · obtain ⟨-, -, -, -, -, -, h1, -, -⟩ := fieldSources_ok he (by omega)
    rw [← eTAt_axis F _ ha]; exact congrFun (h1 k j (Nat.zero_le _) hk hj) t
  · obtain ⟨-, -, -, -, -, -, -, h2, -⟩ := fieldSources_ok he (by omega)
    rw [← eTAt_axis F _ ha]; exact congrFun (h2 j hj) t
  · obtain ⟨-, -, -, -, -, h3, -, -, h4⟩ := fieldSources_ok he h0
    exact ⟨h4 k j (by omega), h3 k j (by omega)⟩

/-- The demo line accepts every field with offsets that are not zero. -/
theorem demo_field (F : Field) (D : Distances) (h1 : D.rows = 1) (h2 : D.cols = 3) (h3 : ∀ j k, D.d j k ≠ 0) :
    ∃ s', (demoBare p).addExternalField F D none = .ok s' := by
  have he : ∀ k < (demoBare p).m, ∀ x ∈ eigRe ((demoBare p).l k * (demoBare p).c (k + 1)), 0 < x := by
    intro k _ x hx
    rw [eigRe_one_by_one, Set.mem_singleton_iff] at hx
    rw [hx]; simp [demoBare]
  obtain ⟨e, he⟩ := fieldSources_success (F := F) (D := D) (u := (demoBare p).u) (du := (demoBare p).du)
    (eL := (demoBare p).eL) (eT := (demoBare p).eT) (rows := 1) (start := 0) (stop := 2) he (by norm_num) le_rfl
    (fun j _ k _ => h3 j k) (by
      intro k hk
      have hk2 : k < 2 := hk
      have hdu : (demoBare p).du k = ![0, 0, 1] := if_pos hk2
      rw [hdu]
      simp [norm3])
  exact ⟨_, addExternalField_ok_iff.2 ⟨h1, h2, e, he, rfl⟩⟩

/-- A constant offset of the only conductor. -/
def constOffset (d : V3) : Distances := ⟨1, 3, fun _ _ => d⟩

/-- **C76 is false for oblique offsets**: a uniform unit field along x and the offset (1, 1, 0): the stored voltage is
`1/√2`, the integral is `1`. -/
theorem C76_refuted_oblique : ∃ (s s' : MTL 1 0) (F : Field) (D : Distances),
    s.addExternalField F D none = .ok s' ∧
      ∀ t, s'.eT 0 0 t ≠ pathIntegral F (s.u 0) (D.d 0 0) t (maxVelocity s.l s.c 0) := by
  obtain ⟨F, hF⟩ : ∃ F : Field, F = ⟨fun _ => 1, fun _ => 0, fun _ => 0⟩ := ⟨_, rfl⟩
  obtain ⟨s', hs⟩ := demo_field (p := 0) F (constOffset ![1, 1, 0]) rfl rfl
    fun _ _ h => by simpa [constOffset] using congrFun h 0
  refine ⟨demoBare 0, s', F, _, hs, fun t => ?_⟩
  obtain ⟨-, -, e, he, rfl⟩ := addExternalField_ok_iff.1 hs
  obtain ⟨-, -, -, -, -, -, h1, -, -⟩ := fieldSources_ok he one_ne_zero
  have hT := congrFun (h1 0 0 (Nat.zero_le _) (by simp [lineCells, demoBare]) (by simp)) t
  show e.2 0 0 t ≠ _
  rw [hT]
  have e1 : eTAt F ((demoBare 0).u 0) ((constOffset ![1, 1, 0]).d 0 0) (maxVelocity (demoBare 0).l (demoBare 0).c 0) t
      = 1 / Real.sqrt 2 := by
    subst hF
    simp [eTAt, constOffset, norm3]
    norm_num
  have e2 : pathIntegral F ((demoBare 0).u 0) ((constOffset ![1, 1, 0]).d 0 0) t
      (maxVelocity (demoBare 0).l (demoBare 0).c 0) = 1 := by
    subst hF
    simp [pathIntegral, constOffset, dot3, Field.at]
  have hcast : eTAt F ((demoBare 0).u 0) ((constOffset ![1, 1, 0]).d ((0 : Fin 1) : ℕ) 0)
      (maxVelocity (demoBare 0).l (demoBare 0).c 0) t = 1 / Real.sqrt 2 := e1
  rw [hcast, e2]
  intro h
  have h2 : Real.sqrt 2 = 1 := by
    have : Real.sqrt 2 ≠ 0 := by positivity
    field_simp at h
    exact h.symm
  have := Real.sq_sqrt (show (0 : ℝ) ≤ 2 by norm_num)
  rw [h2] at this
  norm_num at this

/-- **C76 is false at the last node**: the field `(z, 0, 0)` and the offset `(1, 0, 0)` give `1` at the node `z = 2`
of the demo line, the integral there is `2`. -/
theorem C76_refuted_last : ∃ (s s' : MTL 1 0) (F : Field) (D : Distances),
    s.addExternalField F D none = .ok s' ∧ AxisAligned (D.d 0 s.m) ∧
      ∀ t v, s'.eT s.m 0 t = 1 ∧ pathIntegral F (s.u s.m) (D.d 0 s.m) t v = 2 := by
  obtain ⟨F, hF⟩ : ∃ F : Field, F = ⟨fun e => e.z, fun _ => 0, fun _ => 0⟩ := ⟨_, rfl⟩
  obtain ⟨s', hs⟩ := demo_field (p := 0) F (constOffset ![1, 0, 0]) rfl rfl
    fun _ _ h => by simpa [constOffset] using congrFun h 0
  have hax : AxisAligned ((constOffset ![1, 0, 0]).d 0 (demoBare 0).m) :=
    ⟨0, by simp [constOffset], fun j hj => by fin_cases j <;> simp_all [constOffset]⟩
  refine ⟨demoBare 0, s', F, _, hs, hax, fun t v => ⟨?_, ?_⟩⟩
  · rw [(C76_line_partial hs 0).2 hax]
    subst hF
    simp [pathIntegral, constOffset, dot3, Field.at, envAt, demoBare]
  · subst hF
    simp [pathIntegral, constOffset, dot3, Field.at, envAt, demoBare]

/-- **C76, non-vacuity**. -/
theorem C76_example (F : Field) : ∃ (s' : MTL 1 0), (demoBare 0).addExternalField F (constOffset ![0, 2, 0]) none = .ok s' ∧
    AxisAligned ((constOffset ![0, 2, 0]).d 0 0) := by
  obtain ⟨s', hs⟩ := demo_field (p := 0) F (constOffset ![0, 2, 0]) rfl rfl
    fun _ _ h => by simpa [constOffset] using congrFun h 1
  exact ⟨s', hs, 1, by simp [constOffset], fun j hj => by fin_cases j <;> simp_all [constOffset]⟩

/-! ## C77 -/

/-- A field that does not depend on the position. -/
def Field.Uniform (F : Field) : Prop := ∀ (r r' : V3) (t v : ℝ), F.at (envAt r t v) = F.at (envAt r' t v)

/-- **C77, lines**: a uniform field gives no longitudinal excitation in the cells it is applied to, and a localized
field leaves the excitation of the other cells as it was. -/
theorem C77_line {s s' : MTL n p} {F : Field} {D : Distances} {loc : Option (V3 × V3)}
    (h : s.addExternalField F D loc = .ok s') :
    (F.Uniform → ∀ k (j : Fin n) t, (lineCells s.u s.m loc).1 ≤ k → k < (lineCells s.u s.m loc).2 →
      s'.eL k j t = 0) ∧
    (∀ a b, loc = some (a, b) → ∀ k (j : Fin n), ¬ (nearest s.u s.m a ≤ k ∧ k < nearest s.u s.m b) →
      s'.eL k j = s.eL k j) := by
  obtain ⟨-, -, e, he, rfl⟩ := addExternalField_ok_iff.1 h
  refine ⟨fun hF k j t ha hb => ?_, fun a b hloc k j hk => ?_⟩
  · obtain ⟨-, -, -, -, h1, -⟩ := fieldSources_ok he (Fin.pos j).ne'
    show e.1 k j t = 0
    rw [h1 k j t ha hb j.2, hF _ (before (s.u k) (s.du k)), sub_self, zero_div]
  · subst hloc
    obtain ⟨-, -, -, -, -, h2, -⟩ := fieldSources_ok he (Fin.pos j).ne'
    exact h2 k j fun hh => hk ⟨hh.1, hh.2.1⟩

/-- **C77 (part), bundles**: the same, but the cell that begins at the end of the localization is changed too. -/
theorem C77_bundle_partial {b b' : MTLD n p} {F : Field} {D : Distances} {loc : Option (V3 × V3)}
    (h : b.addExternalField F D loc = .ok b') (h0 : b.inLevel.headD 0 ≠ 0) :
    (F.Uniform → ∀ k (j : Fin n) t, j.val < b.inLevel.headD 0 → (bundleCells b.u b.m loc).1 ≤ k →
      k < (bundleCells b.u b.m loc).2 → b'.eL k j t = 0) ∧
    (∀ x y, loc = some (x, y) → ∀ k (j : Fin n), ¬ (nearest b.u b.m x ≤ k ∧ k ≤ nearest b.u b.m y) →
      b'.eL k j = b.eL k j) := by
  obtain ⟨-, -, e, he, rfl⟩ := bundleField_ok_iff.1 h
  refine ⟨fun hF k j t hj ha hb => ?_, fun x y hloc k j hk => ?_⟩
  · obtain ⟨-, -, -, -, h1, -⟩ := fieldSources_ok he h0
    show e.1 k j t = 0
    rw [h1 k j t ha hb hj, hF _ (before (b.u k) (b.du k)), sub_self, zero_div]
  · subst hloc
    obtain ⟨-, -, -, -, -, h2, -⟩ := fieldSources_ok he h0
    exact h2 k j fun hh => hk ⟨hh.1, Nat.lt_succ_iff.1 hh.2.1⟩

end Mtln
