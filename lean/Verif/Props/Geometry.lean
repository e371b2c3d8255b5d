import Verif.Props.Bundle
import Verif.Props.ProbeApi

/-! # Points on segments and on the line: C27, C28 -/

namespace Mtln

variable {n p : ℕ}

theorem norm3_sq (x : V3) : norm3 x ^ 2 = x 0 ^ 2 + x 1 ^ 2 + x 2 ^ 2 :=
  Real.sq_sqrt (by positivity)

theorem norm3_smul (t : ℝ) (x : V3) : norm3 (t • x) = |t| * norm3 x := by
  have h : norm3 (t • x) ^ 2 = (|t| * norm3 x) ^ 2 := by
    rw [mul_pow, norm3_sq, norm3_sq, sq_abs]
    simp only [Pi.smul_apply, smul_eq_mul]
    ring
  exact (pow_left_inj₀ (norm3_nonneg _) (mul_nonneg (abs_nonneg _) (norm3_nonneg _)) two_ne_zero).1 h

theorem norm3_neg (x : V3) : norm3 (-x) = norm3 x := by
  unfold norm3
  simp

theorem norm3_zero : norm3 0 = 0 := by simp [norm3]

theorem norm3_cross_sq (a b : V3) : norm3 (cross3 a b) ^ 2 = norm3 a ^ 2 * norm3 b ^ 2 - dot3 a b ^ 2 := by
  simp only [norm3_sq, cross3, dot3, Matrix.cons_val_zero, Matrix.cons_val_one, Matrix.cons_val]
  ring

/-- **C28** `point_in_line` is true for every point of the segment. -/
theorem C28_segment (a b : V3) (t : ℝ) (h0 : 0 ≤ t) (h1 : t ≤ 1) : pointInLine (a + t • (b - a)) a b := by
  have e1 : a - (a + t • (b - a)) = t • (a - b) := by module
  have e2 : b - (a + t • (b - a)) = (1 - t) • (b - a) := by module
  have e3 : norm3 (b - a) = norm3 (a - b) := by rw [← norm3_neg]; congr 1; module
  have hN := norm3_nonneg (a - b)
  refine ⟨?_, ?_, ?_⟩
  · have : cross3 (a - b) (a - (a + t • (b - a))) = 0 := by
      rw [e1]
      funext j
      fin_cases j <;> simp [cross3] <;> ring
    rw [this, norm3_zero]
    norm_num
  · rw [e1, norm3_smul, abs_of_nonneg h0]
    nlinarith
  · rw [e2, norm3_smul, abs_of_nonneg (by linarith), e3]
    nlinarith

/-- **C28** The order of the two endpoints does not matter. -/
theorem C28_symmetric (x a b : V3) : pointInLine x a b ↔ pointInLine x b a := by
  have e3 : norm3 (b - a) = norm3 (a - b) := by rw [← norm3_neg]; congr 1; module
  have e4 : norm3 (cross3 (b - a) (b - x)) = norm3 (cross3 (a - b) (a - x)) := by
    rw [← norm3_neg]
    congr 1
    funext j
    fin_cases j <;> simp [cross3] <;> ring
  unfold pointInLine
  rw [e3, e4]
  tauto

/-- **C28** Points farther from an endpoint than the length of the segment are rejected. -/
theorem C28_far (x a b : V3) (h : norm3 (a - b) < norm3 (a - x) ∨ norm3 (a - b) < norm3 (b - x)) :
    ¬ pointInLine x a b := by
  rintro ⟨_, h1, h2⟩
  rcases h with h | h <;> linarith

/-- **C28** Points off the supporting line are rejected: if the distance of the point to every point of the line,
times the length of the segment, is at least the tolerance `1e-6` (the tolerance is an area, not a length). -/
theorem C28_off_line (x a b : V3)
    (h : ∀ s : ℝ, 1 / 10 ^ 6 ≤ norm3 (a - b) * norm3 (x - (a + s • (b - a)))) : ¬ pointInLine x a b := by
  rintro ⟨hc, _, _⟩
  have hL : 0 < norm3 (a - b) := by
    have h0 := h 0
    have h1 := norm3_nonneg (a - b)
    rcases h1.lt_or_eq with h2 | h2
    · exact h2
    · rw [← h2, zero_mul] at h0; norm_num at h0
  -- the foot of the perpendicular
  let w := a - b
  let y := a - x
  have hs := h (dot3 w y / norm3 w ^ 2)
  set s := dot3 w y / norm3 w ^ 2 with hsdef
  have e1 : x - (a + s • (b - a)) = -(y - s • w) := by simp only [w, y]; module
  rw [e1, norm3_neg] at hs
  have hw : norm3 w ≠ 0 := hL.ne'
  have e2 : (norm3 w * norm3 (y - s • w)) ^ 2 = norm3 (cross3 w y) ^ 2 := by
    rw [mul_pow, norm3_cross_sq]
    have : norm3 (y - s • w) ^ 2 = norm3 y ^ 2 - 2 * s * dot3 w y + s ^ 2 * norm3 w ^ 2 := by
      simp only [norm3_sq, dot3, Pi.sub_apply, Pi.smul_apply, smul_eq_mul]; ring
    have e2 : dot3 w y = s * norm3 w ^ 2 := by rw [hsdef]; field_simp
    rw [this, e2]
    ring
  have e3 : norm3 w * norm3 (y - s • w) = norm3 (cross3 w y) :=
    (pow_left_inj₀ (mul_nonneg (norm3_nonneg _) (norm3_nonneg _)) (norm3_nonneg _) two_ne_zero).1 e2
  have hs' : 1 / 10 ^ 6 ≤ norm3 w * norm3 (y - s • w) := hs
  rw [e3] at hs'
  exact absurd hc (not_lt.2 hs')

/-- **C28** The exact accepted set of a long segment tends to the segment: a point accepted with zero tolerance is on
the segment. -/
theorem C28_exact (x a b : V3) (hc : norm3 (cross3 (a - b) (a - x)) = 0) (h : pointInLine x a b) :
    ∃ t : ℝ, 0 ≤ t ∧ t ≤ 1 ∧ x = a + t • (b - a) := by
  obtain ⟨_, h1, h2⟩ := h
  rcases (norm3_nonneg (a - b)).lt_or_eq with hL | hL
  · set w := a - b with hw
    set y := a - x with hy
    have hw2 : 0 < norm3 w ^ 2 := by positivity
    set s := dot3 w y / norm3 w ^ 2 with hs
    have e0 : norm3 (y - s • w) ^ 2 = norm3 y ^ 2 - 2 * s * dot3 w y + s ^ 2 * norm3 w ^ 2 := by
      simp only [norm3_sq, dot3, Pi.sub_apply, Pi.smul_apply, smul_eq_mul]; ring
    have e1 : norm3 (cross3 w y) ^ 2 = norm3 w ^ 2 * norm3 y ^ 2 - dot3 w y ^ 2 := norm3_cross_sq w y
    have e2 : dot3 w y = s * norm3 w ^ 2 := by rw [hs]; field_simp
    have e3 : norm3 (y - s • w) ^ 2 = 0 := by
      rw [hc, e2] at e1
      have : norm3 w ^ 2 * (norm3 y ^ 2 - s ^ 2 * norm3 w ^ 2) = 0 := by linarith
      rcases mul_eq_zero.1 this with h | h
      · exact absurd h hw2.ne'
      · rw [e0, e2]; linarith
    have e4 : y = s • w := by
      have := norm3_eq_zero.1 (pow_eq_zero_iff two_ne_zero |>.1 e3)
      exact sub_eq_zero.1 this
    have hx : x = a + s • (b - a) := by
      have : x = a - y := by rw [hy]; module
      rw [this, e4, hw]; module
    have n1 : |s| * norm3 w ≤ norm3 w := by
      rw [← norm3_smul, ← e4]; exact h1
    have n2 : |1 - s| * norm3 w ≤ norm3 w := by
      have e5 : b - x = (s - 1) • w := by rw [hx, hw]; module
      rw [← norm3_smul, ← norm3_neg, show -((1 - s) • w) = (s - 1) • w by module, ← e5]
      exact h2
    have a1 : |s| ≤ 1 := by by_contra hh; push Not at hh; nlinarith
    have a2 : |1 - s| ≤ 1 := by by_contra hh; push Not at hh; nlinarith
    rw [abs_le] at a1 a2
    exact ⟨s, by linarith, a1.2, hx⟩
  · rw [← hL] at h1
    have := norm3_eq_zero.1 (le_antisymm h1 (norm3_nonneg _))
    exact ⟨0, le_rfl, zero_le_one, by rw [zero_smul, add_zero]; exact (sub_eq_zero.1 this).symm⟩

/-! ## C27: `MTLD.add_probe` -/

/-- The polyline of a bundle whose cells join its nodes. -/
theorem segmentStart_node {u du : ℕ → V3} {m : ℕ} (h : ∀ k < m, du k = u (k + 1) - u k) :
    ∀ k ≤ m, segmentStart (u 0) du k = u k
  | 0, _ => rfl
  | k + 1, hk => by
    rw [segmentStart, segmentStart_node h k (by omega), h k (by omega)]
    module

/-- Exactly what `MTLD.add_probe` accepts. -/
theorem addProbe_bundle_ok_iff {b b' : MTLD n p} {x : Pos} {type : String} :
    b.addProbe x type = .ok b' ↔ b.m ≠ 0 ∧
      ((∃ k < b.m, pointInLine x.toV3 (segmentStart (b.u 0) b.du k) (segmentStart (b.u 0) b.du k + b.du k)) ∨
        pointInLine x.toV3 (segmentStart (b.u 0) b.du b.m)
          (segmentStart (b.u 0) b.du b.m + b.du (b.m - 1))) ∧
      b' = { b with probes := b.probes ++ [Probe.new x.toV3 type b.dt b.u b.m] } := by
  simp only [MTLD.addProbe, bind_ok_iff, raiseIf_ok_iff, not_not, Except.ok.injEq]
  constructor
  · rintro ⟨_, h1, _, h2, h3⟩; exact ⟨h1, h2, h3.symm⟩
  · rintro ⟨h1, h2, h3⟩; exact ⟨(), h1, (), h2, h3.symm⟩

/-- **C27 (accepted)** Every position on the meshed polyline is accepted, and the probe is appended to the probes of
the bundle. -/
theorem C27_accepts_partial {b : MTLD n p} (hu : ∀ k < b.m, b.du k = b.u (k + 1) - b.u k) {k : ℕ} (hk : k < b.m)
    {t : ℝ} (h0 : 0 ≤ t) (h1 : t ≤ 1) {x : Pos} (hx : x.toV3 = b.u k + t • (b.u (k + 1) - b.u k)) (type : String) :
    b.addProbe x type = .ok { b with probes := b.probes ++ [Probe.new x.toV3 type b.dt b.u b.m] } := by
  refine addProbe_bundle_ok_iff.2 ⟨by omega, Or.inl ⟨k, hk, ?_⟩, rfl⟩
  rw [segmentStart_node hu k hk.le, hx, hu k hk, show b.u k + (b.u (k + 1) - b.u k) = b.u (k + 1) by module]
  exact C28_segment _ _ _ h0 h1

/-- **C27 (rejected)** A position that is off every segment — and off the continuation of the last segment by its own
length — raises `ValueError`. -/
theorem C27_rejects_partial {b : MTLD n p} (hm : b.m ≠ 0) (hu : ∀ k < b.m, b.du k = b.u (k + 1) - b.u k) {x : Pos}
    (hx : ∀ k < b.m, ¬ pointInLine x.toV3 (b.u k) (b.u (k + 1)))
    (hx' : ¬ pointInLine x.toV3 (b.u b.m) (b.u b.m + (b.u b.m - b.u (b.m - 1)))) (type : String) :
    b.addProbe x type = .error .ValueError := by
  unfold MTLD.addProbe
  simp only
  rw [show raiseIf (b.m = 0) PyErr.NotModelled = .ok () from if_neg hm]
  simp only [bind, Except.bind]
  unfold raiseIf
  rw [if_pos]
  rintro (⟨k, hk, h⟩ | h)
  · apply hx k hk
    rw [segmentStart_node hu k hk.le, hu k hk, show b.u k + (b.u (k + 1) - b.u k) = b.u (k + 1) by module] at h
    exact h
  · apply hx'
    rw [segmentStart_node hu _ le_rfl, hu (b.m - 1) (by omega), show b.m - 1 + 1 = b.m by omega] at h
    exact h

/-- **C27 is false of the code**: a position a whole cell beyond the end of the line is accepted (for every bundle with
straight cells). -/
theorem C27_accepts_beyond_end {b : MTLD n p} (hm : b.m ≠ 0) (hu : ∀ k < b.m, b.du k = b.u (k + 1) - b.u k)
    (type : String) {x : Pos} (hx : x.toV3 = b.u b.m + (b.u b.m - b.u (b.m - 1))) :
    ∃ b', b.addProbe x type = .ok b' := by
  refine ⟨_, addProbe_bundle_ok_iff.2 ⟨hm, Or.inr ?_, rfl⟩⟩
  rw [segmentStart_node hu _ le_rfl, hu (b.m - 1) (by omega), show b.m - 1 + 1 = b.m by omega, hx]
  have := C28_segment (b.u b.m) (b.u b.m + (b.u b.m - b.u (b.m - 1))) 1 zero_le_one le_rfl
  rwa [show b.u b.m + (1 : ℝ) • (b.u b.m + (b.u b.m - b.u (b.m - 1)) - b.u b.m) =
    b.u b.m + (b.u b.m - b.u (b.m - 1)) by module] at this

/-- The demo bundle, whose line ends at `z = 2`, accepts a probe at `z = 3` — where no node is nearer than one cell. -/
theorem C27_beyond_end_example (p : ℕ) :
    ∃ b', (MTLD.assemble ⟨1, demoBare p⟩ (demoLevels p) "b").addProbe (.float 3) "voltage" = .ok b' := by
  refine C27_accepts_beyond_end (by simp [MTLD.assemble, demoBare]) ?_ _ ?_
  · intro k hk
    have hk' : k < 2 := hk
    interval_cases k <;> funext j <;> fin_cases j <;> norm_num [MTLD.assemble, demoBare]
  · funext j
    fin_cases j <;> norm_num [MTLD.assemble, demoBare, Pos.toV3]

end Mtln
