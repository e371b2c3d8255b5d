import Verif.Props.FortranSettle

/-!
# C144: programs with physical data succeed in both languages
-/

namespace Mtln

namespace Fortran

open Matrix

variable {n p : ℕ}

/-- **C144** For physical data both programs succeed, and their voltages and currents are the same. -/
theorem C144_runs {la ca ra ga : Arg} {Z : ZArg} (name : String) {zSteps N : ℕ} {saved : Saved} {W T : ℝ} {S : Src n}
    (hn : n ≠ 0) (hz : 0 < zSteps) (hN : 0 < N) (hlc : GoodLC n la ca) (hr : GoodRG n ra) (hg : GoodRG n ga) (hZ' : GoodZ n Z Z)
    (hl : SPD (la.matrix n)) (hc : SPD (ca.matrix n)) (hrd : Dissipative (ra.matrix n)) (hgd : Dissipative (ga.matrix n))
    (hZ : ∀ i : Fin n, Z.value i = Real.sqrt (la.matrix n i i / ca.matrix n i i))
    (hW : IsGreatest (insert saved.maxVLosses (Set.range (velocity (la.matrix n) (ca.matrix n)))) W)
    (hT : T = N * (0.95 * deltaZ / W)) (hS : ∀ a t, S 0 a t = 25) (hS' : ∀ a t, S zSteps a t = 0) :
    ∃ s s1 s2 s3 : MTL n p, ∃ x, MTL.new p la ca ra ga (zSteps * deltaZ) [] [zSteps] Z Z name = .ok ⟨n, s⟩ ∧
      s.setTimeStep N T = .ok s1 ∧ s1.computeTerminalTerms = .ok s2 ∧
      ({ s2 with vSources := S } : MTL n p).runUntil T = .ok s3 ∧
      nConductorsLosses zSteps N (la.matrix n) (ca.matrix n) (ra.matrix n) (ga.matrix n) saved =
        .ok (x, { saved with maxVLosses := W }) ∧
      (∀ k ≤ zSteps, x.v k = s3.v k) ∧ ∀ k < zSteps, x.i k = s3.i k := by
  have hdz := deltaZ_pos
  have hz' : (0 : ℝ) < zSteps := by exact_mod_cast hz
  have hN' : (0 : ℝ) < N := by exact_mod_cast hN
  have hpos : ∀ i, 0 < la.matrix n i i * ca.matrix n i i := fun i => mul_pos (SPD.diag_pos hl i) (SPD.diag_pos hc i)
  have hW0 : 0 < W := lt_of_lt_of_le (velocity_pos (hpos ⟨0, Nat.pos_of_ne_zero hn⟩)) (hW.2 (Or.inr ⟨_, rfl⟩))
  have hZ0 : ∀ i < n, 0 ≤ Z.value i := fun i hi => by
    rw [hZ ⟨i, hi⟩]
    positivity
  obtain ⟨s, h⟩ := straight_accepted (p := p) hn hlc hr hg hZ' hl hc hgd hZ0 hZ0 (mul_pos hz' hdz) hz name
  obtain ⟨d, hd⟩ : ∃ d : ℝ, d = 0.95 * deltaZ / W := ⟨_, rfl⟩
  have hd0 : 0 < d := by rw [hd]; positivity
  have hL := line_data hl hc hrd hgd hZ0 hZ0
  obtain ⟨hU, hrest, htime, em, hdt, -, -, hpr⟩ := constructed_uniform (by positivity) hz h (Vs := fun _ _ => 25) (Vl := fun _ _ => 0)
    (S := S) (fun t a => hS a t) (fun t a => hS' a t) (q := d / s.dt) (by
      have := (constructed_uniform (by positivity) hz h (Vs := fun _ _ => 25) (Vl := fun _ _ => 0)
        (S := S) (fun t a => hS a t) (fun t a => hS' a t) (q := 1) one_pos).2.2.2.2.1
      positivity)
  rw [div_mul_cancel₀ _ hdt.ne'] at hU hrest
  have h1 : s.setTimeStep N T = .ok { s with dt := d } := by
    unfold MTL.setTimeStep
    refine bind_ok_iff.2 ⟨(), raiseIf_ok_iff.2 hN'.ne', ?_⟩
    rw [hT, ← hd, mul_div_cancel_left₀ _ hN'.ne']
  have hm : (0 : ℝ) < s.m := by rw [em]; exact hz'
  have hm0 : 0 < s.m := by rw [em]; exact hz
  have dl : ∀ k < s.m, 0 ≤ s.dun k := fun k hk => by
    rw [hU.dun k hk]
    show 0 ≤ zSteps * deltaZ / s.m
    positivity
  obtain ⟨s2, h2⟩ : ∃ s2, ({ s with dt := d } : MTL n p).computeTerminalTerms = .ok s2 := by
    refine ⟨_, computeTerminalTerms_ok_iff.2 ⟨hd0.ne', ?_, ?_, rfl⟩⟩
    · refine termF1_det_ne hd0 (dl 0 hm0) ?_ ?_ ?_
      · exact hU.zs ▸ hL.zs
      · exact hU.c 0 (Nat.zero_le _) ▸ hL.c
      · exact hU.g 0 (Nat.zero_le _) ▸ hL.g
    · refine termF1_det_ne hd0 (dl _ (Nat.sub_lt hm0 one_pos)) ?_ ?_ ?_
      · exact hU.zl ▸ hL.zl
      · exact hU.c s.m (le_refl _) ▸ hL.c
      · exact hU.g s.m (le_refl _) ▸ hL.g
  obtain ⟨-, d1, d2, e2⟩ := computeTerminalTerms_ok_iff.1 h2
  have hU2 : ({ s2 with vSources := S } : MTL n p).Uniform (zSteps * deltaZ) (la.matrix n) (ca.matrix n) (ra.matrix n) (ga.matrix n)
      (Matrix.diagonal fun i : Fin n => Z.value i) (Matrix.diagonal fun i : Fin n => Z.value i) (fun _ _ => 25) fun _ _ => 0 := by
    rw [e2]
    exact ⟨hU.cells, hU.dt_pos, hU.dun, hU.l, hU.c, hU.r, hU.g, hU.conn, hU.zs, hU.zl, hU.source, hU.load, hU.eL, hU.eT⟩
  obtain ⟨s3, h3⟩ := hU2.runs (by positivity) hL (by
    rw [e2]
    show ∀ q ∈ s.probes, _
    rw [hpr]
    simp) T
  obtain ⟨x, hx⟩ := C144_program (saved := saved) hz hN h hpos hZ hW hW0 hT h1 h2 hS hS' h3
  exact ⟨s, _, s2, s3, x, h, h1, h2, h3, hx⟩

/-- Non-vacuity: a line of three cells with inductance and capacitance 1 in a fresh program, five steps. -/
example : ∃ (s3 : MTL 1 0) (x : State 1) (saved : Saved),
    nConductorsLosses 3 5 ((Arg.scalar 1).matrix 1) ((Arg.scalar 1).matrix 1) ((Arg.scalar 0).matrix 1) ((Arg.scalar 0).matrix 1) {} =
      .ok (x, saved) ∧ (∀ k ≤ 3, x.v k = s3.v k) ∧ ∀ k < 3, x.i k = s3.i k := by
  have hvel : velocity ((Arg.scalar 1).matrix 1) ((Arg.scalar 1).matrix 1) = fun _ => 1 := by
    funext i
    fin_cases i
    simp [velocity, Arg.matrix]
  obtain ⟨s, s1, s2, s3, x, h⟩ := C144_runs (p := 0) (n := 1) (la := .scalar 1) (ca := .scalar 1) (ra := .scalar 0) (ga := .scalar 0)
    (Z := .scalar 1) (zSteps := 3) (N := 5) (saved := {}) (W := 1) (S := fun k _ _ => if k = 0 then 25 else 0) "demo" one_ne_zero
    (by norm_num) (by norm_num) (.floats 1 1) .zero .zero (.numbers 1 1) (spd_one one_pos) (spd_one one_pos) dissipative_zero
    dissipative_zero (fun i => by
      fin_cases i
      simp [ZArg.value, Arg.matrix]) (by
      rw [hvel]
      refine ⟨Or.inr ⟨0, rfl⟩, ?_⟩
      rintro y (rfl | ⟨i, rfl⟩)
      · exact zero_le_one
      · exact le_refl _) rfl (by simp) (by simp)
  exact ⟨s3, x, _, h.2.2.2.2⟩

end Fortran

end Mtln
