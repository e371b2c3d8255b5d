import Verif.Lemmas.Mesh
import Verif.Lemmas.Timestep
import Verif.Lemmas.Cfl

/-! # Physical parameters make the constructor succeed -/

namespace Mtln

open Matrix

variable {n p : ℕ}

theorem eigRe_pos_of_spd {A : Mat n} (h : SPD A) : ∀ x ∈ eigRe A, 0 < x := by
  rintro x ⟨z, hz, rfl⟩
  have hH := h.posDef.isHermitian
  rw [charpoly_map, hH.charpoly_eq, Polynomial.mem_roots
    (((Polynomial.monic_prod_of_monic _ _ fun i _ => Polynomial.monic_X_sub_C _).map _).ne_zero)] at hz
  rw [Polynomial.IsRoot, Polynomial.map_prod, Polynomial.eval_prod, Finset.prod_eq_zero_iff] at hz
  obtain ⟨i, -, hi⟩ := hz
  have hi' : z = ((hH.eigenvalues i : ℝ) : ℂ) := by
    have : z - ((hH.eigenvalues i : ℝ) : ℂ) = 0 := by simpa using hi
    exact sub_eq_zero.1 this
  rw [hi', Complex.ofReal_re]
  exact h.posDef.eigenvalues_pos i

theorem eigRe_pos_of_spd_mul {L C : Mat n} (hL : SPD L) (hC : SPD C) : ∀ x ∈ eigRe (L * C), 0 < x := by
  obtain ⟨B, hB, hdet⟩ := hC.factor
  have he : eigRe (B * L * Bᵀ) = eigRe (L * C) := by
    rw [Matrix.mul_assoc, eigRe_mul_comm, Matrix.mul_assoc, hB]
  rw [← he]
  refine eigRe_pos_of_spd ⟨?_, ?_⟩
  · simp only [transpose_mul, transpose_transpose, hL.symm, Matrix.mul_assoc]
  · intro x hx
    have hne : Bᵀ *ᵥ x ≠ 0 := by
      intro h0
      apply hx
      have hut : IsUnit (Bᵀ).det := by rw [det_transpose]; exact isUnit_iff_ne_zero.2 hdet
      calc x = (Bᵀ)⁻¹ *ᵥ (Bᵀ *ᵥ x) := by rw [mulVec_mulVec, nonsing_inv_mul _ hut, one_mulVec]
        _ = 0 := by rw [h0, mulVec_zero]
    have := hL.pos _ hne
    refine this.trans_le (le_of_eq ?_)
    rw [← mulVec_mulVec, ← mulVec_mulVec, dotProduct_mulVec x B, ← mulVec_transpose]

/-- The matrix inverted in `compute_terminal_terms` is regular for physical data. -/
theorem termF1_det_ne {dt du : ℝ} {z c g : Mat n} (hdt : 0 < dt) (hdu : 0 ≤ du) (hz : Dissipative z)
    (hc : SPD c) (hg : Dissipative g) : (termF1 dt du z c g).det ≠ 0 := by
  intro h0
  obtain ⟨x, hx, hzero⟩ := exists_mulVec_eq_zero_iff.2 h0
  rcases hdu.eq_or_lt with hdu0 | hdu0
  · subst hdu0
    simp [termF1] at h0
  -- `y = M x`, `x = - z y`
  set M : Mat n := (du / dt) • c + (du / 2) • g with hM
  have hform : termF1 dt du z c g = z * M + 1 := by
    rw [hM, termF1, Matrix.mul_add, Matrix.mul_smul, Matrix.mul_smul]
  rw [hform, add_mulVec, one_mulVec, ← mulVec_mulVec] at hzero
  have hxe : x = -(z *ᵥ (M *ᵥ x)) := eq_neg_of_add_eq_zero_right hzero
  have h1 : 0 < x ⬝ᵥ (M *ᵥ x) := by
    rw [hM, add_mulVec, dotProduct_add, smul_mulVec, smul_mulVec, dotProduct_smul, dotProduct_smul,
      smul_eq_mul, smul_eq_mul]
    have a := hc.pos x hx
    have b := hg x
    have c1 : 0 < du / dt := by positivity
    have c2 : 0 < du / 2 := by positivity
    have := mul_pos c1 a
    have := mul_nonneg c2.le b
    linarith
  have h2 : x ⬝ᵥ (M *ᵥ x) ≤ 0 := by
    have hzz := hz (M *ᵥ x)
    rw [dotProduct_comm] at hzz
    calc x ⬝ᵥ (M *ᵥ x) = (-(z *ᵥ (M *ᵥ x))) ⬝ᵥ (M *ᵥ x) := by rw [← hxe]
      _ = -((z *ᵥ (M *ᵥ x)) ⬝ᵥ (M *ᵥ x)) := by rw [neg_dotProduct]
      _ ≤ 0 := by linarith
  linarith

/-- When `get_max_timestep` succeeds. -/
theorem maxTimestep_ok {m : ℕ} {dun : ℕ → ℝ} {l c : ℕ → Mat n} (hn : n ≠ 0) (hd : ∃ k < m, dun k ≠ 0)
    (hx : ∀ k < m, ∀ x ∈ eigRe (l k * c (k + 1)), 0 < x) : ∃ d, maxTimestep m dun l c = .ok d := by
  classical
  unfold maxTimestep
  rw [if_neg, if_neg]
  · exact ⟨_, rfl⟩
  · rintro ⟨k, hk, x, hx1, hx2⟩
    exact absurd (hx k hk x hx1) (not_lt.2 hx2)
  · rintro (h | h)
    · exact hn h
    · obtain ⟨k, hk, h0⟩ := hd
      exact h0 (h k hk)

theorem norm3_nonneg (x : V3) : 0 ≤ norm3 x := Real.sqrt_nonneg _

theorem norm3_eq_zero {x : V3} : norm3 x = 0 ↔ x = 0 := by
  unfold norm3
  rw [Real.sqrt_eq_zero (by positivity)]
  constructor
  · intro h
    have h0 : x 0 = 0 := by nlinarith [sq_nonneg (x 0), sq_nonneg (x 1), sq_nonneg (x 2)]
    have h1 : x 1 = 0 := by nlinarith [sq_nonneg (x 0), sq_nonneg (x 1), sq_nonneg (x 2)]
    have h2 : x 2 = 0 := by nlinarith [sq_nonneg (x 0), sq_nonneg (x 1), sq_nonneg (x 2)]
    funext j
    fin_cases j <;> assumption
  · rintro rfl
    simp

/-- The constructor succeeds when the shapes are legal, `L`, `C` positive definite, losses dissipative,
terminations non-negative and the mesh complete with a cell of positive length. -/
theorem new_succeeds {l c r g : Arg} {length : ℝ} {positions : List V3} {ndiv : List ℕ} {Zs Zl : ZArg}
    (name : String) (hn : n ≠ 0) (hlc : GoodLC n l c) (hr : GoodRG n r) (hg : GoodRG n g)
    (hz : GoodZ n Zs Zl) (hl : SPD (l.matrix n)) (hc : SPD (c.matrix n)) (hgd : Dissipative (g.matrix n))
    (hzs : ∀ i < n, 0 ≤ Zs.value i) (hzl : ∀ i < n, 0 ≤ Zl.value i) {mem : MeshMem}
    (hmesh : buildMesh (if positions = [] then [![0, 0, 0], ![0, 0, length]] else positions) ndiv = .ok mem)
    (hw : ∀ k < ndiv.sum, mem.u k ≠ none ∧ mem.du k ≠ none)
    (hne : ∃ k < ndiv.sum, (mem.du k).getD 0 ≠ 0) :
    ∃ s : MTL n p, MTL.new p l c r g length positions ndiv Zs Zl name = .ok ⟨n, s⟩ := by
  obtain ⟨la, ca, h1⟩ : ∃ la ca, initLC l c = .ok (n, la, ca) :=
    ⟨_, _, initLC_ok_iff.2 ⟨hlc, fun i j => rfl, fun i j => rfl⟩⟩
  obtain ⟨ga, h2⟩ : ∃ ga, initRGone n g = .ok ga := ⟨_, initRGone_ok_iff.2 ⟨hg, fun i j => rfl⟩⟩
  obtain ⟨ra, h3⟩ : ∃ ra, initRGone n r = .ok ra := ⟨_, initRGone_ok_iff.2 ⟨hr, fun i j => rfl⟩⟩
  obtain ⟨zsa, zla, h4⟩ := initZt_good hz
  have el : toMat n la = l.matrix n := by
    have e := (initLC_ok_iff.1 h1).2.1
    ext i j
    cases hlc <;> simp [toMat, Arg.matrix, e]
  have ec : toMat n ca = c.matrix n := by
    have e := (initLC_ok_iff.1 h1).2.2
    ext i j
    cases hlc <;> simp [toMat, Arg.matrix, e]
  have eg : toMat n ga = g.matrix n := by
    have e := (initRGone_ok_iff.1 h2).2
    ext i j
    cases hg <;> simp [toMat, Arg.matrix, e]
  obtain ⟨-, ez1, ez2⟩ := initZt_ok h4
  have dz : ∀ (a : ℕ → ℕ → ℝ) (Z : ZArg), (∀ i < n, 0 ≤ Z.value i) →
      (∀ i < n, ∀ j, a i j = if i = j then Z.value i else 0) → Dissipative (toMat n a) := by
    intro a Z h0 he
    have : toMat n a = Matrix.diagonal (fun i : Fin n => Z.value i) := by
      ext i j
      simp only [toMat, of_apply, diagonal_apply, he i i.2 j]
      by_cases hij : i = j
      · subst hij; simp
      · rw [if_neg hij, if_neg (fun h => hij (Fin.ext h))]
    intro x
    rw [this]
    simp only [dotProduct, mulVec_diagonal]
    exact Finset.sum_nonneg fun i _ => by nlinarith [h0 i i.2, mul_self_nonneg (x i), mul_nonneg (h0 i i.2) (mul_self_nonneg (x i))]
  obtain ⟨dt, h7⟩ := maxTimestep_ok (m := ndiv.sum) (dun := fun k => norm3 ((mem.du k).getD 0))
    (l := fun _ => toMat n la) (c := fun _ => toMat n ca) hn (by
      obtain ⟨k, hk, h0⟩ := hne
      exact ⟨k, hk, fun h => h0 (norm3_eq_zero.1 h)⟩)
    (fun k _ => by rw [el, ec]; exact eigRe_pos_of_spd_mul hl hc)
  obtain ⟨hdt, -⟩ := maxTimestep_spec h7 (fun k _ => norm3_nonneg _)
  refine ⟨_, new_ok_iff.2 ⟨la, ca, ga, ra, zsa, zla, mem, dt, h1, h2, h3, h4, hmesh, hw, h7,
    computeTerminalTerms_ok_iff.2 ⟨hdt.ne', ?_, ?_, rfl⟩⟩⟩
  · exact termF1_det_ne hdt (norm3_nonneg _) (dz _ _ hzs ez1) (by simpa [assembled, ec] using hc)
      (by simpa [assembled, eg] using hgd)
  · exact termF1_det_ne hdt (norm3_nonneg _) (dz _ _ hzl ez2) (by simpa [assembled, ec] using hc)
      (by simpa [assembled, eg] using hgd)

/-- The mesh that equal divisions give is complete. -/
theorem mesh_equal_complete {pos : List V3} {ndiv : List ℕ} {d : ℕ} (hd : 0 < d) (hds : ∀ x ∈ ndiv, x = d)
    (hlen : pos.length = ndiv.length + 1) (hne : ∃ i < ndiv.length, pos.getD i 0 ≠ pos.getD (i + 1) 0) :
    ∃ mem, buildMesh pos ndiv = .ok mem ∧ (∀ k < ndiv.sum, mem.u k ≠ none ∧ mem.du k ≠ none) ∧
      ∃ k < ndiv.sum, (mem.du k).getD 0 ≠ 0 := by
  obtain ⟨mem, h1, h2, h3, h4⟩ := buildMesh_equal hd hds hlen
  refine ⟨mem, h1, fun k hk => ⟨by simp [h2 k hk], by simp [h4 k hk]⟩, ?_⟩
  have hsum : ndiv.sum = ndiv.length * d := by
    rw [List.eq_replicate_of_mem hds, List.sum_replicate, List.length_replicate, smul_eq_mul]
  obtain ⟨i, hi, hne⟩ := hne
  have hlt : i * d < ndiv.sum := by rw [hsum]; exact Nat.mul_lt_mul_of_pos_right hi hd
  refine ⟨i * d, hlt, ?_⟩
  rw [h4 _ hlt, Nat.mul_div_cancel _ hd, Option.getD_some]
  intro h0
  apply hne
  have hd0 : (d : ℝ) ≠ 0 := by exact_mod_cast hd.ne'
  funext j
  have := congrFun h0 j
  simp only [segCell, Pi.zero_apply, div_eq_zero_iff, hd0, or_false] at this
  linarith

/-- For scalar parameters. -/
theorem spd_one {x : ℝ} (hx : 0 < x) : SPD (Matrix.of fun _ _ => x : Mat 1) := by
  constructor
  · ext i j; rfl
  · intro v hv
    have h0 : v 0 ≠ 0 := fun h => hv (by funext j; fin_cases j; exact h)
    simp only [dotProduct, mulVec, Finset.univ_unique, Fin.default_eq_zero, Finset.sum_singleton, of_apply]
    have := mul_pos hx (mul_self_pos.2 h0)
    nlinarith

theorem dissipative_zero : Dissipative (0 : Mat n) := fun x => by simp

theorem dissipative_one : Dissipative (1 : Mat n) := fun x => by
  rw [one_mulVec]
  exact Finset.sum_nonneg fun i _ => mul_self_nonneg _

end Mtln
