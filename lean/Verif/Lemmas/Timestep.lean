import Verif.Lemmas.Cfl

/-! # The automatic time step -/

namespace Mtln

open Matrix

variable {n p : ℕ}

theorem eigRe_finite (A : Mat n) : (eigRe A).Finite := by
  have : eigRe A = Complex.re '' {z | z ∈ (A.map (algebraMap ℝ ℂ)).charpoly.roots} := by
    ext x
    simp only [eigRe, Set.mem_ofPred_eq, Set.mem_image]
    constructor
    · rintro ⟨z, hz, rfl⟩; exact ⟨z, hz, rfl⟩
    · rintro ⟨z, hz, rfl⟩; exact ⟨z, hz, rfl⟩
  rw [this]
  refine Set.Finite.image _ ?_
  exact (A.map (algebraMap ℝ ℂ)).charpoly.roots.toFinset.finite_toSet.subset fun z hz => by simpa using hz

theorem eigRe_nonempty (hn : n ≠ 0) (A : Mat n) : (eigRe A).Nonempty := by
  have : Nonempty (Fin n) := ⟨⟨0, Nat.pos_of_ne_zero hn⟩⟩
  have hd : (A.map (algebraMap ℝ ℂ)).charpoly.degree ≠ 0 := by
    rw [charpoly_degree_eq_dim]
    simpa using hn
  obtain ⟨z, hz⟩ := IsAlgClosed.exists_root _ hd
  exact ⟨z.re, z, (Polynomial.mem_roots (charpoly_monic _).ne_zero).2 hz, rfl⟩

theorem eigRe_one_by_one (A : Mat 1) : eigRe A = {A 0 0} := by
  unfold eigRe
  have : (A.map (algebraMap ℝ ℂ)).charpoly = Polynomial.X - Polynomial.C ((A 0 0 : ℝ) : ℂ) := by
    unfold charpoly
    rw [det_fin_one, charmatrix_apply_eq]
    rfl
  rw [this, Polynomial.roots_X_sub_C]
  ext x
  simp

/-- What a successful `get_max_timestep` returns. -/
theorem maxTimestep_spec {m : ℕ} {dun : ℕ → ℝ} {l c : ℕ → Mat n} {d : ℝ}
    (h : maxTimestep m dun l c = .ok d) (hd : ∀ k < m, 0 ≤ dun k) :
    0 < d ∧ (∀ k < m, ∀ x ∈ eigRe (l k * c (k + 1)), 0 < x) ∧
    (∀ k < m, dun k ≠ 0 → ∀ k' < m, ∀ w ∈ phaseVelocities l c k', d * w ≤ dun k) ∧
    ∃ k < m, dun k ≠ 0 ∧ ∃ k' < m, ∃ w ∈ phaseVelocities l c k', d * w = dun k := by
  classical
  unfold maxTimestep at h
  split at h
  · cases h
  rename_i h1
  split at h
  · cases h
  rename_i h2
  injection h with h
  push Not at h1 h2
  obtain ⟨hn, k0, hk0, hk0'⟩ := h1
  set S := {d | d ≠ 0 ∧ ∃ k < m, d = dun k} with hS
  set W := {w | ∃ k < m, w ∈ phaseVelocities l c k} with hW
  have hSf : S.Finite := by
    refine ((Finset.range m).image dun).finite_toSet.subset ?_
    rintro x ⟨-, k, hk, rfl⟩
    simp only [Finset.coe_image, Set.mem_image]
    exact ⟨k, by simpa using hk, rfl⟩
  have hSn : S.Nonempty := ⟨dun k0, hk0', k0, hk0, rfl⟩
  have hWf : W.Finite := by
    have : W = ⋃ k ∈ Finset.range m, (fun x => 1 / Real.sqrt x) '' eigRe (l k * c (k + 1)) := by
      ext w
      simp only [hW, phaseVelocities, Set.mem_ofPred_eq, Finset.mem_range, Set.mem_iUnion, Set.mem_image,
        exists_prop]
      constructor
      · rintro ⟨k, hk, x, hx, rfl⟩; exact ⟨k, hk, x, hx, rfl⟩
      · rintro ⟨k, hk, x, hx, rfl⟩; exact ⟨k, hk, x, hx, rfl⟩
    rw [this]
    exact Set.Finite.biUnion (Finset.range m).finite_toSet fun k _ => (eigRe_finite _).image _
  have hWn : W.Nonempty := by
    obtain ⟨x, hx⟩ := eigRe_nonempty hn (l k0 * c (k0 + 1))
    exact ⟨_, k0, hk0, x, hx, rfl⟩
  obtain ⟨hne, k1, hk1, e1⟩ : sInf S ∈ S := hSn.csInf_mem hSf
  obtain ⟨k2, hk2, hw2⟩ : sSup W ∈ W := hWn.csSup_mem hWf
  have hpos : 0 < sSup W := by
    obtain ⟨x, hx, e⟩ := hw2
    rw [e]
    exact one_div_pos.2 (Real.sqrt_pos.2 (h2 k2 hk2 x hx))
  have hSpos : 0 < sInf S := lt_of_le_of_ne (e1 ▸ hd k1 hk1) (Ne.symm hne)
  have hdpos : 0 < d := by rw [← h]; exact div_pos hSpos hpos
  refine ⟨hdpos, h2, ?_, k1, hk1, e1 ▸ hne, k2, hk2, sSup W, hw2, ?_⟩
  · intro k hk hk' k' hk'' w hw
    have a1 : sInf S ≤ dun k := csInf_le hSf.bddBelow ⟨hk', k, hk, rfl⟩
    have a2 : w ≤ sSup W := le_csSup hWf.bddAbove ⟨k', hk'', hw⟩
    calc d * w ≤ d * sSup W := mul_le_mul_of_nonneg_left a2 hdpos.le
      _ = sInf S := by rw [← h]; field_simp
      _ ≤ dun k := a1
  · rw [← h, ← e1]; field_simp

/-- The Courant condition as used in the energy estimate. -/
theorem maxTimestep_eig {m : ℕ} {dun : ℕ → ℝ} {l c : ℕ → Mat n} {d : ℝ}
    (h : maxTimestep m dun l c = .ok d) (hd : ∀ k < m, 0 ≤ dun k) (k : ℕ) (hk : k < m) (hk0 : dun k ≠ 0)
    (x : ℝ) (hx : x ∈ eigRe (l k * c (k + 1))) : (d / dun k) ^ 2 ≤ x := by
  obtain ⟨hpos, hx0, hle, -⟩ := maxTimestep_spec h hd
  have hxp := hx0 k hk x hx
  have h1 := hle k hk hk0 k hk _ ⟨x, hx, rfl⟩
  have hdk : 0 < dun k := lt_of_le_of_ne (hd k hk) (Ne.symm hk0)
  have hs := Real.sqrt_pos.2 hxp
  have h2 : d / dun k ≤ Real.sqrt x := by
    rw [div_le_iff₀ hdk]
    rw [mul_one_div, div_le_iff₀ hs] at h1
    linarith
  calc (d / dun k) ^ 2 ≤ Real.sqrt x ^ 2 := by gcongr
    _ = x := Real.sq_sqrt hxp.le

end Mtln
