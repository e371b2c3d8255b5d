import Verif.Spec.Impedance
import Verif.Props.VectorFit

/-! # The impedance of a model and the functions of VF/utils.py: C163 and C109 -/

namespace Mtln

open Complex Finset

/-- **C163**, the impedance of a model is what the fitting functions evaluate: `vf` with the poles and residues of the model gives its
part with poles at the frequency `f`. -/
theorem C163_fit (M : RationalModel) (f : ℝ) (h : ∀ q < M.polesReal.length, M.pole q ≠ 2 * Real.pi * I * f) :
    ∃ y, VF.vf f ((List.range M.polesReal.length).map M.pole) ((List.range M.polesReal.length).map (M.residue 1)) = .ok y ∧
      M.impedance (2 * Real.pi * I * f) = M.cte + M.prop * (2 * Real.pi * I * f) + y := by
  have hoff : VF.Off f ((List.range M.polesReal.length).map M.pole) := by
    intro x hx
    obtain ⟨q, hq, rfl⟩ := List.mem_map.1 hx
    exact sub_ne_zero.2 (h q (List.mem_range.1 hq)).symm
  refine ⟨_, VF.C109_sum f _ _ hoff (by simp), ?_⟩
  unfold RationalModel.impedance
  congr 1
  obtain ⟨P, hP⟩ : ∃ P, P = (List.range M.polesReal.length).map M.pole := ⟨_, rfl⟩
  have hl : P.length = M.polesReal.length := by simp [hP]
  rw [sum_range]
  refine (Fintype.sum_equiv (finCongr (by simp)) _ _ fun q => ?_).symm
  simp

/-- The fit of `1 / (s + 1)` at direct current. -/
example : ∃ y, VF.vf 0 [(-1 : ℂ)] [1] = .ok y ∧ y = 1 := by
  obtain ⟨y, h1, h2⟩ := C163_fit ⟨0, 0, [-1], [0], [1], [0]⟩ 0 (by
    intro q hq
    obtain rfl : q = 0 := by simpa using hq
    simp [RationalModel.pole])
  refine ⟨y, by simpa [RationalModel.pole, RationalModel.residue, List.range_succ] using h1, ?_⟩
  have : (1 : ℂ) = y := by simpa [RationalModel.impedance, RationalModel.pole, RationalModel.residue] using h2
  exact this.symm

end Mtln
