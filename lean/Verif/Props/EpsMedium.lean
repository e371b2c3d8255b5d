import Verif.Props.Scripts

/-! # The numbers of the medium of VF_eps.py: C176 -/

namespace Mtln.VF

open Complex

/-- **C176** The permittivity that VF_eps.py tabulates, number by number. -/
theorem C176_medium (f : ℝ) : epsDebye f epsK epsTau = .ok (1 + 10 / (1 + 2 * Real.pi * I * f * (1 / 1000)) +
    100 / (1 + 2 * Real.pi * I * f * (1 / 10000)) + (1 / 10) / (1 + 2 * Real.pi * I * f * (1 / 100000)) +
    10 / (1 + 2 * Real.pi * I * f * (1 / 1000000)) + 100 / (1 + 2 * Real.pi * I * f * (1 / 1000000000))) := by
  rw [epsDebye, epsDebyeFrom_eq f 1 1 epsK epsTau le_rfl]
  congr 1
  simp only [epsK, epsTau, List.zip_cons_cons, List.zip_nil_right, List.map_cons, List.map_nil, List.sum_cons, List.sum_nil]
  push_cast
  norm_num [zpow_neg]
  ring

end Mtln.VF
