import Verif.Model.Bundle
import Verif.Spec.Symmetry

/-! # Vocabulary for statements about bundles -/

namespace Mtln

variable {n N p : ℕ}

/-- The row of the bundle that belongs to conductor `a` of the line that follows the lines `pre`. -/
def blockRow (pre : List (AnyLine p)) {lines : List (AnyLine p)} {L : AnyLine p} {post : List (AnyLine p)}
    (h : lines = pre ++ L :: post) (a : Fin L.1) : Fin (totalConductors lines) :=
  ⟨totalConductors pre + a, by
    subst h
    have := a.2
    simp only [totalConductors, List.map_append, List.map_cons, List.sum_append, List.sum_cons]
    omega⟩

/-- The rows `e 0, e 1, …` of the bundle `b` hold the voltages, currents and memory of the line `s`. -/
structure BlockState (e : Fin n → Fin N) (b : MTLD N p) (s : MTL n p) : Prop where
  v : ∀ k ≤ s.m, ∀ a, s.v k a = b.v k (e a)
  i : ∀ k < s.m, ∀ a, s.i k a = b.i k (e a)
  phi : ∀ k < s.m, ∀ a, s.phi k a = b.phi k (e a)

/-- The fields along the rows `e 0, e 1, …` of the bundle are those of the line. -/
structure BlockFields (e : Fin n → Fin N) (b : MTLD N p) (s : MTL n p) : Prop where
  eL : ∀ k < s.m, ∀ a, s.eL k a = b.eL k (e a)
  eT : ∀ k ≤ s.m, ∀ a, s.eT k a = b.eT k (e a)

/-- `b` and `b'` differ at most in the voltages of the end nodes. -/
structure SameButEnds (b b' : MTLD N p) : Prop where
  rest : ∃ v, b' = { b with v := v }
  v : ∀ k, k ≠ 0 → k ≠ b.m → b'.v k = b.v k

/-- One time step of a bundle inside a manager: the voltages are advanced, then *something* (the networks) may
write the voltages of the end nodes, then the currents are advanced (mtln.py:104-108). -/
def BundleStep (time dt : ℝ) (b b' : MTLD N p) : Prop :=
  ∃ b1 b2, b.stepVoltage time dt = .ok b1 ∧ SameButEnds b1 b2 ∧ b2.stepCurrent time dt = .ok b'

/-- Both sets of coefficients are computed (mtln.py:75-76). -/
noncomputable def MTLD.prepare (b : MTLD n p) : Py (MTLD n p) := do
  let b ← b.updateLrTerms
  b.updateCgTerms

/-- The sums cached with the coefficients of the dispersive elements are up to date. -/
structure Disp.SumsCached (D : Disp n p) : Prop where
  q1 : D.q1sum = vSum D.q1
  q2 : D.q2sum = vSum D.q2

end Mtln
