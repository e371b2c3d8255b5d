import Verif.Lemmas.Fields
import Verif.Lemmas.Probes
import Verif.Spec.Symmetry

/-! # Renumbering the conductors -/

set_option linter.unusedSimpArgs false

namespace Mtln

open Matrix

variable {n p : ℕ} (π : Equiv.Perm (Fin n))

theorem renumMat_mulVec (A : Mat n) (x : Col n) : renumMat π A *ᵥ renumCol π x = renumCol π (A *ᵥ x) := by
  funext a
  simp only [renumMat, renumCol, mulVec, dotProduct, submatrix_apply]
  exact Equiv.sum_comp π fun j => A (π a) j * x j

theorem renumMat_mul (A B : Mat n) : renumMat π (A * B) = renumMat π A * renumMat π B := by
  simp only [renumMat]
  rw [Matrix.submatrix_mul_equiv]

theorem renumMat_inv (A : Mat n) : renumMat π A⁻¹ = (renumMat π A)⁻¹ := by
  simp only [renumMat]
  rw [Matrix.inv_submatrix_equiv]

theorem renumMat_det (A : Mat n) : (renumMat π A).det = A.det := by
  simp [renumMat]

theorem renumMat_add (A B : Mat n) : renumMat π (A + B) = renumMat π A + renumMat π B := rfl
theorem renumMat_sub (A B : Mat n) : renumMat π (A - B) = renumMat π A - renumMat π B := rfl
theorem renumMat_smul (c : ℝ) (A : Mat n) : renumMat π (c • A) = c • renumMat π A := rfl
theorem renumCol_add (x y : Col n) : renumCol π (x + y) = renumCol π x + renumCol π y := rfl
theorem renumCol_sub (x y : Col n) : renumCol π (x - y) = renumCol π x - renumCol π y := rfl
theorem renumCol_neg (x : Col n) : renumCol π (-x) = -renumCol π x := rfl
theorem renumCol_smul (c : ℝ) (x : Col n) : renumCol π (c • x) = c • renumCol π x := rfl

/-- Coefficients renumbered. -/
def LR.renumber (x : LR n) : LR n := ⟨fun k => renumMat π (x.iTerm k), fun k => renumMat π (x.vDiff k)⟩

/-- Coefficients renumbered. -/
def CG.renumber (x : CG n) : CG n := ⟨fun k => renumMat π (x.vTerm k), fun k => renumMat π (x.iDiff k)⟩

theorem renumber_lrF1 (s : MTL n p) (k : ℕ) :
    lrF1 (s.renumber π).dt (s.renumber π).dun (s.renumber π).l (s.renumber π).r (s.renumber π).conn k =
      renumMat π (lrF1 s.dt s.dun s.l s.r s.conn k) := rfl

theorem renumber_lrF2 (s : MTL n p) (k : ℕ) :
    lrF2 (s.renumber π).dt (s.renumber π).dun (s.renumber π).l (s.renumber π).r (s.renumber π).conn k =
      renumMat π (lrF2 s.dt s.dun s.l s.r s.conn k) := rfl

theorem renumber_updateLr (s : MTL n p) :
    updateLr (s.renumber π).m (s.renumber π).dt (s.renumber π).dun (s.renumber π).l (s.renumber π).r
      (s.renumber π).conn = (updateLr s.m s.dt s.dun s.l s.r s.conn).map (LR.renumber π) := by
  unfold updateLr
  simp only [renumber_lrF1, renumber_lrF2, renumMat_det, ← renumMat_inv, ← renumMat_mul]
  show (if s.dt = 0 then _ else if (∃ k, k < s.m ∧ _) then _ else _) = _
  split
  · rfl
  · split
    · rename_i h; exact if_pos h
    · rename_i h; exact if_neg h

theorem renumber_updateCg (s : MTL n p) :
    updateCg (s.renumber π).m (s.renumber π).dt (s.renumber π).dun (s.renumber π).c (s.renumber π).g =
      (updateCg s.m s.dt s.dun s.c s.g).map (CG.renumber π) := by
  have h1 : ∀ k, cgF1 (s.renumber π).m (s.renumber π).dt (s.renumber π).dun (s.renumber π).c (s.renumber π).g k
    = renumMat π (cgF1 s.m s.dt s.dun s.c s.g k) := fun _ => rfl
  have h2 : ∀ k, cgF2 (s.renumber π).m (s.renumber π).dt (s.renumber π).dun (s.renumber π).c (s.renumber π).g k
    = renumMat π (cgF2 s.m s.dt s.dun s.c s.g k) := fun _ => rfl
  unfold updateCg
  simp only [h1, h2, renumMat_det, ← renumMat_inv, ← renumMat_mul]
  show (if s.dt = 0 then _ else if (∃ k, k ≤ s.m ∧ _) then _ else _) = _
  split
  · rfl
  · split
    · rename_i h; exact if_pos h
    · rename_i h; exact if_neg h

theorem renumber_q3phi (D : Disp n p) (phi : Memory n p) (k : ℕ) :
    (D.renumber π).q3phi (fun k j => phi k (π j)) k = renumCol π (D.q3phi phi k) := by
  funext a
  simp only [Disp.q3phi, renumCol, Disp.renumber]
  congr 1
  funext σ
  exact Equiv.sum_comp π fun j => (D.q3 k (π a) j).val σ * phi k j σ

theorem renumber_updatePhi (D : Disp n p) (phi : Memory n p) (i : Grid n) :
    (D.renumber π).updatePhi (fun k j => phi k (π j)) (fun k => renumCol π (i k)) (fun k => renumCol π (i k)) =
      fun k j => D.updatePhi phi i i k (π j) := by
  funext k a σ
  simp only [Disp.updatePhi, renumCol, Disp.renumber]
  congr 1
  · congr 1
    · exact Equiv.sum_comp π fun j => (D.q1 k (π a) j).val σ * (i k j : ℂ)
    · exact Equiv.sum_comp π fun j => (D.q2 k (π a) j).val σ * (i k j : ℂ)
  · exact Equiv.sum_comp π fun j => (D.q3 k (π a) j).val σ * phi k j σ

theorem renumber_update (f : Grid n) (a : ℕ) (x : Col n) :
    (fun k => renumCol π (Function.update f a x k)) =
      Function.update (fun k => renumCol π (f k)) a (renumCol π x) := by
  funext k
  by_cases h : k = a
  · subst h; simp
  · simp [h]

theorem renumber_advance (s : MTL n p) (lr : LR n) (cg : CG n) :
    (s.renumber π).advanceFields (lr.renumber π) (cg.renumber π) = (s.advanceFields lr cg).renumber π := by
  have hL : ∀ v : Grid n, (s.renumber π).advanceLeftTerminal (s.renumber π).sample (fun k => renumCol π (v k))
      (s.renumber π).i = fun k => renumCol π (s.advanceLeftTerminal s.sample v s.i k) := by
    intro v
    unfold MTL.advanceLeftTerminal
    rw [renumber_update]
    congr 1
    simp only [renumCol_add, renumCol_sub, renumCol_neg, renumCol_smul, ← renumMat_mulVec, renumMat_mul]
    rfl
  have hI : ∀ v : Grid n, advanceVoltage (s.renumber π).m (cg.renumber π) (s.renumber π).sample
      (fun k => renumCol π (v k)) (s.renumber π).i =
        fun k => renumCol π (advanceVoltage s.m cg s.sample v s.i k) := by
    intro v
    funext k
    unfold advanceVoltage
    show (if 0 < k ∧ k < s.m then _ else _) = _
    split
    · simp only [renumCol_add, renumCol_sub, renumCol_neg, renumCol_smul, ← renumMat_mulVec, renumMat_mul]
      rfl
    · rfl
  have hR : ∀ v : Grid n, (s.renumber π).advanceRightTerminal (s.renumber π).sample (fun k => renumCol π (v k))
      (s.renumber π).i = fun k => renumCol π (s.advanceRightTerminal s.sample v s.i k) := by
    intro v
    unfold MTL.advanceRightTerminal
    rw [renumber_update]
    congr 1
    simp only [renumCol_add, renumCol_sub, renumCol_neg, renumCol_smul, ← renumMat_mulVec, renumMat_mul]
    rfl
  have hv : ((s.renumber π).advanceFields (lr.renumber π) (cg.renumber π)).v =
      ((s.advanceFields lr cg).renumber π).v := by
    show (s.renumber π).advanceRightTerminal _ (advanceVoltage _ _ _ ((s.renumber π).advanceLeftTerminal _
      (fun k => renumCol π (s.v k)) _) _) _ = _
    rw [hL, hI, hR]
    rfl
  have hi : ((s.renumber π).advanceFields (lr.renumber π) (cg.renumber π)).i =
      ((s.advanceFields lr cg).renumber π).i := by
    have : ((s.renumber π).advanceFields (lr.renumber π) (cg.renumber π)).i =
      advanceCurrent s.m (lr.renumber π) s.dun
        ((s.conn.renumber π).q3phi (fun k j => s.phi k (π j))) (s.renumber π).sample
        ((s.renumber π).advanceFields (lr.renumber π) (cg.renumber π)).v (s.renumber π).i := rfl
    rw [this, hv]
    funext k
    unfold advanceCurrent
    rw [renumber_q3phi]
    show _ = renumCol π ((s.advanceFields lr cg).i k)
    split
    · rename_i hk
      rw [advanceFields_i _ _ _ _ hk]
      simp only [renumCol_add, renumCol_sub, renumCol_neg, renumCol_smul, ← renumMat_mulVec, renumMat_mul]
      rfl
    · rename_i hk
      rw [advanceFields_i_beyond _ _ _ _ (by omega)]
      rfl
  have hphi : ((s.renumber π).advanceFields (lr.renumber π) (cg.renumber π)).phi =
      ((s.advanceFields lr cg).renumber π).phi := by
    rw [advanceFields_phi, hi]
    exact renumber_updatePhi π s.conn s.phi (s.advanceFields lr cg).i
  have : ∀ w : MTL n p, ∀ a b, w.advanceFields a b =
      { w with v := (w.advanceFields a b).v, i := (w.advanceFields a b).i, phi := (w.advanceFields a b).phi,
               time := w.time + w.dt } := fun _ _ _ => rfl
  rw [this, hv, hi, hphi]
  rfl

theorem renumber_saveFrame (q : Probe n) (t : ℝ) (x : Col n) :
    (q.renumber π).saveFrame t (renumCol π x) = (q.saveFrame t x).renumber π := by
  unfold Probe.saveFrame
  show (if q.currentFrame < q.t.length then _ else _) = _
  split
  · simp only [Probe.renumber]
    cases q.val <;> simp [ProbeVal.renumber, List.map_set]
  · simp only [Probe.renumber]
    cases q.val <;> simp [ProbeVal.renumber]

theorem renumber_update_probe (m : ℕ) (t : ℝ) (v i : Grid n) (q : Probe n) :
    (q.renumber π).update m t (fun k => renumCol π (v k)) (fun k => renumCol π (i k)) =
      (q.update m t v i).map (Probe.renumber π) := by
  unfold Probe.update
  show (if q.type = "voltage" ∨ q.type = "current" then _ else _) = _
  split
  · have : (q.renumber π).column m (fun k => renumCol π (v k)) (fun k => renumCol π (i k)) =
        renumCol π (q.column m v i) := by
      unfold Probe.column
      show (if q.type = "voltage" then _ else if q.index = m then _ else _) = _
      split
      · rfl
      · split <;> rfl
    rw [this]
    exact congrArg Except.ok (renumber_saveFrame π q _ _)
  · rfl

theorem renumber_updateProbes (m : ℕ) (t : ℝ) (v i : Grid n) (ps : List (Probe n)) :
    updateProbes m t (fun k => renumCol π (v k)) (fun k => renumCol π (i k)) (ps.map (Probe.renumber π)) =
      (updateProbes m t v i ps).map (List.map (Probe.renumber π)) := by
  induction ps with
  | nil => rfl
  | cons q qs ih =>
    simp only [List.map_cons, updateProbes]
    rw [renumber_update_probe, ih]
    cases q.update m t v i with
    | error e => rfl
    | ok q' =>
      cases updateProbes m t v i qs with
      | error e => rfl
      | ok qs' => rfl

theorem renumber_step (s : MTL n p) : (s.renumber π).step = s.step.map (MTL.renumber π) := by
  unfold MTL.step
  cases hlr : s.lr with
  | none => simp only [MTL.renumber, hlr]; rfl
  | some lr =>
    cases hcg : s.cg with
    | none => simp only [MTL.renumber, hlr, hcg]; rfl
    | some cg =>
      have h1 : (s.renumber π).lr = some (lr.renumber π) := by simp only [MTL.renumber, hlr]; rfl
      have h2 : (s.renumber π).cg = some (cg.renumber π) := by simp only [MTL.renumber, hcg]; rfl
      rw [h1, h2]
      simp only
      rw [renumber_advance]
      have := renumber_updateProbes π (s.advanceFields lr cg).m (s.advanceFields lr cg).time
        (s.advanceFields lr cg).v (s.advanceFields lr cg).i (s.advanceFields lr cg).probes
      have e : updateProbes ((s.advanceFields lr cg).renumber π).m ((s.advanceFields lr cg).renumber π).time
        ((s.advanceFields lr cg).renumber π).v ((s.advanceFields lr cg).renumber π).i
        ((s.advanceFields lr cg).renumber π).probes = _ := this
      rw [e]
      cases updateProbes (s.advanceFields lr cg).m (s.advanceFields lr cg).time
        (s.advanceFields lr cg).v (s.advanceFields lr cg).i (s.advanceFields lr cg).probes <;> rfl

theorem renumber_iter (N : ℕ) (s : MTL n p) :
    iterPy MTL.step N (s.renumber π) = (iterPy MTL.step N s).map (MTL.renumber π) := by
  induction N generalizing s with
  | zero => rfl
  | succ N ih =>
    unfold iterPy
    rw [renumber_step]
    cases h : s.step with
    | error e => rfl
    | ok s' => exact ih s'

theorem renumber_resize (N : ℕ) (q : Probe n) :
    (q.renumber π).resizeFrames N = (q.resizeFrames N).renumber π := by
  simp only [Probe.resizeFrames, Probe.renumber, ProbeVal.renumber, List.map_replicate]
  rfl

theorem runUntil_eq (T : ℝ) (s : MTL n p) : s.runUntil T =
    (timeRangeLen T s.dt >>= fun N => updateLr s.m s.dt s.dun s.l s.r s.conn >>= fun lr =>
      updateCg s.m s.dt s.dun s.c s.g >>= fun cg =>
      iterPy MTL.step N { s with lr := some lr, cg := some cg,
                                 probes := s.probes.map (Probe.resizeFrames N) } : Py (MTL n p)) := by
  unfold MTL.runUntil MTL.updateLrTerms MTL.updateCgTerms
  cases timeRangeLen T s.dt with
  | error e => rfl
  | ok N =>
    simp only [bind, Except.bind]
    cases updateLr s.m s.dt s.dun s.l s.r s.conn with
    | error e => rfl
    | ok lr =>
      simp only
      cases updateCg s.m s.dt s.dun s.c s.g <;> rfl

theorem renumber_runUntil (T : ℝ) (s : MTL n p) :
    (s.renumber π).runUntil T = (s.runUntil T).map (MTL.renumber π) := by
  rw [runUntil_eq, runUntil_eq, renumber_updateLr, renumber_updateCg]
  show (timeRangeLen T s.dt >>= _) = _
  cases timeRangeLen T s.dt with
  | error e => rfl
  | ok N =>
    simp only [bind, Except.bind]
    cases updateLr s.m s.dt s.dun s.l s.r s.conn with
    | error e => rfl
    | ok lr =>
      simp only [Except.map]
      cases updateCg s.m s.dt s.dun s.c s.g with
      | error e => rfl
      | ok cg =>
        have := renumber_iter π N
          ({ s with lr := some lr, cg := some cg, probes := s.probes.map (Probe.resizeFrames N) } : MTL n p)
        refine Eq.trans ?_ this
        simp only
        congr 1
        simp only [MTL.renumber, List.map_map]
        congr 1
        exact List.map_congr_left fun q _ => renumber_resize π N q

end Mtln
