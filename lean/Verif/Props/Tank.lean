import Verif.Props.Terminations
import Mathlib.LinearAlgebra.Matrix.ToLinearEquiv

/-! # A line end terminated with R in series with L parallel to C: witnesses for C46, C56, C57 -/

namespace Mtln

open Matrix

/-- One node at the left end of the demo line, with a termination of the given type. -/
noncomputable def demoEnd (type : String) : List (LineConnections 0) :=
  [{ line := ⟨1, demoBare 0⟩, side := "S", bundleName := "demo", connections :=
      [{ id := 0, conductor := 0, connector := { connectorType := type } }] }]

/-- The node of the demo network. -/
def demoNode (slots : List ℕ) : Node := ⟨0, "demo", 0, .S, "demo", slots, 1, fun _ => 0⟩

/-- The network after the constructor, with `S` state variables. -/
noncomputable def demoNet (slots : List ℕ) (S : ℕ) : Network 1 S :=
  NetBuild.finish ⟨[demoNode slots], S, [⟨1, (demoBare 0).c 0⟩]⟩

theorem demoTank_new : Network.new (demoEnd "Conn_LCpRs") = .ok ⟨1, 2, demoNet [0, 1] 2⟩ := by
  refine networkNew_ok_iff.2 ⟨⟨[demoNode [0, 1]], 2, [⟨1, (demoBare 0).c 0⟩]⟩, ?_, rfl⟩
  simp [demoEnd, NetBuild.addLine, NetBuild.addNode, bind, Except.bind, pyAssert, raiseIf, stateVarsIn,
    List.insertionSort, List.orderedInsert, demoBare, pure, Except.pure, demoNode, List.range_succ]

theorem demoCap_new : Network.new (demoEnd "Conn_C") = .ok ⟨1, 1, demoNet [0] 1⟩ := by
  refine networkNew_ok_iff.2 ⟨⟨[demoNode [0]], 1, [⟨1, (demoBare 0).c 0⟩]⟩, ?_, rfl⟩
  simp [demoEnd, NetBuild.addLine, NetBuild.addNode, bind, Except.bind, pyAssert, raiseIf, stateVarsIn,
    List.insertionSort, List.orderedInsert, demoBare, pure, Except.pure, demoNode]

theorem demoRes_new : Network.new (demoEnd "Conn_R") = .ok ⟨1, 0, demoNet [] 0⟩ := by
  refine networkNew_ok_iff.2 ⟨⟨[demoNode []], 0, [⟨1, (demoBare 0).c 0⟩]⟩, ?_, rfl⟩
  simp [demoEnd, NetBuild.addLine, NetBuild.addNode, bind, Except.bind, pyAssert, raiseIf, stateVarsIn,
    List.insertionSort, List.orderedInsert, demoBare, pure, Except.pure, demoNode]

theorem demoNet_find (slots : List ℕ) (S : ℕ) : (demoNet slots S).find 0 = some 0 := by
  simp [Network.find, demoNet, NetBuild.finish, List.finRange, demoNode]

theorem demoNet_dxc (slots : List ℕ) (S : ℕ) : (demoNet slots S).dxc = 1 := by
  ext a b
  rw [Network.dxc, Matrix.of_apply]
  fin_cases a; fin_cases b
  simp [demoNet, NetBuild.finish, demoNode, blockEntry, demoBare]

theorem advance_exists {N S : ℕ} {nw : Network N S} {time dt : ℝ} (hp : nw.Prepared dt)
    (hdet : (nw.system dt).det ≠ 0) : ∃ nw', nw.advanceVoltage time dt = .ok nw' := by
  obtain ⟨h1, h2, h3⟩ := Network.Prepared.iff.1 hp
  unfold Network.advanceVoltage
  rw [h3]
  simp only [bind_ok_iff, raiseIf_ok_iff, not_not, Except.ok.injEq]
  exact ⟨_, (), h1, (), h2, (), hdet, rfl⟩

/-- A network with all connections made and its matrices computed takes a step if its system is regular. -/
theorem takes_step {N S : ℕ} {nw0 nb : Network N S} {l : List Call} {dt : ℝ} (hb : nw0.calls l = .ok nb)
    (hc : nw0.cSize = N) (hdt : dt ≠ 0) (hdet : (nb.system dt).det ≠ 0) (time : ℝ) :
    ∃ nw nw', nb.SameCircuit nw ∧ nw.Prepared dt ∧ nw.advanceVoltage time dt = .ok nw' ∧ nw.v = nb.v ∧ nw.X = nb.X ∧
      nw.i = nb.i ∧ nw.vPrev = nb.vPrev ∧ nw.dxc = nb.dxc := by
  have hcb : nb.cSize = N := by
    refine calls_induct (Q := fun x => x.cSize = N) (A := fun _ => True) ?_ (fun _ _ => trivial) hb hc
    intro nx nx' c _ h h'
    obtain ⟨E, -, rfl⟩ := call_ok_iff.1 h'
    exact h
  obtain ⟨nw, hnw⟩ : ∃ nw, nb.computeVTerms dt = .ok nw := by
    rw [show (∃ nw, nb.computeVTerms dt = .ok nw) ↔ _ from exists_congr fun nw => computeVTerms_ok_iff]
    exact ⟨_, hcb, hdt, rfl⟩
  have hp := computeVTerms_prepared hnw
  obtain ⟨-, -, e⟩ := computeVTerms_ok_iff.1 hnw
  obtain ⟨nw', h'⟩ := advance_exists (time := time) hp (by rw [e]; exact hdet)
  refine ⟨nw, nw', ?_, hp, h', ?_⟩
  · subst e; exact ⟨rfl, rfl, rfl, rfl, rfl, rfl, rfl, rfl, rfl, rfl⟩
  · subst e; exact ⟨rfl, rfl, rfl, rfl, rfl⟩

/-- A matrix is regular if only zero is mapped to zero. -/
theorem det_ne_zero_of_injective {ι : Type} [Fintype ι] [DecidableEq ι] {A : Matrix ι ι ℝ}
    (h : ∀ x, A.mulVec x = 0 → x = 0) : A.det ≠ 0 := by
  intro hd
  obtain ⟨x, hx, h0⟩ := Matrix.exists_mulVec_eq_zero_iff.2 hd
  exact hx (h x h0)

/-- **C57** is false: with R = 2, L = C = 1 and a source of 1 V, a network at rest takes a step after which the capacitor
equation is violated. -/
theorem C57_refuted : ∃ nb nw nw' : Network 1 2,
    (demoNet [0, 1] 2).calls ([] ++ .groundLCpRs 0 2 1 1 (some fun _ => 1) :: []) = .ok nb ∧ nb.SameCircuit nw ∧
    nw.v = 0 ∧ nw.X = 0 ∧ nw.i = 0 ∧ nw.Prepared 1 ∧ nw.advanceVoltage 0 1 = .ok nw' ∧
    ¬ 1 * (nw'.X 0 - nw.X 0) / 1 = (nw'.v 0 - 1 - nw'.X 0) / 2 - (-nw'.X 1) := by
  have h0 := new_fresh demoTank_new
  have hE : ∃ E : Effect 1 2, (Call.groundLCpRs 0 2 1 1 (some fun _ => 1)).HasEffect (demoNet [0, 1] 2) E ∧
      E.P1 0 0 = .set (-1 / 2) ∧ (E.M 0 0 = .set (1 / 2)) ∧ E.M 0 1 = .set 1 ∧ E.M 1 0 = .set (-1) ∧
      E.M 1 1 = .set 0 ∧ E.N1 0 0 = .set (-1 / 2) ∧ E.N1 1 0 = .set 0 ∧ E.O 0 0 = .set (1 / 2) ∧ E.O 0 1 = .set 0 ∧
      E.Q1 0 0 = .add 0 :=
    ⟨_, ⟨0, 0, 1, demoNet_find _ _, by norm_num, by norm_num, by norm_num, by norm_num, by norm_num, by norm_num, rfl,
      rfl⟩, by simp, by simp, by simp, by simp, by simp, by simp, by simp, by simp, by simp, by simp⟩
  obtain ⟨E, hE, p, m00, m01, m10, m11, n0, n1, o0, o1, q⟩ := hE
  have hb : (demoNet [0, 1] 2).calls ([] ++ .groundLCpRs 0 2 1 1 (some fun _ => 1) :: []) =
      .ok (E.apply (demoNet [0, 1] 2)) :=
    calls_cons.2 ⟨_, call_ok_iff.2 ⟨E, hE, rfl⟩, calls_nil.2 rfl⟩
  have hP : (E.apply (demoNet [0, 1] 2)).P1 0 0 = -1 / 2 := by show (E.P1 0 0).app _ = _; rw [p]; rfl
  have hQ : (E.apply (demoNet [0, 1] 2)).Q1 0 0 = 0 := by
    show (E.Q1 0 0).app 0 = _; rw [q]; simp [Upd.app]
  have hM00 : (E.apply (demoNet [0, 1] 2)).M 0 0 = 1 / 2 := by show (E.M 0 0).app _ = _; rw [m00]; rfl
  have hM01 : (E.apply (demoNet [0, 1] 2)).M 0 1 = 1 := by show (E.M 0 1).app _ = _; rw [m01]; rfl
  have hM10 : (E.apply (demoNet [0, 1] 2)).M 1 0 = -1 := by show (E.M 1 0).app _ = _; rw [m10]; rfl
  have hM11 : (E.apply (demoNet [0, 1] 2)).M 1 1 = 0 := by show (E.M 1 1).app _ = _; rw [m11]; rfl
  have hN0 : (E.apply (demoNet [0, 1] 2)).N1 0 0 = -1 / 2 := by show (E.N1 0 0).app _ = _; rw [n0]; rfl
  have hN1 : (E.apply (demoNet [0, 1] 2)).N1 1 0 = 0 := by show (E.N1 1 0).app _ = _; rw [n1]; rfl
  have hO0 : (E.apply (demoNet [0, 1] 2)).O 0 0 = 1 / 2 := by show (E.O 0 0).app _ = _; rw [o0]; rfl
  have hO1 : (E.apply (demoNet [0, 1] 2)).O 0 1 = 0 := by show (E.O 0 1).app _ = _; rw [o1]; rfl
  have hdx : (E.apply (demoNet [0, 1] 2)).dxc = 1 := demoNet_dxc [0, 1] 2
  have hdet : ((E.apply (demoNet [0, 1] 2)).system 1).det ≠ 0 := by
    apply det_ne_zero_of_injective
    intro x hx
    have e0 := congrFun hx (.inl 0)
    have e1 := congrFun hx (.inr 0)
    have e2 := congrFun hx (.inr 1)
    simp only [Network.system, mulVec, dotProduct, Fintype.sum_sum_type, Fin.sum_univ_two, Finset.univ_unique,
      Fin.default_eq_zero, Finset.sum_singleton, fromBlocks_apply₁₁, fromBlocks_apply₁₂, fromBlocks_apply₂₁,
      fromBlocks_apply₂₂, Matrix.sub_apply, Matrix.neg_apply, Matrix.smul_apply, hP, hQ, hM00, hM01, hM10, hM11, hN0,
      hN1, hO0, hO1, hdx, Matrix.one_apply, smul_eq_mul, Pi.zero_apply] at e0 e1 e2
    norm_num at e0 e1 e2
    have x0 : x (.inl 0) = 0 := by linarith
    have x1 : x (.inr 0) = 0 := by linarith
    have x2 : x (.inr 1) = 0 := by linarith
    funext z
    rcases z with z | z
    · fin_cases z; exact x0
    · fin_cases z
      · exact x1
      · exact x2
  obtain ⟨nw, nw', hs, hp, h, hv, hX, hi, -, hdx'⟩ := takes_step hb rfl one_ne_zero hdet 0
  have hv' : nw.v = 0 := hv
  have hX' : nw.X = 0 := hX
  have hi' : nw.i = 0 := hi
  refine ⟨_, nw, nw', hb, hs, hv', hX', hi', hp, h, ?_⟩
  have hid : (nw.nodes 0).id = 0 := by rw [hs.nodes]; rfl
  have hst : (nw.nodes 0).stateIndex = [((0 : Fin 2) : ℕ), ((1 : Fin 2) : ℕ)] := by rw [hs.nodes]; rfl
  obtain ⟨e1, e2, e3, -⟩ := lcprs_equations h0 hb hs (by simp) (by simp) hp h hid hst
  intro hc
  have heT : ∀ t, (nw.nodes 0).eT t = 0 := by intro t; rw [hs.nodes]; rfl
  have ed : nw.drawn nw' 0 1 0 = -(1 / 2) * nw'.v 0 := by
    unfold Network.drawn
    rw [hdx', hdx, one_mulVec]
    simp [heT, hv', hi']
  rw [ed] at e1
  simp only [hv', hX', Pi.zero_apply, Option.getD_some] at e1 e2 e3 hc
  norm_num at e1 e2 e3 hc
  linarith

/-- Non-vacuity of C46: a resistor of 1 Ω and a source of 1 V at the left end of the demo line. -/
example : ∃ nb nw nw' : Network 1 0, (demoNet [] 0).Fresh ∧
    (demoNet [] 0).calls ([] ++ .ground 0 1 (some fun _ => 1) :: []) = .ok nb ∧ nb.SameCircuit nw ∧ nw.Prepared 1 ∧
    nw.advanceVoltage 0 1 = .ok nw' ∧ (nw.nodes 0).id = 0 := by
  have hE : ∃ E : Effect 1 0, (Call.ground 0 1 (some fun _ => 1)).HasEffect (demoNet [] 0) E ∧
      E.P1 0 0 = .set (-1) ∧ E.Q1 0 0 = .add 0 := ⟨_, ⟨0, demoNet_find _ _, by simp, rfl⟩, by simp, by simp⟩
  obtain ⟨E, hE, p, q⟩ := hE
  have hb : (demoNet [] 0).calls ([] ++ .ground 0 1 (some fun _ => 1) :: []) = .ok (E.apply (demoNet [] 0)) :=
    calls_cons.2 ⟨_, call_ok_iff.2 ⟨E, hE, rfl⟩, calls_nil.2 rfl⟩
  have hP : (E.apply (demoNet [] 0)).P1 0 0 = -1 := by show (E.P1 0 0).app _ = _; rw [p]; rfl
  have hQ : (E.apply (demoNet [] 0)).Q1 0 0 = 0 := by show (E.Q1 0 0).app 0 = _; rw [q]; simp [Upd.app]
  have hdx : (E.apply (demoNet [] 0)).dxc = 1 := demoNet_dxc [] 0
  have hdet : ((E.apply (demoNet [] 0)).system 1).det ≠ 0 := by
    apply det_ne_zero_of_injective
    intro x hx
    have e0 := congrFun hx (.inl 0)
    simp only [Network.system, mulVec, dotProduct, Fintype.sum_sum_type, Finset.univ_unique, Finset.univ_eq_empty,
      Finset.sum_empty, Fin.default_eq_zero, Finset.sum_singleton, fromBlocks_apply₁₁, Matrix.sub_apply,
      Matrix.smul_apply, hP, hQ, hdx, Matrix.one_apply, smul_eq_mul, Pi.zero_apply] at e0
    norm_num at e0
    funext z
    rcases z with z | z
    · fin_cases z; exact e0
    · exact z.elim0
  obtain ⟨nw, nw', hs, hp, h, -⟩ := takes_step hb rfl one_ne_zero hdet 0
  exact ⟨_, nw, nw', new_fresh demoRes_new, hb, hs, hp, h, by rw [hs.nodes]; rfl⟩

/-- Non-vacuity of C56: a capacitor of 1 F at the left end of the demo line. -/
example : ∃ nb nw nw' : Network 1 1, (demoNet [0] 1).Fresh ∧
    (demoNet [0] 1).calls ([] ++ .groundC 0 1 none :: []) = .ok nb ∧ nb.SameCircuit nw ∧ nw.Prepared 1 ∧
    nw.advanceVoltage 0 1 = .ok nw' ∧ (nw.nodes 0).id = 0 := by
  have hE : ∃ E : Effect 1 1, (Call.groundC 0 1 none).HasEffect (demoNet [0] 1) E ∧
      E.P1 0 0 = .add 0 ∧ E.Q1 0 0 = .set (-1) ∧ E.M 0 0 = .add 0 ∧ E.N1 0 0 = .add 0 ∧ E.O 0 0 = .add 0 :=
    ⟨_, ⟨0, demoNet_find _ _, rfl⟩, by simp, by simp, by simp, by simp, by simp⟩
  obtain ⟨E, hE, p, q, m, n, o⟩ := hE
  have hb : (demoNet [0] 1).calls ([] ++ .groundC 0 1 none :: []) = .ok (E.apply (demoNet [0] 1)) :=
    calls_cons.2 ⟨_, call_ok_iff.2 ⟨E, hE, rfl⟩, calls_nil.2 rfl⟩
  have hP : (E.apply (demoNet [0] 1)).P1 0 0 = 0 := by show (E.P1 0 0).app 0 = _; rw [p]; simp [Upd.app]
  have hQ : (E.apply (demoNet [0] 1)).Q1 0 0 = -1 := by show (E.Q1 0 0).app _ = _; rw [q]; rfl
  have hM : (E.apply (demoNet [0] 1)).M 0 0 = 0 := by show (E.M 0 0).app 0 = _; rw [m]; simp [Upd.app]
  have hN : (E.apply (demoNet [0] 1)).N1 0 0 = 0 := by show (E.N1 0 0).app 0 = _; rw [n]; simp [Upd.app]
  have hO : (E.apply (demoNet [0] 1)).O 0 0 = 0 := by show (E.O 0 0).app 0 = _; rw [o]; simp [Upd.app]
  have hdx : (E.apply (demoNet [0] 1)).dxc = 1 := demoNet_dxc [0] 1
  have hdet : ((E.apply (demoNet [0] 1)).system 1).det ≠ 0 := by
    apply det_ne_zero_of_injective
    intro x hx
    have e0 := congrFun hx (.inl 0)
    have e1 := congrFun hx (.inr 0)
    simp only [Network.system, mulVec, dotProduct, Fintype.sum_sum_type, Finset.univ_unique, Fin.default_eq_zero,
      Finset.sum_singleton, fromBlocks_apply₁₁, fromBlocks_apply₁₂, fromBlocks_apply₂₁, fromBlocks_apply₂₂,
      Matrix.sub_apply, Matrix.neg_apply, Matrix.smul_apply, hP, hQ, hM, hN, hO, hdx, Matrix.one_apply, smul_eq_mul,
      Pi.zero_apply] at e0 e1
    norm_num at e0 e1
    funext z
    rcases z with z | z
    · fin_cases z; exact e0
    · fin_cases z; exact e1
  obtain ⟨nw, nw', hs, hp, h, -⟩ := takes_step hb rfl one_ne_zero hdet 0
  exact ⟨_, nw, nw', new_fresh demoCap_new, hb, hs, hp, h, by rw [hs.nodes]; rfl⟩

end Mtln
