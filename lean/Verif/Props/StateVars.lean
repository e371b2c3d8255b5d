import Verif.Model.StateVars
import Verif.Props.Tank

/-! # Counting state variables: C168 -/

namespace Mtln

variable {p : ℕ}

/-- Connections on which the two ways of counting agree: none is a termination of type `Conn_LCpRs`, and connectors for several
wires are at the place of their conductor. -/
def Aligned (l : List Connection) : Prop :=
  ∀ (i : ℕ) (c : Connection), l[i]? = some c → c.connector.connectorType ≠ "Conn_LCpRs" ∧ (c.connector.connectorType = "MultiwireConnector" → c.conductor = i)

theorem stateVarsAt_eq {c : Connector} {i : ℕ} (h : c.connectorType ≠ "Conn_LCpRs") : stateVarsAt c i = stateVarsIn c i := by
  unfold stateVarsAt stateVarsIn
  simp only [if_neg h]
  rfl

theorem stateVarsIn_place {c : Connector} {i j : ℕ} (h : c.connectorType ≠ "MultiwireConnector") : stateVarsIn c i = stateVarsIn c j := by
  unfold stateVarsIn
  simp only [if_neg h]

/-- What one node adds to the number of state variables, summed. -/
theorem addNodes_stateVars {side : Side} {line : AnyLine p} {name : String} : ∀ (l : List Connection) (start total : ℕ) {B B' : NetBuild},
    (∀ (i : ℕ) (c : Connection), l[i]? = some c → c.connector.connectorType ≠ "Conn_LCpRs" ∧
      (c.connector.connectorType = "MultiwireConnector" → c.conductor = start + i)) →
    l.foldlM (fun B conn => B.addNode side line name conn) B = .ok B' →
    ∃ k, (l.zipIdx start).foldlM (fun total e => (do
      let k ← stateVarsAt e.1.connector e.2
      .ok (total + k) : Py ℕ)) total = .ok (total + k) ∧ B'.stateVars = B.stateVars + k := by
  intro l
  induction l with
  | nil =>
    intro start total B B' _ h
    obtain rfl : B = B' := by simpa [pure, Except.pure] using h
    exact ⟨0, rfl, rfl⟩
  | cons c l ih =>
    intro start total B B' hl h
    rw [List.foldlM_cons] at h
    obtain ⟨B1, h1, h2⟩ := bind_ok_iff.1 h
    obtain ⟨-, -, k, hk, -, _, hB⟩ := NetBuild.addNode_ok_iff.1 h1
    have hs : B1.stateVars = B.stateVars + k := by rw [hB]
    obtain ⟨k', e1, e2⟩ := ih (start + 1) (total + k) (fun i d hd => by
      have := hl (i + 1) d (by simpa using hd)
      exact ⟨this.1, fun h => by rw [this.2 h]; omega⟩) h2
    obtain ⟨hne, hm⟩ := hl 0 c rfl
    have hc : stateVarsAt c.connector start = .ok k := by
      rw [stateVarsAt_eq hne, ← hk]
      by_cases hM : c.connector.connectorType = "MultiwireConnector"
      · rw [hm hM]; rfl
      · exact stateVarsIn_place hM
    refine ⟨k + k', ?_, ?_⟩
    · rw [List.zipIdx_cons, List.foldlM_cons]
      refine bind_ok_iff.2 ⟨total + k, ?_, ?_⟩
      · exact bind_ok_iff.2 ⟨k, hc, rfl⟩
      · rw [e1, Nat.add_assoc]
    · rw [e2, hs, Nat.add_assoc]

/-- **C168**, the part that holds: for connections in the order of their conductors, none of type `Conn_LCpRs` and each connector
for several wires at the place of its conductor, the count is what the constructor adds for the line. -/
theorem C168_count_partial {B B' : NetBuild} {d : LineConnections p} (hl : Aligned d.connections)
    (ho : d.connections.Pairwise fun a b => a.conductor ≤ b.conductor) (h : B.addLine d = .ok B') :
    ∃ k, numberOfStateVars d.connections = .ok k ∧ B'.stateVars = B.stateVars + k := by
  unfold NetBuild.addLine at h
  obtain ⟨-, -, h⟩ := bind_ok_iff.1 h
  simp only [ho.insertionSort_eq] at h
  obtain ⟨k, h1, h2⟩ := addNodes_stateVars d.connections 0 0 (fun i c hi => by
    rw [Nat.zero_add]; exact hl i c hi) h
  rw [Nat.zero_add] at h1
  exact ⟨k, h1, h2⟩

/-- **C168** is false of the code: a termination of type `Conn_LCpRs` gets two state variables from the constructor; the function
counts none.  For a connector of two wires whose second wire is connected it looks at the first wire. -/
theorem C168_refuted :
    (∃ nw : Network 1 2, Network.new (demoEnd "Conn_LCpRs") = .ok ⟨1, 2, nw⟩ ∧
      ∀ d ∈ demoEnd "Conn_LCpRs", numberOfStateVars d.connections = .ok 0) ∧
    ∃ c : Connection, stateVarsIn c.connector c.conductor = .ok 1 ∧ numberOfStateVars [c] = .ok 0 := by
  constructor
  · refine ⟨_, demoTank_new, fun d hd => ?_⟩
    rw [List.mem_singleton.1 hd]
    simp [numberOfStateVars, stateVarsAt, bind, Except.bind, pure, Except.pure]
  · refine ⟨⟨0, 1, { connectorType := "MultiwireConnector", connections := some ["Conn_R", "Conn_C"] }⟩, ?_, ?_⟩
    · simp [stateVarsIn]
    · simp [numberOfStateVars, stateVarsAt, bind, Except.bind, pure, Except.pure]

/-- Non-vacuity: one capacitor. -/
example : ∃ B', NetBuild.addLine ({} : NetBuild) ((demoEnd "Conn_C").head (by simp [demoEnd])) = .ok B' ∧ B'.stateVars = 1 ∧
    Aligned ((demoEnd "Conn_C").head (by simp [demoEnd])).connections := by
  refine ⟨_, by
    simp [demoEnd, NetBuild.addLine, NetBuild.addNode, bind, Except.bind, pyAssert, raiseIf, stateVarsIn,
      List.insertionSort, demoBare, pure, Except.pure]
    rfl, rfl, ?_⟩
  intro i c hc
  simp only [demoEnd, List.head_cons] at hc
  obtain rfl : i = 0 := by
    by_contra h
    obtain ⟨j, rfl⟩ := Nat.exists_eq_succ_of_ne_zero h
    simp at hc
  obtain rfl : _ = c := by simpa using hc
  simp

end Mtln
