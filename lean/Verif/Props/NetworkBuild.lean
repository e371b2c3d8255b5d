import Verif.Props.Network
import Verif.Spec.NetworkBuild

/-! # What the constructor of networks makes: C53 -/

namespace Mtln

variable {p : ℕ}

/-- The bookkeeping invariant while the constructor runs. -/
structure NetBuild.Good (B : NetBuild) (l : List (ℤ × String × ℕ × Side × String)) : Prop where
  origin : B.nodes.map Node.origin = l
  ids : (B.nodes.map Node.id).Nodup
  nonneg : ∀ d ∈ B.nodes, 0 ≤ d.id
  states : B.nodes.flatMap Node.stateIndex = List.range B.stateVars

theorem NetBuild.addNode_ok_iff {B B' : NetBuild} {side : Side} {line : AnyLine p} {name : String} {c : Connection} :
    B.addNode side line name c = .ok B' ↔ 0 ≤ c.id ∧ c.id ∉ B.nodes.map Node.id ∧
      ∃ k, stateVarsIn c.connector c.conductor = .ok k ∧ line.2.m ≠ 0 ∧ ∃ h : c.conductor < line.1, B' =
        { B with
          stateVars := B.stateVars + k
          nodes := B.nodes ++ [
            { id := c.id
              lineName := line.2.name
              lineIndex := c.conductor
              side := side
              bundleName := name
              stateIndex := (List.range k).map (B.stateVars + ·)
              dx := line.2.dun (match side with | .S => 0 | .L => line.2.m - 1)
              eT := line.2.eT (match side with | .S => 0 | .L => line.2.m) ⟨c.conductor, h⟩ }] } := by
  unfold NetBuild.addNode
  simp only [bind_ok_iff, pyAssert_ok_iff, raiseIf_ok_iff]
  constructor
  · rintro ⟨_, h1, _, h2, k, hk, _, hm, h⟩
    split at h
    case isFalse => exact absurd h (by simp)
    rename_i hc
    exact ⟨h1, h2, k, hk, hm, hc, (Except.ok.inj h).symm⟩
  · rintro ⟨h1, h2, k, hk, hm, hc, rfl⟩
    exact ⟨(), h1, (), h2, k, hk, (), hm, by rw [dif_pos hc]; rfl⟩

theorem NetBuild.Good.addNode {B B' : NetBuild} {l} (hB : B.Good l) {d : LineConnections p} {c : Connection}
    (h : B.addNode d.end' d.line d.bundleName c = .ok B') : B'.Good (l ++ [d.origin c]) := by
  obtain ⟨h0, h1, k, -, -, hc, rfl⟩ := NetBuild.addNode_ok_iff.1 h
  refine ⟨?_, ?_, ?_, ?_⟩
  · simp only [List.map_append, hB.origin]; rfl
  · simp only [List.map_append, List.map_cons, List.map_nil]
    rw [List.nodup_append]
    refine ⟨hB.ids, by simp, ?_⟩
    rintro a ha b hb rfl
    simp only [List.mem_singleton] at hb
    exact h1 (hb ▸ ha)
  · intro e he
    rcases List.mem_append.1 he with he | he
    · exact hB.nonneg e he
    · obtain rfl := List.mem_singleton.1 he
      exact h0
  · simp only [List.flatMap_append, List.flatMap_cons, List.flatMap_nil, List.append_nil, hB.states]
    exact (List.range_add ..).symm

theorem NetBuild.Good.addNodes {d : LineConnections p} : ∀ {cs : List Connection} {B B' : NetBuild} {l}, B.Good l →
    cs.foldlM (fun (B : NetBuild) c => B.addNode d.end' d.line d.bundleName c) B = .ok B' →
      B'.Good (l ++ cs.map d.origin)
  | [], B, B', l, hB, h => by
    simp only [List.foldlM_nil, pure, Except.pure, Except.ok.injEq] at h
    subst h; simpa using hB
  | c :: cs, B, B', l, hB, h => by
    simp only [List.foldlM_cons, bind_ok_iff] at h
    obtain ⟨B1, h1, h2⟩ := h
    have := (hB.addNode h1).addNodes h2
    simpa using this

theorem NetBuild.addLine_ok_iff {B B' : NetBuild} {d : LineConnections p} : B.addLine d = .ok B' ↔
    (d.side = "S" ∨ d.side = "L") ∧ d.ordered.foldlM (fun (B : NetBuild) c => B.addNode d.end' d.line d.bundleName c)
      { B with blocks := B.blocks ++ [⟨d.line.1, d.line.2.c (match d.end' with | .S => 0 | .L => d.line.2.m)⟩] }
      = .ok B' := by
  unfold NetBuild.addLine
  simp only [bind_ok_iff, pyAssert_ok_iff]
  constructor
  · rintro ⟨_, h1, h2⟩; exact ⟨h1, h2⟩
  · rintro ⟨h1, h2⟩; exact ⟨(), h1, h2⟩

theorem NetBuild.Good.addLine {B B' : NetBuild} {l} (hB : B.Good l) {d : LineConnections p}
    (h : B.addLine d = .ok B') : B'.Good (l ++ d.ordered.map d.origin) :=
  have h0 : NetBuild.Good
      { B with blocks := B.blocks ++ [⟨d.line.1, d.line.2.c (match d.end' with | .S => 0 | .L => d.line.2.m)⟩] } l :=
    ⟨hB.1, hB.2, hB.3, hB.4⟩
  h0.addNodes (NetBuild.addLine_ok_iff.1 h).2

theorem NetBuild.Good.addLines : ∀ {ds : List (LineConnections p)} {B B' : NetBuild} {l}, B.Good l →
    ds.foldlM NetBuild.addLine B = .ok B' → B'.Good (l ++ ds.flatMap fun d => d.ordered.map d.origin)
  | [], B, B', l, hB, h => by
    simp only [List.foldlM_nil, pure, Except.pure, Except.ok.injEq] at h
    subst h; simpa using hB
  | d :: ds, B, B', l, hB, h => by
    simp only [List.foldlM_cons, bind_ok_iff] at h
    obtain ⟨B1, h1, h2⟩ := h
    have := (hB.addLine h1).addLines h2
    simpa using this

theorem networkNew_ok_iff {d : List (LineConnections p)} {nw : AnyNetwork} : Network.new d = .ok nw ↔
    ∃ B : NetBuild, d.foldlM NetBuild.addLine {} = .ok B ∧ nw = ⟨_, _, B.finish⟩ := by
  simp only [Network.new, bind_ok_iff, Except.ok.injEq]
  constructor
  · rintro ⟨B, h, rfl⟩; exact ⟨B, h, rfl⟩
  · rintro ⟨B, h, rfl⟩; exact ⟨B, h, rfl⟩

theorem new_good {d : List (LineConnections p)} {B : NetBuild} (h : d.foldlM NetBuild.addLine {} = .ok B) :
    B.Good (d.flatMap fun d => d.ordered.map d.origin) := by
  have h0 : NetBuild.Good {} [] := ⟨rfl, List.nodup_nil, by simp, rfl⟩
  simpa using h0.addLines h

/-- **C53** The nodes are numbered in the order of the lines of the description and, within a line, of the conductors;
each node carries the id, line, conductor, side and bundle it was described with. -/
theorem C53_order {d : List (LineConnections p)} {nw : AnyNetwork} (h : Network.new d = .ok nw) :
    List.ofFn (fun a => (nw.2.2.nodes a).origin) = d.flatMap fun d => d.ordered.map d.origin := by
  obtain ⟨B, hB, rfl⟩ := networkNew_ok_iff.1 h
  rw [← (new_good hB).origin]
  show List.ofFn (fun a => (B.nodes.get a).origin) = _
  conv_rhs => rw [← List.ofFn_get B.nodes, List.map_ofFn]
  rfl

/-- **C53** The order of the connections of one line: a rearrangement sorted by conductor. -/
theorem C53_sorted (d : LineConnections p) :
    d.ordered.Perm d.connections ∧ d.ordered.Pairwise fun a b => a.conductor ≤ b.conductor := by
  haveI : Std.Total fun a b : Connection => a.conductor ≤ b.conductor := ⟨fun a b => le_total _ _⟩
  haveI : IsTrans Connection fun a b => a.conductor ≤ b.conductor := ⟨fun a b c => le_trans⟩
  exact ⟨List.perm_insertionSort _ _, List.pairwise_insertionSort _ _⟩

/-- **C53** The state slots of the nodes, one after the other, are `0, 1, …, S - 1`. -/
theorem C53_slots {d : List (LineConnections p)} {nw : AnyNetwork} (h : Network.new d = .ok nw) :
    (List.ofFn fun a => (nw.2.2.nodes a).stateIndex).flatten = List.range nw.2.1 := by
  obtain ⟨B, hB, rfl⟩ := networkNew_ok_iff.1 h
  show (List.ofFn fun a => (B.nodes.get a).stateIndex).flatten = List.range B.stateVars
  rw [← (new_good hB).states]
  conv_rhs => rw [← List.ofFn_get B.nodes]
  rw [List.flatMap_def, List.map_ofFn]
  rfl

/-- **C53** So different nodes share no state slot. -/
theorem C53_disjoint {d : List (LineConnections p)} {nw : AnyNetwork} (h : Network.new d = .ok nw) :
    nw.2.2.SlotsDisjoint := by
  have h1 := C53_slots h
  have h2 : ((List.ofFn fun a => (nw.2.2.nodes a).stateIndex).flatten).Nodup := h1 ▸ List.nodup_range
  have h3 := List.pairwise_ofFn.1 (List.nodup_flatten.1 h2).2
  intro a b hab x hx hx'
  rcases lt_or_gt_of_ne hab with hlt | hlt
  · exact h3 hlt hx hx'
  · exact h3 hlt hx' hx

/-- **C53** Ids are not negative and belong to one node only. -/
theorem C53_ids {d : List (LineConnections p)} {nw : AnyNetwork} (h : Network.new d = .ok nw) :
    nw.2.2.IdsInjective ∧ ∀ a, 0 ≤ (nw.2.2.nodes a).id := by
  obtain ⟨B, hB, rfl⟩ := networkNew_ok_iff.1 h
  have g := new_good hB
  refine ⟨?_, fun a => g.nonneg _ (List.get_mem ..)⟩
  intro a b hab
  have h1 : (B.nodes.map Node.id).Nodup := g.ids
  have hab' : (B.nodes.get a).id = (B.nodes.get b).id := hab
  rw [List.nodup_iff_injective_get] at h1
  have := @h1 ⟨a, by simpa using a.2⟩ ⟨b, by simpa using b.2⟩ (by simpa using hab')
  exact Fin.ext (by simpa using this)

/-- **C53** A description with a negative id or the same id twice is rejected. -/
theorem C53_rejects {d : List (LineConnections p)}
    (h : ¬ (d.flatMap fun d => d.connections.map Connection.id).Nodup ∨
      ∃ e ∈ d, ∃ c ∈ e.connections, c.id < 0) : ¬ ∃ nw, Network.new d = .ok nw := by
  rintro ⟨nw, hnew⟩
  obtain ⟨B, hB, rfl⟩ := networkNew_ok_iff.1 hnew
  have g := new_good hB
  have hperm : (d.flatMap fun d => d.connections.map Connection.id).Perm (B.nodes.map Node.id) := by
    have h1 : B.nodes.map Node.id = d.flatMap fun e => e.ordered.map Connection.id := by
      have := congrArg (List.map Prod.fst) g.origin
      rw [List.map_map, List.map_flatMap] at this
      simpa [Function.comp_def, Node.origin, LineConnections.origin] using this
    rw [h1]
    have key : ∀ d : List (LineConnections p), (d.flatMap fun d => d.connections.map Connection.id).Perm
        (d.flatMap fun e => e.ordered.map Connection.id) := by
      intro d
      induction d with
      | nil => exact List.Perm.nil
      | cons e d ih =>
        simp only [List.flatMap_cons]
        exact ((C53_sorted e).1.symm.map _).append ih
    exact key d
  rcases h with h | ⟨e, he, c, hc, hneg⟩
  · exact h (hperm.nodup_iff.2 g.ids)
  · have : c.id ∈ B.nodes.map Node.id :=
      hperm.subset (List.mem_flatMap.2 ⟨e, he, List.mem_map.2 ⟨c, hc, rfl⟩⟩)
    obtain ⟨n, hn, hid⟩ := List.mem_map.1 this
    have := g.nonneg n hn
    omega

/-- **C53** The first offending connection raises `AssertionError`. -/
theorem C53_assertion (B : NetBuild) (side : Side) (line : AnyLine p) (name : String) (c : Connection)
    (h : c.id < 0 ∨ c.id ∈ B.nodes.map Node.id) : B.addNode side line name c = .error .AssertionError := by
  unfold NetBuild.addNode pyAssert
  by_cases h0 : 0 ≤ c.id
  · have h1 : c.id ∈ B.nodes.map Node.id := h.resolve_left (by omega)
    rw [if_pos h0, if_neg (not_not.2 h1)]
    rfl
  · rw [if_neg h0]
    rfl

/-- The pieces of a network with two nodes at the left end of the wide demo line. -/
noncomputable def demoPair : List (LineConnections 0) :=
  [{ line := ⟨2, demoWide 2 0⟩, side := "S", bundleName := "wide", connections :=
      [{ id := 0, conductor := 0, connector := { connectorType := "Conn_R" } },
       { id := 1, conductor := 1, connector := { connectorType := "Conn_R" } }] }]

/-- The description of the demo network is accepted; it has two nodes with ids 0 and 1, no state variables. -/
theorem demoPair_new : ∃ nw : Network 2 0, Network.new demoPair = .ok ⟨2, 0, nw⟩ ∧ nw.find 0 = some 0 ∧
    nw.find 1 = some 1 ∧ nw.find 2 = none ∧ nw.P1 = 0 ∧ nw.Ps = 0 ∧ nw.vSources = 0 ∧ nw.cSize = 2 ∧
    (∀ a b, nw.dxc a b = if a = b then 1 else 0) := by
  have h : ∃ B : NetBuild, demoPair.foldlM NetBuild.addLine {} = .ok B ∧ B.nodes.length = 2 ∧ B.stateVars = 0 ∧
      B.nodes.map Node.id = [0, 1] ∧ B.nodes.map Node.dx = [1, 1] ∧
      B.blocks = [⟨2, (demoWide 2 0).c 0⟩] := by
    refine ⟨⟨[⟨0, "wide", 0, .S, "wide", [], 1, fun _ => 0⟩, ⟨1, "wide", 1, .S, "wide", [], 1, fun _ => 0⟩], 0,
      [⟨2, (demoWide 2 0).c 0⟩]⟩, ?_, rfl, rfl, rfl, rfl, rfl⟩
    simp [demoPair, NetBuild.addLine, NetBuild.addNode, bind, Except.bind, pyAssert, raiseIf, stateVarsIn,
      List.insertionSort, List.orderedInsert, demoWide, pure, Except.pure]
  obtain ⟨⟨nodes, sv, blocks⟩, h1, h2, h3, h4, h5, h6⟩ := h
  simp only at h2 h3 h4 h5 h6
  obtain ⟨n0, n1, rfl⟩ : ∃ a b, nodes = [a, b] := by
    match nodes, h2 with
    | [a, b], _ => exact ⟨a, b, rfl⟩
  subst h3 h6
  simp only [List.map_cons, List.map_nil, List.cons.injEq, and_true] at h4 h5
  refine ⟨NetBuild.finish ⟨[n0, n1], 0, _⟩, networkNew_ok_iff.2 ⟨_, h1, rfl⟩, ?_, ?_, ?_, rfl, rfl, rfl, rfl, ?_⟩
  · simp [Network.find, NetBuild.finish, List.finRange, List.ofFn_succ, h4.1, h4.2]
  · simp [Network.find, NetBuild.finish, List.finRange, List.ofFn_succ, h4.1, h4.2]
  · simp [Network.find, NetBuild.finish, List.finRange, List.ofFn_succ, h4.1, h4.2]
  · intro a b
    rw [Network.dxc, Matrix.of_apply]
    fin_cases a <;> fin_cases b <;> simp [NetBuild.finish, blockEntry, h5.1, h5.2, demoWide]

/-- Non-vacuity of C53. -/
example : ∃ nw, Network.new demoPair = .ok nw := by
  obtain ⟨nw, h, -⟩ := demoPair_new
  exact ⟨_, h⟩

/-- Descriptions that are rejected exist. -/
example : ∃ d : List (LineConnections 0), ¬ (d.flatMap fun d => d.connections.map Connection.id).Nodup :=
  ⟨demoPair ++ demoPair, by simp [demoPair]⟩

end Mtln
