import Verif.Props.ParserJoint
import Verif.Props.ParserRun
import Verif.Props.ParserLine
import Verif.Props.ParserSource
import Verif.Props.Twin

/-!
# Terminations of resistances in a file (for C142)
-/

namespace Mtln

open Matrix

variable {n p : ℕ}

/-- The conductors of a connector are resistances to ground: a plain connector of one conductor, or a connector of several. -/
def Connector.Resistors (c : Connector) (n : ℕ) (R : ℕ → ℝ) : Prop :=
  (n = 1 ∧ c.resistance = some (R 0) ∧ (c.connectorType = "Conn_R" ∨
    c.connectorType = "Conn_sRLC" ∧ (∃ x, c.inductance = some x) ∧ ∃ x, c.capacitance = some x)) ∨
  (2 ≤ n ∧ c.connectorType = "MultiwireConnector" ∧ ∃ ts Rs, c.connections = some ts ∧ c.resistanceVector = some Rs ∧
    (∀ j < n, ts[j]? = some "Conn_R" ∨ ts[j]? = some "Conn_sRLC") ∧ (∀ j < n, Rs[j]? = some (R j)) ∧
    (∀ v, c.capacitanceVector = some v → n ≤ v.length) ∧ ∀ v, c.inductanceVector = some v → n ≤ v.length)

/-! ## Networks -/

theorem foldlM_congr_mem {α β : Type} {f g : β → α → Py β} {l : List α} (h : ∀ a ∈ l, ∀ b, f b a = g b a) (b : β) :
    l.foldlM f b = l.foldlM g b := by
  induction l generalizing b with
  | nil => rfl
  | cons a l ih =>
    rw [List.foldlM_cons, List.foldlM_cons, h a List.mem_cons_self b]
    congr 1
    funext x
    exact ih (fun a ha => h a (List.mem_cons_of_mem _ ha)) x

theorem addNodes_exists {side : Side} {line : AnyLine p} {name : String} (hm : line.2.m ≠ 0) {l : List Connection}
    {B : NetBuild} (h0 : ∀ c ∈ l, 0 ≤ c.id) (hn : (l.map Connection.id).Nodup)
    (hB : ∀ c ∈ l, c.id ∉ B.nodes.map Node.id) (hk : ∀ c ∈ l, ∃ k, stateVarsIn c.connector c.conductor = .ok k)
    (hc : ∀ c ∈ l, c.conductor < line.1) : ∃ B', l.foldlM (fun (B : NetBuild) c => B.addNode side line name c) B = .ok B' ∧
      B'.nodes.map Node.id = B.nodes.map Node.id ++ l.map Connection.id := by
  induction l generalizing B with
  | nil => exact ⟨B, rfl, by simp⟩
  | cons c l ih =>
    obtain ⟨k, hk'⟩ := hk c List.mem_cons_self
    rw [List.map_cons, List.nodup_cons] at hn
    obtain ⟨B1, hB1⟩ : ∃ B1, B.addNode side line name c = .ok B1 ∧ B1.nodes.map Node.id = B.nodes.map Node.id ++ [c.id] :=
      ⟨_, NetBuild.addNode_ok_iff.2 ⟨h0 c List.mem_cons_self, hB c List.mem_cons_self, k, hk', hm,
        hc c List.mem_cons_self, rfl⟩, by simp⟩
    obtain ⟨B', h1, h2⟩ := ih (B := B1) (fun c hc => h0 c (List.mem_cons_of_mem _ hc)) hn.2 (by
      intro c' hc'
      rw [hB1.2, List.mem_append, List.mem_singleton]
      rintro (h | h)
      · exact hB c' (List.mem_cons_of_mem _ hc') h
      · exact hn.1 (h ▸ List.mem_map_of_mem hc')) (fun c hc => hk c (List.mem_cons_of_mem _ hc))
      (fun c h => hc c (List.mem_cons_of_mem _ h))
    refine ⟨B', ?_, by rw [h2, hB1.2, List.map_cons, List.append_assoc, List.singleton_append]⟩
    rw [List.foldlM_cons]
    exact bind_ok_iff.2 ⟨B1, hB1.1, h1⟩

/-- The constructor of networks accepts the conductors of one end of a line. -/
theorem endNetwork_exists {L : AnyLine p} (hm : L.2.m ≠ 0) {conns : List Connection} (side : Side) (name : String)
    (h0 : ∀ c ∈ conns, 0 ≤ c.id) (hn : (conns.map Connection.id).Nodup)
    (hk : ∀ c ∈ conns, ∃ k, stateVarsIn c.connector c.conductor = .ok k) (hc : ∀ c ∈ conns, c.conductor < L.1) :
    ∃ N S u, Network.new [⟨L, conns, side.letter, name⟩] = .ok ⟨N, S, u⟩ ∧ ∀ c ∈ conns, ∃ a, (u.nodes a).id = c.id := by
  obtain ⟨d, hd⟩ : ∃ d : LineConnections p, d = ⟨L, conns, side.letter, name⟩ := ⟨_, rfl⟩
  have hp : d.ordered.Perm conns := hd ▸ (C53_sorted _).1
  obtain ⟨B', h1, h2⟩ := addNodes_exists (side := d.end') (line := L) (name := name) hm (l := d.ordered)
    (B := { ({} : NetBuild) with blocks := [⟨d.line.1, d.line.2.c (match d.end' with | .S => 0 | .L => d.line.2.m)⟩] })
    (fun c hc => h0 c (hp.mem_iff.1 hc)) ((hp.map _).nodup_iff.2 hn) (by simp) (fun c hc => hk c (hp.mem_iff.1 hc))
    (fun c h => hc c (hp.mem_iff.1 h))
  refine ⟨_, _, B'.finish, networkNew_ok_iff.2 ⟨B', ?_, rfl⟩, ?_⟩
  · rw [List.foldlM_cons]
    refine bind_ok_iff.2 ⟨B', ?_, rfl⟩
    rw [← hd, NetBuild.addLine_ok_iff]
    refine ⟨?_, ?_⟩
    · rw [hd]
      cases side
      · exact .inl rfl
      · exact .inr rfl
    · have e : ∀ (B : NetBuild) c, B.addNode d.end' d.line d.bundleName c = B.addNode d.end' L name c := by
        intro B c; rw [hd]
      simp only [e]
      exact h1
  · intro c hc
    have : c.id ∈ B'.nodes.map Node.id := by
      rw [h2]
      exact List.mem_append_right _ (List.mem_map_of_mem (hp.mem_iff.2 hc))
    obtain ⟨x, hx, hx'⟩ := List.mem_map.1 this
    obtain ⟨a, rfl⟩ := List.mem_iff_get.1 hx
    exact ⟨a, hx'⟩

theorem connectToGround_exists {N S : ℕ} {nw : Network N S} {id : ℤ} {R : ℝ} {V : Option (ℝ → ℝ)} (hR : R ≠ 0)
    (h : ∃ a, (nw.nodes a).id = id) : ∃ nw', nw.connectToGround id R V = .ok nw' ∧ nw'.nodes = nw.nodes := by
  obtain ⟨a, ha⟩ := h
  obtain ⟨b, hb⟩ : ∃ b, nw.find id = some b := by
    unfold Network.find
    cases hf : (List.finRange N).find? fun a => (nw.nodes a).id = id with
    | some b => exact ⟨b, rfl⟩
    | none =>
      rw [List.find?_eq_none] at hf
      exact absurd (decide_eq_true ha) (hf a (List.mem_finRange a))
  cases V <;> simp [Network.connectToGround, Network.assertNode, hb, bind, Except.bind, raiseIf, hR]

theorem grounds_exist {N S : ℕ} {nw : Network N S} {conns : List Connection} {R : ℕ → ℝ} {V : ℕ → Option (ℝ → ℝ)}
    (hR : ∀ c ∈ conns, R c.conductor ≠ 0) (h : ∀ c ∈ conns, ∃ a, (nw.nodes a).id = c.id) :
    ∃ nw', nw.calls (conns.map fun c => .ground c.id (R c.conductor) (V c.conductor)) = .ok nw' := by
  induction conns generalizing nw with
  | nil => exact ⟨nw, rfl⟩
  | cons c l ih =>
    obtain ⟨w, hw, hn⟩ := connectToGround_exists (V := V c.conductor) (hR c List.mem_cons_self) (h c List.mem_cons_self)
    obtain ⟨nw', h'⟩ := ih (nw := w) (fun c hc => hR c (List.mem_cons_of_mem _ hc)) (by
      rw [hn]; exact fun c hc => h c (List.mem_cons_of_mem _ hc))
    refine ⟨nw', ?_⟩
    rw [List.map_cons, Network.calls, List.foldlM_cons]
    exact bind_ok_iff.2 ⟨w, hw, h'⟩

/-- The parser terminates a group of resistances as one would. -/
theorem terminate_resistors {N S : ℕ} (nw : Network N S) {c : Connector} {R : ℕ → ℝ} (hc : c.Resistors n R) (f : ℕ → ℤ)
    (V : ℕ → Option (ℝ → ℝ)) : nw.terminate ((List.range n).map fun j => ⟨f j, c, j, V j⟩) =
      nw.calls (((List.range n).map fun j => (⟨f j, j, c⟩ : Connection)).map fun c => .ground c.id (R c.conductor) (V c.conductor)) := by
  rcases hc with ⟨rfl, h1, h2⟩ | ⟨hn, h1, ts, Rs, h2, h3, h4, h5, h6, h7⟩
  · have hs : ¬ c.connectorType = "Conn_short" := by rcases h2 with h | ⟨h, -⟩ <;> rw [h] <;> decide
    have ht : c.connectorType = "Conn_sRLC" ∨ c.connectorType = "Conn_R" := by
      rcases h2 with h | ⟨h, -⟩ <;> simp [h]
    show nw.terminateSingle _ = _
    unfold Network.terminateSingle
    rw [if_neg hs, if_pos ht, h1]
    simp [Network.calls, Network.call, pyKey, bind, Except.bind, pure, Except.pure]
    split <;> simp_all
  · obtain ⟨g, hg⟩ : ∃ g : List Pin, g = (List.range n).map fun j => ⟨f j, c, j, V j⟩ := ⟨_, rfl⟩
    have hm : nw.terminate g = g.foldlM (Network.terminateMulti g) nw := by
      have hl : g.length = n := by rw [hg]; simp
      match g, hl with
      | [], h => simp at h; omega
      | [_], h => simp at h; omega
      | _ :: _ :: _, _ => rfl
    rw [← hg, hm]
    conv_lhs => arg 3; rw [hg]
    rw [Network.calls, List.map_map, List.foldlM_map, List.foldlM_map]
    refine foldlM_congr_mem (fun j hj nw => ?_) nw
    have hj' := List.mem_range.1 hj
    have hgj : g[j]? = some ⟨f j, c, j, V j⟩ := by rw [hg]; simp [hj']
    have e1 : ∀ (v : Option (List ℝ)) (x : ℝ), (∀ w, v = some w → n ≤ w.length) → ∃ y, vectorEntry v j x = .ok y := by
      intro v x hv
      cases v with
      | none => exact ⟨_, rfl⟩
      | some w =>
        have := hv w rfl
        exact ⟨w[j], by simp [vectorEntry, pyIndex, List.getElem?_eq_getElem (by omega : j < w.length)]⟩
    obtain ⟨C, hC⟩ := e1 c.capacitanceVector (10 ^ 22) h6
    obtain ⟨L, hL⟩ := e1 c.inductanceVector 0 h7
    obtain ⟨ty, hty, hty'⟩ : ∃ ty, ts[j]? = some ty ∧ (ty = "Conn_R" ∨ ty = "Conn_sRLC") := by
      rcases h4 j hj' with h | h
      · exact ⟨_, h, .inl rfl⟩
      · exact ⟨_, h, .inr rfl⟩
    have hsh : ¬ ty = "Conn_short" := by rcases hty' with h | h <;> rw [h] <;> decide
    show Network.terminateMulti g nw ⟨f j, c, j, V j⟩ = nw.connectToGround (f j) (R j) (V j)
    simp [Network.terminateMulti, Network.terminateWith, pyIndex, hgj, h1, h2, h3, hC, hL, hty, pyKey, bind,
      Except.bind, if_neg hsh, if_pos hty']
    simp [vectorEntry, pyIndex, h5 j hj']

theorem Connector.Resistors.stateVars {c : Connector} {R : ℕ → ℝ} (hc : c.Resistors n R) {j : ℕ} (hj : j < n) :
    ∃ k, stateVarsIn c j = .ok k := by
  rcases hc with ⟨rfl, h1, h2⟩ | ⟨hn, h1, ts, Rs, h2, h3, h4, h5, h6, h7⟩
  · rcases h2 with h | ⟨h, ⟨x, hx⟩, ⟨y, hy⟩⟩
    · exact ⟨0, by simp [stateVarsIn, h]⟩
    · simp [stateVarsIn, h, hx, hy]
  · rcases h4 j hj with h | h <;> simp [stateVarsIn, h1, h2, h]

end Mtln
