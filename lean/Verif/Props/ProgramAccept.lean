import Verif.Props.Program

/-! # Which programs are accepted: C160 -/

namespace Mtln

open Matrix

variable {n p N S : ℕ}

/-- What the constructor of networks requires of a connection. -/
def LineConnections.Allows (d : LineConnections p) (c : Connection) : Prop :=
  0 ≤ c.id ∧ (∃ k, stateVarsIn c.connector c.conductor = .ok k) ∧ d.line.2.m ≠ 0 ∧ c.conductor < d.line.1

theorem addNodes_accepted {d : LineConnections p} : ∀ {cs : List Connection} {B : NetBuild},
    (∃ B', cs.foldlM (fun (B : NetBuild) c => B.addNode d.end' d.line d.bundleName c) B = .ok B') ↔
      (∀ c ∈ cs, d.Allows c) ∧ (cs.map Connection.id).Nodup ∧ ∀ c ∈ cs, c.id ∉ B.nodes.map Node.id
  | [], B => by simp [pure, Except.pure]
  | c :: cs, B => by
    have ih := fun B => addNodes_accepted (d := d) (cs := cs) (B := B)
    simp only [List.foldlM_cons, bind_ok_iff]
    constructor
    · rintro ⟨B', B1, h1, h2⟩
      obtain ⟨g1, g2, g3⟩ := (ih B1).1 ⟨B', h2⟩
      obtain ⟨a1, a2, k, a3, a4, a5, rfl⟩ := NetBuild.addNode_ok_iff.1 h1
      simp only [List.map_append, List.map_cons, List.map_nil, List.mem_append, List.mem_singleton, not_or] at g3
      refine ⟨?_, ?_, ?_⟩
      · intro c' hc'
        rcases List.mem_cons.1 hc' with rfl | hc'
        · exact ⟨a1, ⟨k, a3⟩, a4, a5⟩
        · exact g1 c' hc'
      · rw [List.map_cons, List.nodup_cons]
        refine ⟨fun hm => ?_, g2⟩
        obtain ⟨c', hc', he⟩ := List.mem_map.1 hm
        exact (g3 c' hc').2 he
      · intro c' hc'
        rcases List.mem_cons.1 hc' with rfl | hc'
        · exact a2
        · exact (g3 c' hc').1
    · rintro ⟨g1, g2, g3⟩
      obtain ⟨a1, ⟨k, a3⟩, a4, a5⟩ := g1 c List.mem_cons_self
      obtain ⟨B1, hB1⟩ : ∃ B1, B.addNode d.end' d.line d.bundleName c = .ok B1 :=
        ⟨_, NetBuild.addNode_ok_iff.2 ⟨a1, g3 c List.mem_cons_self, k, a3, a4, a5, rfl⟩⟩
      have hids : B1.nodes.map Node.id = B.nodes.map Node.id ++ [c.id] := by
        obtain ⟨-, -, -, -, -, -, rfl⟩ := NetBuild.addNode_ok_iff.1 hB1
        simp
      rw [List.map_cons, List.nodup_cons] at g2
      obtain ⟨B', hB'⟩ := (ih B1).2 ⟨fun c' hc' => g1 c' (List.mem_cons_of_mem _ hc'), g2.2, fun c' hc' => by
        rw [hids, List.mem_append, List.mem_singleton, not_or]
        exact ⟨g3 c' (List.mem_cons_of_mem _ hc'), fun e => g2.1 (List.mem_map.2 ⟨c', hc', e⟩)⟩⟩
      exact ⟨B', B1, hB1, hB'⟩

theorem addNodes_ids {d : LineConnections p} : ∀ {cs : List Connection} {B B' : NetBuild},
    cs.foldlM (fun (B : NetBuild) c => B.addNode d.end' d.line d.bundleName c) B = .ok B' →
      B'.nodes.map Node.id = B.nodes.map Node.id ++ cs.map Connection.id
  | [], B, B', h => by
    simp only [List.foldlM_nil, pure, Except.pure, Except.ok.injEq] at h
    subst h; simp
  | c :: cs, B, B', h => by
    simp only [List.foldlM_cons, bind_ok_iff] at h
    obtain ⟨B1, h1, h2⟩ := h
    rw [addNodes_ids h2]
    obtain ⟨-, -, -, -, -, -, rfl⟩ := NetBuild.addNode_ok_iff.1 h1
    simp

theorem ordered_perm (d : LineConnections p) : d.ordered.Perm d.connections := (C53_sorted d).1

theorem addLine_accepted {d : LineConnections p} {B : NetBuild} : (∃ B', B.addLine d = .ok B') ↔
    (d.side = "S" ∨ d.side = "L") ∧ (∀ c ∈ d.connections, d.Allows c) ∧ (d.connections.map Connection.id).Nodup ∧
      ∀ c ∈ d.connections, c.id ∉ B.nodes.map Node.id := by
  simp only [NetBuild.addLine_ok_iff, exists_and_left, addNodes_accepted, (ordered_perm d).mem_iff]
  rw [((ordered_perm d).map Connection.id).nodup_iff]

theorem addLine_ids {d : LineConnections p} {B B' : NetBuild} (h : B.addLine d = .ok B') :
    (B'.nodes.map Node.id).Perm (B.nodes.map Node.id ++ d.connections.map Connection.id) := by
  obtain ⟨-, h1⟩ := NetBuild.addLine_ok_iff.1 h
  rw [addNodes_ids h1]
  exact ((ordered_perm d).map _).append_left _

theorem addLines_accepted : ∀ {ds : List (LineConnections p)} {B : NetBuild}, (∃ B', ds.foldlM NetBuild.addLine B = .ok B') ↔
    (∀ d ∈ ds, (d.side = "S" ∨ d.side = "L") ∧ ∀ c ∈ d.connections, d.Allows c) ∧
      (ds.flatMap fun d => d.connections.map Connection.id).Nodup ∧
      ∀ id ∈ ds.flatMap fun d => d.connections.map Connection.id, id ∉ B.nodes.map Node.id
  | [], B => by simp [pure, Except.pure]
  | d :: ds, B => by
    have ih := fun B => addLines_accepted (ds := ds) (B := B)
    simp only [List.foldlM_cons, bind_ok_iff, List.flatMap_cons]
    rw [List.nodup_append]
    constructor
    · rintro ⟨B', B1, h1, h2⟩
      obtain ⟨g1, g2, g3⟩ := (ih B1).1 ⟨B', h2⟩
      obtain ⟨a1, a2, a3, a4⟩ := addLine_accepted.1 ⟨B1, h1⟩
      have hids := addLine_ids h1
      refine ⟨?_, ⟨a3, g2, fun x hx y hy e => ?_⟩, ?_⟩
      · intro d' hd'
        rcases List.mem_cons.1 hd' with rfl | hd'
        · exact ⟨a1, a2⟩
        · exact g1 d' hd'
      · subst e
        exact g3 x hy (hids.mem_iff.2 (List.mem_append_right _ hx))
      · intro id hid
        rcases List.mem_append.1 hid with hid | hid
        · obtain ⟨c, hc, rfl⟩ := List.mem_map.1 hid
          exact a4 c hc
        · exact fun hm => g3 id hid (hids.mem_iff.2 (List.mem_append_left _ hm))
    · rintro ⟨g1, ⟨g2, g3, g4⟩, g5⟩
      obtain ⟨B1, hB1⟩ := addLine_accepted.2 ⟨(g1 d List.mem_cons_self).1, (g1 d List.mem_cons_self).2, g2, fun c hc =>
        g5 c.id (List.mem_append_left _ (List.mem_map.2 ⟨c, hc, rfl⟩))⟩
      have hids := addLine_ids hB1
      obtain ⟨B', hB'⟩ := (ih B1).2 ⟨fun d' hd' => g1 d' (List.mem_cons_of_mem _ hd'), g3, fun id hid hm => by
        rcases List.mem_append.1 (hids.mem_iff.1 hm) with hm | hm
        · exact g5 id (List.mem_append_right _ hid) hm
        · exact g4 id hm id hid rfl⟩
      exact ⟨B', B1, hB1, hB'⟩

/-- **C160.** The constructor of networks accepts exactly the descriptions with sides `S` and `L`, different nonnegative ids,
conductors of the lines, and connectors with their data. -/
theorem C160_network (ds : List (LineConnections p)) : (∃ nw, Network.new ds = .ok nw) ↔
    (∀ d ∈ ds, (d.side = "S" ∨ d.side = "L") ∧ ∀ c ∈ d.connections, d.Allows c) ∧
      (ds.flatMap fun d => d.connections.map Connection.id).Nodup := by
  have : (∃ nw, Network.new ds = .ok nw) ↔ ∃ B, ds.foldlM NetBuild.addLine {} = .ok B := by
    constructor
    · rintro ⟨nw, h⟩
      obtain ⟨B, hB, -⟩ := networkNew_ok_iff.1 h
      exact ⟨B, hB⟩
    · rintro ⟨B, hB⟩
      exact ⟨_, networkNew_ok_iff.2 ⟨B, hB, rfl⟩⟩
  rw [this, addLines_accepted]
  simp

theorem new_ids {ds : List (LineConnections p)} {nw : AnyNetwork} (h : Network.new ds = .ok nw) (id : ℤ) :
    (∃ a, (nw.2.2.nodes a).id = id) ↔ ∃ d ∈ ds, ∃ c ∈ d.connections, c.id = id := by
  have ho := congrArg (List.map fun q : ℤ × String × ℕ × Side × String => q.1) (C53_order h)
  have h1 : (∃ a, (nw.2.2.nodes a).id = id) ↔
      id ∈ (List.ofFn fun a => (nw.2.2.nodes a).origin).map fun q : ℤ × String × ℕ × Side × String => q.1 := by
    rw [List.map_ofFn, List.mem_ofFn]
    rfl
  rw [h1, ho, List.map_flatMap, List.mem_flatMap]
  refine exists_congr fun d => and_congr_right fun _ => ?_
  rw [List.map_map, List.mem_map]
  refine exists_congr fun c => ?_
  rw [(ordered_perm d).mem_iff]
  rfl

theorem find_exists {nw : Network N S} {id : ℤ} : (∃ a, nw.find id = some a) ↔ ∃ a, (nw.nodes a).id = id := by
  constructor
  · rintro ⟨a, ha⟩
    exact ⟨a, find_some ha⟩
  · rintro ⟨a, ha⟩
    have : (nw.find id).isSome := by
      unfold Network.find
      rw [List.find?_isSome]
      exact ⟨a, List.mem_finRange a, by simpa using ha⟩
    exact Option.isSome_iff_exists.1 this

/-- A resistor or capacitor is accepted exactly if its nodes exist. -/
theorem call_accepted {nw : Network N S} {c : Call} (hc : c.IsRC) :
    (∃ nw', nw.call c = .ok nw') ↔ ∀ id ∈ c.nodes, ∃ a, (nw.nodes a).id = id := by
  have h : (∃ nw', nw.call c = .ok nw') ↔ ∃ E, c.HasEffect nw E := by
    constructor
    · rintro ⟨nw', h⟩
      obtain ⟨E, hE, -⟩ := call_ok_iff.1 h
      exact ⟨E, hE⟩
    · rintro ⟨E, hE⟩
      exact ⟨_, call_ok_iff.2 ⟨E, hE, rfl⟩⟩
  rw [h]
  simp only [← find_exists]
  cases c with
  | groundLCpRs => exact hc.1.elim
  | ground id R Vt =>
    have hR : (0 : ℝ) < R := hc.2
    simp only [Call.nodes, List.mem_singleton, forall_eq]
    constructor
    · rintro ⟨E, a, ha, -⟩; exact ⟨a, ha⟩
    · rintro ⟨a, ha⟩; exact ⟨_, a, ha, fun _ => hR.ne', rfl⟩
  | groundC id C Vt =>
    simp only [Call.nodes, List.mem_singleton, forall_eq]
    constructor
    · rintro ⟨E, a, ha, -⟩; exact ⟨a, ha⟩
    · rintro ⟨a, ha⟩; exact ⟨_, a, ha, rfl⟩
  | shortGround id =>
    simp only [Call.nodes, List.mem_singleton, forall_eq]
    constructor
    · rintro ⟨E, a, ha, -⟩; exact ⟨a, ha⟩
    · rintro ⟨a, ha⟩; exact ⟨_, a, ha, rfl⟩
  | branch id1 id2 R Vt =>
    have hR : (0 : ℝ) < R := hc.2
    simp only [Call.nodes, List.mem_cons, List.not_mem_nil, or_false, forall_eq_or_imp, forall_eq]
    constructor
    · rintro ⟨E, a, b, ha, hb, -⟩; exact ⟨⟨a, ha⟩, ⟨b, hb⟩⟩
    · rintro ⟨⟨a, ha⟩, ⟨b, hb⟩⟩; exact ⟨_, a, b, ha, hb, hR.ne', rfl⟩
  | short id1 id2 =>
    simp only [Call.nodes, List.mem_cons, List.not_mem_nil, or_false, forall_eq_or_imp, forall_eq]
    constructor
    · rintro ⟨E, a, b, ha, hb, -⟩; exact ⟨⟨a, ha⟩, ⟨b, hb⟩⟩
    · rintro ⟨⟨a, ha⟩, ⟨b, hb⟩⟩; exact ⟨_, a, b, ha, hb, rfl⟩

theorem calls_accepted : ∀ {l : List Call} {nw : Network N S}, (∀ c ∈ l, c.IsRC) →
    ((∃ nw', nw.calls l = .ok nw') ↔ ∀ c ∈ l, ∀ id ∈ c.nodes, ∃ a, (nw.nodes a).id = id)
  | [], nw, _ => by simp [calls_nil]
  | c :: l, nw, hc => by
    have ih := fun nw => calls_accepted (l := l) (nw := nw) fun c hcl => hc c (List.mem_cons_of_mem _ hcl)
    have h1 := call_accepted (nw := nw) (hc c List.mem_cons_self)
    constructor
    · rintro ⟨nw', h⟩
      obtain ⟨nw1, h4, h5⟩ := calls_cons.1 h
      have g := (ih nw1).1 ⟨nw', h5⟩
      rw [call_nodes h4] at g
      intro c' hc'
      rcases List.mem_cons.1 hc' with rfl | hc'
      · exact h1.1 ⟨nw1, h4⟩
      · exact g c' hc'
    · intro g
      obtain ⟨nw1, h4⟩ := h1.2 (g c List.mem_cons_self)
      obtain ⟨nw', h5⟩ := (ih nw1).2 (by rw [call_nodes h4]; exact fun c' hc' => g c' (List.mem_cons_of_mem _ hc'))
      exact ⟨nw', calls_cons.2 ⟨nw1, h4, h5⟩⟩

/-- **C160.** A network plan of resistors and capacitors is accepted exactly if its description is and its components are
between nodes of the description. -/
theorem C160_plan (Q : NetPlan p) (hc : ∀ c ∈ Q.calls, c.IsRC) : (∃ e, Q.make = .ok e) ↔
    ((∀ d ∈ Q.lines, (d.side = "S" ∨ d.side = "L") ∧ ∀ c ∈ d.connections, d.Allows c) ∧
      (Q.lines.flatMap fun d => d.connections.map Connection.id).Nodup) ∧
    ∀ c ∈ Q.calls, ∀ id ∈ c.nodes, ∃ d ∈ Q.lines, ∃ k ∈ d.connections, k.id = id := by
  rw [← C160_network]
  simp only [NetPlan.make, bind_ok_iff]
  constructor
  · rintro ⟨e, nw, h1, nw', h2, -⟩
    refine ⟨⟨nw, h1⟩, fun c hcl id hid => (new_ids h1 id).1 ?_⟩
    exact (calls_accepted hc).1 ⟨nw', h2⟩ c hcl id hid
  · rintro ⟨⟨nw, h1⟩, g⟩
    obtain ⟨nw', h2⟩ := (calls_accepted (nw := nw.2.2) hc).2 fun c hcl id hid => (new_ids h1 id).2 (g c hcl id hid)
    exact ⟨_, nw, h1, nw', h2, rfl⟩

/-- **C160.** A bundle plan is accepted exactly if it has a line, all lines have the nodes of the first, and none of its calls
raises. -/
theorem C160_bundle (B : BundlePlan p) : (∃ b, B.make = .ok b) ↔ ∃ first rest, B.lines = first :: rest ∧
    (∀ L ∈ B.lines, SameMesh first.2.m first.2.u L) ∧
    ∃ b, B.calls.foldlM (fun b c => BundleCall.run b c) (MTLD.assemble first (B.lines.map fun L => [L]) B.name) = .ok b := by
  simp only [BundlePlan.make, bind_ok_iff]
  constructor
  · rintro ⟨b, b0, h1, b', h2, -⟩
    obtain ⟨first, rest, h3, h4, rfl⟩ := bundleNew_ok_iff.1 h1
    rw [flatten_singles] at h4
    obtain ⟨l, hl⟩ : ∃ l, B.lines = first :: l := by
      rcases hB : B.lines with _ | ⟨L, l⟩
      · rw [hB] at h3; simp at h3
      · rw [hB] at h3
        simp only [List.map_cons, List.cons.injEq, and_true] at h3
        exact ⟨l, by rw [h3.1]⟩
    exact ⟨first, l, hl, h4, b', h2⟩
  · rintro ⟨first, rest, h1, h2, b', h3⟩
    exact ⟨_, _, bundleNew_ok_iff.2 ⟨first, rest.map fun L => [L], by rw [h1]; rfl, by rw [flatten_singles]; exact h2, rfl⟩,
      b', h3, rfl⟩

theorem mapPy_exists_iff {α β : Type} {f : α → Py β} {l : List α} : (∃ l', mapPy f l = .ok l') ↔ ∀ a ∈ l, ∃ b, f a = .ok b := by
  constructor
  · rintro ⟨l', h⟩ a ha
    obtain ⟨b, -, hb⟩ := forall₂_mem_left (mapPy_ok_iff.1 h) a ha
    exact ⟨b, hb⟩
  · exact mapPy_exists

theorem least_step (x : ℝ) (bs : List (AnyBundle p)) : ∃ t, IsLeast ({x} ∪ {t | ∃ b ∈ bs, t = b.2.dt}) t := by
  classical
  have h := Finset.isLeast_min' (x :: bs.map fun b => b.2.dt).toFinset ⟨x, by simp⟩
  have he : ({x} ∪ {t | ∃ b ∈ bs, t = b.2.dt} : Set ℝ) = ↑(x :: bs.map fun b => b.2.dt).toFinset := by
    ext t
    simp [eq_comm]
  exact ⟨_, he ▸ h⟩

/-- **C160.** A well-formed program is accepted exactly if its bundles and networks are and its bundles have different
names. -/
theorem C160_program (P : Program p) (hw : P.WellFormed) : (∃ M, P.make = .ok M) ↔
    (P.bundles.map BundlePlan.name).Nodup ∧ (∀ B ∈ P.bundles, ∃ b, B.make = .ok b) ∧
      ∀ Q ∈ P.networks.flatten, ∃ e, Q.make = .ok e := by
  constructor
  · rintro ⟨M, h⟩
    refine ⟨(make_ok h).1, ?_⟩
    simp only [Program.make, bind_ok_iff] at h
    obtain ⟨bs, h1, nws, h2, h3⟩ := h
    refine ⟨mapPy_exists_iff.1 ⟨bs, h1⟩, fun Q hQ => ?_⟩
    obtain ⟨Qs, hQs, hQm⟩ := List.mem_flatten.1 hQ
    obtain ⟨nwd, hn⟩ := mapPy_exists_iff.1 ⟨nws, h2⟩ Qs hQs
    exact mapPy_exists_iff.1 ⟨nwd, hn⟩ Q hQm
  · rintro ⟨h1, h2, h3⟩
    obtain ⟨bs, hbs⟩ := mapPy_exists_iff.2 h2
    obtain ⟨nws, hnws⟩ := (mapPy_exists_iff (f := mapPy NetPlan.make) (l := P.networks)).2 fun Qs hQs =>
      mapPy_exists_iff.2 fun Q hQ => h3 Q (List.mem_flatten.2 ⟨Qs, hQs, hQ⟩)
    have hbuilt : List.Forall₂ BundlePlan.Built P.bundles bs := (mapPy_ok_iff.1 hbs).imp fun B b hb => bundleMake_built hb
    have hnames := built_names hbuilt
    have hreg : ∃ nws', mapPy (fun nw => NetworkD.updateIndexNumbers bs nw) nws = .ok nws' := by
      refine mapPy_exists_iff.2 fun nwd hn => ⟨_, updateIndexNumbers_ok_iff.2 ⟨fun e he a => ?_, rfl⟩⟩
      obtain ⟨Qs, hQs, hQn⟩ := forall₂_from (mapPy_ok_iff.1 hnws) nwd hn
      obtain ⟨Q, hQ, hQe⟩ := forall₂_from (mapPy_ok_iff.1 hQn) e he
      have hQ' := List.mem_flatten.2 ⟨Qs, hQs, hQ⟩
      simp only [NetPlan.make, bind_ok_iff, Except.ok.injEq] at hQe
      obtain ⟨nw, k1, nw', k2, rfl⟩ := hQe
      have hl := (new_laid k1 fun d hd => hw.complete _ (item_mem hQ' hd)).calls k2
      obtain ⟨pre, d, post, j, g1, -, -, g4⟩ := hl.node a
      obtain ⟨B, hB, hBn, -⟩ := hw.attached _ (item_mem hQ' (d := d) (by rw [g1]; simp))
      have e3 : (nw'.nodes a).bundleName = B.name := (congrArg (fun q => q.2.2.1) g4).trans hBn.symm
      obtain ⟨b, hb, hBb⟩ := forall₂_mem_left hbuilt B hB
      have hbn : b.2.name = B.name := by
        obtain ⟨b0, h0, eL, eT, pr, rfl, -⟩ := hBb
        exact (new_inLevel h0).2.1
      show findBundle bs (nw'.nodes a).bundleName ≠ none
      rw [e3, ← hbn, findBundle_mem (by rw [hnames]; exact h1) b hb]
      simp
    obtain ⟨nws', hnws'⟩ := hreg
    obtain ⟨t, ht⟩ := least_step (10 ^ 10) bs
    have hM : MTLN.new bs nws = .ok { dt := t, bundles := bs, networks := nws', time := 0 } :=
      managerNew_ok_iff.2 ⟨by rw [hnames]; exact h1, ht, rfl, hnws', rfl⟩
    exact ⟨_, by simp only [Program.make, bind_ok_iff]; exact ⟨bs, hbs, nws, hnws, hM⟩⟩

/-- A program: two cables in a row, with a capacitor and a resistor between them and resistors at their outer ends. -/
noncomputable def demoProgram (s : MTL 1 p) : Program p where
  bundles := [⟨"left", [⟨1, s⟩], []⟩, ⟨"right", [⟨1, s⟩], []⟩]
  networks :=
    [[⟨0, [⟨⟨1, s⟩, [⟨1, 0, { connectorType := "Conn_R" }⟩], "S", "left"⟩], [.ground 1 50 (some fun _ => 1)]⟩],
     [⟨0, [⟨⟨1, s⟩, [⟨2, 0, { connectorType := "Conn_C" }⟩], "L", "left"⟩,
        ⟨⟨1, s⟩, [⟨3, 0, { connectorType := "Conn_R" }⟩], "S", "right"⟩],
        [.groundC 2 1 none, .branch 2 3 10 none]⟩],
     [⟨0, [⟨⟨1, s⟩, [⟨4, 0, { connectorType := "Conn_R" }⟩], "L", "right"⟩], [.ground 4 50 none]⟩]]

theorem demoProgram_wellFormed {s : MTL 1 p} (hs : s.Proper) : (demoProgram s).WellFormed where
  lines := by
    intro B hB L hL
    simp only [demoProgram, List.mem_cons, List.not_mem_nil, or_false] at hB
    rcases hB with rfl | rfl <;> · simp only [List.mem_singleton] at hL; subst hL; exact hs
  probes := by simp [demoProgram]
  complete := by simp [demoProgram, Program.items, LineConnections.Complete]
  attached := by simp [demoProgram, Program.items]
  distinct := by simp [demoProgram, Program.items, LineConnections.end']
  elements := by simp [demoProgram, Call.IsRC, Call.Positive]
  order := by simp [demoProgram, Call.IsBranch]

theorem demoProgram_grounded (s : MTL 1 p) : (demoProgram s).Grounded := by
  intro B hB
  simp only [demoProgram, List.mem_cons, List.not_mem_nil, or_false] at hB
  rcases hB with rfl | rfl
  · refine ⟨.S, fun level L hL => ?_⟩
    rcases level with _ | level
    · refine ⟨_, List.mem_flatten.2 ⟨_, List.mem_cons_self, List.mem_cons_self⟩, rfl, _, List.mem_cons_self, rfl,
        by simp [LineConnections.end'], fun c hc => ?_⟩
      simp only [List.mem_singleton] at hc
      subst hc
      exact .ground (R := 50) (Vt := some fun _ => 1) (by simp)
    · simp at hL
  · refine ⟨.L, fun level L hL => ?_⟩
    rcases level with _ | level
    · refine ⟨_, List.mem_flatten.2 ⟨_, List.mem_cons_of_mem _ (List.mem_cons_of_mem _ List.mem_cons_self),
        List.mem_cons_self⟩, rfl, _, List.mem_cons_self, rfl, by simp [LineConnections.end'], fun c hc => ?_⟩
      simp only [List.mem_singleton] at hc
      subst hc
      exact .ground (R := 50) (Vt := none) (by simp)
    · simp at hL

theorem demoProgram_made : ∃ (s : MTL 1 p) (M : MTLN p), s.Proper ∧ (∀ k a t, s.eT k a t = 0) ∧
    (demoProgram s).make = .ok M := by
  obtain ⟨s, hn, hs⟩ := demoProper (p := p)
  have hw := demoProgram_wellFormed hs
  have hm : s.m ≠ 0 := hs.cells.ne'
  obtain ⟨M, hM⟩ := (C160_program (demoProgram s) hw).2 ⟨by simp [demoProgram], fun B hB => by
      rw [C160_bundle]
      simp only [demoProgram, List.mem_cons, List.not_mem_nil, or_false] at hB
      rcases hB with rfl | rfl <;>
        exact ⟨_, _, rfl, fun L hL => by rw [List.mem_singleton.1 hL]; exact ⟨rfl, fun _ _ => rfl⟩, _, rfl⟩, fun Q hQ => by
      rw [C160_plan Q (hw.elements Q hQ)]
      simp only [demoProgram, List.flatten_cons, List.flatten_nil, List.append_nil, List.cons_append, List.nil_append,
        List.mem_cons, List.not_mem_nil, or_false] at hQ
      rcases hQ with rfl | rfl | rfl <;> simp [LineConnections.Allows, stateVarsIn, Call.nodes, hm]⟩
  refine ⟨s, M, hs, ?_, hM⟩
  obtain ⟨la, ca, ga, ra, zsa, zla, mem, dt, -, -, -, -, -, -, -, h8⟩ := new_ok_iff.1 hn
  obtain ⟨-, -, -, rfl⟩ := computeTerminalTerms_ok_iff.1 h8
  exact fun _ _ _ => rfl

theorem C160_example : ∃ (s : MTL 1 p) (M : MTLN p), s.Proper ∧ (demoProgram s).make = .ok M := by
  obtain ⟨s, M, hs, -, hM⟩ := demoProgram_made (p := p)
  exact ⟨s, M, hs, hM⟩

end Mtln
