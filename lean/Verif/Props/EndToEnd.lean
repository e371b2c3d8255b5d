import Verif.Props.FileEnds

/-!
# Files with one cable (C142)

From the contents of a file to the simulation: a file that describes one cable, two terminations of resistances, sources and
probes is simulated as the line that a program builds with the constructor of lines.
-/

namespace Mtln

open Matrix

variable {n p : ℕ}

/-- A file with one bundle of one cable of `n` conductors.  Element `j` of the cable leads from the node `first j` to the node
`last j`; the first nodes are listed in one termination, the last ones in another, at another position; the cable names a
connector for each of its sides. -/
structure File.OneCable (F : File) (n : ℕ) (cable : Cable) (bundle : String) (first last : ℕ → ℤ) (cS cL : Connector) : Prop where
  bundles : F.bundles = [⟨bundle, .ids cable.elemIds⟩]
  cables : F.cables = [cable]
  count : cable.elemIds.length = n
  some_conductor : 0 < n
  nodup : cable.elemIds.Nodup
  lines : F.lines.length = n
  line : ∀ j < n, ∃ e, F.lines[j]? = some e ∧ 4 ≤ e.length ∧ e[0]? = cable.elemIds[j]? ∧ e[3]? = some (first j) ∧
    e.getLast? = some (last j)
  nodes : ((List.range n).map first ++ (List.range n).map last).Nodup
  nonneg : ∀ j < n, 0 ≤ first j ∧ 0 ≤ last j
  initial : ∃ id m, cable.initialConnectorId = some id ∧ FirstMatch F.connectors (fun c => c.materialId = id) m ∧ m.connector = cS
  final : ∃ id m, cable.endConnectorId = some id ∧ FirstMatch F.connectors (fun c => c.materialId = id) m ∧ m.connector = cL
  terminations : ∃ tS tL, F.terminations = [tS, tL] ∧ tS.coordIds = [(List.range n).map first] ∧
    tL.coordIds = [(List.range n).map last]
  apart : ∃ x y, F.coordinate (first 0) = .ok x ∧ F.coordinate (last 0) = .ok y ∧ x ≠ y
  junctions : F.junctions = []
  ends : F.ends = []
  lumped : F.lumped = []
  no_fields : ∀ s ∈ F.sources, s.sourceType ≠ "DistributedSource"

section lookups

variable {F : File} {cable : Cable} {bundle : String} {first last : ℕ → ℤ} {cS cL : Connector}

theorem File.OneCable.wellFormed (h : F.OneCable n cable bundle first last cS cL) : F.WellFormed := by
  intro e he
  obtain ⟨j, hj, rfl⟩ := List.mem_iff_getElem.1 he
  obtain ⟨e', h1, h2, -⟩ := h.line j (h.lines ▸ hj)
  rw [List.getElem?_eq_getElem hj, Option.some.injEq] at h1
  rwa [h1]

theorem firstMatch_index {α : Type} {l : List α} {P : α → Prop} {a : α} {j : ℕ} (hj : l[j]? = some a) (ha : P a)
    (hu : ∀ i b, l[i]? = some b → P b → i = j) : FirstMatch l P a := by
  obtain ⟨b, hb⟩ := firstMatch_exists ⟨a, List.mem_of_getElem? hj, ha⟩
  have hb' := hb
  obtain ⟨pre, post, e, h1, -⟩ := hb'
  have := hu pre.length b (by simp [e]) h1
  have h2 : l[pre.length]? = some b := by simp [e]
  rw [this, hj, Option.some.injEq] at h2
  rwa [h2]

theorem File.OneCable.first_inj (h : F.OneCable n cable bundle first last cS cL) {i j : ℕ} (hi : i < n) (hj : j < n)
    (e : first i = first j) : i = j := by
  have h1 := (List.nodup_append.1 h.nodes).1
  exact List.inj_on_of_nodup_map h1 (List.mem_range.2 hi) (List.mem_range.2 hj) e

theorem File.OneCable.last_inj (h : F.OneCable n cable bundle first last cS cL) {i j : ℕ} (hi : i < n) (hj : j < n)
    (e : last i = last j) : i = j := by
  have h1 := (List.nodup_append.1 h.nodes).2.1
  exact List.inj_on_of_nodup_map h1 (List.mem_range.2 hi) (List.mem_range.2 hj) e

theorem File.OneCable.first_ne_last (h : F.OneCable n cable bundle first last cS cL) {i j : ℕ} (hi : i < n) (hj : j < n) :
    first i ≠ last j :=
  (List.nodup_append.1 h.nodes).2.2 _ (List.mem_map_of_mem (List.mem_range.2 hi)) _ (List.mem_map_of_mem (List.mem_range.2 hj))

/-- What the parser finds at the nodes. -/
theorem File.OneCable.at_node (h : F.OneCable n cable bundle first last cS cL) {j : ℕ} (hj : j < n) :
    F.connectorAndCableInNode (first j) = .ok (cS, cable.name, j, "S") ∧
    F.connectorAndCableInNode (last j) = .ok (cL, cable.name, j, "L") := by
  obtain ⟨e, h1, h2, h3, h4, h5⟩ := h.line j hj
  have hjl : j < cable.elemIds.length := by rw [h.count]; exact hj
  have hel : cable.elemIds[j]? = some cable.elemIds[j] := List.getElem?_eq_getElem hjl
  have hcab : ∀ side id, (side = "initial" ∧ cable.initialConnectorId = some id ∨
      side = "end" ∧ cable.endConnectorId = some id) →
      F.connectorAndCableOnSide cable.elemIds[j] side = .ok (id, cable.name, j) := by
    intro side id hs
    refine ((C81_cables F cable.elemIds[j]).1 side id cable.name j).2 ⟨cable, ?_, rfl, hs, ?_⟩
    · rw [h.cables, firstMatch_cons]
      exact .inl ⟨List.getElem_mem _, rfl⟩
    · refine firstMatch_index (j := j) (by simp [hjl]) rfl ?_
      rintro i ⟨b, k⟩ hb e'
      have hb' := (List.mem_zipIdx_iff_getElem? (x := (b, k))).1 (List.mem_of_getElem? hb)
      rw [List.getElem?_zipIdx] at hb
      obtain ⟨y, hy, e2⟩ := Option.map_eq_some_iff.1 hb
      obtain ⟨rfl, rfl⟩ := Prod.mk.inj e2
      simp only at e' hb'
      rw [List.getElem?_eq_some_iff] at hy
      obtain ⟨hi, hy⟩ := hy
      exact (List.Nodup.getElem_inj_iff h.nodup).1 (hy.trans e')
  have key : ∀ (node : ℤ) (side : String), (e[3]? = some node ∧ side = "initial" ∨ e[3]? ≠ some node ∧ side = "end") →
      touches node e → (∀ i b, F.lines[i]? = some b → touches node b → i = j) →
      F.elementOfNode node = .ok (cable.elemIds[j], side) := by
    intro node side hs ht hu
    exact ((C81_elements h.wellFormed node).1 _ _).2 ⟨e, firstMatch_index h1 ht hu, h3.trans hel, hs⟩
  have huniq : ∀ (node : ℤ), (∀ i < n, first i = node → i = j) → (∀ i < n, last i = node → i = j) →
      ∀ i b, F.lines[i]? = some b → touches node b → i = j := by
    intro node u1 u2 i b hb ht
    have hi : i < n := by
      rw [← h.lines]
      exact (List.getElem?_eq_some_iff.1 hb).1
    obtain ⟨e', g1, -, -, g4, g5⟩ := h.line i hi
    obtain rfl := Option.some.inj (hb.symm.trans g1)
    rcases ht with ht | ht
    · exact u1 i hi (Option.some.inj (g4.symm.trans ht))
    · exact u2 i hi (Option.some.inj (g5.symm.trans ht))
  constructor
  · obtain ⟨id, m, i1, i2, i3⟩ := h.initial
    have a1 := key (first j) "initial" (.inl ⟨h4, rfl⟩) (.inl h4) (huniq _ (fun i hi e => h.first_inj hi hj e)
      (fun i hi e => absurd e.symm (h.first_ne_last hj hi)))
    unfold File.connectorAndCableInNode
    simp only [a1, hcab "initial" id (.inl ⟨rfl, i1⟩), bind, Except.bind, find?_iff_firstMatch.2 i2, i3]
    rfl
  · obtain ⟨id, m, i1, i2, i3⟩ := h.final
    have a1 := key (last j) "end" (.inr ⟨by rw [h4]; exact fun e => h.first_ne_last hj hj (Option.some.inj e), rfl⟩) (.inr h5)
      (huniq _ (fun i hi e => absurd e (h.first_ne_last hi hj)) (fun i hi e => h.last_inj hi hj e))
    unfold File.connectorAndCableInNode
    simp only [a1, hcab "end" id (.inr ⟨rfl, i1⟩), bind, Except.bind, find?_iff_firstMatch.2 i2, i3]
    rfl

/-! ## The bundle -/

/-- The graph of the bundle: the elements of the cable, on level 0. -/
theorem File.OneCable.graph (h : F.OneCable n cable bundle first last cS cL) :
    Graph.build F (.ids cable.elemIds) = .ok ⟨cable.elemIds.map fun id => ⟨id, 0, cable.name⟩, []⟩ := by
  have hname : ∀ id ∈ cable.elemIds, F.cableNameOf id = .ok cable.name := fun id hid =>
    (C120_unique_partial (by rw [h.cables]; simp) hid (by rw [h.cables]; simp)).1
  have key : ∀ (l : List ℤ) (vs : List Vertex), (∀ id ∈ l, id ∈ cable.elemIds) → l.Nodup →
      (∀ id ∈ l, id ∉ vs.map Vertex.name) → l.foldlM (Graph.addRoot F) ⟨vs, []⟩ =
        .ok ⟨vs ++ l.map fun id => ⟨id, 0, cable.name⟩, []⟩ := by
    intro l
    induction l with
    | nil => intro vs _ _ _; simp [pure, Except.pure]
    | cons a l ih =>
      intro vs h1 h2 h3
      rw [List.nodup_cons] at h2
      have : Graph.addRoot F ⟨vs, []⟩ a = .ok ⟨vs ++ [⟨a, 0, cable.name⟩], []⟩ := by
        unfold Graph.addRoot Graph.addVertex
        rw [hname a (h1 a List.mem_cons_self)]
        simp only [bind, Except.bind]
        rw [if_neg (h3 a List.mem_cons_self)]
      rw [List.foldlM_cons, this]
      show l.foldlM (Graph.addRoot F) _ = _
      rw [ih _ (fun id hid => h1 id (List.mem_cons_of_mem _ hid)) h2.2, List.map_cons, List.append_assoc, List.singleton_append]
      intro id hid
      rw [List.map_append, List.mem_append]
      rintro (e | e)
      · exact h3 id (List.mem_cons_of_mem _ hid) e
      · simp only [List.map_cons, List.map_nil, List.mem_singleton] at e
        exact h2.1 (e ▸ hid)
  exact key _ [] (fun _ h => h) h.nodup (by simp)

/-- The bundle: the cable alone. -/
theorem File.OneCable.bundle_built (h : F.OneCable n cable bundle first last cS cL) {order : List String → List String}
    (ho : ValidOrder order) {L : MTL n p} (hL : F.buildLine p cable.name = .ok ⟨n, L⟩) (hname : L.name = cable.name) :
    Parsed.buildBundles order ({ file := F } : Parsed p) = .ok
      { file := F, bundles := [⟨⟨n, MTLD.single L bundle⟩, [[⟨n, L⟩]]⟩]
        nameToLine := [(cable.name, ⟨n, L⟩)], nameToBundle := [(cable.name, bundle)] } := by
  have hcables : (⟨cable.elemIds.map fun id => ⟨id, 0, cable.name⟩, []⟩ : Graph).cablesAt 0 = cable.elemIds.map fun _ => cable.name := by
    unfold Graph.cablesAt
    show ((cable.elemIds.map fun id => (⟨id, 0, cable.name⟩ : Vertex)).filter _).map _ = _
    generalize cable.elemIds = l
    induction l with
    | nil => rfl
    | cons a l ih => simpa using ih
  have hne : cable.elemIds ≠ [] := by
    intro e
    have := h.count
    rw [e] at this
    have := h.some_conductor
    simp_all
  have hord : order (cable.elemIds.map fun _ => cable.name) = [cable.name] := by
    have h1 := ho (cable.elemIds.map fun _ => cable.name)
    have h2 : (cable.elemIds.map fun _ => cable.name).dedup = [cable.name] := by
      rw [List.map_const', List.replicate_dedup]
      rw [h.count]
      exact h.some_conductor.ne'
    rw [h2] at h1
    exact List.perm_singleton.1 h1
  have hlev : (⟨cable.elemIds.map fun id => ⟨id, 0, cable.name⟩, []⟩ : Graph).levels = .ok 1 := by
    unfold Graph.levels
    rw [if_neg (by simpa using hne)]
    simp only [List.map_map, Function.comp_def]
    congr 2
    generalize cable.elemIds = l
    induction l with
    | nil => rfl
    | cons a l ih => simpa using ih
  have hfin : F.finishedLine p cable.name = .ok ⟨n, L⟩ := by
    unfold File.finishedLine
    rw [hL]
    simp only [bind, Except.bind]
    have : F.addEndResistances ⟨n, L⟩ = .ok ⟨n, L⟩ := by
      unfold File.addEndResistances
      rw [h.ends]
      generalize F.cables.filter _ = l
      induction l with
      | nil => rfl
      | cons a l ih => exact ih
    rw [this]
    simp only [File.addLumped, if_pos h.lumped]
  unfold Parsed.buildBundles
  show F.bundles.foldlM _ _ = _
  rw [h.bundles, List.foldlM_cons]
  have : Parsed.addBundle order ({ file := F } : Parsed p) ⟨bundle, .ids cable.elemIds⟩ = .ok
      { file := F, bundles := [⟨⟨n, MTLD.single L bundle⟩, [[⟨n, L⟩]]⟩]
        nameToLine := [(cable.name, ⟨n, L⟩)], nameToBundle := [(cable.name, bundle)] } := by
    unfold Parsed.addBundle
    simp only [h.graph, bind, Except.bind, hlev, List.range_one, mapPy, hcables, hord, hfin, single_new]
    simp [File.setTransferImpedances, h.ends, pure, Except.pure, bind, Except.bind, dictSet, hname]
  rw [this]
  rfl

/-! ## The terminations -/

/-- A parser after the bundle of the cable is built, and possibly its probes. -/
structure Parsed.Holds (P : Parsed p) (F : File) (cable : Cable) (bundle : String) (L : MTL n p) (b : MTLD n p) : Prop where
  file : P.file = F
  bundles : P.bundles = [⟨⟨n, b⟩, [[⟨n, L⟩]]⟩]
  nameToLine : P.nameToLine = [(cable.name, ⟨n, L⟩)]
  nameToBundle : P.nameToBundle = [(cable.name, bundle)]
  name : L.name = cable.name

theorem Parsed.Holds.describe {P : Parsed p} {L : MTL n p} {b : MTLD n p} (h : P.Holds F cable bundle L b) {node : ℤ} {j : ℕ}
    {c : Connector} {side : String} {V : Option (ℝ → ℝ)} (h1 : F.connectorAndCableInNode node = .ok (c, cable.name, j, side))
    (h2 : F.terminalSource node = .ok V) :
    P.describe false [] node = .ok ([(cable.name, ⟨⟨n, L⟩, [⟨node, j, c⟩], side, bundle⟩)], 0, ⟨node, c, j, V⟩) ∧
    ∀ (line : AnyLine p) (cs : List Connection) (side' : String),
      P.describe false [(cable.name, ⟨line, cs, side', bundle⟩)] node =
        .ok ([(cable.name, ⟨line, cs ++ [⟨node, j, c⟩], side', bundle⟩)], 0, ⟨node, c, j, V⟩) := by
  have hl : P.levelOfCable cable.name = .ok 0 := by
    simp [Parsed.levelOfCable, h.bundles, lineNames, h.name]
  constructor
  · unfold Parsed.describe
    rw [h.file, h1, h2]
    simp only [bind, Except.bind, hl, h.nameToLine, h.nameToBundle, dictGet]
    simp [dictSet]
  · intro line cs side'
    unfold Parsed.describe
    rw [h.file, h1, h2]
    simp only [bind, Except.bind, hl, h.nameToLine, h.nameToBundle, dictGet]
    simp [dictSet]

theorem Parsed.Holds.describe_more {P : Parsed p} {L : MTL n p} {b : MTLD n p} (h : P.Holds F cable bundle L b) {f : ℕ → ℤ}
    {c : Connector} {side : String} {V : ℕ → Option (ℝ → ℝ)} {js : List ℕ}
    (h1 : ∀ j ∈ js, F.connectorAndCableInNode (f j) = .ok (c, cable.name, j, side))
    (h2 : ∀ j ∈ js, F.terminalSource (f j) = .ok (V j)) (line : AnyLine p) (cs : List Connection) (side' : String)
    (pins : List Pin) :
    (js.map f).foldlM (fun (r : JointBuild p × List Pin) c => do
      let (desc, level, pin) ← P.describe false r.1.description c
      .ok ({ r.1 with description := desc, level := level }, r.2 ++ [pin]))
        (⟨[(cable.name, ⟨line, cs, side', bundle⟩)], [], 0⟩, pins) =
      .ok (⟨[(cable.name, ⟨line, cs ++ js.map fun j => ⟨f j, j, c⟩, side', bundle⟩)], [], 0⟩,
        pins ++ js.map fun j => ⟨f j, c, j, V j⟩) := by
  induction js generalizing cs pins with
  | nil => simp [pure, Except.pure]
  | cons j js ih =>
    rw [List.map_cons, List.foldlM_cons]
    have := (h.describe (h1 j List.mem_cons_self) (h2 j List.mem_cons_self)).2 line cs side'
    simp only [this, bind, Except.bind]
    have := ih (fun j hj => h1 j (List.mem_cons_of_mem _ hj)) (fun j hj => h2 j (List.mem_cons_of_mem _ hj))
      (cs ++ [⟨f j, j, c⟩]) (pins ++ [⟨f j, c, j, V j⟩])
    simp only [bind, Except.bind] at this
    rw [this]
    simp

/-- The description of a termination that lists the nodes of one end. -/
theorem Parsed.Holds.describeJoint {P : Parsed p} {L : MTL n p} {b : MTLD n p} (h : P.Holds F cable bundle L b) (hn : 0 < n)
    {f : ℕ → ℤ} {c : Connector} {side : String} {V : ℕ → Option (ℝ → ℝ)} {t : Joint}
    (ht : t.coordIds = [(List.range n).map f])
    (h1 : ∀ j < n, F.connectorAndCableInNode (f j) = .ok (c, cable.name, j, side))
    (h2 : ∀ j < n, F.terminalSource (f j) = .ok (V j)) :
    P.describeJoint false t = .ok
      ⟨[(cable.name, ⟨⟨n, L⟩, (List.range n).map fun j => ⟨f j, j, c⟩, side, bundle⟩)],
        [(List.range n).map fun j => ⟨f j, c, j, V j⟩], 0⟩ := by
  obtain ⟨k, rfl⟩ : ∃ k, n = k + 1 := ⟨n - 1, by omega⟩
  unfold Parsed.describeJoint
  rw [ht, List.foldlM_cons]
  have key : P.describeGroup false {} ((List.range (k + 1)).map f) = .ok
      ⟨[(cable.name, ⟨⟨k + 1, L⟩, (List.range (k + 1)).map fun j => ⟨f j, j, c⟩, side, bundle⟩)],
        [(List.range (k + 1)).map fun j => ⟨f j, c, j, V j⟩], 0⟩ := by
    unfold Parsed.describeGroup
    rw [List.range_succ_eq_map, List.map_cons, List.foldlM_cons]
    have e1 := (h.describe (h1 0 (by omega)) (h2 0 (by omega))).1
    have e2 := h.describe_more (js := (List.range k).map Nat.succ) (f := f) (c := c) (side := side) (V := V)
      (by simp only [List.mem_map, List.mem_range]; rintro j ⟨i, hi, rfl⟩; exact h1 _ (by omega))
      (by simp only [List.mem_map, List.mem_range]; rintro j ⟨i, hi, rfl⟩; exact h2 _ (by omega))
      ⟨k + 1, L⟩ [⟨f 0, 0, c⟩] side [⟨f 0, c, 0, V 0⟩]
    simp only [bind, Except.bind] at e2 ⊢
    simp only [e1, List.nil_append]
    rw [e2]
    simp
  rw [key]
  rfl

theorem Parsed.Holds.jointNetwork {P : Parsed p} {L : MTL n p} {b : MTLD n p} (h : P.Holds F cable bundle L b) (hn : 0 < n)
    {f : ℕ → ℤ} {c : Connector} {side : Side} {V : ℕ → Option (ℝ → ℝ)} {R : ℕ → ℝ} {t : Joint}
    (ht : t.coordIds = [(List.range n).map f])
    (h1 : ∀ j < n, F.connectorAndCableInNode (f j) = .ok (c, cable.name, j, side.letter))
    (h2 : ∀ j < n, F.terminalSource (f j) = .ok (V j)) (hm : L.m ≠ 0) (h0 : ∀ j < n, 0 ≤ f j)
    (hf : ((List.range n).map f).Nodup) (hc : c.Resistors n R) (hR : ∀ j < n, R j ≠ 0) :
    ∃ N S u w, Network.new [⟨⟨n, L⟩, (List.range n).map fun j => ⟨f j, j, c⟩, side.letter, bundle⟩] = .ok ⟨N, S, u⟩ ∧
      u.calls (((List.range n).map fun j => (⟨f j, j, c⟩ : Connection)).map
        fun c => .ground c.id (R c.conductor) (V c.conductor)) = .ok w ∧
      P.jointNetworks false (fun nw g => nw.terminate g) [t] = .ok [(0, ⟨N, S, w⟩)] := by
  obtain ⟨N, S, u, hu, hnodes⟩ := endNetwork_exists (L := ⟨n, L⟩) hm
    (conns := (List.range n).map fun j => (⟨f j, j, c⟩ : Connection)) side bundle
    (by simp only [List.mem_map, List.mem_range]; rintro _ ⟨j, hj, rfl⟩; exact h0 j hj)
    (by rw [List.map_map]; exact hf)
    (by simp only [List.mem_map, List.mem_range]; rintro _ ⟨j, hj, rfl⟩; exact hc.stateVars hj)
    (by simp only [List.mem_map, List.mem_range]; rintro _ ⟨j, hj, rfl⟩; exact hj)
  obtain ⟨w, hw⟩ := grounds_exist (R := R) (V := V) (nw := u)
    (conns := (List.range n).map fun j => (⟨f j, j, c⟩ : Connection))
    (by simp only [List.mem_map, List.mem_range]; rintro _ ⟨j, hj, rfl⟩; exact hR j hj) hnodes
  refine ⟨N, S, u, w, hu, hw, ?_⟩
  have key : P.jointNetwork false (fun nw g => nw.terminate g) t = .ok (0, ⟨N, S, w⟩) := by
    unfold Parsed.jointNetwork
    rw [h.describeJoint hn ht h1 h2]
    simp only [bind, Except.bind, List.map_cons, List.map_nil, hu, List.foldlM_cons, List.foldlM_nil]
    rw [terminate_resistors u hc f V, hw]
    rfl
  unfold Parsed.jointNetworks
  rw [List.foldlM_cons, key]
  rfl

/-- The networks of the file. -/
theorem Parsed.Holds.buildNetworks {P : Parsed p} {L : MTL n p} {b : MTLD n p} (h : P.Holds F cable bundle L b)
    (hF : F.OneCable n cable bundle first last cS cL) (hm : L.m ≠ 0) {RS RL : ℕ → ℝ} {VS VL : ℕ → Option (ℝ → ℝ)}
    (hcS : cS.Resistors n RS) (hcL : cL.Resistors n RL) (hRS : ∀ j < n, RS j ≠ 0) (hRL : ∀ j < n, RL j ≠ 0)
    (hVS : ∀ j < n, F.terminalSource (first j) = .ok (VS j)) (hVL : ∀ j < n, F.terminalSource (last j) = .ok (VL j)) :
    ∃ (NS SS NL SL : ℕ) (uS wS : Network NS SS) (uL wL : Network NL SL),
      Network.new [⟨⟨n, L⟩, (List.range n).map fun j => ⟨first j, j, cS⟩, "S", bundle⟩] = .ok ⟨NS, SS, uS⟩ ∧
      Network.new [⟨⟨n, L⟩, (List.range n).map fun j => ⟨last j, j, cL⟩, "L", bundle⟩] = .ok ⟨NL, SL, uL⟩ ∧
      uS.calls (((List.range n).map fun j => (⟨first j, j, cS⟩ : Connection)).map
        fun c => .ground c.id (RS c.conductor) (VS c.conductor)) = .ok wS ∧
      uL.calls (((List.range n).map fun j => (⟨last j, j, cL⟩ : Connection)).map
        fun c => .ground c.id (RL c.conductor) (VL c.conductor)) = .ok wL ∧
      P.buildNetworks = .ok { P with networks := [[(0, ⟨NS, SS, wS⟩)], [(0, ⟨NL, SL, wL⟩)]] } := by
  classical
  obtain ⟨tS, tL, e0, eS, eL⟩ := hF.terminations
  obtain ⟨NS, SS, uS, wS, a1, a2, a3⟩ := h.jointNetwork (side := .S) hF.some_conductor eS (fun j hj => (hF.at_node hj).1) hVS hm
    (fun j hj => (hF.nonneg j hj).1) (List.nodup_append.1 hF.nodes).1 hcS hRS
  obtain ⟨NL, SL, uL, wL, b1, b2, b3⟩ := h.jointNetwork (side := .L) hF.some_conductor eL (fun j hj => (hF.at_node hj).2) hVL hm
    (fun j hj => (hF.nonneg j hj).2) (List.nodup_append.1 hF.nodes).2.1 hcL hRL
  refine ⟨NS, SS, NL, SL, uS, wS, uL, wL, a1, b1, a2, b2, ?_⟩
  obtain ⟨x, y, hx, hy, hxy⟩ := hF.apart
  obtain ⟨k, rfl⟩ : ∃ k, n = k + 1 := ⟨n - 1, by have := hF.some_conductor; omega⟩
  have hgroups : F.groupJoints [tS, tL] = .ok [[tS], [tL]] := by
    unfold File.groupJoints
    have e1 : F.groupStep [] tS = .ok [(x, [tS])] := by
      simp [File.groupStep, eS, List.range_succ_eq_map, pyIndex, hx, bind, Except.bind, dictSet]
    have e2 : F.groupStep [(x, [tS])] tL = .ok [(x, [tS]), (y, [tL])] := by
      simp [File.groupStep, eL, List.range_succ_eq_map, pyIndex, hy, bind, Except.bind, dictSet, hxy, Ne.symm hxy]
    rw [List.foldlM_cons, e1]
    simp only [bind, Except.bind, List.foldlM_cons, e2, List.foldlM_nil, pure, Except.pure]
    rfl
  unfold Parsed.buildNetworks Parsed.buildJunctions Parsed.buildTerminations
  rw [h.file, hF.junctions, e0, hgroups]
  have : F.groupJoints [] = .ok [] := rfl
  rw [this]
  simp only [bind, Except.bind, mapPy, a3, b3]
  rfl

/-! ## The probes -/

/-- A probe of the file is on the cable, at the position `x`. -/
def File.ProbeAt (F : File) (cable : Cable) (d : ProbeDesc) (x : V3) : Prop :=
  ∃ id c, d.elemIds[0]? = some id ∧ F.nodeCoordId id = .ok c ∧ F.coordinate c = .ok x ∧
    (∀ name, d.cable = some name → name = cable.name) ∧
    (d.cable = none → ∃ el ∈ cable.elemIds, F.lineElemIdFromCoordId c = .ok el)

theorem Parsed.Holds.probeOn_iff {P : Parsed p} {L : MTL n p} {b : MTLD n p} (h : P.Holds F cable bundle L b)
    (hF : F.OneCable n cable bundle first last cS cL) {d : ProbeDesc} {k : ℕ} {x : V3} :
    P.ProbeOn d k x ↔ F.ProbeAt cable d x ∧ k = 0 := by
  have hb : ∀ k, P.bundleWithCable cable.name = .ok k ↔ k = 0 := by
    intro k
    simp only [Parsed.bundleWithCable, h.bundles, lineNames]
    simp [h.name, eq_comm]
  unfold Parsed.ProbeOn File.ProbeAt
  rw [h.file, hF.cables]
  constructor
  · rintro ⟨id, c, h1, h2, h3, cab, hcab, h4, h5, h6⟩
    obtain rfl := List.mem_singleton.1 hcab
    refine ⟨⟨id, c, h1, h2, h3, fun name hn => (h5 name hn).symm, fun hn => ?_⟩, (hb k).1 h4⟩
    obtain ⟨el, h7, h8⟩ := h6 hn
    obtain ⟨_, _, -, h9, -⟩ := h8
    exact ⟨el, h9, h7⟩
  · rintro ⟨⟨id, c, h1, h2, h3, h5, h6⟩, hk⟩
    refine ⟨id, c, h1, h2, h3, cable, List.mem_singleton_self _, (hb k).2 hk, fun name hn => (h5 name hn).symm, fun hn => ?_⟩
    obtain ⟨el, h7, h8⟩ := h6 hn
    exact ⟨el, h8, firstMatch_cons.2 (.inl ⟨h7, rfl⟩)⟩

/-- A bundle accepts a probe at a position. -/
def MTLD.Accepts (b : MTLD n p) (x : V3) : Prop := ∃ b', b.addProbe (.list x) "" = .ok b'

theorem MTLD.addProbe_iff {b b' : MTLD n p} {x : V3} {type : String} : b.addProbe (.list x) type = .ok b' ↔
    b.Accepts x ∧ b' = { b with probes := b.probes ++ [Probe.new x type b.dt b.u b.m] } := by
  unfold MTLD.Accepts MTLD.addProbe
  simp only [bind_ok_iff, raiseIf_ok_iff, Except.ok.injEq]
  constructor
  · rintro ⟨_, h1, _, h2, rfl⟩
    exact ⟨⟨_, (), h1, (), h2, rfl⟩, rfl⟩
  · rintro ⟨⟨_, _, h1, _, h2, -⟩, rfl⟩
    exact ⟨(), h1, (), h2, rfl⟩

theorem MTLD.accepts_probes (b : MTLD n p) (ps : List (Probe n)) (x : V3) : ({ b with probes := ps } : MTLD n p).Accepts x ↔ b.Accepts x := by
  unfold MTLD.Accepts MTLD.addProbe
  simp only [bind_ok_iff, raiseIf_ok_iff, Except.ok.injEq]
  constructor
  · rintro ⟨_, _, h1, _, h2, -⟩; exact ⟨_, (), h1, (), h2, rfl⟩
  · rintro ⟨_, _, h1, _, h2, -⟩; exact ⟨_, (), h1, (), h2, rfl⟩

theorem Parsed.Holds.addProbe {P P' : Parsed p} {L : MTL n p} {b : MTLD n p} (h : P.Holds F cable bundle L b)
    (hF : F.OneCable n cable bundle first last cS cL) {d : ProbeDesc} : P.addProbe d = .ok P' ↔
    ∃ x, F.ProbeAt cable d x ∧ b.Accepts x ∧ P' = { P with
      bundles := [⟨⟨n, { b with probes := b.probes ++ [Probe.new x d.type b.dt b.u b.m] }⟩, [[⟨n, L⟩]]⟩]
      probes := dictSet P.probes d.name (0, b.probes.length) } := by
  rw [C115_probe]
  constructor
  · rintro ⟨k, x, B, b', h1, h2, h3, h4⟩
    obtain ⟨h5, rfl⟩ := (h.probeOn_iff hF).1 h1
    rw [h.bundles] at h2
    obtain rfl := (Option.some.inj h2).symm
    obtain ⟨h6, rfl⟩ := MTLD.addProbe_iff.1 h3
    refine ⟨x, h5, h6, ?_⟩
    rw [h4, h.bundles]
    rfl
  · rintro ⟨x, h1, h2, h3⟩
    refine ⟨0, x, ⟨⟨n, b⟩, [[⟨n, L⟩]]⟩, _, (h.probeOn_iff hF).2 ⟨h1, rfl⟩, by rw [h.bundles]; rfl, MTLD.addProbe_iff.2 ⟨h2, rfl⟩, ?_⟩
    rw [h3, h.bundles]
    rfl

theorem Parsed.Holds.addProbes {L : MTL n p} (hF : F.OneCable n cable bundle first last cS cL) (ds : List ProbeDesc) :
    ∀ {P : Parsed p} {b : MTLD n p}, P.Holds F cable bundle L b →
    (∀ P', ds.foldlM Parsed.addProbe P = .ok P' → ∃ ps, P'.Holds F cable bundle L { b with probes := b.probes ++ ps } ∧
      List.Forall₂ (fun d q => ∃ x, F.ProbeAt cable d x ∧ q = Probe.new x d.type b.dt b.u b.m) ds ps) ∧
    ((∃ P', ds.foldlM Parsed.addProbe P = .ok P') ↔ ∀ d ∈ ds, ∃ x, F.ProbeAt cable d x ∧ b.Accepts x) := by
  induction ds with
  | nil =>
    intro P b h
    refine ⟨fun P' h' => ⟨[], ?_, .nil⟩, by simp [pure, Except.pure]⟩
    obtain rfl := Except.ok.inj h'
    simpa using h
  | cons d ds ih =>
    intro P b h
    have hnext : ∀ {P1 x}, P1 = ({ P with
      bundles := [⟨⟨n, { b with probes := b.probes ++ [Probe.new x d.type b.dt b.u b.m] }⟩, [[⟨n, L⟩]]⟩]
      probes := dictSet P.probes d.name (0, b.probes.length) } : Parsed p) → P1.Holds F cable bundle L { b with probes := b.probes ++ [Probe.new x d.type b.dt b.u b.m] } := by
      rintro P1 x rfl
      exact ⟨h.file, rfl, h.nameToLine, h.nameToBundle, h.name⟩
    constructor
    · intro P' h'
      rw [List.foldlM_cons] at h'
      obtain ⟨P1, h1, h2⟩ := bind_ok_iff.1 h'
      obtain ⟨x, e1, e2, e3⟩ := (h.addProbe hF).1 h1
      obtain ⟨ps, i1, i2⟩ := (ih (hnext e3)).1 P' h2
      refine ⟨Probe.new x d.type b.dt b.u b.m :: ps, ?_, .cons ⟨x, e1, rfl⟩ i2⟩
      simpa using i1
    · constructor
      · rintro ⟨P', h'⟩
        rw [List.foldlM_cons] at h'
        obtain ⟨P1, h1, h2⟩ := bind_ok_iff.1 h'
        obtain ⟨x, e1, e2, e3⟩ := (h.addProbe hF).1 h1
        have := (ih (hnext e3)).2.1 ⟨P', h2⟩
        intro d' hd'
        rcases List.mem_cons.1 hd' with rfl | hd'
        · exact ⟨x, e1, e2⟩
        · obtain ⟨y, a1, a2⟩ := this d' hd'
          exact ⟨y, a1, (b.accepts_probes _ y).1 a2⟩
      · intro hall
        obtain ⟨x, e1, e2⟩ := hall d List.mem_cons_self
        have h1 := (h.addProbe hF (P' := _)).2 ⟨x, e1, e2, rfl⟩
        obtain ⟨P', h2⟩ := (ih (hnext (x := x) rfl)).2.2 fun d' hd' => by
          obtain ⟨y, a1, a2⟩ := hall d' (List.mem_cons_of_mem _ hd')
          exact ⟨y, a1, (b.accepts_probes _ y).2 a2⟩
        refine ⟨P', ?_⟩
        rw [List.foldlM_cons, h1]
        exact h2

end lookups

/-! ## The line -/

/-- The constructor accepts the terminations of the parser whenever it accepts others; only what belongs to the terminations
differs. -/
theorem new_other_terminations {l c r g : Arg} {length : ℝ} {positions : List V3} {ndiv : List ℕ} {Zs Zl : ZArg}
    {name : String} {s : MTL n p} (h : MTL.new p l c r g length positions ndiv Zs Zl name = .ok ⟨n, s⟩) :
    ∃ L : MTL n p, MTL.new p l c r g length positions ndiv (.scalar 0) (.scalar 0) name = .ok ⟨n, L⟩ ∧
      L = { s with zs := L.zs, zl := L.zl, left1 := L.left1, left2 := L.left2, right1 := L.right1, right2 := L.right2 } ∧
      L.name = name := by
  obtain ⟨la, ca, ga, ra, zsa, zla, mem, dt, h1, h2, h3, h4, h5, h6, h7, h8⟩ := new_ok_iff.1 h
  obtain ⟨hdt, -, -, rfl⟩ := computeTerminalTerms_ok_iff.1 h8
  have hz : initZt n (.scalar 0) (.scalar 0) = .ok ((fun i j => if i = j then 0 else 0), (fun i j => if i = j then 0 else 0)) := rfl
  have hz0 : toMat n (fun i j => if i = j then 0 else 0) = (0 : Mat n) := by ext i j; simp [toMat]
  have hdet : ∀ dt du (C G : Mat n), (termF1 dt du (toMat n (fun i j => if i = j then 0 else 0)) C G).det ≠ 0 := by
    intro dt du C G
    rw [hz0]
    simp [termF1]
  exact ⟨_, new_ok_iff.2 ⟨la, ca, ga, ra, _, _, mem, dt, h1, h2, h3, hz, h5, h6, h7,
    computeTerminalTerms_ok_iff.2 ⟨hdt, hdet _ _ _ _, hdet _ _ _ _, rfl⟩⟩, rfl, rfl⟩

/-- A line with voltage sources at its two ends. -/
def MTL.withEndSources (s : MTL n p) (VS VL : ℕ → Option (ℝ → ℝ)) : MTL n p :=
  { s with vSources := fun k a => if k = 0 then (VS a).getD 0 else if k = s.m then (VL a).getD 0 else 0 }

/-- The parser reads a file with one cable. -/
structure Reads (j : Json) (F : File) (n : ℕ) (cable : Cable) (bundle : String) (first last : ℕ → ℤ) (cS cL : Connector)
    (RS RL : ℕ → ℝ) (VS VL : ℕ → Option (ℝ → ℝ)) : Prop where
  read : j.read = .ok F
  one : F.OneCable n cable bundle first last cS cL
  resistors_S : cS.Resistors n RS
  resistors_L : cL.Resistors n RL
  pos_S : ∀ j < n, 0 < RS j
  pos_L : ∀ j < n, 0 < RL j
  source_S : ∀ j < n, F.terminalSource (first j) = .ok (VS j)
  source_L : ∀ j < n, F.terminalSource (last j) = .ok (VL j)

/-- The line of the cable as a program would build it: with the matrices of the wire, the positions of the coordinates, and the
resistances of the connectors as terminations. -/
def Builds (p : ℕ) (F : File) (n : ℕ) (cable : Cable) (RS RL : ℕ → ℝ) (s : MTL n p) : Prop :=
  ∃ pos w l c r, F.Finds cable.name cable pos w ∧ w.args = .ok (l, c, r) ∧
    MTL.new p l c r (.scalar 0) 1 pos cable.ndiv (.vec ((List.range n).map RS)) (.vec ((List.range n).map RL)) cable.name = .ok ⟨n, s⟩

section final

variable {j : Json} {F : File} {cable : Cable} {bundle : String} {first last : ℕ → ℤ} {cS cL : Connector} {RS RL : ℕ → ℝ}
  {VS VL : ℕ → Option (ℝ → ℝ)} {order : List String → List String} {s : MTL n p}

theorem Builds.positive {l c r g : Arg} {length : ℝ} {pos : List V3} {ndiv : List ℕ} {Zs Zl : ZArg}
    {name : String} (h : MTL.new p l c r g length pos ndiv Zs Zl name = .ok ⟨n, s⟩) : s.m ≠ 0 := by
  obtain ⟨-, -, -, -, -, -, -, -, -, -, h7, -⟩ := new_ok_contents h
  intro h0
  rw [h0] at h7
  simp [maxTimestep] at h7

/-- The parser before the networks are built. -/
theorem Reads.before (h : Reads j F n cable bundle first last cS cL RS RL VS VL) (ho : ValidOrder order)
    (hs : Builds p F n cable RS RL s) : ∃ (L : MTL n p) (P0 : Parsed p),
      L = { s with zs := L.zs, zl := L.zl, left1 := L.left1, left2 := L.left2, right1 := L.right1, right2 := L.right2 } ∧
      P0.Holds F cable bundle L (MTLD.single L bundle) ∧
      Parsed.new p order j = (F.probes.foldlM Parsed.addProbe P0).bind Parsed.buildNetworks := by
  obtain ⟨pos, w, l, c, r, h1, h2, h3⟩ := hs
  obtain ⟨L, h4, h5, h6⟩ := new_other_terminations h3
  have hL : F.buildLine p cable.name = .ok ⟨n, L⟩ := (buildLine_iff h.one.wellFormed).2 ⟨cable, pos, w, l, c, r, h1, h2, h4⟩
  refine ⟨L,
    { file := F, bundles := [⟨⟨n, MTLD.single L bundle⟩, [[⟨n, L⟩]]⟩]
      nameToLine := [(cable.name, ⟨n, L⟩)], nameToBundle := [(cable.name, bundle)] }, h5, ⟨rfl, rfl, rfl, rfl, h6⟩, ?_⟩
  · unfold Parsed.new
    rw [h.read]
    simp only [bind, Except.bind]
    rw [h.one.bundle_built ho hL h6]
    have hsrc : F.sources.filter (fun s => s.sourceType = "DistributedSource") = [] := by
      rw [List.filter_eq_nil_iff]
      intro a ha
      simpa using h.one.no_fields a ha
    simp only [Parsed.addSources, hsrc, List.foldlM_nil, pure, Except.pure, Parsed.addProbes]

/-- **C142** Which files with one cable the parser accepts: those whose probes are on the cable. -/
theorem C142_accepted (h : Reads j F n cable bundle first last cS cL RS RL VS VL) (ho : ValidOrder order)
    (hs : Builds p F n cable RS RL s) : (∃ P : Parsed p, Parsed.new p order j = .ok P) ↔
      ∀ d ∈ F.probes, ∃ x, F.ProbeAt cable d x ∧ (MTLD.single s bundle).Accepts x := by
  obtain ⟨L, P0, hL, hP, hnew⟩ := h.before ho hs
  have hm : L.m ≠ 0 := by
    obtain ⟨_, _, _, _, _, -, -, h3⟩ := hs
    rw [hL]
    exact Builds.positive (s := s) h3
  have hb : MTLD.single L bundle = MTLD.single s bundle := by rw [hL]; rfl
  obtain ⟨k1, k2⟩ := Parsed.Holds.addProbes h.one F.probes hP
  rw [hb] at k2
  rw [hnew, ← k2]
  constructor
  · rintro ⟨P, hP'⟩
    obtain ⟨P', h1, -⟩ := bind_ok_iff.1 hP'
    exact ⟨P', h1⟩
  · rintro ⟨P', h1⟩
    obtain ⟨ps, h2, -⟩ := k1 P' h1
    obtain ⟨_, _, _, _, _, _, _, _, -, -, -, -, h3⟩ := h2.buildNetworks h.one hm h.resistors_S h.resistors_L
      (fun j hj => (h.pos_S j hj).ne') (fun j hj => (h.pos_L j hj).ne') h.source_S h.source_L
    exact ⟨_, by rw [h1]; exact h3⟩

/-- **C142** The simulation of a file with one cable: the bundle of the parser has the voltages, the currents and the probes of
the line that a program builds with the resistances as terminations, the sources at its ends, and the probes of the file. -/
theorem C142_simulation (h : Reads j F n cable bundle first last cS cL RS RL VS VL) (ho : ValidOrder order)
    (hs : Builds p F n cable RS RL s) (hdt : s.dt ≤ 10 ^ 10) {P : Parsed p} (hP : Parsed.new p order j = .ok P) :
    ∃ ps, List.Forall₂ (fun d q => ∃ x, F.ProbeAt cable d x ∧ q = Probe.new x d.type s.dt s.u s.m) F.probes ps ∧
      ∀ T s', ({ s.withEndSources VS VL with probes := ps } : MTL n p).runUntil T = .ok s' →
        ∃ (P' : Parsed p) (b : MTLD n p) (levels : List (List (AnyLine p))), P.run T 0 = .ok P' ∧ P'.bundles = [⟨⟨n, b⟩, levels⟩] ∧
          b.v = s'.v ∧ b.i = s'.i ∧ b.probes = s'.probes := by
  obtain ⟨L, P0, hL, hP0, hnew⟩ := h.before ho hs
  obtain ⟨_, _, l, c, r, -, -, h3⟩ := hs
  have hm : s.m ≠ 0 := Builds.positive h3
  have hmL : L.m ≠ 0 := by rw [hL]; exact hm
  have hb : MTLD.single L bundle = MTLD.single s bundle := by rw [hL]; rfl
  have hbdt : (MTLD.single s bundle).dt = s.dt := by
    show (if s.dt < 10 ^ 10 then s.dt else 10 ^ 10) = s.dt
    split
    · rfl
    · linarith
  rw [hnew] at hP
  obtain ⟨P1, hP1, hP2⟩ := bind_ok_iff.1 hP
  obtain ⟨ps, hH, hps⟩ := (Parsed.Holds.addProbes h.one F.probes hP0).1 P1 hP1
  obtain ⟨NS, SS, NL, SL, uS, wS, uL, wL, n1, n2, n3, n4, n5⟩ := hH.buildNetworks h.one hmL h.resistors_S h.resistors_L
      (fun j hj => (h.pos_S j hj).ne') (fun j hj => (h.pos_L j hj).ne') h.source_S h.source_L
  obtain rfl := Except.ok.inj (n5.symm.trans hP2)
  rw [hb, hbdt] at hps
  refine ⟨ps, hps, fun T s' hrun => ?_⟩
  obtain ⟨-, -, -, -, e1, e2, e3, e4, e5, e6, e7, e8, -, -, e9⟩ := new_ok_contents h3
  have hnet : ∀ cs side, Network.new [⟨⟨n, L⟩, cs, side, bundle⟩] =
      Network.new [⟨⟨n, ({ s.withEndSources VS VL with probes := ps } : MTL n p)⟩, cs, side, bundle⟩] := by
    intro cs side
    rw [hL]
    rfl
  rw [hnet] at n1 n2
  have hT := C09_constructed_consistent _ _ _ _ _ _ _ _ _ _ _ h3
  obtain ⟨la, ca, ga, ra, zsa, zla, mem, dt, -, -, -, -, -, -, -, h8⟩ := new_ok_iff.1 h3
  obtain ⟨-, -, -, hs8⟩ := computeTerminalTerms_ok_iff.1 h8
  have hval : ∀ (R : ℕ → ℝ) (a : Fin n), (ZArg.vec ((List.range n).map R)).value a = R a := by
    intro R a
    simp [ZArg.value]
  have hg : s.g = fun _ => 0 := by
    rw [e4]
    funext k
    ext a b
    simp [Arg.matrix]
  obtain ⟨M, M', b, m1, m2, m3, m4, m5, m6⟩ := twin_manager true (L := ({ s.withEndSources VS VL with probes := ps } : MTL n p))
    (name := bundle) (B := { MTLD.single s bundle with probes := ps }) (T := T) (L' := s') (VS := VS) (VL := VL) (RS := RS) (RL := RL)
    rfl hm hdt (by rw [hs8]; rfl) (by rw [hs8]; rfl) (by rw [hs8]; rfl) (by rw [hs8]; rfl) (by rw [hs8]; rfl) (by rw [hs8]; rfl)
    ⟨hT.1, hT.2, hT.3, hT.4, hT.5, hT.6⟩
    (by
      show s.conn.SumsCached
      rw [e9]
      exact ⟨by funext k; ext a b; simp [Disp.new, vSum, QEntry.val, poleSum],
        by funext k; ext a b; simp [Disp.new, vSum, QEntry.val, poleSum]⟩)
    (by show s.g 0 = 0; rw [hg]) (by show s.g s.m = 0; rw [hg])
    (by show s.zs = _; rw [e5]; simp only [hval]) (by show s.zl = _; rw [e6]; simp only [hval])
    h.pos_S h.pos_L (by intro a; simp [MTL.withEndSources]) (by intro a; simp [MTL.withEndSources, hm])
    (by simp [Function.comp_def]) (by simp [Function.comp_def]) n1 n2 n3 n4 hrun
  have hman : ({ P1 with networks := [[(0, ⟨NS, SS, wS⟩)], [(0, ⟨NL, SL, wL⟩)]] } : Parsed p).manager 0 = .ok M := by
    obtain ⟨M1, a1, a2⟩ := bind_ok_iff.1 m1
    refine bind_ok_iff.2 ⟨M1, ?_, bind_ok_iff.2 ⟨M, a2, by rw [if_pos rfl]⟩⟩
    show List.foldlM _ _ (P1.bundles.map fun B => B.bundle) = _
    rw [hH.bundles, hb, ← a1]
    simp only [if_true]
    rfl
  refine ⟨_, b, [[⟨n, L⟩]], bind_ok_iff.2 ⟨M, hman, bind_ok_iff.2 ⟨M', m2, rfl⟩⟩, ?_, m4, m5, by simpa using m6⟩
  show List.zipWith _ P1.bundles M'.bundles = _
  rw [hH.bundles, m3]
  rfl

end final

end Mtln
