import Verif.Props.ParserTermination
import Verif.Props.ParserGraph
import Verif.Props.LineApi
import Verif.Props.Bundle

/-!
# Bundles of the parser (C84, C87, C89) and a whole file
-/

namespace Mtln

variable {p : ℕ}

/-! ## C84 -/

/-- **C84 is false**: as soon as the file has a lumped element, every line without one raises `IndexError`. -/
theorem C84_refuted {F : File} {L : AnyLine p} (h : F.lumped ≠ []) (h' : ∀ e ∈ F.lumped, e.cable ≠ L.2.name) :
    F.addLumped L = .error .IndexError := by
  have : (F.lumped.filter fun e => e.cable = L.2.name) = [] := List.filter_eq_nil_iff.2 fun e he => by simpa using h' e he
  unfold File.addLumped
  rw [if_neg h, this]
  rfl

/-- **C84 is false**: of the lumped elements of a cable all but the first are ignored. -/
theorem C84_refuted_second {F : File} {L : AnyLine p} {e : Lumped} {r : List Lumped}
    (h : (F.lumped.filter fun e => e.cable = L.2.name) = e :: r) :
    F.addLumped L = ({ F with lumped := [e] } : File).addLumped L := by
  have hne : F.lumped ≠ [] := by rintro hn; rw [hn] at h; simp at h
  have he : e.cable = L.2.name := by
    have : e ∈ F.lumped.filter fun e => e.cable = L.2.name := by rw [h]; simp
    simpa using (List.mem_filter.1 this).2
  unfold File.addLumped
  rw [if_neg hne, h]
  have h1 : (({ F with lumped := [e] } : File).lumped.filter fun e => e.cable = L.2.name) = [e] := by simp [he]
  rw [h1, if_neg (by simp)]
  rfl

/-- **C84 (part)**: without lumped elements lines are unaffected; the first lumped element of a cable is placed at its
position and conductor, with the model of its connector. -/
theorem C84_first_partial {F : File} {L L' : AnyLine p} :
    (F.lumped = [] → F.addLumped L = .ok L) ∧
    (F.lumped ≠ [] → (F.addLumped L = .ok L' ↔ ∃ (e : Lumped) (c : ConnectorMaterial) (M : RationalModel) (x : V3)
      (xs : List V3) (k : Fin L.1) (s : MTL L.1 p), FirstMatch F.lumped (fun e => e.cable = L.2.name) e ∧
      FirstMatch F.connectors (fun c => c.materialId = e.materialId) c ∧ c.model = some M ∧
      mapPy F.coordinate e.coordIds = .ok (x :: xs) ∧ (k : ℕ) = e.conductor ∧
      L.2.addDispersiveConnector x k M = .ok s ∧ L' = ⟨L.1, s⟩)) := by
  refine ⟨fun h => if_pos h, fun h => ?_⟩
  unfold File.addLumped
  rw [if_neg h]
  constructor
  · intro h
    obtain ⟨e, he, h⟩ := bind_ok_iff.1 h
    obtain ⟨c, hc, h⟩ := bind_ok_iff.1 h
    rw [pyIndex_filter_ok_iff] at he
    unfold File.connectorWithId at hc
    rw [pyIndex_filter_ok_iff] at hc
    cases hM : c.model with
    | none => rw [hM] at h; cases h
    | some M =>
      rw [hM] at h
      obtain ⟨xs, hxs, h⟩ := bind_ok_iff.1 h
      obtain ⟨x, hx, h⟩ := bind_ok_iff.1 h
      split at h
      · rename_i hk
        obtain ⟨s, hs, h9⟩ := bind_ok_iff.1 h
        cases xs with
        | nil => cases hx
        | cons y ys =>
          obtain rfl := Except.ok.inj hx
          exact ⟨e, c, M, y, ys, ⟨_, hk⟩, s, he, hc, hM, hxs, rfl, hs, (Except.ok.inj h9).symm⟩
      · cases h
  · rintro ⟨e, c, M, x, xs, ⟨k, hk⟩, s, he, hc, hM, hxs, rfl, hs, rfl⟩
    refine bind_ok_iff.2 ⟨e, pyIndex_filter_ok_iff.2 he, bind_ok_iff.2 ⟨c, pyIndex_filter_ok_iff.2 hc, ?_⟩⟩
    rw [hM]
    refine bind_ok_iff.2 ⟨_, hxs, bind_ok_iff.2 ⟨x, rfl, ?_⟩⟩
    rw [dif_pos hk]
    exact bind_ok_iff.2 ⟨s, hs, rfl⟩

/-! ## C87 -/

/-- **C87 is false**: a nesting is accepted only if every outer cable has a transfer impedance. -/
theorem C87_refuted {P P' : Parsed p} {order : List String → List String} {d : BundleDesc}
    (h : P.addBundle order d = .ok P') : ∀ a b, d.nested.Inside a b → ∃ cable Z, P.file.cableNameOf a = .ok cable ∧
      P.file.transferImpedance cable = some Z := by
  obtain ⟨g, hg, h⟩ := bind_ok_iff.1 h
  obtain ⟨k, -, h⟩ := bind_ok_iff.1 h
  obtain ⟨levels, -, h⟩ := bind_ok_iff.1 h
  obtain ⟨b, -, h⟩ := bind_ok_iff.1 h
  obtain ⟨B, hB, -⟩ := bind_ok_iff.1 h
  obtain ⟨B1, h1, -⟩ := bind_ok_iff.1 hB
  intro x y hxy
  obtain ⟨-, -, hes⟩ := C83_graph hg
  obtain ⟨dep, hdep, -⟩ := hxy.depth
  obtain ⟨c, hc⟩ := build_cable hg hdep
  obtain ⟨B2, B3, h2⟩ := foldlM_steps h1 ⟨x, y, P.file.transferImpedance c⟩ ((hes _).2 ⟨hxy, c, hc, rfl⟩)
  refine ⟨c, ?_⟩
  cases hZ : P.file.transferImpedance c with
  | some Z => exact ⟨Z, hc, rfl⟩
  | none =>
    obtain ⟨s, -, h2⟩ := bind_ok_iff.1 h2
    obtain ⟨t, -, h2⟩ := bind_ok_iff.1 h2
    obtain ⟨i, -, h2⟩ := bind_ok_iff.1 h2
    obtain ⟨j, -, h2⟩ := bind_ok_iff.1 h2
    simp only [hZ] at h2
    obtain ⟨-, -, h2⟩ := bind_ok_iff.1 h2
    cases h2

/-- **C87 is false**, the exception of an edge: `AttributeError`, if the elements are found. -/
theorem C87_refuted_error {F : File} {g : Graph} {B : PBundle p} {e : Edge} {s t : Vertex} {a b : ℕ} (hZ : e.Zt = none)
    (hs : g.vertex e.source = .ok s) (ht : g.vertex e.target = .ok t) (ha : F.conductorNumber s B = .ok a)
    (hb : F.conductorNumber t B = .ok b) (hl : adjacentLevels s.level t.level) :
    F.addEdge g B e = .error .AttributeError := by
  unfold File.addEdge pyAssert
  rw [hs, ht]
  simp only [bind, Except.bind, ha, hb, hZ, if_pos hl]

/-- **C87 (part)**: a bundle without nesting needs no transfer impedance. -/
theorem C87_flat_partial {F : File} {l : List ℤ} {g : Graph} (hg : Graph.build F (.ids l) = .ok g) (hF : F.ends = [])
    (B : PBundle p) : F.setTransferImpedances g B = .ok B := by
  have : g.es = [] := by
    obtain ⟨-, -, hes⟩ := C83_graph hg
    refine List.eq_nil_iff_forall_not_mem.2 fun e he => ?_
    obtain ⟨h, -⟩ := (hes e).1 he
    cases h
  unfold File.setTransferImpedances
  rw [this, hF]
  rfl

/-! ## C89 -/

/-- The orders in which Python can go through the set of the cable names. -/
def ValidOrder (order : List String → List String) : Prop := ∀ l, (order l).Perm l.dedup

theorem addBundle_file {P P' : Parsed p} {order : List String → List String} {d : BundleDesc}
    (h : P.addBundle order d = .ok P') : P'.file = P.file := by
  obtain ⟨g, -, h⟩ := bind_ok_iff.1 h
  obtain ⟨k, -, h⟩ := bind_ok_iff.1 h
  obtain ⟨levels, -, h⟩ := bind_ok_iff.1 h
  obtain ⟨b, -, h⟩ := bind_ok_iff.1 h
  obtain ⟨B, -, h⟩ := bind_ok_iff.1 h
  rw [← Except.ok.inj h]

/-- **C89 (part)**: if each level has at most one cable, the order is immaterial. -/
theorem C89_single_partial {j : Json} {o1 o2 : List String → List String} (h1 : ValidOrder o1) (h2 : ValidOrder o2)
    (h : ∀ F, j.read = .ok F → ∀ d ∈ F.bundles, ∀ a b level ca cb, d.nested.At a level → d.nested.At b level →
      F.cableNameOf a = .ok ca → F.cableNameOf b = .ok cb → ca = cb) :
    Parsed.new p o1 j = Parsed.new p o2 j := by
  unfold Parsed.new
  cases hr : j.read with
  | error e => rfl
  | ok F =>
    have h := h F hr
    have key : ∀ (ds : List BundleDesc), (∀ d ∈ ds, d ∈ F.bundles) → ∀ P : Parsed p, P.file = F →
        ds.foldlM (Parsed.addBundle o1) P = ds.foldlM (Parsed.addBundle o2) P := by
      intro ds
      induction ds with
      | nil => intro _ P _; rfl
      | cons d ds ih =>
        intro hds P hP
        rw [List.foldlM_cons, List.foldlM_cons]
        have e : Parsed.addBundle o1 P d = Parsed.addBundle o2 P d := by
          unfold Parsed.addBundle
          rw [hP]
          cases hg : Graph.build F d.nested with
          | error e => rfl
          | ok g =>
            obtain ⟨-, hvs, -⟩ := C83_graph hg
            have ho : ∀ i, o1 (g.cablesAt i) = o2 (g.cablesAt i) := by
              intro i
              have hu : ∀ x ∈ g.cablesAt i, ∀ y ∈ g.cablesAt i, x = y := by
                intro x hx y hy
                obtain ⟨v, hv, rfl⟩ := List.mem_map.1 hx
                obtain ⟨w, hw, rfl⟩ := List.mem_map.1 hy
                obtain ⟨hv, hvi⟩ := List.mem_filter.1 hv
                obtain ⟨hw, hwi⟩ := List.mem_filter.1 hw
                obtain ⟨a1, a2⟩ := (hvs v).1 hv
                obtain ⟨b1, b2⟩ := (hvs w).1 hw
                rw [decide_eq_true_eq] at hvi hwi
                rw [hvi] at a1
                rw [hwi] at b1
                exact h d (hds d (by simp)) _ _ i _ _ a1 b1 a2 b2
              have hl : (g.cablesAt i).dedup = [] ∨ ∃ x, (g.cablesAt i).dedup = [x] := by
                have hn := List.nodup_dedup (g.cablesAt i)
                match hd : (g.cablesAt i).dedup with
                | [] => exact .inl rfl
                | [x] => exact .inr ⟨x, rfl⟩
                | x :: y :: l =>
                  rw [hd] at hn
                  have hx : x ∈ g.cablesAt i := List.mem_dedup.1 (by rw [hd]; simp)
                  have hy : y ∈ g.cablesAt i := List.mem_dedup.1 (by rw [hd]; simp)
                  rw [hu x hx y hy] at hn
                  simp at hn
              have p1 := h1 (g.cablesAt i)
              have p2 := h2 (g.cablesAt i)
              rcases hl with hl | ⟨x, hl⟩
              · rw [hl] at p1 p2
                rw [p1.eq_nil, p2.eq_nil]
              · rw [hl] at p1 p2
                rw [List.perm_singleton.1 p1, List.perm_singleton.1 p2]
            simp only [bind, Except.bind, ho]
        rw [e]
        cases hb : Parsed.addBundle o2 P d with
        | error e => rfl
        | ok P' => exact ih (fun d hd => hds d (by simp [hd])) P' ((addBundle_file hb).trans hP)
    show (do
      let P ← Parsed.buildBundles o1 { file := F }
      let P ← P.addSources
      let P ← P.addProbes
      P.buildNetworks) = _
    unfold Parsed.buildBundles
    rw [key F.bundles (fun d hd => hd) _ rfl]
    rfl

/-! ## A whole file -/

/-- The transfer impedance 0. -/
def demoZero : TransferModel := ⟨⟨0, 0, [], [], [], []⟩, none, "in"⟩

/-- Two wires `a` and `b` inside of a shield `o`, with resistors at the beginning of the wires. -/
noncomputable def demoShield : Json where
  coordinates := some [(1, ![0, 0, 0]), (2, ![0, 0, 0]), (3, ![0, 0, 0]), (4, ![0, 0, 1]), (5, ![0, 0, 1]), (6, ![0, 0, 1])]
  elements := some [("line", [[1, 0, 1, 1, 4], [2, 0, 1, 2, 5], [3, 0, 1, 3, 6]])]
  materials := some [
    .wire { materialId := 1, inductance := some (.float 1), capacitance := some (.float 1),
            transferImpedance := some demoZero },
    .wire { materialId := 2, inductance := some (.float 1), capacitance := some (.float 1) },
    .wire { materialId := 3, inductance := some (.float 2), capacitance := some (.float 1) },
    .connector { materialId := 5, connector := { connectorType := "Conn_R", resistance := some 50 } }]
  cables := some [{ name := "o", materialId := 1, elemIds := [1], ndiv := [1], initialConnectorId := some 5 },
    { name := "a", materialId := 2, elemIds := [2], ndiv := [1], initialConnectorId := some 5,
      endConnectorId := some 5 },
    { name := "b", materialId := 3, elemIds := [3], ndiv := [1], initialConnectorId := some 5 }]
  bundles := some [⟨"B", .dict 1 (fun _ => 1) (fun _ => .ids [2, 3])⟩]
  terminations := some [⟨"first", [[2]]⟩, ⟨"second", [[3]]⟩]

/-- The file as the parser reads it. -/
noncomputable def demoShieldFile : File where
  coordinates := [(1, ![0, 0, 0]), (2, ![0, 0, 0]), (3, ![0, 0, 0]), (4, ![0, 0, 1]), (5, ![0, 0, 1]), (6, ![0, 0, 1])]
  terminations := [⟨"first", [[2]]⟩, ⟨"second", [[3]]⟩]
  cables := [{ name := "o", materialId := 1, elemIds := [1], ndiv := [1], initialConnectorId := some 5 },
    { name := "a", materialId := 2, elemIds := [2], ndiv := [1], initialConnectorId := some 5,
      endConnectorId := some 5 },
    { name := "b", materialId := 3, elemIds := [3], ndiv := [1], initialConnectorId := some 5 }]
  bundles := [⟨"B", .dict 1 (fun _ => 1) (fun _ => .ids [2, 3])⟩]
  lines := [[1, 0, 1, 1, 4], [2, 0, 1, 2, 5], [3, 0, 1, 3, 6]]
  connectors := [{ materialId := 5, connector := { connectorType := "Conn_R", resistance := some 50 } }]
  wires := [
    { materialId := 1, inductance := some (.float 1), capacitance := some (.float 1), transferImpedance := some demoZero },
    { materialId := 2, inductance := some (.float 1), capacitance := some (.float 1) },
    { materialId := 3, inductance := some (.float 2), capacitance := some (.float 1) }]

theorem demoShield_read : demoShield.read = .ok demoShieldFile := by
  simp [Json.read, demoShield, demoShieldFile, needSection, bind, Except.bind, readCoordinates, dictSet, readElements]

theorem new_name {n : ℕ} {l c r g : Arg} {length : ℝ} {positions : List V3} {ndiv : List ℕ} {Zs Zl : ZArg} {name : String}
    {s : MTL n p} (h : MTL.new p l c r g length positions ndiv Zs Zl name = .ok ⟨n, s⟩) : s.name = name := by
  obtain ⟨la, ca, ga, ra, zsa, zla, mem, dt, -, -, -, -, -, -, -, h⟩ := new_ok_iff.1 h
  obtain ⟨-, -, -, rfl⟩ := computeTerminalTerms_ok_iff.1 h
  rfl

/-- The lines of the file: straight, of one cell. -/
theorem demoShield_cells (name : String) (x : ℝ) (h : (name, x) ∈ [("o", (1 : ℝ)), ("a", 1), ("b", 2)]) :
    ∃ s : MTL 1 p, demoShieldFile.finishedLine p name = .ok ⟨1, s⟩ ∧ s.name = name ∧ s.m = 1 ∧ s.u 0 = ![0, 0, 0] ∧
      s.u 1 = ![0, 0, 1] ∧ (∀ k, s.l k = fun _ _ => x) ∧ s.du 0 = ![0, 0, 1] ∧ s.eL = fun _ _ _ => 0 := by
  have hx : 0 < x := by
    simp only [List.mem_cons, Prod.mk.injEq, List.not_mem_nil, or_false] at h
    rcases h with ⟨-, rfl⟩ | ⟨-, rfl⟩ | ⟨-, rfl⟩ <;> norm_num
  have hne : (![0, 0, 0] : V3) ≠ ![0, 0, 1] := fun e => by simpa using congrFun e 2
  obtain ⟨s, hs⟩ : ∃ s : MTL 1 p, MTL.new p (.scalar x) (.scalar 1) (.scalar 0) (.scalar 0) 1
      [![0, 0, 0], ![0, 0, 1]] [1] (.scalar 0) (.scalar 0) name = .ok ⟨1, s⟩ := by
    refine C32_physical_accepted (d := 1) name one_ne_zero (.floats x 1) .zero .zero (.numbers 0 0)
      (spd_one hx) (spd_one one_pos) dissipative_zero (fun _ _ => le_rfl) (fun _ _ => le_rfl)
      one_pos (by simp) rfl (by simp) ⟨0, by simp, ?_⟩
    simpa using hne
  obtain ⟨h1, -, hdu, h2, h3⟩ := straight_mesh (a := ![0, 0, 0]) (b := ![0, 0, 1]) one_pos (by simp) hs
  obtain ⟨-, h4, -⟩ := C32_contents hs
  have hb : demoShieldFile.buildLine p name = .ok ⟨1, s⟩ := by
    rw [← hs]
    simp only [List.mem_cons, Prod.mk.injEq, List.not_mem_nil, or_false] at h
    rcases h with ⟨rfl, rfl⟩ | ⟨rfl, rfl⟩ | ⟨rfl, rfl⟩ <;>
      simp [File.buildLine, File.cableFromLineName, demoShieldFile, pyIndex, File.listOfCoordinates,
        File.listOfCoordinates.go, File.coordinate, dictGet, mapPy, File.wireWithMaterialId, Wire.args, JVal.plain, bind,
        Except.bind]
  refine ⟨s, ?_, new_name hs, h1, h2, h3, fun k => ?_, ?_, ?_⟩
  · unfold File.finishedLine
    rw [hb]
    have h5 : demoShieldFile.addEndResistances ⟨1, s⟩ = .ok ⟨1, s⟩ := by
      unfold File.addEndResistances
      rw [show demoShieldFile.ends = [] from rfl]
      generalize demoShieldFile.cables.filter _ = l
      induction l with
      | nil => rfl
      | cons c l ih => exact ih
    show (do
      let L ← demoShieldFile.addEndResistances ⟨1, s⟩
      demoShieldFile.addLumped L) = _
    rw [h5]
    show demoShieldFile.addLumped ⟨1, s⟩ = _
    exact if_pos rfl
  · rw [h4]
    ext i j
    simp [Arg.matrix]
  · rw [hdu 0 one_pos]
    funext j
    fin_cases j <;> simp
  · obtain ⟨la, ca, ga, ra, zsa, zla, mem, dt, -, -, -, -, -, -, -, h⟩ := new_ok_iff.1 hs
    obtain ⟨-, -, -, rfl⟩ := computeTerminalTerms_ok_iff.1 h
    rfl

theorem demoShield_line (name : String) (x : ℝ) (h : (name, x) ∈ [("o", (1 : ℝ)), ("a", 1), ("b", 2)]) :
    ∃ s : MTL 1 p, demoShieldFile.finishedLine p name = .ok ⟨1, s⟩ ∧ s.name = name ∧ s.m = 1 ∧ s.u 0 = ![0, 0, 0] ∧
      s.u 1 = ![0, 0, 1] ∧ (∀ k, s.l k = fun _ _ => x) := by
  obtain ⟨s, h1, h2, h3, h4, h5, h6, -⟩ := demoShield_cells (p := p) name x h
  exact ⟨s, h1, h2, h3, h4, h5, h6⟩

/-- The graph of the bundle. -/
def demoShieldGraph : Graph where
  vs := [⟨1, 0, "o"⟩, ⟨2, 1, "a"⟩, ⟨3, 1, "b"⟩]
  es := [⟨1, 2, some demoZero⟩, ⟨1, 3, some demoZero⟩]

/-- The file with other nodes, sources, probes, terminations and junctions. -/
noncomputable def demoShieldWith (nodes : List (List ℤ)) (sources : List SourceDesc) (probes : List ProbeDesc)
    (terminations junctions : List Joint) : File :=
  { demoShieldFile with
    nodes := nodes
    sources := sources
    probes := probes
    terminations := terminations
    junctions := junctions }

variable {ns : List (List ℤ)} {ss : List SourceDesc} {ps : List ProbeDesc} {ts js : List Joint}

theorem demoShield_graph :
    Graph.build (demoShieldWith ns ss ps ts js) (.dict 1 (fun _ => 1) (fun _ => .ids [2, 3])) = .ok demoShieldGraph := by
  simp [Graph.build, Graph.addRoot, Graph.addNested, Graph.addInside, Graph.addVertex, File.cableNameOf,
    File.elemIdsToNames, File.transferImpedance, demoShieldWith, demoShieldFile, demoShieldGraph, dictSet, dictGet, bind,
    Except.bind, pure, Except.pure, List.finRange_succ]

/-- A transfer impedance of 0 changes nothing. -/
theorem demoZero_add {n : ℕ} (b : MTLD n p) {i j : ℕ} (h : adjacentLevels i j) (x y : List ℕ) :
    b.addTransferImpedance i x j y demoZero = .ok b := by
  simp [MTLD.addTransferImpedance, Disp.addTransferImpedance, demoZero, pyAssert, h, raiseIf, bind, Except.bind,
    RationalModel.checkLengths]

/-- The bundle of the file, with the lines of level 1 in the order `x`, `y`. -/
theorem demoShield_bundle_with {order : List String → List String} {x y : String} (h0 : order ["o"] = ["o"])
    (h1 : order ["a", "b"] = [x, y]) (hxy : (x, y) = ("a", "b") ∨ (x, y) = ("b", "a")) {o sx sy : MTL 1 p}
    (ho : demoShieldFile.finishedLine p "o" = .ok ⟨1, o⟩) (hx : demoShieldFile.finishedLine p x = .ok ⟨1, sx⟩)
    (hy : demoShieldFile.finishedLine p y = .ok ⟨1, sy⟩) (no : o.name = "o") (nx : sx.name = x) (ny : sy.name = y)
    (hm : ∀ L ∈ [(⟨1, o⟩ : AnyLine p), ⟨1, sx⟩, ⟨1, sy⟩], SameMesh o.m o.u L) :
    Parsed.buildBundles order { file := (demoShieldWith ns ss ps ts js) } = .ok
      { file := (demoShieldWith ns ss ps ts js)
        bundles := [⟨⟨3, MTLD.assemble ⟨1, o⟩ [[⟨1, o⟩], [⟨1, sx⟩, ⟨1, sy⟩]] "B"⟩, [[⟨1, o⟩], [⟨1, sx⟩, ⟨1, sy⟩]]⟩]
        nameToLine := [("o", ⟨1, o⟩), (x, ⟨1, sx⟩), (y, ⟨1, sy⟩)]
        nameToBundle := [("o", "B"), (x, "B"), (y, "B")] } := by
  have ho' : (demoShieldWith ns ss ps ts js).finishedLine p "o" = .ok ⟨1, o⟩ := ho
  have hx' : (demoShieldWith ns ss ps ts js).finishedLine p x = .ok ⟨1, sx⟩ := hx
  have hy' : (demoShieldWith ns ss ps ts js).finishedLine p y = .ok ⟨1, sy⟩ := hy
  have e2 : demoShieldGraph.levels = .ok 2 := by simp [Graph.levels, demoShieldGraph]
  have c0 : demoShieldGraph.cablesAt 0 = ["o"] := by simp [Graph.cablesAt, demoShieldGraph]
  have c1 : demoShieldGraph.cablesAt 1 = ["a", "b"] := by simp [Graph.cablesAt, demoShieldGraph]
  have e3 : mapPy (fun i => mapPy ((demoShieldWith ns ss ps ts js).finishedLine p) (order (demoShieldGraph.cablesAt i))) (List.range 2) =
      .ok [[⟨1, o⟩], [⟨1, sx⟩, ⟨1, sy⟩]] := by
    simp [List.range_succ, mapPy, c0, c1, h0, h1, ho', hx', hy', bind, Except.bind]
  have e4 : MTLD.new [[⟨1, o⟩], [⟨1, sx⟩, ⟨1, sy⟩]] "B" =
      .ok ⟨3, MTLD.assemble ⟨1, o⟩ [[⟨1, o⟩], [⟨1, sx⟩, ⟨1, sy⟩]] "B"⟩ := by
    unfold MTLD.new
    simp only
    rw [if_pos]
    · rfl
    · exact hm
  have hne : x ≠ y ∧ x ≠ "o" ∧ y ≠ "o" ∧ (x = "a" ∧ y = "b" ∨ x = "b" ∧ y = "a") := by
    rcases hxy with h | h <;> obtain ⟨rfl, rfl⟩ := Prod.mk.inj h <;> decide
  obtain ⟨n1, n2, n3, hxy⟩ := hne
  have e5 : ∀ b : MTLD 3 p, (demoShieldWith ns ss ps ts js).setTransferImpedances demoShieldGraph ⟨⟨3, b⟩, [[⟨1, o⟩], [⟨1, sx⟩, ⟨1, sy⟩]]⟩ =
      .ok ⟨⟨3, b⟩, [[⟨1, o⟩], [⟨1, sx⟩, ⟨1, sy⟩]]⟩ := by
    intro b
    have hz := fun i j => demoZero_add b (i := 0) (j := 1) (.inr rfl) i j
    rcases hxy with ⟨rfl, rfl⟩ | ⟨rfl, rfl⟩ <;>
      simp [File.setTransferImpedances, demoShieldGraph, File.addEdge, Graph.vertex, File.conductorNumber, pyIndex, no, nx,
        ny, File.cableNamed, demoShieldWith, demoShieldFile, PBundle.change, hz, bind, Except.bind, pure, Except.pure]
  unfold Parsed.buildBundles
  show [(⟨"B", _⟩ : BundleDesc)].foldlM _ _ = _
  rw [List.foldlM_cons]
  have e : Parsed.addBundle order { file := (demoShieldWith ns ss ps ts js) } ⟨"B", .dict 1 (fun _ => 1) (fun _ => .ids [2, 3])⟩ = .ok
      { file := (demoShieldWith ns ss ps ts js)
        bundles := [⟨⟨3, MTLD.assemble ⟨1, o⟩ [[⟨1, o⟩], [⟨1, sx⟩, ⟨1, sy⟩]] "B"⟩, [[⟨1, o⟩], [⟨1, sx⟩, ⟨1, sy⟩]]⟩]
        nameToLine := [("o", ⟨1, o⟩), (x, ⟨1, sx⟩), (y, ⟨1, sy⟩)]
        nameToBundle := [("o", "B"), (x, "B"), (y, "B")] } := by
    unfold Parsed.addBundle
    have e6 := e5 (MTLD.assemble ⟨1, o⟩ [[⟨1, o⟩], [⟨1, sx⟩, ⟨1, sy⟩]] "B")
    simp only [demoShield_graph, e2, e3, e4, e6, bind, Except.bind]
    simp [dictSet, no, nx, ny, n1, n2, n3, n1.symm, n2.symm, n3.symm]
  rw [e]
  rfl

/-- The bundle of the file, with the lines of level 1 in the order `x`, `y`. -/
theorem demoShield_bundle {order : List String → List String} {x y : String} (h0 : order ["o"] = ["o"])
    (h1 : order ["a", "b"] = [x, y]) (hxy : (x, y) = ("a", "b") ∨ (x, y) = ("b", "a")) {o sx sy : MTL 1 p}
    (ho : demoShieldFile.finishedLine p "o" = .ok ⟨1, o⟩) (hx : demoShieldFile.finishedLine p x = .ok ⟨1, sx⟩)
    (hy : demoShieldFile.finishedLine p y = .ok ⟨1, sy⟩) (no : o.name = "o") (nx : sx.name = x) (ny : sy.name = y)
    (hm : ∀ L ∈ [(⟨1, o⟩ : AnyLine p), ⟨1, sx⟩, ⟨1, sy⟩], SameMesh o.m o.u L) :
    Parsed.buildBundles order { file := demoShieldFile } = .ok
      { file := demoShieldFile
        bundles := [⟨⟨3, MTLD.assemble ⟨1, o⟩ [[⟨1, o⟩], [⟨1, sx⟩, ⟨1, sy⟩]] "B"⟩, [[⟨1, o⟩], [⟨1, sx⟩, ⟨1, sy⟩]]⟩]
        nameToLine := [("o", ⟨1, o⟩), (x, ⟨1, sx⟩), (y, ⟨1, sy⟩)]
        nameToBundle := [("o", "B"), (x, "B"), (y, "B")] } :=
  demoShield_bundle_with (ns := []) (ss := []) (ps := []) (ts := [⟨"first", [[2]]⟩, ⟨"second", [[3]]⟩]) (js := []) h0 h1 hxy ho
    hx hy no nx ny hm

/-- The network of a termination of the file. -/
theorem demoShield_net {o sa sb : MTL 1 p} (na : sa.name = "a") (nb : sb.name = "b") (no : o.name = "o")
    (ma : sa.m ≠ 0) (mb : sb.m ≠ 0) {P : Parsed p} (hF : P.file = demoShieldFile)
    (hP : ∃ b, (P.bundles = [⟨b, [[⟨1, o⟩], [⟨1, sa⟩, ⟨1, sb⟩]]⟩] ∨ P.bundles = [⟨b, [[⟨1, o⟩], [⟨1, sb⟩, ⟨1, sa⟩]]⟩]))
    (hl : dictGet P.nameToLine "a" = .ok ⟨1, sa⟩ ∧ dictGet P.nameToLine "b" = .ok ⟨1, sb⟩)
    (hb : dictGet P.nameToBundle "a" = .ok "B" ∧ dictGet P.nameToBundle "b" = .ok "B") :
    (∃ nw : Network 1 0, P.jointNetwork false (fun nw g => nw.terminate g) ⟨"first", [[2]]⟩ = .ok (1, ⟨1, 0, nw⟩) ∧
      (nw.nodes 0).id = 2) ∧
    (∃ nw : Network 1 0, P.jointNetwork false (fun nw g => nw.terminate g) ⟨"second", [[3]]⟩ = .ok (1, ⟨1, 0, nw⟩) ∧
      (nw.nodes 0).id = 3) := by
  have hla : P.levelOfCable "a" = .ok 1 := by
    obtain ⟨b, h | h⟩ := hP <;> simp [Parsed.levelOfCable, h, lineNames, na, nb, no, List.findIdx?_cons]
  have hlb : P.levelOfCable "b" = .ok 1 := by
    obtain ⟨b, h | h⟩ := hP <;> simp [Parsed.levelOfCable, h, lineNames, na, nb, no, List.findIdx?_cons]
  have ha : demoShieldFile.connectorAndCableInNode 2 = .ok ({ connectorType := "Conn_R", resistance := some 50 }, "a", 0, "S") := by
    simp [File.connectorAndCableInNode, File.elementOfNode, File.elementOfNode.go, demoShieldFile, pyIndex, pyLast, bind,
      Except.bind, File.connectorAndCableOnSide, File.connectorIdOf, pyKey, File.sideLetter]
  have hb3 : demoShieldFile.connectorAndCableInNode 3 = .ok ({ connectorType := "Conn_R", resistance := some 50 }, "b", 0, "S") := by
    simp [File.connectorAndCableInNode, File.elementOfNode, File.elementOfNode.go, demoShieldFile, pyIndex, pyLast, bind,
      Except.bind, File.connectorAndCableOnSide, File.connectorIdOf, pyKey, File.sideLetter]
  have ht : ∀ c, demoShieldFile.terminalSource c = .ok none := by
    intro c
    simp [File.terminalSource, File.terminalSource.go, demoShieldFile]
  have key : ∀ (c : ℤ) (cable : String) (s : MTL 1 p) (name : String), 0 ≤ c → s.m ≠ 0 → P.levelOfCable cable = .ok 1 →
      dictGet P.nameToLine cable = .ok ⟨1, s⟩ → dictGet P.nameToBundle cable = .ok "B" →
      demoShieldFile.connectorAndCableInNode c = .ok ({ connectorType := "Conn_R", resistance := some 50 }, cable, 0, "S") →
      ∃ nw : Network 1 0, P.jointNetwork false (fun nw g => nw.terminate g) ⟨name, [[c]]⟩ = .ok (1, ⟨1, 0, nw⟩) ∧
        (nw.nodes 0).id = c := by
    intro c cable s name hc0 hm h1 h2 h3 h4
    have hd : P.describeJoint false ⟨name, [[c]]⟩ = .ok
        { description := [(cable, { line := ⟨1, s⟩, side := "S", bundleName := "B", connections :=
            [{ id := c, conductor := 0, connector := { connectorType := "Conn_R", resistance := some 50 } }] })]
          groups := [[⟨c, { connectorType := "Conn_R", resistance := some 50 }, 0, none⟩]]
          level := 1 } := by
      simp [Parsed.describeJoint, Parsed.describeGroup, Parsed.describe, hF, h1, h2, h3, h4, ht, bind, Except.bind, pure,
        Except.pure, dictSet]
    have hn : ∃ nw : Network 1 0, Network.new [({ line := ⟨1, s⟩, side := "S", bundleName := "B", connections :=
        [{ id := c, conductor := 0, connector := { connectorType := "Conn_R", resistance := some 50 } }] }
          : LineConnections p)] = .ok ⟨1, 0, nw⟩ ∧ (nw.nodes 0).id = c := by
      refine ⟨NetBuild.finish ⟨[⟨c, s.name, 0, .S, "B", [], s.dun 0, s.eT 0 0⟩], 0, [⟨1, s.c 0⟩]⟩,
        networkNew_ok_iff.2 ⟨⟨[⟨c, s.name, 0, .S, "B", [], s.dun 0, s.eT 0 0⟩], 0, [⟨1, s.c 0⟩]⟩, ?_, rfl⟩, rfl⟩
      simp [NetBuild.addLine, NetBuild.addNode, bind, Except.bind, pyAssert, raiseIf, stateVarsIn, List.insertionSort,
        pure, Except.pure, hc0, hm]
    obtain ⟨nw, hn, hid⟩ := hn
    have hf : nw.find c = some 0 := by simp [Network.find, List.finRange_succ, hid]
    refine ⟨{ nw with P1 := putEntry nw.P1 0 0 (-1 / 50) }, ?_, hid⟩
    unfold Parsed.jointNetwork
    rw [hd]
    simp [bind, Except.bind, hn, Network.terminate, Network.terminateSingle, pyKey, Network.connectToGround,
      Network.assertNode, hf, pure, Except.pure]
  exact ⟨key 2 "a" sa _ (by norm_num) ma hla hl.1 hb.1 ha, key 3 "b" sb _ (by norm_num) mb hlb hl.2 hb.2 hb3⟩

/-- The whole file is accepted in both orders; of the two terminations only the network of the second is there. -/
theorem demoShield_new {order : List String → List String} {x y : String} (h0 : order ["o"] = ["o"])
    (h1 : order ["a", "b"] = [x, y]) (hxy : (x, y) = ("a", "b") ∨ (x, y) = ("b", "a")) :
    ∃ (P : Parsed p) (B : MTLD 3 p) (nw : Network 1 0), Parsed.new p order demoShield = .ok P ∧
      P.bundles.map PBundle.bundle = [⟨3, B⟩] ∧ B.l 0 1 1 = (if x = "a" then 1 else 2) ∧
      P.networks = [[(1, ⟨1, 0, nw⟩)]] ∧ (nw.nodes 0).id = 3 := by
  obtain ⟨o, ho, no, mo, uo, uo', -⟩ := demoShield_line (p := p) "o" 1 (by simp)
  have hline : ∀ z, z = "a" ∨ z = "b" → ∃ s : MTL 1 p, demoShieldFile.finishedLine p z = .ok ⟨1, s⟩ ∧ s.name = z ∧ s.m = 1 ∧
      s.u 0 = ![0, 0, 0] ∧ s.u 1 = ![0, 0, 1] ∧ ∀ k, s.l k = fun _ _ => if z = "a" then 1 else 2 := by
    rintro z (rfl | rfl)
    · simpa using demoShield_line (p := p) "a" 1 (by simp)
    · simpa using demoShield_line (p := p) "b" 2 (by simp)
  have hx : x = "a" ∧ y = "b" ∨ x = "b" ∧ y = "a" := by
    rcases hxy with h | h <;> obtain ⟨rfl, rfl⟩ := Prod.mk.inj h <;> decide
  obtain ⟨sx, hsx, nx, mx, ux, ux', lx⟩ := hline x (by tauto)
  obtain ⟨sy, hsy, ny, my, uy, uy', -⟩ := hline y (by tauto)
  have hm : ∀ L ∈ [(⟨1, o⟩ : AnyLine p), ⟨1, sx⟩, ⟨1, sy⟩], SameMesh o.m o.u L := by
    have e : ∀ s : MTL 1 p, s.m = 1 → s.u 0 = ![0, 0, 0] → s.u 1 = ![0, 0, 1] → SameMesh o.m o.u ⟨1, s⟩ := by
      intro s h1 h2 h3
      refine ⟨h1.trans mo.symm, fun k hk => ?_⟩
      rw [mo] at hk
      interval_cases k
      · rw [h2, uo]
      · rw [h3, uo']
    intro L hL
    simp only [List.mem_cons, List.not_mem_nil, or_false] at hL
    rcases hL with rfl | rfl | rfl
    · exact e o mo uo uo'
    · exact e sx mx ux ux'
    · exact e sy my uy uy'
  have hB := demoShield_bundle h0 h1 hxy ho hsx hsy no nx ny hm
  set P0 : Parsed p :=
    { file := demoShieldFile
      bundles := [⟨⟨3, MTLD.assemble ⟨1, o⟩ [[⟨1, o⟩], [⟨1, sx⟩, ⟨1, sy⟩]] "B"⟩, [[⟨1, o⟩], [⟨1, sx⟩, ⟨1, sy⟩]]⟩]
      nameToLine := [("o", ⟨1, o⟩), (x, ⟨1, sx⟩), (y, ⟨1, sy⟩)]
      nameToBundle := [("o", "B"), (x, "B"), (y, "B")] } with hP0
  have hnet : (∃ nw : Network 1 0, P0.jointNetwork false (fun nw g => nw.terminate g) ⟨"first", [[2]]⟩ = .ok (1, ⟨1, 0, nw⟩)) ∧
      (∃ nw : Network 1 0, P0.jointNetwork false (fun nw g => nw.terminate g) ⟨"second", [[3]]⟩ = .ok (1, ⟨1, 0, nw⟩) ∧
        (nw.nodes 0).id = 3) := by
    rcases hx with ⟨rfl, rfl⟩ | ⟨rfl, rfl⟩
    · obtain ⟨⟨n1, a1, -⟩, n2⟩ := demoShield_net nx ny no (by omega) (by omega) (P := P0) rfl ⟨_, .inl rfl⟩
        ⟨by simp [hP0, dictGet], by simp [hP0, dictGet]⟩ ⟨by simp [hP0, dictGet], by simp [hP0, dictGet]⟩
      exact ⟨⟨n1, a1⟩, n2⟩
    · obtain ⟨⟨n1, a1, -⟩, n2⟩ := demoShield_net ny nx no (by omega) (by omega) (P := P0) rfl ⟨_, .inr rfl⟩
        ⟨by simp [hP0, dictGet], by simp [hP0, dictGet]⟩ ⟨by simp [hP0, dictGet], by simp [hP0, dictGet]⟩
      exact ⟨⟨n1, a1⟩, n2⟩
  obtain ⟨⟨n1, a1⟩, nw, a2, hid⟩ := hnet
  have hj := C86_refuted P0 false (fun nw g => nw.terminate g) a1 a2
  have hg : demoShieldFile.groupJoints [⟨"first", [[2]]⟩, ⟨"second", [[3]]⟩] = .ok [[⟨"first", [[2]]⟩, ⟨"second", [[3]]⟩]] := by
    simp [File.groupJoints, File.groupStep, pyIndex, File.coordinate, demoShieldFile, dictGet, dictSet, bind, Except.bind,
      pure, Except.pure]
  have hT : P0.buildTerminations = .ok [[(1, ⟨1, 0, nw⟩)]] := by
    unfold Parsed.buildTerminations
    show (do
      let gs ← demoShieldFile.groupJoints [⟨"first", [[2]]⟩, ⟨"second", [[3]]⟩]
      mapPy (P0.jointNetworks false fun nw g => nw.terminate g) gs) = _
    rw [hg]
    simp only [bind, Except.bind, mapPy, hj]
  have hJ : P0.buildJunctions = .ok [] := rfl
  refine ⟨{ P0 with networks := [[(1, ⟨1, 0, nw⟩)]] }, MTLD.assemble ⟨1, o⟩ [[⟨1, o⟩], [⟨1, sx⟩, ⟨1, sy⟩]] "B", nw, ?_, rfl,
    ?_, rfl, hid⟩
  · unfold Parsed.new
    rw [demoShield_read]
    show (do
      let P ← Parsed.buildBundles order { file := demoShieldFile }
      let P ← P.addSources
      let P ← P.addProbes
      P.buildNetworks) = _
    rw [hB]
    show P0.buildNetworks = _
    unfold Parsed.buildNetworks
    rw [hJ, hT]
    rfl
  · show blockEntry 0 _ 1 1 = _
    simp [blockEntry, lx]

/-- **C86 is false**, a witness: the file has a termination for node 2, and no network has that node. -/
theorem C86_refuted_example {order : List String → List String} (ho : ValidOrder order) : ∃ (P : Parsed p) (nwd : NetworkD),
    Parsed.new p order demoShield = .ok P ∧ demoShield.terminations = some [⟨"first", [[2]]⟩, ⟨"second", [[3]]⟩] ∧
    P.networks = [nwd] ∧ ∀ e ∈ nwd, ∀ a, (e.2.2.2.nodes a).id ≠ 2 := by
  have h0 : order ["o"] = ["o"] := List.perm_singleton.1 (by simpa using ho ["o"])
  have h1 : order ["a", "b"] = ["a", "b"] ∨ order ["a", "b"] = ["b", "a"] := by
    have h := ho ["a", "b"]
    simp only [List.dedup_eq_self.2 (show ["a", "b"].Nodup by decide)] at h
    have hl := h.length_eq
    match ho' : order ["a", "b"], hl with
    | [x, y], _ =>
      rw [ho'] at h
      have hn : [x, y].Nodup := h.nodup_iff.2 (by decide)
      have hx : x ∈ ["a", "b"] := h.mem_iff.1 (by simp)
      have hy : y ∈ ["a", "b"] := h.mem_iff.1 (by simp)
      simp only [List.mem_cons, List.not_mem_nil, or_false] at hx hy
      rcases hx with rfl | rfl <;> rcases hy with rfl | rfl <;> simp at hn ⊢
  obtain ⟨P, -, nw, h2, -, -, h3, h4⟩ : ∃ (P : Parsed p) (B : MTLD 3 p) (nw : Network 1 0),
      Parsed.new p order demoShield = .ok P ∧ P.bundles.map PBundle.bundle = [⟨3, B⟩] ∧ True ∧
      P.networks = [[(1, ⟨1, 0, nw⟩)]] ∧ (nw.nodes 0).id = 3 := by
    rcases h1 with h1 | h1
    · obtain ⟨P, B, nw, h2, h3, -, h4, h5⟩ := demoShield_new (p := p) h0 h1 (.inl rfl)
      exact ⟨P, B, nw, h2, h3, trivial, h4, h5⟩
    · obtain ⟨P, B, nw, h2, h3, -, h4, h5⟩ := demoShield_new (p := p) h0 h1 (.inr rfl)
      exact ⟨P, B, nw, h2, h3, trivial, h4, h5⟩
  refine ⟨P, _, h2, rfl, h3, fun e he a => ?_⟩
  obtain rfl := List.mem_singleton.1 he
  obtain rfl : a = 0 := Subsingleton.elim _ _
  rw [h4]
  norm_num

/-- **C89 is false**: in two orders of the names of the wires the rows of the bundle belong to different wires. -/
theorem C89_refuted : ∃ (o1 o2 : List String → List String) (P1 P2 : Parsed p) (B1 B2 : MTLD 3 p), ValidOrder o1 ∧
    ValidOrder o2 ∧ Parsed.new p o1 demoShield = .ok P1 ∧ Parsed.new p o2 demoShield = .ok P2 ∧
    P1.bundles.map PBundle.bundle = [⟨3, B1⟩] ∧ P2.bundles.map PBundle.bundle = [⟨3, B2⟩] ∧
    B1.l 0 1 1 = 1 ∧ B2.l 0 1 1 = 2 := by
  obtain ⟨P1, B1, -, a1, a2, a3, -⟩ := demoShield_new (p := p) (order := List.dedup) (by simp) (by simp) (.inl rfl)
  obtain ⟨P2, B2, -, b1, b2, b3, -⟩ := demoShield_new (p := p) (order := fun l => l.dedup.reverse) (by simp) (by simp)
    (.inr rfl)
  exact ⟨_, _, P1, P2, B1, B2, fun l => .refl _, fun l => List.reverse_perm _, a1, b1, a2, b2, by simpa using a3,
    by simpa using b3⟩

/-- Non-vacuity of C87: the file above without the transfer impedance of the shield is rejected, whatever the order. -/
theorem C87_example (order : List String → List String) (P : Parsed p) :
    Parsed.addBundle order { file := { demoShieldFile with wires := [{ materialId := 1, inductance := some (.float 1) }] } }
      ⟨"B", .dict 1 (fun _ => 1) (fun _ => .ids [2, 3])⟩ ≠ .ok P := by
  intro h
  obtain ⟨c, Z, h1, h2⟩ := C87_refuted h 1 2 (.child 0 (.ids (by simp)))
  have hc : c = "o" := by
    simp [File.cableNameOf, File.elemIdsToNames, demoShieldFile, dictSet, dictGet] at h1
    exact h1.symm
  subst hc
  simp [File.transferImpedance, demoShieldFile] at h2

/-- Non-vacuity of C84: a lumped element on the wire `a` makes the shield `o` fail. -/
theorem C84_example {s : MTL 1 p} (h : s.name = "o") :
    ({ demoShieldFile with lumped := [⟨"a", 5, [2], 0⟩] } : File).addLumped ⟨1, s⟩ = .error .IndexError :=
  C84_refuted (by simp) (by simp [h])

end Mtln
