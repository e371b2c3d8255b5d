import Verif.Props.ParserJoint

/-! # All groups of a joint are connected, one after the other: C103, C116, C119 -/

namespace Mtln

variable {p N S : ℕ}

/-- **C119** The network of a joint is a new network with its nodes, after the function that connects a group has been called for every
group of its coordinates, in their order. -/
theorem C119_groups {P : Parsed p} {once : Bool} {f : ∀ {N S}, Network N S → List Pin → Py (Network N S)} {t : Joint} {level : ℕ}
    {nw : AnyNetwork} (h : P.jointNetwork once f t = .ok (level, nw)) :
    ∃ (d : List (LineConnections p)) (nw0 : Network nw.1 nw.2.1) (gs : List (List (PinData p))),
      Network.new d = .ok ⟨nw.1, nw.2.1, nw0⟩ ∧ List.Forall₂ (List.Forall₂ P.PinAt) t.coordIds gs ∧
      (gs.map (List.map PinData.pin)).foldlM (fun nw g => f nw g) nw0 = .ok nw.2.2 := by
  unfold Parsed.jointNetwork at h
  obtain ⟨B, hB, h⟩ := bind_ok_iff.1 h
  obtain ⟨nw0, h0, h⟩ := bind_ok_iff.1 h
  obtain ⟨nw1, h1, h⟩ := bind_ok_iff.1 h
  have h2 : (B.level, (⟨nw0.1, nw0.2.1, nw1⟩ : AnyNetwork)) = (level, nw) := Except.ok.inj h
  obtain ⟨h3, h4⟩ := Prod.mk.inj h2
  subst h3 h4
  obtain ⟨gs, k1, k2, k3, k4⟩ := describeJoint_effect hB
  exact ⟨_, nw0.2.2, gs, h0, k1, k3 ▸ h1⟩

/-- The call that joins the nodes at two coordinates through their connectors. -/
def JoinsAt (P : Parsed p) (cs : List ℤ) (c : Call) : Prop :=
  ∃ d0 d1 R0 R1, cs = [d0.pin.node, d1.pin.node] ∧ P.PinAt d0.pin.node d0 ∧ P.PinAt d1.pin.node d1 ∧
    junctionResistance d0.pin.connector d0.pin.conductor = .ok R0 ∧ junctionResistance d1.pin.connector d1.pin.conductor = .ok R1 ∧
    ((R0 + R1 = 0 ∧ c = .short d0.pin.node d1.pin.node) ∨
      (R0 + R1 ≠ 0 ∧ c = .branch d0.pin.node d1.pin.node (R0 + R1) (addSources d0.pin.source d1.pin.source)))

/-- **C116** The network of a junction: each pair of its coordinates, in their order, is joined through the connectors at the two
coordinates, and nothing else is connected. The junctions of `C119_refuted` and `C127_refuted` have such networks. -/
theorem C116_every {P : Parsed p} {t : Joint} {level : ℕ} {nw : AnyNetwork}
    (h : P.jointNetwork true (fun nw g => nw.join g) t = .ok (level, nw)) :
    ∃ (d : List (LineConnections p)) (nw0 : Network nw.1 nw.2.1) (l : List Call), Network.new d = .ok ⟨nw.1, nw.2.1, nw0⟩ ∧
      List.Forall₂ (JoinsAt P) t.coordIds l ∧ nw0.calls l = .ok nw.2.2 := by
  obtain ⟨d, nw0, gs, h1, h2, h3⟩ := C119_groups h
  have key : ∀ (cs : List (List ℤ)) (gs : List (List (PinData p))) {N S : ℕ} (x y : Network N S),
      List.Forall₂ (List.Forall₂ P.PinAt) cs gs →
      (gs.map (List.map PinData.pin)).foldlM (fun nw g => nw.join g) x = .ok y →
      ∃ l : List Call, List.Forall₂ (JoinsAt P) cs l ∧ x.calls l = .ok y := by
    intro cs gs N S x y hp
    induction hp generalizing x with
    | nil =>
      intro h
      obtain rfl : x = y := Except.ok.inj h
      exact ⟨[], .nil, calls_nil.2 rfl⟩
    | @cons c g cs gs hc _ ih =>
      intro h
      rw [List.map_cons, List.foldlM_cons] at h
      obtain ⟨z, hz, h⟩ := bind_ok_iff.1 h
      obtain ⟨l, hl, hcalls⟩ := ih z h
      obtain ⟨e0, e1, R0, R1, hg, r0, r1, hj⟩ := C116_join.1 hz
      cases hc with
      | nil => cases hg
      | @cons c0 d0 c g p0 hc =>
      cases hc with
      | nil => cases hg
      | @cons c1 d1 c g p1 hc =>
      cases hc with
      | cons _ _ => simp at hg
      | nil =>
        obtain ⟨rfl, rfl⟩ : d0.pin = e0 ∧ d1.pin = e1 := by simpa using hg
        obtain rfl := p0.node
        obtain rfl := p1.node
        rcases hj with ⟨hR, hx⟩ | ⟨hR, hx⟩
        · exact ⟨_ :: l, .cons ⟨d0, d1, R0, R1, rfl, p0, p1, r0, r1, .inl ⟨hR, rfl⟩⟩ hl, calls_cons.2 ⟨z, hx, hcalls⟩⟩
        · exact ⟨_ :: l, .cons ⟨d0, d1, R0, R1, rfl, p0, p1, r0, r1, .inr ⟨hR, rfl⟩⟩ hl, calls_cons.2 ⟨z, hx, hcalls⟩⟩
  obtain ⟨l, hl, hc⟩ := key _ _ _ _ h2 h3
  exact ⟨d, nw0, l, h1, hl, hc⟩

/-- The call that terminates the node at a coordinate with its connector. -/
def TerminatesAt (P : Parsed p) (cs : List ℤ) (c : Call) : Prop :=
  ∃ d, cs = [d.pin.node] ∧ P.PinAt d.pin.node d ∧
    ((d.pin.connector.connectorType = "Conn_short" ∧ c = .shortGround d.pin.node) ∨
      (d.pin.connector.connectorType ∈ ["Conn_sRLC", "Conn_R"] ∧
        ∃ R, d.pin.connector.resistance = some R ∧ c = .ground d.pin.node R d.pin.source) ∨
      (d.pin.connector.connectorType = "Conn_C" ∧
        ∃ C, d.pin.connector.capacitance = some C ∧ c = .groundC d.pin.node C d.pin.source) ∨
      (d.pin.connector.connectorType = "Conn_LCpRs" ∧ ∃ R L C, d.pin.connector.resistance = some R ∧
        d.pin.connector.inductance = some L ∧ d.pin.connector.capacitance = some C ∧
        c = .groundLCpRs d.pin.node R L C d.pin.source))

/-- **C103 (partial)** The network of a termination whose groups are single coordinates with connectors of the known types: each
coordinate, in their order, is terminated with its own connector and source, and nothing else is connected. -/
theorem C103_every_partial {P : Parsed p} {t : Joint} {level : ℕ} {nw : AnyNetwork}
    (h : P.jointNetwork false (fun nw g => nw.terminate g) t = .ok (level, nw))
    (hs : ∀ cs ∈ t.coordIds, ∃ c, cs = [c] ∧ ∀ x cable k s, P.file.connectorAndCableInNode c = .ok (x, cable, k, s) →
      x.connectorType ∈ ["Conn_short", "Conn_sRLC", "Conn_R", "Conn_C", "Conn_LCpRs"]) :
    ∃ (d : List (LineConnections p)) (nw0 : Network nw.1 nw.2.1) (l : List Call), Network.new d = .ok ⟨nw.1, nw.2.1, nw0⟩ ∧
      List.Forall₂ (TerminatesAt P) t.coordIds l ∧ nw0.calls l = .ok nw.2.2 := by
  obtain ⟨d, nw0, gs, h1, h2, h3⟩ := C119_groups h
  have key : ∀ (cs : List (List ℤ)) (gs : List (List (PinData p))) {N S : ℕ} (x y : Network N S),
      (∀ k ∈ cs, ∃ c, k = [c] ∧ ∀ x cable k s, P.file.connectorAndCableInNode c = .ok (x, cable, k, s) →
        x.connectorType ∈ ["Conn_short", "Conn_sRLC", "Conn_R", "Conn_C", "Conn_LCpRs"]) →
      List.Forall₂ (List.Forall₂ P.PinAt) cs gs →
      (gs.map (List.map PinData.pin)).foldlM (fun nw g => nw.terminate g) x = .ok y →
      ∃ l : List Call, List.Forall₂ (TerminatesAt P) cs l ∧ x.calls l = .ok y := by
    intro cs gs N S x y hs hp
    induction hp generalizing x with
    | nil =>
      intro h
      obtain rfl : x = y := Except.ok.inj h
      exact ⟨[], .nil, calls_nil.2 rfl⟩
    | @cons c g cs gs hc _ ih =>
      intro h
      rw [List.map_cons, List.foldlM_cons] at h
      obtain ⟨z, hz, h⟩ := bind_ok_iff.1 h
      obtain ⟨l, hl, hcalls⟩ := ih z (fun k hk => hs k (List.mem_cons_of_mem _ hk)) h
      obtain ⟨c0, rfl, ht⟩ := hs c (by simp)
      cases hc with
      | @cons _ d0 _ g p0 hc =>
      cases hc with
      | nil =>
        obtain rfl := p0.node
        have ht := ht _ _ _ _ p0.cable
        have hz : x.terminateSingle d0.pin = .ok z := hz
        suffices ∃ c, TerminatesAt P [d0.pin.node] c ∧ x.call c = .ok z by
          obtain ⟨c, a, b⟩ := this
          exact ⟨c :: l, .cons a hl, calls_cons.2 ⟨z, b, hcalls⟩⟩
        unfold Network.terminateSingle at hz
        by_cases t1 : d0.pin.connector.connectorType = "Conn_short"
        · rw [if_pos t1] at hz
          exact ⟨.shortGround d0.pin.node, ⟨d0, rfl, p0, .inl ⟨t1, rfl⟩⟩, hz⟩
        rw [if_neg t1] at hz
        by_cases t2 : d0.pin.connector.connectorType = "Conn_sRLC" ∨ d0.pin.connector.connectorType = "Conn_R"
        · rw [if_pos t2] at hz
          obtain ⟨R, hR, hz⟩ := bind_ok_iff.1 hz
          exact ⟨.ground d0.pin.node R d0.pin.source,
            ⟨d0, rfl, p0, .inr (.inl ⟨by simpa using t2, R, pyKey_ok_iff.1 hR, rfl⟩)⟩, hz⟩
        rw [if_neg t2] at hz
        by_cases t3 : d0.pin.connector.connectorType = "Conn_C"
        · rw [if_pos t3] at hz
          obtain ⟨C, hC, hz⟩ := bind_ok_iff.1 hz
          exact ⟨.groundC d0.pin.node C d0.pin.source,
            ⟨d0, rfl, p0, .inr (.inr (.inl ⟨t3, C, pyKey_ok_iff.1 hC, rfl⟩))⟩, hz⟩
        rw [if_neg t3] at hz
        by_cases t4 : d0.pin.connector.connectorType = "Conn_LCpRs"
        · rw [if_pos t4] at hz
          obtain ⟨R, hR, hz⟩ := bind_ok_iff.1 hz
          obtain ⟨L, hL, hz⟩ := bind_ok_iff.1 hz
          obtain ⟨C, hC, hz⟩ := bind_ok_iff.1 hz
          exact ⟨.groundLCpRs d0.pin.node R L C d0.pin.source, ⟨d0, rfl, p0, .inr (.inr (.inr ⟨t4, R, L, C, pyKey_ok_iff.1 hR,
            pyKey_ok_iff.1 hL, pyKey_ok_iff.1 hC, rfl⟩))⟩, hz⟩
        rw [not_or] at t2
        simp [t1, t2.1, t2.2, t3, t4] at ht
  obtain ⟨l, hl, hc⟩ := key _ _ _ _ hs h2 h3
  exact ⟨d, nw0, l, h1, hl, hc⟩

/-- Non-vacuity of C103_every_partial: the network of a termination of the file `demoShieldFile` is a resistance of 50 Ω. -/
theorem C103_every_example {o sa sb : MTL 1 p} (na : sa.name = "a") (nb : sb.name = "b") (no : o.name = "o")
    (ma : sa.m ≠ 0) (mb : sb.m ≠ 0) {P : Parsed p} (hF : P.file = demoShieldFile)
    (hP : ∃ b, (P.bundles = [⟨b, [[⟨1, o⟩], [⟨1, sa⟩, ⟨1, sb⟩]]⟩] ∨ P.bundles = [⟨b, [[⟨1, o⟩], [⟨1, sb⟩, ⟨1, sa⟩]]⟩]))
    (hl : dictGet P.nameToLine "a" = .ok ⟨1, sa⟩ ∧ dictGet P.nameToLine "b" = .ok ⟨1, sb⟩)
    (hb : dictGet P.nameToBundle "a" = .ok "B" ∧ dictGet P.nameToBundle "b" = .ok "B") :
    ∃ nw0 nw : Network 1 0, P.jointNetwork false (fun nw g => nw.terminate g) ⟨"first", [[2]]⟩ = .ok (1, ⟨1, 0, nw⟩) ∧
      nw0.calls [.ground 2 50 none] = .ok nw := by
  have ha : P.file.connectorAndCableInNode 2 = .ok ({ connectorType := "Conn_R", resistance := some 50 }, "a", 0, "S") := by
    rw [hF]
    simp [File.connectorAndCableInNode, File.elementOfNode, File.elementOfNode.go, demoShieldFile, pyIndex, pyLast, bind,
      Except.bind, File.connectorAndCableOnSide, File.connectorIdOf, pyKey, File.sideLetter]
  have ht : P.file.terminalSource 2 = .ok none := by
    rw [hF]
    simp [File.terminalSource, File.terminalSource.go, demoShieldFile]
  obtain ⟨⟨nw, h, -⟩, -⟩ := demoShield_net na nb no ma mb hF hP hl hb
  obtain ⟨d, nw0, l, -, h2, h3⟩ := C103_every_partial h (by
    intro cs hcs
    obtain rfl : cs = [2] := by simpa using hcs
    refine ⟨2, rfl, fun x cable k s hx => ?_⟩
    rw [ha] at hx
    obtain ⟨rfl, -⟩ := Prod.mk.inj (Except.ok.inj hx)
    simp)
  refine ⟨nw0, nw, h, ?_⟩
  cases h2 with
  | cons h4 h5 =>
  cases h5
  obtain ⟨e, he, hp, hc⟩ := h4
  have hn : e.pin.node = 2 := by simpa using he.symm
  rw [hn] at hp hc
  obtain ⟨hcon, -⟩ := Prod.mk.inj (Except.ok.inj (ha.symm.trans hp.cable))
  have hsrc := Except.ok.inj (ht.symm.trans hp.source)
  rw [← hcon, ← hsrc] at hc
  obtain ⟨h, -⟩ | ⟨-, R, hR, rfl⟩ | ⟨h, -⟩ | ⟨h, -⟩ := hc
  · simp at h
  · obtain rfl : 50 = R := by simpa using hR
    exact h3
  · simp at h
  · simp at h

end Mtln
