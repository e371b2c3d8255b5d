import Verif.Props.ExternalField
import Verif.Props.ProbeApi
import Verif.Props.Twin

/-!
# The interface for incident fields (C77, C78, C90–C95)
-/

namespace Mtln

open Matrix

variable {n p : ℕ}

theorem demo_accepted {start stop : ℕ} (h1 : start < stop) (h2 : stop ≤ 2) {d : V3} (hd : d ≠ 0) :
    FieldAccepted (demoBare p).m 1 start stop (demoBare p).du (demoBare p).l (demoBare p).c (constOffset d) := by
  refine ⟨?_, fun _ => ⟨h1, h2, fun j _ => ⟨hd, fun _ _ _ => hd⟩, ?_⟩⟩
  · intro k _ x hx
    rw [eigRe_one_by_one, Set.mem_singleton_iff] at hx
    rw [hx]; simp [demoBare]
  · intro k _ hk
    have hdu : (demoBare p).du k = ![0, 0, 1] := if_pos (by omega)
    rw [hdu]
    simp [norm3]

theorem demo_nodes : (demoBare p).u 0 = ![0, 0, 0] ∧ (demoBare p).u 1 = ![0, 0, 1] ∧ (demoBare p).u 2 = ![0, 0, 2] :=
  ⟨rfl, rfl, rfl⟩

theorem demo_node_inj {k : ℕ} (hk : k ≤ 2) : ∀ a ≤ (demoBare p).m, (demoBare p).u a = (demoBare p).u k → a = k := by
  intro a ha h
  have ha' : a ≤ 2 := ha
  have h2 := congrFun h 2
  interval_cases a <;> interval_cases k <;> simp [demo_nodes] at h2 ⊢

/-- **C77 is false for bundles**: localized between the nodes 0 and 1 of the demo bundle, that is on cell 0, the field
`(0, 0, x)` excites cell 1 too. -/
theorem C77_refuted_bundle : ∃ (b b' : MTLD 1 0) (F : Field) (D : Distances),
    nearest b.u b.m (b.u 0) = 0 ∧ nearest b.u b.m (b.u 1) = 1 ∧
    b.addExternalField F D (some (b.u 0, b.u 1)) = .ok b' ∧ ∀ t, b.eL 1 0 t = 0 ∧ b'.eL 1 0 t = 1 := by
  obtain ⟨F, hF⟩ : ∃ F : Field, F = ⟨fun _ => 0, fun _ => 0, fun e => e.x⟩ := ⟨_, rfl⟩
  have n0 : nearest (demoBare 0).u (demoBare 0).m ((demoBare 0).u 0) = 0 := nearest_first _ _
  have n1 : nearest (demoBare 0).u (demoBare 0).m ((demoBare 0).u 1) = 1 :=
    nearest_node _ _ 1 (by simp [demoBare]) (demo_node_inj (by norm_num))
  have hd : (![1, 0, 0] : V3) ≠ 0 := fun h => by simpa using congrFun h 0
  refine ⟨MTLD.single (demoBare 0) "b", _, F, constOffset ![1, 0, 0], n0, n1,
    bundleField_ok_iff.2 ⟨rfl, rfl, _, fieldSources_ok_iff.2 ⟨?_, rfl⟩, rfl⟩, fun t => ⟨rfl, ?_⟩⟩
  · show FieldAccepted (demoBare 0).m 1 (nearest (demoBare 0).u (demoBare 0).m ((demoBare 0).u 0))
      (nearest (demoBare 0).u (demoBare 0).m ((demoBare 0).u 1) + 1) _ _ _ _
    rw [n0, n1]
    exact demo_accepted (by norm_num) le_rfl hd
  · show storedL 1 (nearest (demoBare 0).u (demoBare 0).m ((demoBare 0).u 0))
      (nearest (demoBare 0).u (demoBare 0).m ((demoBare 0).u 1) + 1) (demoBare 0).u (demoBare 0).du (demoBare 0).l
      (demoBare 0).c F (constOffset ![1, 0, 0]) _ 1 0 t = 1
    rw [n0, n1]
    unfold storedL
    rw [if_pos (by decide)]
    have hdu : (demoBare 0).du 1 = ![0, 0, 1] := by simp [demoBare]
    subst hF
    simp [hdu, dot3, Field.at, envAt, before, constOffset, norm3]

/-- **C77, non-vacuity**: a uniform field on the demo line. -/
theorem C77_example : ∃ (s' : MTL 1 0) (F : Field), F.Uniform ∧ F.ex ⟨0, 0, 0, 0, 0⟩ = 1 ∧
    (demoBare 0).addExternalField F (constOffset ![1, 0, 0]) none = .ok s' := by
  obtain ⟨s', hs⟩ := demo_field (p := 0) ⟨fun _ => 1, fun _ => 0, fun _ => 0⟩ (constOffset ![1, 0, 0]) rfl rfl
    fun _ _ h => by simpa [constOffset] using congrFun h 0
  exact ⟨s', _, fun _ _ _ _ => rfl, rfl, hs⟩

/-! ## C78 -/

/-- **C78 (part)**: when a network is made, each of its nodes takes the transverse voltage of its line at its end. -/
theorem C78_at_construction_partial {desc : List (LineConnections p)} {nw : AnyNetwork}
    (h : Network.new desc = .ok nw) (a : Fin nw.1) :
    ∃ d ∈ desc, (nw.2.2.nodes a).lineName = d.line.2.name ∧ (nw.2.2.nodes a).side = d.end' ∧
      ∃ hc : (nw.2.2.nodes a).lineIndex < d.line.1, (nw.2.2.nodes a).eT =
        d.line.2.eT (match d.end' with | .S => 0 | .L => d.line.2.m) ⟨(nw.2.2.nodes a).lineIndex, hc⟩ := by
  obtain ⟨B, hB, rfl⟩ := networkNew_ok_iff.1 h
  obtain ⟨P, hP⟩ : ∃ P : Node → Prop, P = fun e => ∃ d ∈ desc, e.lineName = d.line.2.name ∧ e.side = d.end' ∧
      ∃ hc : e.lineIndex < d.line.1, e.eT =
        d.line.2.eT (match d.end' with | .S => 0 | .L => d.line.2.m) ⟨e.lineIndex, hc⟩ := ⟨_, rfl⟩
  have key : ∀ (ds : List (LineConnections p)) (B0 B1 : NetBuild), (∀ d ∈ ds, d ∈ desc) → (∀ e ∈ B0.nodes, P e) →
      ds.foldlM NetBuild.addLine B0 = .ok B1 → ∀ e ∈ B1.nodes, P e := by
    intro ds
    induction ds with
    | nil =>
      intro B0 B1 _ h0 h1
      simp only [List.foldlM_nil, pure, Except.pure, Except.ok.injEq] at h1
      subst h1; exact h0
    | cons d ds ih =>
      intro B0 B1 hsub h0 h1
      simp only [List.foldlM_cons, bind_ok_iff] at h1
      obtain ⟨B2, h2, h3⟩ := h1
      refine ih B2 B1 (fun d' hd' => hsub d' (List.mem_cons_of_mem _ hd')) ?_ h3
      obtain ⟨-, h4⟩ := NetBuild.addLine_ok_iff.1 h2
      refine (addNodes_config (P := P) ?_ ?_ h4).1
      · intro c k x hc
        rw [hP]
        exact ⟨d, hsub d (List.mem_cons_self ..), rfl, rfl, hc, rfl⟩
      · exact h0
  have := key desc {} B (fun _ h => h) (by simp) hB (B.nodes.get a) (List.get_mem _ _)
  rw [hP] at this
  exact this

/-- **C78 is false**: adding a field to a manager leaves all its networks as they are. -/
theorem C78_refuted_always {M M' : MTLN p} {F : Field} {D : Distances} :
    (M.addExternalField F D = .ok M' → M'.networks = M.networks) ∧
    (∀ name start stop, M.addLocalizedExternalField name F D start stop = .ok M' → M'.networks = M.networks) := by
  constructor
  · intro h
    unfold MTLN.addExternalField at h
    simp only [bind_ok_iff, Except.ok.injEq] at h
    obtain ⟨_, -, rfl⟩ := h
    rfl
  · intro name start stop h
    unfold MTLN.addLocalizedExternalField at h
    simp only [bind_ok_iff, Except.ok.injEq] at h
    obtain ⟨_, -, _, -, rfl⟩ := h
    rfl

theorem demoFieldNet_new : ∃ nw : Network 1 0, Network.new
    [⟨⟨1, demoBare 0⟩, [{ id := 0, conductor := 0, connector := { connectorType := "Conn_R" } }], "S", "b"⟩] =
      .ok ⟨1, 0, nw⟩ ∧ nw.nodes = fun _ => ⟨0, "demo", 0, .S, "b", [], 1, fun _ => 0⟩ := by
  refine ⟨NetBuild.finish ⟨[⟨0, "demo", 0, .S, "b", [], 1, fun _ => 0⟩], 0, [⟨1, fun _ _ => 1⟩]⟩,
    networkNew_ok_iff.2 ⟨⟨[⟨0, "demo", 0, .S, "b", [], 1, fun _ => 0⟩], 0, [⟨1, fun _ _ => 1⟩]⟩, ?_, rfl⟩, ?_⟩
  · have h1 : ((1 : Mat 1) : Mat 1) = fun _ _ => 1 := by
      ext a b
      rw [Subsingleton.elim a b, Matrix.one_apply_eq]
    simp [NetBuild.addLine, NetBuild.addNode, bind, Except.bind, pyAssert, raiseIf, stateVarsIn,
      List.insertionSort, List.orderedInsert, demoBare, pure, Except.pure, h1]
  · funext a
    rw [Subsingleton.elim a 0]
    rfl

/-- **C78 is false**: a manager with the demo bundle and a network at its left end; after a uniform field along x is
added, the bundle has the transverse voltage 1 at its left end, and the node there still uses 0. -/
theorem C78_refuted : ∃ (L : MTL 1 0) (B b : MTLD 1 0) (nw : Network 1 0) (M M' : MTLN 0) (F : Field) (D : Distances),
    MTLD.new [[⟨1, L⟩]] "b" = .ok ⟨1, B⟩ ∧
    Network.new [⟨⟨1, L⟩, [{ id := 0, conductor := 0, connector := { connectorType := "Conn_R" } }], "S", "b"⟩] =
      .ok ⟨1, 0, nw⟩ ∧
    MTLN.new [⟨1, B⟩] [[(0, ⟨1, 0, nw⟩)]] = .ok M ∧
    M.addExternalField F D = .ok M' ∧ M'.bundles = [⟨1, b⟩] ∧ M'.networks = [[(0, ⟨1, 0, nw⟩)]] ∧
    (nw.nodes 0).bundleName = b.name ∧ (nw.nodes 0).lineIndex = 0 ∧ (nw.nodes 0).side = .S ∧
    ∀ t, b.eT 0 0 t = 1 ∧ (nw.nodes 0).eT t = 0 := by
  obtain ⟨F, hF⟩ : ∃ F : Field, F = ⟨fun _ => 1, fun _ => 0, fun _ => 0⟩ := ⟨_, rfl⟩
  have hd : (![1, 0, 0] : V3) ≠ 0 := fun h => by simpa using congrFun h 0
  obtain ⟨nw, hnew, hnw⟩ := demoFieldNet_new
  have hacc := demo_accepted (p := 0) (start := 0) (stop := 2) (by norm_num) le_rfl hd
  obtain ⟨b, hb, hname, hval⟩ : ∃ b : MTLD 1 0, (MTLD.single (demoBare 0) "b").addExternalField F
      (constOffset ![1, 0, 0]) none = .ok b ∧ b.name = "b" ∧ ∀ t, b.eT 0 0 t = 1 := by
    refine ⟨_, bundleField_ok_iff.2 ⟨rfl, rfl, _, fieldSources_ok_iff.2 ⟨hacc, rfl⟩, rfl⟩, rfl, fun t => ?_⟩
    show storedT 2 1 0 2 (demoBare 0).u (demoBare 0).l (demoBare 0).c F (constOffset ![1, 0, 0])
      (MTLD.single (demoBare 0) "b").eT 0 0 t = 1
    unfold storedT
    rw [if_neg (by norm_num), if_pos (by decide), eTAt_axis _ _ ⟨0, by simp [constOffset], fun j hj => by
      fin_cases j <;> simp_all [constOffset]⟩]
    subst hF
    simp [pathIntegral, constOffset, dot3, Field.at]
  have hfind : ∀ a, findBundle [(⟨1, MTLD.single (demoBare 0) "b"⟩ : AnyBundle 0)] (nw.nodes a).bundleName =
      some ⟨1, MTLD.single (demoBare 0) "b"⟩ := by
    intro a; rw [hnw]; simp [findBundle, MTLD.single]
  have hM : MTLN.new [⟨1, MTLD.single (demoBare 0) "b"⟩] [[(0, ⟨1, 0, nw⟩)]] =
      .ok { bundles := [⟨1, MTLD.single (demoBare 0) "b"⟩], networks := [[(0, ⟨1, 0, nw⟩)]], dt := 1 } := by
    have hdt : (MTLD.single (demoBare 0) "b").dt = 1 := by norm_num [MTLD.single, demoBare]
    rw [managerNew_ok_iff]
    refine ⟨by simp, ?_, rfl, ?_, rfl⟩
    · constructor
      · right
        exact ⟨_, List.mem_singleton_self _, hdt.symm⟩
      · rintro t (rfl | ⟨b, hb, rfl⟩)
        · norm_num
        · obtain rfl := List.mem_singleton.1 hb
          exact hdt.ge
    · simp only [mapPy, register_level_zero hfind, bind, Except.bind]
  refine ⟨demoBare 0, _, b, nw, _, { bundles := [⟨1, b⟩], networks := [[(0, ⟨1, 0, nw⟩)]], dt := 1 }, F,
    constOffset ![1, 0, 0], single_new _ _, hnew, hM, ?_, rfl, rfl, ?_, ?_, ?_, fun t => ⟨hval t, ?_⟩⟩
  · unfold MTLN.addExternalField
    simp only [mapPy, onBundle, hb, bind, Except.bind]
  · rw [hnw, hname]
  · rw [hnw]
  · rw [hnw]
  · rw [hnw]

/-! ## C90 -/

/-- **C90 is false**: `MTLN.add_planewave` raises for every manager that has a bundle, whatever the wave. -/
theorem C90_refuted (M : MTLN p) (hM : M.bundles ≠ []) (w : PlaneWave) (D : Distances) :
    M.addPlanewave w D = .error .AttributeError := by
  obtain ⟨b, bs, hb⟩ := List.exists_cons_of_ne_nil hM
  unfold MTLN.addPlanewave
  rw [hb]
  rfl

/-- **C90 (part)**: the manager without bundles stays as it is. -/
theorem C90_empty_partial (M : MTLN p) (hM : M.bundles = []) (w : PlaneWave) (D : Distances) :
    M.addPlanewave w D = .ok M := by
  unfold MTLN.addPlanewave
  rw [hM]
  simp only [mapPy, bind, Except.bind, ← hM]

/-! ## C91 -/

/-- **C91, lines**: a field localized on the whole line is the field without localization. -/
theorem C91_line_partial (s : MTL n p) (F : Field) (D : Distances)
    (hend : ∀ a ≤ s.m, s.u a = s.u s.m → a = s.m) :
    s.addExternalField F D (some (s.u 0, s.u s.m)) = s.addExternalField F D none := by
  unfold MTL.addExternalField
  simp only [nearest_first, nearest_node s.u s.m s.m le_rfl hend]

/-- **C91 is false for bundles**: a field localized up to the end of a bundle is never accepted. -/
theorem C91_refuted {b b' : MTLD n p} (hrows : b.inLevel.headD 0 ≠ 0) (F : Field) (D : Distances) (x : V3)
    (hend : ∀ a ≤ b.m, b.u a = b.u b.m → a = b.m) : b.addExternalField F D (some (x, b.u b.m)) ≠ .ok b' := by
  intro h
  obtain ⟨-, -, e, he, -⟩ := bundleField_ok_iff.1 h
  obtain ⟨-, h2, -⟩ := fieldSources_ok he hrows
  simp only [bundleCells, nearest_node b.u b.m b.m le_rfl hend] at h2
  omega

/-- The hypotheses of `C91_refuted` are met by the demo bundle, which accepts the same field without localization. -/
theorem C91_refuted_example (F : Field) : ∃ (b b' : MTLD 1 0) (D : Distances), b.inLevel.headD 0 ≠ 0 ∧
    (∀ a ≤ b.m, b.u a = b.u b.m → a = b.m) ∧ b.addExternalField F D none = .ok b' ∧
    b.addExternalField F D (some (b.u 0, b.u b.m)) = .error .IndexError := by
  have hd : (![1, 0, 0] : V3) ≠ 0 := fun h => by simpa using congrFun h 0
  have hacc := demo_accepted (p := 0) (start := 0) (stop := 2) (by norm_num) le_rfl hd
  have hinj : ∀ a ≤ (demoBare 0).m, (demoBare 0).u a = (demoBare 0).u (demoBare 0).m → a = (demoBare 0).m :=
    demo_node_inj le_rfl
  refine ⟨MTLD.single (demoBare 0) "b", _, constOffset ![1, 0, 0], by simp [MTLD.single], hinj,
    bundleField_ok_iff.2 ⟨rfl, rfl, _, fieldSources_ok_iff.2 ⟨hacc, rfl⟩, rfl⟩, ?_⟩
  have n0 : nearest (demoBare 0).u (demoBare 0).m ((demoBare 0).u 0) = 0 := nearest_first _ _
  have n2 : nearest (demoBare 0).u (demoBare 0).m ((demoBare 0).u (demoBare 0).m) = 2 :=
    nearest_node _ _ _ le_rfl hinj
  have heig : ¬ ∃ k < (demoBare 0).m, ∃ x ∈ eigRe ((demoBare 0).l k * (demoBare 0).c (k + 1)), x ≤ 0 := by
    rintro ⟨k, hk, x, hx, hle⟩
    exact absurd (hacc.1 k hk x hx) (not_lt.2 hle)
  unfold MTLD.addExternalField
  show (do
    pyAssert (_ ∧ _)
    let e ← fieldSources (demoBare 0).m 1 (nearest (demoBare 0).u (demoBare 0).m ((demoBare 0).u 0))
      (nearest (demoBare 0).u (demoBare 0).m ((demoBare 0).u (demoBare 0).m) + 1) (demoBare 0).u (demoBare 0).du
      (demoBare 0).l (demoBare 0).c F (constOffset ![1, 0, 0]) _ _
    _ : Py _) = _
  rw [n0, n2]
  have hf : fieldSources (demoBare 0).m 1 0 (2 + 1) (demoBare 0).u (demoBare 0).du
      (demoBare 0).l (demoBare 0).c F (constOffset ![1, 0, 0]) (MTLD.single (demoBare 0) "b").eL
      (MTLD.single (demoBare 0) "b").eT = .error .IndexError := by
    unfold fieldSources
    have hA : pyAssert (∀ k, 0 ≤ k → k < 2 + 1 → k < (demoBare 0).m → norm3 ((demoBare 0).du k) ≠ 0) = .ok () :=
      pyAssert_ok_iff.2 fun k a _ b => (hacc.2 one_ne_zero).2.2.2 k a b
    rw [raiseIf, if_neg heig, hA]
    simp [raiseIf, bind, Except.bind, demoBare]
  rw [hf]
  simp [pyAssert, bind, Except.bind, MTLD.single, constOffset, demoBare]

/-! ## C92 -/

/-- **C92 is false**: of two fields added to a whole line only the second one remains. -/
theorem C92_refuted_last_wins {s s1 s2 : MTL n p} {F G : Field} {D D' : Distances}
    (h1 : s.addExternalField F D none = .ok s1) (h2 : s1.addExternalField G D' none = .ok s2) :
    s.addExternalField G D' none = .ok s2 := by
  obtain ⟨-, -, e, he, rfl⟩ := addExternalField_ok_iff.1 h1
  obtain ⟨hr, hc, e2, he2, rfl⟩ := addExternalField_ok_iff.1 h2
  obtain ⟨-, rfl⟩ := fieldSources_ok_iff.1 he
  obtain ⟨hacc2, rfl⟩ := fieldSources_ok_iff.1 he2
  refine addExternalField_ok_iff.2 ⟨hr, hc, _, fieldSources_ok_iff.2 ⟨hacc2, rfl⟩, ?_⟩
  have eL : storedL n (lineCells s.u s.m none).1 (lineCells s.u s.m none).2 s.u s.du s.l s.c G D'
      (storedL n (lineCells s.u s.m none).1 (lineCells s.u s.m none).2 s.u s.du s.l s.c F D s.eL) =
      storedL n (lineCells s.u s.m none).1 (lineCells s.u s.m none).2 s.u s.du s.l s.c G D' s.eL := by
    funext k j
    unfold storedL
    split <;> rfl
  have eT : storedT s.m n (lineCells s.u s.m none).1 (lineCells s.u s.m none).2 s.u s.l s.c G D'
      (storedT s.m n (lineCells s.u s.m none).1 (lineCells s.u s.m none).2 s.u s.l s.c F D s.eT) =
      storedT s.m n (lineCells s.u s.m none).1 (lineCells s.u s.m none).2 s.u s.l s.c G D' s.eT := by
    funext k j
    unfold storedT
    split
    · rfl
    · split <;> rfl
  show MTL.mk .. = MTL.mk ..
  congr 1

/-- **C92 is false**: adding the same uniform field twice gives the transverse voltage of one. -/
theorem C92_refuted : ∃ (s s1 s2 : MTL 1 0) (F : Field) (D : Distances), s.addExternalField F D none = .ok s1 ∧
    s1.addExternalField F D none = .ok s2 ∧ ∀ t, s1.eT 0 0 t = 1 ∧ s2.eT 0 0 t = 1 := by
  obtain ⟨F, hF⟩ : ∃ F : Field, F = ⟨fun _ => 1, fun _ => 0, fun _ => 0⟩ := ⟨_, rfl⟩
  have hax : AxisAligned (![1, 0, 0] : V3) := ⟨0, by simp, fun j hj => by fin_cases j <;> simp_all⟩
  obtain ⟨s1, h1⟩ := demo_field (p := 0) F (constOffset ![1, 0, 0]) rfl rfl
    fun _ _ h => by simpa [constOffset] using congrFun h 0
  obtain ⟨s2, h2⟩ : ∃ s2, s1.addExternalField F (constOffset ![1, 0, 0]) none = .ok s2 := by
    obtain ⟨hr, hc, e, he, rfl⟩ := addExternalField_ok_iff.1 h1
    obtain ⟨hacc, rfl⟩ := fieldSources_ok_iff.1 he
    exact ⟨_, addExternalField_ok_iff.2 ⟨hr, hc, _, fieldSources_ok_iff.2 ⟨hacc, rfl⟩, rfl⟩⟩
  have val : ∀ s : MTL 1 0, (demoBare 0).addExternalField F (constOffset ![1, 0, 0]) none = .ok s → ∀ t, s.eT 0 0 t = 1 := by
    intro s hs t
    rw [(C76_line_partial hs 0).1 0 (by simp [demoBare]) hax]
    subst hF
    simp [pathIntegral, constOffset, dot3, Field.at]
  exact ⟨_, s1, s2, F, _, h1, h2, fun t => ⟨val s1 h1 t, val s2 (C92_refuted_last_wins h1 h2) t⟩⟩

/-! ## C93 -/

/-- The components of the field are continuous in the coordinate they are integrated over. -/
def Field.Regular (F : Field) : Prop :=
  (∀ y z t v, Continuous fun s => F.ex ⟨s, y, z, t, v⟩) ∧ (∀ x z t v, Continuous fun s => F.ey ⟨x, s, z, t, v⟩) ∧
    ∀ x y t v, Continuous fun s => F.ez ⟨x, y, s, t, v⟩

theorem eTAt_comb {F G : Field} (hF : F.Regular) (hG : G.Regular) (a b : ℝ) (x d : V3) (v t : ℝ) :
    eTAt (Field.comb a b F G) x d v t = a * eTAt F x d v t + b * eTAt G x d v t := by
  have key : ∀ (f g : ℝ → ℝ), Continuous f → Continuous g → ∀ c e : ℝ,
      ∫ s in c..e, (a * f s + b * g s) = a * (∫ s in c..e, f s) + b * ∫ s in c..e, g s := by
    intro f g hf hg c e
    rw [intervalIntegral.integral_add ((hf.const_mul a).intervalIntegrable _ _)
      ((hg.const_mul b).intervalIntegrable _ _), intervalIntegral.integral_const_mul,
      intervalIntegral.integral_const_mul]
  unfold eTAt
  simp only [Field.comb]
  rw [key _ _ (hF.1 _ _ _ _) (hG.1 _ _ _ _), key _ _ (hF.2.1 _ _ _ _) (hG.2.1 _ _ _ _),
    key _ _ (hF.2.2 _ _ _ _) (hG.2.2 _ _ _ _)]
  ring

theorem at_comb (a b : ℝ) (F G : Field) (e : Env) (w : V3) :
    dot3 ((Field.comb a b F G).at e) w = a * dot3 (F.at e) w + b * dot3 (G.at e) w := by
  simp only [dot3, Field.at, Field.comb, cons_val_zero, cons_val_one, cons_val]
  ring

/-- **C93**: the excitations of a line without fields are linear in the field added. -/
theorem C93_linear {s sF sG : MTL n p} {F G : Field} {D : Distances} {loc : Option (V3 × V3)} (hF : F.Regular)
    (hG : G.Regular) (a b : ℝ) (heL : s.eL = fun _ _ _ => 0) (heT : s.eT = fun _ _ _ => 0)
    (h1 : s.addExternalField F D loc = .ok sF) (h2 : s.addExternalField G D loc = .ok sG) :
    ∃ s', s.addExternalField (Field.comb a b F G) D loc = .ok s' ∧
      ∀ k j t, s'.eL k j t = a * sF.eL k j t + b * sG.eL k j t ∧ s'.eT k j t = a * sF.eT k j t + b * sG.eT k j t := by
  obtain ⟨hr, hc, e, he, rfl⟩ := addExternalField_ok_iff.1 h1
  obtain ⟨-, -, e2, he2, rfl⟩ := addExternalField_ok_iff.1 h2
  obtain ⟨hacc, rfl⟩ := fieldSources_ok_iff.1 he
  obtain ⟨-, rfl⟩ := fieldSources_ok_iff.1 he2
  refine ⟨_, addExternalField_ok_iff.2 ⟨hr, hc, _, fieldSources_ok_iff.2 ⟨hacc, rfl⟩, rfl⟩, fun k j t => ⟨?_, ?_⟩⟩
  · simp only [storedL, heL]
    split
    · simp only [at_comb]; ring
    · ring
  · simp only [storedT, heT]
    split
    · rw [eTAt_comb hF hG]
    · split
      · rw [eTAt_comb hF hG]
      · ring

/-! ## C94 -/

/-- The field delayed by `τ`. -/
def Field.delay (τ : ℝ) (F : Field) : Field where
  ex := fun e => F.ex { e with t := e.t - τ }
  ey := fun e => F.ey { e with t := e.t - τ }
  ez := fun e => F.ez { e with t := e.t - τ }

/-- **C94**: a delayed field gives the same excitations, delayed, in the cells and at the nodes it is applied to. -/
theorem C94_delay {s s' : MTL n p} {F : Field} {D : Distances} {loc : Option (V3 × V3)} (τ : ℝ)
    (heL : s.eL = fun _ _ _ => 0) (heT : s.eT = fun _ _ _ => 0) (h : s.addExternalField F D loc = .ok s') :
    ∃ s'', s.addExternalField (F.delay τ) D loc = .ok s'' ∧
      ∀ k j t, s''.eL k j t = s'.eL k j (t - τ) ∧ s''.eT k j t = s'.eT k j (t - τ) := by
  obtain ⟨hr, hc, e, he, rfl⟩ := addExternalField_ok_iff.1 h
  obtain ⟨hacc, rfl⟩ := fieldSources_ok_iff.1 he
  refine ⟨_, addExternalField_ok_iff.2 ⟨hr, hc, _, fieldSources_ok_iff.2 ⟨hacc, rfl⟩, rfl⟩, fun k j t => ⟨?_, ?_⟩⟩
  · simp only [storedL, heL]
    split <;> rfl
  · simp only [storedT, heT]
    split
    · rfl
    · split <;> rfl

/-- **C93 and C94, non-vacuity**: a constant field on the demo line, which has no fields. -/
theorem C93_example : ∃ (s' : MTL 1 0) (F : Field), F.Regular ∧
    (demoBare 0).addExternalField F (constOffset ![1, 0, 0]) none = .ok s' ∧ (demoBare 0).eL = (fun _ _ _ => 0) ∧
    (demoBare 0).eT = fun _ _ _ => 0 := by
  obtain ⟨s', hs⟩ := demo_field (p := 0) ⟨fun _ => 1, fun _ => 0, fun _ => 0⟩ (constOffset ![1, 0, 0]) rfl rfl
    fun _ _ h => by simpa [constOffset] using congrFun h 0
  exact ⟨s', _, ⟨fun _ _ _ _ => continuous_const, fun _ _ _ _ => continuous_const, fun _ _ _ _ => continuous_const⟩,
    hs, rfl, rfl⟩

/-! ## C95 -/

/-- **C95 is false**: a bundle starts without fields, whatever fields its lines have. -/
theorem C95_refuted_always {levels : List (List (AnyLine p))} {name : String} {B : AnyBundle p}
    (h : MTLD.new levels name = .ok B) : B.2.eL = (fun _ _ _ => 0) ∧ B.2.eT = fun _ _ _ => 0 := by
  unfold MTLD.new at h
  split at h
  · exact absurd h (by simp)
  · split at h
    · simp only [Except.ok.injEq] at h
      subst h
      exact ⟨rfl, rfl⟩
    · exact absurd h (by simp)
  · exact absurd h (by simp)

/-- **C95 is false**: a line with the transverse voltage 1 at its left end makes a bundle with 0 there. -/
theorem C95_refuted : ∃ (s s' : MTL 1 0) (b : MTLD 1 0) (F : Field) (D : Distances),
    s.addExternalField F D none = .ok s' ∧ MTLD.new [[⟨1, s'⟩]] "b" = .ok ⟨1, b⟩ ∧
    ∀ t, s'.eT 0 0 t = 1 ∧ b.eT 0 0 t = 0 := by
  obtain ⟨s, s1, s2, F, D, h1, -, hv⟩ := C92_refuted
  exact ⟨s, s1, _, F, D, h1, single_new s1 "b", fun t => ⟨(hv t).1, rfl⟩⟩

end Mtln
