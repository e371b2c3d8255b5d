import Verif.Props.ParserRun
import Verif.Props.Localized
import Verif.Props.Registration

/-! # Sources and probes of the parser: C114, C115 -/

namespace Mtln

variable {n p : ℕ}

/-! ## C114 -/

theorem addWeighted_effect {m : ℕ} {c : Fin n} {mag : ℝ → ℝ} {scale : ℝ} : ∀ {d : Factors} {eL eL' : Src n},
    d.foldlM (fun eL (e : ℤ × ℝ) => addWeighted m c mag eL e.1 (e.2 / scale)) eL = .ok eL' →
    ∃ w : ℕ → ℝ, eL' = fun k j t => eL k j t + if j = c then w k * mag t else 0
  | [], eL, eL', h => ⟨fun _ => 0, by
      have := Except.ok.inj h
      subst this
      funext k j t
      simp⟩
  | e :: d, eL, eL', h => by
    rw [List.foldlM_cons] at h
    obtain ⟨eL1, h1, h2⟩ := bind_ok_iff.1 h
    obtain ⟨w, rfl⟩ := addWeighted_effect h2
    unfold addWeighted at h1
    obtain ⟨cell, -, h3⟩ := bind_ok_iff.1 h1
    injection h3 with h3
    subst h3
    refine ⟨fun k => w k + if k = cell then e.2 / scale else 0, ?_⟩
    funext k j t
    by_cases hk : k = cell <;> by_cases hj : j = c <;> simp [hk, hj]
    ring

theorem addLocalizedField_effect {b b' : MTLD n p} {start stop : Pos} {c : Fin n} {f : ℝ → ℝ} {type : String}
    (h : b.addLocalizedField start stop c f type = .ok b') :
    ∃ w : ℕ → ℝ, b' = { b with eL := fun k j t => b.eL k j t + if j = c then w k * f t else 0 } := by
  unfold MTLD.addLocalizedField at h
  obtain ⟨-, -, h⟩ := bind_ok_iff.1 h
  obtain ⟨-, -, h⟩ := bind_ok_iff.1 h
  obtain ⟨d, -, h⟩ := bind_ok_iff.1 h
  obtain ⟨-, -, h⟩ := bind_ok_iff.1 h
  obtain ⟨eL, h1, h⟩ := bind_ok_iff.1 h
  obtain ⟨w, rfl⟩ := addWeighted_effect h1
  exact ⟨w, (Except.ok.inj h).symm⟩

/-- The sources that the parser adds to a bundle. -/
abbrev SourceDesc.Acts (s : SourceDesc) : Prop := s.type = "localized efield drive" ∨ s.type = "Planewave"

theorem changeBundle_ok_iff {P P' : Parsed p} {k : ℕ} {f : ∀ {n}, MTLD n p → Py (MTLD n p)} :
    P.changeBundle k f = .ok P' ↔ ∃ B b', P.bundles[k]? = some B ∧ f B.bundle.2 = .ok b' ∧
      P' = { P with bundles := P.bundles.set k { B with bundle := ⟨B.bundle.1, b'⟩ } } := by
  simp only [Parsed.changeBundle, PBundle.change, bind_ok_iff, pyIndex_ok_iff, Except.ok.injEq]
  constructor
  · rintro ⟨B, h1, B', ⟨b', h2, rfl⟩, rfl⟩
    exact ⟨B, b', h1, h2, rfl⟩
  · rintro ⟨B, b', h1, h2, rfl⟩
    exact ⟨B, h1, _, ⟨b', h2, rfl⟩, rfl⟩

/-- **C114** What a distributed source does, exactly: a localized drive or a plane wave is put between the coordinates of its
two nodes on the conductor of its number in the first bundle that has its cable; any other source does nothing. -/
theorem C114_source {P P' : Parsed p} {s : SourceDesc} : P.addSource s = .ok P' ↔ ∃ name c k, s.cable = some name ∧
    FirstMatch P.file.cables (fun c => c.name = name) c ∧ P.bundleWithCable c.name = .ok k ∧
    (¬ s.Acts → P' = P) ∧
    (s.Acts → ∃ e0 e1 n0 n1 x0 x1, ∃ f : ℝ → ℝ, ∃ B, s.elemIds[0]? = some e0 ∧ s.elemIds[1]? = some e1 ∧ P.file.nodeCoordId e0 = .ok n0 ∧
      P.file.nodeCoordId e1 = .ok n1 ∧ P.file.coordinate n0 = .ok x0 ∧ P.file.coordinate n1 = .ok x1 ∧
      (∀ t, s.magnitude.eval t = .ok (some (f t))) ∧ P.bundles[k]? = some B ∧
      ∃ (hc : s.conductor.getD 0 < B.bundle.1) (b' : MTLD B.bundle.1 p),
        B.bundle.2.addLocalizedField (.list x0) (.list x1) ⟨s.conductor.getD 0, hc⟩ f s.type = .ok b' ∧
        P' = { P with bundles := P.bundles.set k { B with bundle := ⟨B.bundle.1, b'⟩ } }) := by
  unfold Parsed.addSource
  simp only [bind_ok_iff, pyKey_ok_iff, (C111_cable _ _).1]
  constructor
  · rintro ⟨name, h1, c, h2, k, h3, h4⟩
    refine ⟨name, c, k, h1, h2, h3, fun ha => ?_, fun ha => ?_⟩
    · rw [if_neg ha] at h4
      exact (Except.ok.inj h4).symm
    · rw [if_pos ha] at h4
      simp only [bind_ok_iff, pyIndex_ok_iff, function_ok_iff, changeBundle_ok_iff] at h4
      obtain ⟨e0, q1, n0, q2, x0, q3, e1, q4, n1, q5, x1, q6, f, q7, B, b', q8, q9, rfl⟩ := h4
      by_cases hc : s.conductor.getD 0 < B.bundle.1
      · rw [dif_pos hc] at q9
        exact ⟨e0, e1, n0, n1, x0, x1, f, B, q1, q4, q2, q5, q3, q6, q7, q8, hc, b', q9, rfl⟩
      · rw [dif_neg hc] at q9
        cases q9
  · rintro ⟨name, c, k, h1, h2, h3, h4, h5⟩
    refine ⟨name, h1, c, h2, k, h3, ?_⟩
    by_cases ha : s.Acts
    · rw [if_pos ha]
      obtain ⟨e0, e1, n0, n1, x0, x1, f, B, q1, q4, q2, q5, q3, q6, q7, q8, hc, b', q9, rfl⟩ := h5 ha
      simp only [bind_ok_iff, pyIndex_ok_iff, function_ok_iff, changeBundle_ok_iff]
      refine ⟨e0, q1, n0, q2, x0, q3, e1, q4, n1, q5, x1, q6, f, q7, B, b', q8, ?_, rfl⟩
      rw [dif_pos hc]
      exact q9
    · rw [if_neg ha, h4 ha]

/-- **C114** The effect: multiples of the magnitude are added to the longitudinal field of one row of one bundle. -/
theorem C114_effect {P P' : Parsed p} {s : SourceDesc} (h : P.addSource s = .ok P') (ha : s.Acts) :
    ∃ k B, ∃ f : ℝ → ℝ, ∃ (hc : s.conductor.getD 0 < B.bundle.1) (w : ℕ → ℝ), P.bundles[k]? = some B ∧
      (∀ name, s.cable = some name → P.bundleWithCable name = .ok k) ∧
      (∀ t, s.magnitude.eval t = .ok (some (f t))) ∧
      P' = { P with
        bundles := P.bundles.set k { B with
          bundle := ⟨B.bundle.1, { B.bundle.2 with
            eL := fun x j t => B.bundle.2.eL x j t + if j = ⟨s.conductor.getD 0, hc⟩ then w x * f t else 0 }⟩ } } := by
  obtain ⟨name, c, k, h1, h2, h3, -, h4⟩ := C114_source.1 h
  obtain ⟨e0, e1, n0, n1, x0, x1, f, B, q1, q4, q2, q5, q3, q6, q7, q8, hc, b', q9, rfl⟩ := h4 ha
  obtain ⟨w, rfl⟩ := addLocalizedField_effect q9
  refine ⟨k, B, f, hc, w, q8, ?_, q7, rfl⟩
  intro nm hnm
  obtain rfl := Option.some.inj (h1.symm.trans hnm)
  obtain ⟨-, -, -, e, -⟩ := h2
  subst e
  exact h3

/-- **C114 (partial)** For a cable that is the first line of the outermost level, this is the row of the conductor of the
cable with the number of the source. -/
theorem C114_first_cable_partial {P P' : Parsed p} {s : SourceDesc} (h : P.addSource s = .ok P') (ha : s.Acts) {k : ℕ}
    {B : PBundle p} {name : String} (hs : s.cable = some name) (hk : P.bundleWithCable name = .ok k)
    (hB : P.bundles[k]? = some B) {L : AnyLine p} (hL : ∃ lines rest, B.levels = (L :: lines) :: rest)
    (hn : B.bundle.1 = totalConductors B.levels.flatten) (hc : s.conductor.getD 0 < L.1) :
    ∃ f : ℝ → ℝ, (∀ t, s.magnitude.eval t = .ok (some (f t))) ∧ ∃ (b' : MTLD B.bundle.1 p) (w : ℕ → ℝ),
      P'.bundles[k]? = some { B with bundle := ⟨B.bundle.1, b'⟩ } ∧ ∀ x j t, b'.eL x j t = B.bundle.2.eL x j t +
        if (j : ℕ) = bundleRow B.levels 0 0 (s.conductor.getD 0) then w x * f t else 0 := by
  obtain ⟨k', B', f, hc', w, h1, h2, h3, rfl⟩ := C114_effect h ha
  obtain rfl := Except.ok.inj (hk.symm.trans (h2 name hs))
  obtain rfl := Option.some.inj (hB.symm.trans h1)
  refine ⟨f, h3, _, w, List.getElem?_set_self (List.getElem?_eq_some_iff.1 h1).1, fun x j t => ?_⟩
  simp [bundleRow, totalConductors, Fin.ext_iff]

/-- The look-up of a bundle depends on the lines of the bundles only. -/
theorem bundleWithCable_congr {P P' : Parsed p} (h : P'.bundles.map PBundle.levels = P.bundles.map PBundle.levels)
    (name : String) : P'.bundleWithCable name = P.bundleWithCable name := by
  have e : ∀ l : List (PBundle p), (l.findIdx? fun B => decide (name ∈ lineNames B.levels.flatten)) =
      (l.map PBundle.levels).findIdx? fun L => decide (name ∈ lineNames L.flatten) := fun l => by
    rw [List.findIdx?_map]; rfl
  unfold Parsed.bundleWithCable
  rw [e, e, h]

theorem map_levels_set {l : List (PBundle p)} {k : ℕ} {B B' : PBundle p} (hB : l[k]? = some B) (h : B'.levels = B.levels) :
    (l.set k B').map PBundle.levels = l.map PBundle.levels := by
  refine List.ext_getElem? fun i => ?_
  rw [List.getElem?_map, List.getElem?_map, List.getElem?_set]
  by_cases hi : k = i
  · subst hi
    rw [if_pos rfl, if_pos (List.getElem?_eq_some_iff.1 hB).1, hB, Option.map_some, Option.map_some, h]
  · simp [hi]

/-- **C114** All sources: only longitudinal fields change, and only in the rows which are the number of the conductor of a
source in the bundle of its cable. -/
theorem C114_all {ss : List SourceDesc} {P P' : Parsed p} (h : ss.foldlM Parsed.addSource P = .ok P') :
    P' = { P with bundles := P'.bundles } ∧ P'.bundles.map PBundle.levels = P.bundles.map PBundle.levels ∧
    ∀ (k : ℕ) B, P.bundles[k]? = some B → ∃ eL : Src B.bundle.1,
      P'.bundles[k]? = some { B with bundle := ⟨B.bundle.1, { B.bundle.2 with eL := eL }⟩ } ∧
      ∀ j : Fin B.bundle.1, (∀ s ∈ ss, s.Acts → s.conductor.getD 0 = j → ∀ name, s.cable = some name →
        P.bundleWithCable name ≠ .ok k) → ∀ x t, eL x j t = B.bundle.2.eL x j t := by
  induction ss generalizing P with
  | nil =>
    obtain rfl := Except.ok.inj h
    exact ⟨rfl, rfl, fun k B hB => ⟨_, hB, fun _ _ _ _ => rfl⟩⟩
  | cons s ss ih =>
    rw [List.foldlM_cons] at h
    obtain ⟨P1, h1, h2⟩ := bind_ok_iff.1 h
    obtain ⟨i1, i2, i3⟩ := ih h2
    by_cases ha : s.Acts
    · obtain ⟨k, B, f, hc, w, q1, q2, q3, hP1⟩ := C114_effect h1 ha
      have hl0 : P1.bundles.map PBundle.levels = P.bundles.map PBundle.levels := by
        rw [hP1]
        exact map_levels_set q1 rfl
      have hbw := bundleWithCable_congr hl0
      have hl := i2.trans hl0
      subst hP1
      refine ⟨i1, hl, fun k' B' hB' => ?_⟩
      by_cases hk : k = k'
      · subst hk
        obtain rfl := Option.some.inj (q1.symm.trans hB')
        obtain ⟨eL, r1, r2⟩ := i3 k _ (List.getElem?_set_self (List.getElem?_eq_some_iff.1 q1).1)
        refine ⟨eL, r1, fun j hj x t => ?_⟩
        rw [r2 j (fun s' hs' a1 a2 name a3 => ?_) x t]
        · have : j ≠ ⟨s.conductor.getD 0, hc⟩ := by
            rintro rfl
            obtain ⟨name, -, -, hn, -⟩ := C114_source.1 h1
            exact hj s (by simp) ha rfl name hn (q2 name hn)
          simp [this]
        · rw [hbw]
          exact hj s' (by simp [hs']) a1 a2 name a3
      · obtain ⟨eL, r1, r2⟩ := i3 k' B' (by rw [List.getElem?_set_ne hk]; exact hB')
        refine ⟨eL, r1, fun j hj => r2 j fun s' hs' a1 a2 name a3 => ?_⟩
        rw [hbw]
        exact hj s' (by simp [hs']) a1 a2 name a3
    · obtain ⟨name, c, k, -, -, -, q, -⟩ := C114_source.1 h1
      obtain rfl := q ha
      refine ⟨i1, i2, fun k B hB => ?_⟩
      obtain ⟨eL, r1, r2⟩ := i3 k B hB
      exact ⟨eL, r1, fun j hj => r2 j fun s' hs' => hj s' (by simp [hs'])⟩

/-- The cable "a" of the file. -/
def demoCableA : Cable :=
  { name := "a", materialId := 2, elemIds := [2], ndiv := [1], initialConnectorId := some 5, endConnectorId := some 5 }

/-- A field along the wire "a", which is inside of the shield "o". -/
def demoSource : SourceDesc where
  sourceType := "DistributedSource"
  type := "localized efield drive"
  elemIds := [7, 8]
  cable := some "a"
  magnitude := { type := "gaussian_2", amplitude := some 1, x0 := some 0, s0 := some 1 }

noncomputable def demoSourceFile (ps : List ProbeDesc) : File :=
  demoShieldWith [[7, 0, 0, 2], [8, 0, 0, 5]] [demoSource] ps [] []

/-- The bundle of this file, before sources and probes are added. -/
theorem demoSource_bundle {order : List String → List String} (h0 : order ["o"] = ["o"])
    (h1 : order ["a", "b"] = ["a", "b"]) (ps : List ProbeDesc) : ∃ (P : Parsed p) (B : MTLD 3 p) (o a b : MTL 1 p),
      Parsed.buildBundles order { file := demoSourceFile ps } = .ok P ∧ P.file = demoSourceFile ps ∧ P.probes = [] ∧
      P.bundles = [⟨⟨3, B⟩, [[⟨1, o⟩], [⟨1, a⟩, ⟨1, b⟩]]⟩] ∧ o.name = "o" ∧ a.name = "a" ∧ b.name = "b" ∧ B.m = 1 ∧
      B.u 0 = ![0, 0, 0] ∧ B.u 1 = ![0, 0, 1] ∧ B.du 0 = ![0, 0, 1] ∧ B.eL = (fun _ _ _ => 0) ∧ B.probes = [] := by
  obtain ⟨o, ho, no, mo, uo, uo', -, duo, eo⟩ := demoShield_cells (p := p) "o" 1 (by simp)
  obtain ⟨a, ha, na, ma, ua, ua', -, dua, ea⟩ := demoShield_cells (p := p) "a" 1 (by simp)
  obtain ⟨b, hb, nb, mb, ub, ub', -, dub, eb⟩ := demoShield_cells (p := p) "b" 2 (by simp)
  have hm : ∀ L ∈ [(⟨1, o⟩ : AnyLine p), ⟨1, a⟩, ⟨1, b⟩], SameMesh o.m o.u L := by
    have e : ∀ s : MTL 1 p, s.m = 1 → s.u 0 = ![0, 0, 0] → s.u 1 = ![0, 0, 1] → SameMesh o.m o.u ⟨1, s⟩ := by
      intro s h1 h2 h3
      refine ⟨h1.trans mo.symm, fun k hk => ?_⟩
      rw [mo] at hk
      interval_cases k
      · rw [h2, uo]
      · rw [h3, uo']
    intro L hL
    simp only [List.mem_cons, List.not_mem_nil, or_false] at hL
    rcases hL with rfl | rfl | rfl
    · exact e o mo uo uo'
    · exact e a ma ua ua'
    · exact e b mb ub ub'
  refine ⟨_, _, o, a, b, demoShield_bundle_with (ns := [[7, 0, 0, 2], [8, 0, 0, 5]]) (ss := [demoSource]) (ps := ps) (ts := [])
    (js := []) h0 h1 (.inl rfl) ho ha hb no na nb hm, rfl, rfl, rfl, no, na, nb, mo, uo, uo', duo, ?_, rfl⟩
  rfl

/-- **C114 is false**: the source of the wire "a" of this file is put on the row of the shield "o", the rows of the wires
keep the field 0. -/
theorem C114_refuted {order : List String → List String} (h0 : order ["o"] = ["o"]) (h1 : order ["a", "b"] = ["a", "b"]) :
    ∃ (P P' : Parsed p) (B' : MTLD 3 p) (o a b : MTL 1 p),
      Parsed.buildBundles order { file := demoSourceFile [] } = .ok P ∧ P.addSources = .ok P' ∧
      P'.bundles = [⟨⟨3, B'⟩, [[⟨1, o⟩], [⟨1, a⟩, ⟨1, b⟩]]⟩] ∧ a.name = "a" ∧
      bundleRow [[(⟨1, o⟩ : AnyLine p)], [⟨1, a⟩, ⟨1, b⟩]] 1 0 0 = 1 ∧
      (∀ k t, B'.eL k 1 t = 0) ∧ (∀ k t, B'.eL k 2 t = 0) ∧ ∀ t, B'.eL 0 0 t ≠ 0 := by
  obtain ⟨P, B, o, a, b, hP, hF, -, hB, no, na, nb, hm, u0, u1, du, heL, -⟩ := demoSource_bundle (p := p) h0 h1 []
  have hU : Uniform B.u B.du B.m 0 ![0, 0, 1] 1 := by
    rw [hm]
    refine ⟨by simp [norm3], one_pos, ?_, ?_⟩
    · intro k hk
      interval_cases k
      · rw [u0]; funext j; fin_cases j <;> simp
      · rw [u1]; funext j; fin_cases j <;> simp
    · intro k hk
      obtain rfl : k = 0 := by omega
      rw [du, one_smul]
  have hinj : ∀ k ≤ B.m, ∀ a ≤ B.m, B.u a = B.u k → a = k := by
    intro k hk a ha h
    rw [hU.u a ha, hU.u k hk] at h
    have := congrFun h 2
    simp at this
    exact_mod_cast this
  obtain ⟨w, hw, hsum⟩ := C45_weights_partial (b := B) (a := 0) (d := ![0, 0, 1]) (h := 1) (x := 0) (y := 1) (si := 0)
    (ei := 1) (start := .list ![0, 0, 0]) (stop := .list ![0, 0, 1]) hU
    (by funext j; fin_cases j <;> simp [Pos.toV3]) (by funext j; fin_cases j <;> simp [Pos.toV3])
    (by rw [hm, u0, u1]; rintro (⟨j, h⟩ | ⟨j, h⟩) <;> revert h <;> fin_cases j <;> simp [Pos.toV3])
    (by rw [hm, u0, u1]; rintro (⟨j, h⟩ | ⟨j, h⟩) <;> revert h <;> fin_cases j <;> simp [Pos.toV3])
    (by rw [Pos.toV3, ← u0]; exact nearest_node _ _ 0 (by simp) (hinj 0 (by omega)))
    (by rw [Pos.toV3, ← u1]; exact nearest_node _ _ 1 (by omega) (hinj 1 (by omega))) (by omega)
    (Or.inl (by norm_num)) (Or.inl (by norm_num)) (Or.inr ⟨by omega, by norm_num, by norm_num⟩) (0 : Fin 3)
    (fun t => Real.exp (-((t - 0) / 1) ^ 2)) (type := "localized efield drive") (by decide)
  have hw0 : w 0 = 1 := by
    rw [hm] at hsum
    simpa using hsum
  set B' : MTLD 3 p :=
    { B with eL := fun k j t => B.eL k j t + if j = 0 then w k * Real.exp (-((t - 0) / 1) ^ 2) else 0 } with hB'
  refine ⟨P, { P with bundles := [⟨⟨3, B'⟩, [[⟨1, o⟩], [⟨1, a⟩, ⟨1, b⟩]]⟩] }, B', o, a, b, hP, ?_, rfl, na, ?_, ?_, ?_, ?_⟩
  · have hs : P.addSources = [demoSource].foldlM Parsed.addSource P := by
      unfold Parsed.addSources
      rw [hF]
      rfl
    rw [hs, List.foldlM_cons]
    have : P.addSource demoSource = .ok { P with
        bundles := [⟨⟨3, B'⟩, [[⟨1, o⟩], [⟨1, a⟩, ⟨1, b⟩]]⟩] } := by
      refine C114_source.2 ⟨"a", demoCableA, 0,
        rfl, ?_, ?_, fun h => absurd (.inl rfl) h, fun _ => ⟨7, 8, 2, 5, ![0, 0, 0], ![0, 0, 1],
          fun t => Real.exp (-((t - 0) / 1) ^ 2), ⟨⟨3, B⟩, [[⟨1, o⟩], [⟨1, a⟩, ⟨1, b⟩]]⟩, rfl, rfl, ?_, ?_, ?_, ?_, ?_, ?_, ?_⟩⟩
      · rw [hF]
        exact ⟨[_], [_], rfl, rfl, by simp⟩
      · refine (C125_first _ _ _).2 ⟨⟨_, by rw [hB]; rfl, ⟨1, a⟩, by simp, na⟩, fun j B hj => absurd hj (by omega)⟩
      · rw [hF]; rfl
      · rw [hF]; rfl
      · rw [hF]; rfl
      · rw [hF]; rfl
      · intro t
        simp [demoSource, Magnitude.eval, pyKey, gaussian2, bind, Except.bind]
      · rw [hB]; rfl
      · exact ⟨by simp [demoSource], _, hw, by rw [hB]; rfl⟩
    rw [this]
    rfl
  · simp [bundleRow, totalConductors]
  · intro k t
    simp [hB', heL]
  · intro k t
    simp [hB', heL]
  · intro t
    simp [hB', heL, hw0]

/-! ## C115 -/

/-- The bundle and the coordinate of a probe: the coordinate of its first node, on the first bundle with a line of the name of
its cable; without the name of a cable it is the first cable with the first line that has the coordinate. -/
def Parsed.ProbeOn (P : Parsed p) (d : ProbeDesc) (k : ℕ) (x : V3) : Prop :=
  ∃ id c, d.elemIds[0]? = some id ∧ P.file.nodeCoordId id = .ok c ∧ P.file.coordinate c = .ok x ∧
    ∃ cable ∈ P.file.cables, P.bundleWithCable cable.name = .ok k ∧
      (∀ name, d.cable = some name → cable.name = name) ∧
      (d.cable = none → ∃ el, P.file.lineElemIdFromCoordId c = .ok el ∧ FirstMatch P.file.cables (fun c => el ∈ c.elemIds) cable)

/-- **C115** What a probe of the file does, exactly. -/
theorem C115_probe {P P' : Parsed p} {d : ProbeDesc} : P.addProbe d = .ok P' ↔ ∃ k x B b', P.ProbeOn d k x ∧
    P.bundles[k]? = some B ∧ B.bundle.2.addProbe (.list x) d.type = .ok b' ∧
    P' = { P with
      bundles := P.bundles.set k { B with bundle := ⟨B.bundle.1, b'⟩ }
      probes := dictSet P.probes d.name (k, B.bundle.2.probes.length) } := by
  unfold Parsed.addProbe
  simp only [bind_ok_iff, pyIndex_ok_iff, changeBundle_ok_iff, Except.ok.injEq]
  constructor
  · rintro ⟨k, h1, id, h2, c, h3, x, h4, B, h5, P1, ⟨B1, b', h6, h7, rfl⟩, rfl⟩
    obtain rfl := Option.some.inj (h5.symm.trans h6)
    refine ⟨k, x, B, b', ⟨id, c, h2, h3, h4, ?_⟩, h5, h7, rfl⟩
    cases hd : d.cable with
    | some name =>
      rw [hd] at h1
      simp only [bind_ok_iff, (C111_cable _ _).1] at h1
      obtain ⟨cable, h8, h9⟩ := h1
      refine ⟨cable, h8.mem, h9, ?_, by simp⟩
      obtain ⟨-, -, -, e, -⟩ := h8
      intro nm hnm
      exact e.trans (Option.some.inj hnm)
    | none =>
      rw [hd] at h1
      simp only [bind_ok_iff, pyIndex_ok_iff] at h1
      obtain ⟨id', h8, h9⟩ := h1
      obtain rfl := Option.some.inj (h2.symm.trans h8)
      unfold Parsed.bundleFromElemId at h9
      simp only [bind_ok_iff, (C81_cables _ _).2.2.1] at h9
      obtain ⟨c', h10, el, h11, cable, h12, h13⟩ := h9
      obtain rfl := Except.ok.inj (h3.symm.trans h10)
      exact ⟨cable, h12.mem, h13, by simp, fun _ => ⟨el, h11, h12⟩⟩
  · rintro ⟨k, x, B, b', ⟨id, c, h2, h3, h4, cable, h8, h9, h10, h11⟩, h5, h7, rfl⟩
    refine ⟨k, ?_, id, h2, c, h3, x, h4, B, h5, _, ⟨B, b', h5, h7, rfl⟩, rfl⟩
    cases hd : d.cable with
    | some name =>
      simp only [bind_ok_iff, (C111_cable _ _).1]
      obtain ⟨c', hc'⟩ := firstMatch_exists (l := P.file.cables) (P := fun c => c.name = name) ⟨cable, h8, h10 name hd⟩
      refine ⟨c', hc', ?_⟩
      obtain ⟨-, -, -, e, -⟩ := hc'
      have e' : c'.name = name := e
      rw [e', ← h10 name hd]
      exact h9
    | none =>
      simp only [bind_ok_iff, pyIndex_ok_iff]
      refine ⟨id, h2, ?_⟩
      unfold Parsed.bundleFromElemId
      simp only [bind_ok_iff, (C81_cables _ _).2.2.1]
      obtain ⟨el, h12, h13⟩ := h11 hd
      exact ⟨c, h3, el, h12, cable, h13, h9⟩

/-- **C115** All probes: every probe of the file has a place; a bundle has, after the ones it had, the probes whose place is on
it, in the order of the file, at the coordinates of their places; nothing else changes. -/
theorem C115_all {ds : List ProbeDesc} {P P' : Parsed p} (h : ds.foldlM Parsed.addProbe P = .ok P') :
    ∃ places : List (ℕ × V3), List.Forall₂ (fun d q => P.ProbeOn d q.1 q.2) ds places ∧
      P' = { P with bundles := P'.bundles, probes := P'.probes } ∧ P'.bundles.length = P.bundles.length ∧
      (∀ q ∈ places, q.1 < P.bundles.length) ∧
      (∀ (k : ℕ) B, P.bundles[k]? = some B → P'.bundles[k]? = some { B with
        bundle := ⟨B.bundle.1, { B.bundle.2 with
          probes := B.bundle.2.probes ++ ((ds.zip places).filter fun e => e.2.1 = k).map fun e =>
            Probe.new e.2.2 e.1.type B.bundle.2.dt B.bundle.2.u B.bundle.2.m }⟩ }) ∧
      ∀ name, (∀ d ∈ ds, d.name ≠ name) ∧ dictGet P'.probes name = dictGet P.probes name ∨
        ∃ (i : ℕ) (d : ProbeDesc) (q : ℕ × V3) (B : PBundle p), ds[i]? = some d ∧ places[i]? = some q ∧ d.name = name ∧
          (∀ (j : ℕ) d', i < j → ds[j]? = some d' → d'.name ≠ name) ∧ P.bundles[q.1]? = some B ∧
          dictGet P'.probes name = .ok (q.1, B.bundle.2.probes.length + ((places.take i).filter fun r => r.1 = q.1).length) := by
  induction ds generalizing P with
  | nil =>
    obtain rfl := Except.ok.inj h
    refine ⟨[], .nil, rfl, rfl, by simp, fun k B hB => by simpa using hB, fun name => .inl ⟨by simp, rfl⟩⟩
  | cons d ds ih =>
    rw [List.foldlM_cons] at h
    obtain ⟨P1, h1, h2⟩ := bind_ok_iff.1 h
    obtain ⟨places, i1, i2, i3, i4, i5, i6⟩ := ih h2
    obtain ⟨k, x, B, b', q1, q2, q3, rfl⟩ := C115_probe.1 h1
    obtain ⟨-, -, rfl⟩ := addProbe_bundle_ok_iff.1 q3
    have hk := (List.getElem?_eq_some_iff.1 q2).1
    have hlev := map_levels_set (B' := { B with bundle := ⟨B.bundle.1, { B.bundle.2 with
      probes := B.bundle.2.probes ++ [Probe.new x d.type B.bundle.2.dt B.bundle.2.u B.bundle.2.m] }⟩ }) q2 rfl
    refine ⟨(k, x) :: places, .cons q1 (i1.imp fun d' q hq => ?_), i2, ?_, ?_, ?_, ?_⟩
    · obtain ⟨id, c, r1, r2, r3, cable, r4, r5, r6⟩ := hq
      refine ⟨id, c, r1, r2, r3, cable, r4, ?_, r6⟩
      rw [← r5]
      exact (bundleWithCable_congr hlev _).symm
    · rw [i3]; simp
    · intro q hq
      rcases List.mem_cons.1 hq with rfl | hq
      · exact hk
      · simpa using i4 q hq
    · intro k' B' hB'
      by_cases hkk : k = k'
      · subst hkk
        obtain rfl := Option.some.inj (q2.symm.trans hB')
        rw [i5 k _ (List.getElem?_set_self hk)]
        simp [Pos.toV3]
      · rw [i5 k' B' (by simp only; rw [List.getElem?_set_ne hkk]; exact hB')]
        simp [hkk]
    · intro name
      rcases i6 name with ⟨a1, a2⟩ | ⟨i, d', q, B', a1, a2, a3, a4, a5, a6⟩
      · by_cases hn : d.name = name
        · refine .inr ⟨0, d, (k, x), B, rfl, rfl, hn, ?_, q2, ?_⟩
          · intro j d' hj hd'
            obtain ⟨j, rfl⟩ : ∃ i, j = i + 1 := ⟨j - 1, by omega⟩
            exact a1 d' (List.mem_of_getElem? hd')
          · rw [a2, dictGet_dictSet, if_pos hn.symm]
            simp
        · refine .inl ⟨?_, ?_⟩
          · intro d' hd'
            rcases List.mem_cons.1 hd' with rfl | hd'
            · exact hn
            · exact a1 d' hd'
          · rw [a2, dictGet_dictSet, if_neg (Ne.symm hn)]
      · by_cases hkq : k = q.1
        · subst hkq
          refine .inr ⟨i + 1, d', q, B, a1, a2, a3, ?_, q2, ?_⟩
          · intro j d'' hj hd''
            obtain ⟨j, rfl⟩ : ∃ i, j = i + 1 := ⟨j - 1, by omega⟩
            exact a4 j d'' (by omega) hd''
          · rw [a6]
            obtain rfl := Option.some.inj ((List.getElem?_set_self hk).symm.trans a5)
            simp
            omega
        · refine .inr ⟨i + 1, d', q, B', a1, a2, a3, ?_, ?_, ?_⟩
          · intro j d'' hj hd''
            obtain ⟨j, rfl⟩ : ∃ i, j = i + 1 := ⟨j - 1, by omega⟩
            exact a4 j d'' (by omega) hd''
          · simp only at a5
            rwa [List.getElem?_set_ne hkq] at a5
          · rw [a6]
            simp [hkq]

theorem getElem?_filter_count {α : Type} {f : α → Bool} : ∀ {l : List α} {i : ℕ} {a : α}, l[i]? = some a → f a = true →
    (l.filter f)[((l.take i).filter f).length]? = some a
  | [], _, _, h, _ => by simp at h
  | b :: l, 0, a, h, ha => by
    obtain rfl := Option.some.inj h
    simp [ha]
  | b :: l, i + 1, a, h, ha => by
    have := getElem?_filter_count (l := l) (i := i) (by simpa using h) ha
    by_cases hb : f b = true <;> simp [hb, this]

/-- **C115** The probe that is found by a name is the last probe of this name, with the type it has in the file, at the
coordinate of its node, on the bundle of its cable. -/
theorem C115_by_name {P P' : Parsed p} (h : P.addProbes = .ok P') (h0 : P.probes = []) (name : String) :
    (dictGet P'.probes name = .error .KeyError ↔ ∀ d ∈ P.file.probes, d.name ≠ name) ∧
    ∀ k i, dictGet P'.probes name = .ok (k, i) → ∃ d x B, FirstMatch P.file.probes.reverse (fun d => d.name = name) d ∧
      P.ProbeOn d k x ∧ P'.bundles[k]? = some B ∧
      B.bundle.2.probes[i]? = some (Probe.new x d.type B.bundle.2.dt B.bundle.2.u B.bundle.2.m) := by
  obtain ⟨places, i1, i2, i3, i4, i5, i6⟩ := C115_all h
  generalize P.file.probes = ds at *
  have hlen := i1.length_eq
  refine ⟨?_, ?_⟩
  · rcases i6 name with ⟨a1, a2⟩ | ⟨i, d, q, B, a1, a2, a3, a4, a5, a6⟩
    · rw [a2, h0]
      exact ⟨fun _ => a1, fun _ => rfl⟩
    · rw [a6]
      exact ⟨fun hc => (nomatch hc), fun hc => absurd a3 (hc d (List.mem_of_getElem? a1))⟩
  · intro k j hkj
    rcases i6 name with ⟨a1, a2⟩ | ⟨i, d, q, B, a1, a2, a3, a4, a5, a6⟩
    · rw [a2, h0] at hkj
      cases hkj
    · rw [a6] at hkj
      obtain ⟨rfl, rfl⟩ := Prod.mk.inj (Except.ok.inj hkj)
      refine ⟨d, q.2, _, ?_, ?_, i5 _ _ a5, ?_⟩
      · have hi := (List.getElem?_eq_some_iff.1 a1).1
        refine ⟨(ds.drop (i + 1)).reverse, (ds.take i).reverse, ?_, a3, ?_⟩
        · have e : ds = ds.take i ++ d :: ds.drop (i + 1) := by
            conv_lhs => rw [← List.take_append_drop i ds, List.drop_eq_getElem_cons hi, (List.getElem?_eq_some_iff.1 a1).2]
          calc ds.reverse = (ds.take i ++ d :: ds.drop (i + 1)).reverse := congrArg _ e
            _ = _ := by simp
        · intro d' hd' hn
          obtain ⟨j, hj, rfl⟩ := List.mem_iff_getElem.1 (List.mem_reverse.1 hd')
          refine a4 (i + 1 + j) _ (by omega) ?_ hn
          rw [List.getElem_drop]
          exact List.getElem?_eq_getElem _
      · exact (List.forall₂_iff_get.1 i1).2 i (List.getElem?_eq_some_iff.1 a1).1 (List.getElem?_eq_some_iff.1 a2).1 |> fun e => by
          simpa [(List.getElem?_eq_some_iff.1 a1).2, (List.getElem?_eq_some_iff.1 a2).2] using e
      · have hz : (ds.zip places)[i]? = some (d, q) := by
          rw [List.getElem?_zip_eq_some]
          exact ⟨a1, a2⟩
        have hf := getElem?_filter_count (f := fun e : ProbeDesc × ℕ × V3 => decide (e.2.1 = q.1)) hz (by simp)
        have hc : (((ds.zip places).take i).filter fun e => decide (e.2.1 = q.1)).length =
            ((places.take i).filter fun r => decide (r.1 = q.1)).length := by
          have : places.take i = ((ds.zip places).take i).map Prod.snd := by
            rw [List.map_take, List.map_snd_zip (by omega)]
          rw [this, List.filter_map, List.length_map]
          rfl
        rw [hc] at hf
        simp only
        rw [List.getElem?_append_right (by omega), Nat.add_sub_cancel_left, List.getElem?_map, hf]
        rfl

/-- Two probes of the wire "a". -/
def demoProbes : List ProbeDesc := [⟨"p", "voltage", [8], some "a"⟩, ⟨"q", "current", [7], none⟩]

/-- Non-vacuity of C115: the probes are added, and are found by their names. -/
theorem C115_example {order : List String → List String} (h0 : order ["o"] = ["o"]) (h1 : order ["a", "b"] = ["a", "b"]) :
    ∃ P P' : Parsed p, Parsed.buildBundles order { file := demoSourceFile demoProbes } = .ok P ∧ P.addProbes = .ok P' ∧
      P.ProbeOn ⟨"p", "voltage", [8], some "a"⟩ 0 ![0, 0, 1] ∧ P.ProbeOn ⟨"q", "current", [7], none⟩ 0 ![0, 0, 0] ∧
      dictGet P'.probes "p" = .ok (0, 0) ∧ dictGet P'.probes "q" = .ok (0, 1) := by
  obtain ⟨P, B, o, a, b, hP, hF, hp, hB, no, na, nb, hm, u0, u1, du, heL, hpr⟩ := demoSource_bundle (p := p) h0 h1 demoProbes
  have hk : ∀ P1 : Parsed p, P1.bundles.map PBundle.levels = P.bundles.map PBundle.levels →
      P1.bundleWithCable "a" = .ok 0 := fun P1 e => by
    rw [bundleWithCable_congr e]
    exact (C125_first _ _ _).2 ⟨⟨_, by rw [hB]; rfl, ⟨1, a⟩, by simp, na⟩, fun j B hj => absurd hj (by omega)⟩
  have hon : ∀ P1 : Parsed p, P1.file = P.file → P1.bundles.map PBundle.levels = P.bundles.map PBundle.levels →
      P1.ProbeOn ⟨"p", "voltage", [8], some "a"⟩ 0 ![0, 0, 1] ∧ P1.ProbeOn ⟨"q", "current", [7], none⟩ 0 ![0, 0, 0] := by
    intro P1 e1 e2
    have hmem : demoCableA ∈ P1.file.cables := by
      rw [e1, hF]
      exact List.mem_cons_of_mem _ List.mem_cons_self
    refine ⟨⟨8, 5, rfl, ?_, ?_, _, hmem, hk P1 e2, ?_, by simp⟩,
      ⟨7, 2, rfl, ?_, ?_, _, hmem, hk P1 e2, by simp, fun _ => ⟨2, ?_, ?_⟩⟩⟩
    · rw [e1, hF]; rfl
    · rw [e1, hF]; rfl
    · simp [demoCableA]
    · rw [e1, hF]; rfl
    · rw [e1, hF]; rfl
    · rw [e1, hF]; rfl
    · rw [e1, hF]
      exact ⟨[_], [_], rfl, by simp [demoCableA], by simp⟩
  have hu : ∀ k < B.m, B.du k = B.u (k + 1) - B.u k := by
    intro k hk
    obtain rfl : k = 0 := by omega
    rw [du, u0, u1]
    funext j; fin_cases j <;> simp
  have hacc : ∀ (B1 : MTLD 3 p) (x : V3) (type : String), B1.m = B.m → B1.u = B.u → B1.du = B.du →
      (x = B.u 0 ∨ x = B.u 1) → ∃ b', B1.addProbe (.list x) type = .ok b' ∧ b'.m = B1.m ∧ b'.u = B1.u ∧ b'.du = B1.du ∧
        b'.probes.length = B1.probes.length + 1 := by
    intro B1 x type e1 e2 e3 hx
    have hu1 : ∀ k < B1.m, B1.du k = B1.u (k + 1) - B1.u k := by rw [e1, e2, e3]; exact hu
    have h0 : 0 < B1.m := by omega
    rcases hx with rfl | rfl
    · refine ⟨_, C27_accepts_partial hu1 h0 (t := 0) le_rfl zero_le_one (by rw [Pos.toV3, e2]; module) type, rfl, rfl, rfl,
        by simp⟩
    · refine ⟨_, C27_accepts_partial hu1 h0 (t := 1) zero_le_one le_rfl (by rw [Pos.toV3, e2]; module) type, rfl, rfl, rfl,
        by simp⟩
  obtain ⟨b1, ha1, m1, v1, dv1, l1⟩ := hacc B ![0, 0, 1] "voltage" rfl rfl rfl (.inr u1.symm)
  obtain ⟨b2, ha2, m2, v2, dv2, l2⟩ := hacc b1 ![0, 0, 0] "current" m1 v1 dv1 (.inl u0.symm)
  have s1 : P.addProbe ⟨"p", "voltage", [8], some "a"⟩ = .ok { P with
      bundles := [⟨⟨3, b1⟩, [[⟨1, o⟩], [⟨1, a⟩, ⟨1, b⟩]]⟩], probes := [("p", 0, 0)] } :=
    C115_probe.2 ⟨0, _, ⟨⟨3, B⟩, _⟩, b1, (hon P rfl rfl).1, by rw [hB]; rfl, ha1, by rw [hB, hp, hpr]; rfl⟩
  have s2 : Parsed.addProbe { P with
      bundles := [⟨⟨3, b1⟩, [[⟨1, o⟩], [⟨1, a⟩, ⟨1, b⟩]]⟩], probes := [("p", 0, 0)] } ⟨"q", "current", [7], none⟩ = .ok { P with
      bundles := [⟨⟨3, b2⟩, [[⟨1, o⟩], [⟨1, a⟩, ⟨1, b⟩]]⟩], probes := [("p", 0, 0), ("q", 0, 1)] } :=
    C115_probe.2 ⟨0, _, ⟨⟨3, b1⟩, _⟩, b2, (hon { P with
      bundles := [⟨⟨3, b1⟩, [[⟨1, o⟩], [⟨1, a⟩, ⟨1, b⟩]]⟩], probes := [("p", 0, 0)] } rfl (by rw [hB]; rfl)).2, rfl, ha2, by
      simp only [l1, hpr]
      rfl⟩
  refine ⟨P, { P with bundles := [⟨⟨3, b2⟩, [[⟨1, o⟩], [⟨1, a⟩, ⟨1, b⟩]]⟩], probes := [("p", 0, 0), ("q", 0, 1)] }, hP, ?_,
    (hon P rfl rfl).1, (hon P rfl rfl).2, ?_, ?_⟩
  · have : P.addProbes = demoProbes.foldlM Parsed.addProbe P := by
      unfold Parsed.addProbes
      rw [hF]
      rfl
    rw [this, demoProbes, List.foldlM_cons, s1]
    simp only [bind, Except.bind]
    rw [List.foldlM_cons, s2]
    rfl
  · simp [dictGet]
  · simp [dictGet]

end Mtln
