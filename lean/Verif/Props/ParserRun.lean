import Verif.Props.ParserCoupling
import Verif.Props.Manager

/-!
# The bundles of a file (C124), the bundle of a cable (C125), and runs of a parser (C118, C126)
-/

namespace Mtln

variable {n p : ℕ}

/-! ## C124 -/

theorem addEndResistance_name {F : File} {c : Cable} {L L' : AnyLine p} {e : CableEnd}
    (h : F.addEndResistance c L e = .ok L') : L'.2.name = L.2.name := by
  unfold File.addEndResistance at h
  obtain ⟨node, -, h⟩ := bind_ok_iff.1 h
  obtain ⟨⟨el, side⟩, -, h⟩ := bind_ok_iff.1 h
  by_cases hel : el ∈ c.elemIds
  · simp only [if_pos hel] at h
    obtain ⟨x, -, h⟩ := bind_ok_iff.1 h
    obtain ⟨conn, -, h⟩ := bind_ok_iff.1 h
    obtain ⟨R, -, h⟩ := bind_ok_iff.1 h
    obtain ⟨s', hs, h⟩ := bind_ok_iff.1 h
    injection h with h
    subst h
    unfold MTL.setResistanceInRegion at hs
    simp only [bind_ok_iff] at hs
    obtain ⟨_, -, v, -, r, -, hs⟩ := hs
    unfold MTL.updateLrTerms at hs
    obtain ⟨lr, -, hs⟩ := bind_ok_iff.1 hs
    injection hs with hs
    subst hs
    rfl
  · simp only [if_neg hel, Except.ok.injEq] at h
    rw [h]

theorem addEndResistances_name {F : File} {L L' : AnyLine p} (h : F.addEndResistances L = .ok L') :
    L'.2.name = L.2.name := by
  unfold File.addEndResistances at h
  generalize F.cables.filter _ = cs at h
  have inner : ∀ (es : List CableEnd) (c : Cable) (A B : AnyLine p), es.foldlM (F.addEndResistance c) A = .ok B →
      B.2.name = A.2.name := by
    intro es c
    induction es with
    | nil => intro A B h; simp only [List.foldlM_nil, pure, Except.pure, Except.ok.injEq] at h; rw [h]
    | cons e es ih =>
      intro A B h
      rw [List.foldlM_cons] at h
      obtain ⟨C, h1, h2⟩ := bind_ok_iff.1 h
      rw [ih C B h2, addEndResistance_name h1]
  induction cs generalizing L with
  | nil => simp only [List.foldlM_nil, pure, Except.pure, Except.ok.injEq] at h; rw [h]
  | cons c cs ih =>
    rw [List.foldlM_cons] at h
    obtain ⟨C, h1, h2⟩ := bind_ok_iff.1 h
    rw [ih h2, inner _ _ _ _ h1]

theorem addLumped_name {F : File} {L L' : AnyLine p} (h : F.addLumped L = .ok L') : L'.2.name = L.2.name := by
  by_cases h0 : F.lumped = []
  · rw [(C84_first_partial (L' := L')).1 h0, Except.ok.injEq] at h
    rw [h]
  · obtain ⟨e, c, M, x, xs, k, s, -, -, -, -, -, hs, rfl⟩ := (C84_first_partial.2 h0).1 h
    unfold MTL.addDispersiveConnector at hs
    obtain ⟨conn, -, hs⟩ := bind_ok_iff.1 hs
    injection hs with hs
    subst hs
    rfl

/-- The line of a cable has its name. -/
theorem finishedLine_name {F : File} {name : String} {L : AnyLine p} (h : F.finishedLine p name = .ok L) :
    L.2.name = name := by
  unfold File.finishedLine at h
  obtain ⟨L1, h1, h⟩ := bind_ok_iff.1 h
  obtain ⟨L2, h2, h3⟩ := bind_ok_iff.1 h
  rw [addLumped_name h3, addEndResistances_name h2]
  unfold File.buildLine at h1
  obtain ⟨c, hc, h1⟩ := bind_ok_iff.1 h1
  obtain ⟨el, -, h1⟩ := bind_ok_iff.1 h1
  obtain ⟨pos, -, h1⟩ := bind_ok_iff.1 h1
  obtain ⟨w, -, h1⟩ := bind_ok_iff.1 h1
  obtain ⟨⟨l, c', r⟩, -, h1⟩ := bind_ok_iff.1 h1
  cases pos with
  | none => cases h1
  | some pos =>
    have e1 : L1.2.name = c.name := new_name (n := L1.1) (s := L1.2) h1
    rw [e1]
    obtain ⟨_, _, -, e, -⟩ := ((C111_cable F name).2.1 c).1 hc
    exact e

/-- The transfer impedances change nothing of a bundle but the couplings. -/
theorem setTransferImpedances_rest {F : File} {g : Graph} {b : MTLD n p} {levels : List (List (AnyLine p))} {B' : PBundle p}
    (h : F.setTransferImpedances g ⟨⟨n, b⟩, levels⟩ = .ok B') :
    ∃ b' : MTLD n p, B' = ⟨⟨n, b'⟩, levels⟩ ∧ b' = { b with tz := b'.tz } := by
  have key : ∀ {α : Type} (l : List α) (f : PBundle p → α → Py (PBundle p)),
      (∀ (b : MTLD n p) a B', f ⟨⟨n, b⟩, levels⟩ a = .ok B' →
        ∃ b' : MTLD n p, B' = ⟨⟨n, b'⟩, levels⟩ ∧ b' = { b with tz := b'.tz }) →
      ∀ (b : MTLD n p) B', l.foldlM f ⟨⟨n, b⟩, levels⟩ = .ok B' →
        ∃ b' : MTLD n p, B' = ⟨⟨n, b'⟩, levels⟩ ∧ b' = { b with tz := b'.tz } := by
    intro α l f hf
    induction l with
    | nil => intro b B' h; simp only [List.foldlM_nil, pure, Except.pure, Except.ok.injEq] at h; exact ⟨b, h.symm, rfl⟩
    | cons a l ih =>
      intro b B' h
      rw [List.foldlM_cons] at h
      obtain ⟨C, h1, h2⟩ := bind_ok_iff.1 h
      obtain ⟨b1, rfl, e1⟩ := hf _ _ _ h1
      obtain ⟨b2, rfl, e2⟩ := ih _ _ h2
      exact ⟨b2, rfl, by rw [e2, e1]⟩
  have hedge : ∀ (b : MTLD n p) (e : Edge) B', F.addEdge g ⟨⟨n, b⟩, levels⟩ e = .ok B' →
        ∃ b' : MTLD n p, B' = ⟨⟨n, b'⟩, levels⟩ ∧ b' = { b with tz := b'.tz } := by
    intro b e B' h
    unfold File.addEdge at h
    obtain ⟨s, -, h⟩ := bind_ok_iff.1 h
    obtain ⟨t, -, h⟩ := bind_ok_iff.1 h
    obtain ⟨a, -, h⟩ := bind_ok_iff.1 h
    obtain ⟨c, -, h⟩ := bind_ok_iff.1 h
    cases hZ : e.Zt with
    | none =>
      rw [hZ] at h
      obtain ⟨_, -, h⟩ := bind_ok_iff.1 h
      simp at h
    | some Z =>
      rw [hZ] at h
      unfold PBundle.change at h
      obtain ⟨b', h5, h⟩ := bind_ok_iff.1 h
      unfold MTLD.addTransferImpedance at h5
      obtain ⟨tz, -, h7⟩ := bind_ok_iff.1 h5
      simp only [Except.ok.injEq] at h h7
      exact ⟨b', h.symm, by rw [← h7]⟩
  unfold File.setTransferImpedances at h
  obtain ⟨C, h1, h2⟩ := bind_ok_iff.1 h
  obtain ⟨b1, rfl, e1⟩ := key _ _ hedge _ _ h1
  obtain ⟨b2, rfl, e2⟩ := key _ _ (fun b c B' h => by
    unfold File.setEnd at h
    obtain ⟨node, -, h⟩ := bind_ok_iff.1 h
    obtain ⟨⟨el, side⟩, -, h⟩ := bind_ok_iff.1 h
    obtain ⟨b', h3, h4, -⟩ := setEnd_fold h
    exact ⟨b', h3, h4⟩) _ _ h2
  exact ⟨b2, rfl, by rw [e2, e1]⟩

/-- `B` is the bundle that the description `d` asks for: its levels are those of the graph of `d`, level `i` holds one
line for each cable of this level, and the bundle itself is assembled from these lines, under the name of `d`, with the
transfer impedances of the file. -/
structure BundleOf (order : List String → List String) (F : File) (d : BundleDesc) (B : PBundle p) : Prop where
  name : B.bundle.2.name = d.name
  graph : ∃ g, Graph.build F d.nested = .ok g ∧ g.levels = .ok B.levels.length ∧
    (∀ i lines, B.levels[i]? = some lines → lineNames lines = order (g.cablesAt i) ∧
      ∀ L ∈ lines, F.finishedLine p L.2.name = .ok L) ∧
    ∃ b, MTLD.new B.levels d.name = .ok b ∧ F.setTransferImpedances g ⟨b, B.levels⟩ = .ok B

theorem MTLD.new_name' {levels : List (List (AnyLine p))} {name : String} {b : AnyBundle p}
    (h : MTLD.new levels name = .ok b) : b.2.name = name := by
  unfold MTLD.new at h
  split at h
  · cases h
  · split at h
    · injection h with h; subst h; rfl
    · cases h
  · cases h

theorem addBundle_effect {order : List String → List String} {P P' : Parsed p} {d : BundleDesc}
    (h : P.addBundle order d = .ok P') : ∃ B : PBundle p, BundleOf order P.file d B ∧ P' = { P with
      bundles := P.bundles ++ [B]
      nameToLine := B.levels.flatten.foldl (fun d L => dictSet d L.2.name L) P.nameToLine
      nameToBundle := B.levels.flatten.foldl (fun m L => dictSet m L.2.name d.name) P.nameToBundle } := by
  unfold Parsed.addBundle at h
  obtain ⟨g, hg, h⟩ := bind_ok_iff.1 h
  obtain ⟨k, hk, h⟩ := bind_ok_iff.1 h
  obtain ⟨levels, hl, h⟩ := bind_ok_iff.1 h
  obtain ⟨b, hb, h⟩ := bind_ok_iff.1 h
  obtain ⟨B, hB, h⟩ := bind_ok_iff.1 h
  injection h with h
  subst h
  obtain ⟨b', rfl, hb'⟩ := setTransferImpedances_rest (n := b.1) (b := b.2) hB
  refine ⟨_, ⟨?_, g, hg, ?_, ?_, b, hb, hB⟩, rfl⟩
  · show b'.name = d.name
    rw [hb', ← MTLD.new_name' hb]
  · have := (mapPy_ok_iff.1 hl).length_eq
    rw [List.length_range] at this
    rw [hk, this]
  · intro i lines hi
    obtain ⟨h1, h2⟩ := mapPy_getElem? hl i
    cases hr : (List.range k)[i]? with
    | none => rw [h1 hr] at hi; simp at hi
    | some j =>
      obtain ⟨rfl, hj⟩ : j = i ∧ i < k := by
        rw [List.getElem?_eq_some_iff] at hr
        obtain ⟨h3, h4⟩ := hr
        simp at h3 h4
        exact ⟨h4.symm, h3⟩
      obtain ⟨ls, h3, h4⟩ := h2 _ hr
      change levels[j]? = some lines at hi
      rw [hi, Option.some.injEq] at h3
      subst h3
      have h5 := mapPy_ok_iff.1 h4
      refine ⟨?_, ?_⟩
      · generalize order (g.cablesAt j) = names at h5
        clear h4 hi
        induction h5 with
        | nil => rfl
        | cons h6 _ ih =>
          rw [show ∀ (L : AnyLine p) r, lineNames (L :: r) = L.2.name :: lineNames r from fun _ _ => rfl, ih,
            finishedLine_name h6]
      · intro L hL
        obtain ⟨nm, -, h7⟩ := mapPy_mem h4 L hL
        rw [finishedLine_name h7]
        exact h7

/-- The lines of a list of bundles, in the order of their construction. -/
def allLines (Bs : List (PBundle p)) : List (AnyLine p) := Bs.flatMap fun B => B.levels.flatten

/-- Name and bundle of the lines of a list of bundles. -/
def allHomes (Bs : List (PBundle p)) : List (String × String) :=
  Bs.flatMap fun B => B.levels.flatten.map fun L => (L.2.name, B.bundle.2.name)

theorem buildBundles_effect {order : List String → List String} {ds : List BundleDesc} {P P' : Parsed p}
    (h : ds.foldlM (Parsed.addBundle order) P = .ok P') : ∃ Bs : List (PBundle p),
      List.Forall₂ (BundleOf order P.file) ds Bs ∧ P' = { P with
        bundles := P.bundles ++ Bs
        nameToLine := (allLines Bs).foldl (fun d L => dictSet d L.2.name L) P.nameToLine
        nameToBundle := (allHomes Bs).foldl (fun m e => dictSet m e.1 e.2) P.nameToBundle } := by
  induction ds generalizing P with
  | nil =>
    simp only [List.foldlM_nil, pure, Except.pure, Except.ok.injEq] at h
    subst h
    exact ⟨[], .nil, by simp [allLines, allHomes]⟩
  | cons d ds ih =>
    rw [List.foldlM_cons] at h
    obtain ⟨P1, h1, h2⟩ := bind_ok_iff.1 h
    obtain ⟨B, hB, rfl⟩ := addBundle_effect h1
    obtain ⟨Bs, hBs, rfl⟩ := ih h2
    refine ⟨B :: Bs, .cons hB hBs, ?_⟩
    simp only [allLines, allHomes, List.flatMap_cons, List.foldl_append, List.append_assoc, List.singleton_append,
      List.foldl_map, hB.name]

/-- **C124** Every bundle of the file is built, in the order of the file and under its name, with the levels of its
nesting, one line for each cable of a level, and nothing else.  (`order` stands for the order in which Python lists the
set of the cables of a level.) -/
theorem C124_bundles {order : List String → List String} {F : File} {P : Parsed p}
    (h : Parsed.buildBundles order { file := F } = .ok P) :
    P.file = F ∧ List.Forall₂ (BundleOf order F) F.bundles P.bundles ∧ P.networks = [] ∧ P.probes = [] := by
  obtain ⟨Bs, hBs, rfl⟩ := buildBundles_effect h
  exact ⟨rfl, by simpa using hBs, rfl, rfl⟩

/-- **C124** Number and names. -/
theorem C124_names {order : List String → List String} {F : File} {P : Parsed p}
    (h : Parsed.buildBundles order { file := F } = .ok P) :
    (P.bundles.map fun B => B.bundle.2.name) = F.bundles.map BundleDesc.name := by
  have := (C124_bundles h).2.1
  generalize F.bundles = ds, P.bundles = Bs at this
  induction this with
  | nil => rfl
  | cons h1 _ ih => rw [List.map_cons, List.map_cons, ih, h1.name]

/-- **C124** If the set of the cables of a level is listed without repetition, as Python does, each level has exactly one
line for each cable that the graph has there. -/
theorem C124_one_line_per_cable {order : List String → List String} (ho : ∀ l, (order l).Nodup ∧ ∀ x, x ∈ order l ↔ x ∈ l)
    {F : File} {d : BundleDesc} {B : PBundle p} (h : BundleOf order F d B) : ∃ g, Graph.build F d.nested = .ok g ∧
      (∀ v ∈ g.vs, v.level < B.levels.length) ∧ ∀ i lines, B.levels[i]? = some lines →
        (lineNames lines).Nodup ∧ (∀ L ∈ lines, ∃ v ∈ g.vs, v.level = i ∧ v.cable = L.2.name) ∧
        ∀ v ∈ g.vs, v.level = i → ∃ L ∈ lines, L.2.name = v.cable ∧ F.finishedLine p v.cable = .ok L := by
  obtain ⟨g, h1, h2, h3, -⟩ := h.graph
  refine ⟨g, h1, ?_, ?_⟩
  · intro v hv
    unfold Graph.levels at h2
    split at h2
    · cases h2
    · injection h2 with h2
      rw [← h2]
      have : ∀ (l : List ℕ) (a x : ℕ), (x ∈ l ∨ x ≤ a) → x ≤ l.foldl max a := by
        intro l
        induction l with
        | nil => intro a x hx; simpa using hx
        | cons y l ih =>
          intro a x hx
          refine ih _ _ ?_
          rcases hx with hx | hx
          · rcases List.mem_cons.1 hx with rfl | hx
            · right; exact le_max_right _ _
            · exact .inl hx
          · right; exact hx.trans (le_max_left _ _)
      exact Nat.lt_succ_of_le (this _ _ _ (.inl (List.mem_map.2 ⟨v, hv, rfl⟩)))
  · intro i lines hi
    obtain ⟨h4, h5⟩ := h3 i lines hi
    have hmem : ∀ x, x ∈ lineNames lines ↔ ∃ v ∈ g.vs, v.level = i ∧ v.cable = x := by
      intro x
      rw [h4, (ho _).2, Graph.cablesAt]
      simp only [List.mem_map, List.mem_filter, decide_eq_true_eq, and_assoc]
    refine ⟨by rw [h4]; exact (ho _).1, fun L hL => (hmem _).1 (List.mem_map.2 ⟨L, hL, rfl⟩), fun v hv hl => ?_⟩
    obtain ⟨L, hL, hn⟩ := List.mem_map.1 ((hmem v.cable).2 ⟨v, hv, hl, rfl⟩)
    exact ⟨L, hL, hn, by rw [← hn]; exact h5 L hL⟩

/-! ## C125 -/

/-- **C125** The look-up of a line, and of the bundle of its terminals, by the name of a cable give the last line of this
name. -/
theorem C125_dictionaries {order : List String → List String} {F : File} {P : Parsed p}
    (h : Parsed.buildBundles order { file := F } = .ok P) (name : String) :
    (∀ L, dictGet P.nameToLine name = .ok L ↔ FirstMatch (allLines P.bundles).reverse (fun L => L.2.name = name) L) ∧
    ∀ b, dictGet P.nameToBundle name = .ok b ↔
      FirstMatch (allHomes P.bundles).reverse (fun e => e.1 = name) (name, b) := by
  obtain ⟨Bs, hBs, rfl⟩ := buildBundles_effect h
  simp only [List.nil_append]
  refine ⟨fun L => ?_, fun b => (dictGet_foldl_dictSet _ _).1 b⟩
  have e : (allLines Bs).foldl (fun d L => dictSet d L.2.name L) [] =
      ((allLines Bs).map fun L => (L.2.name, L)).foldl (fun d c => dictSet d c.1 c.2) [] := by rw [List.foldl_map]
  rw [e, (dictGet_foldl_dictSet _ _).1 L, ← List.map_reverse]
  generalize (allLines Bs).reverse = l
  induction l with
  | nil => simp [FirstMatch]
  | cons A l ih =>
    simp only [List.map_cons, firstMatch_cons, ih]
    constructor
    · rintro (⟨h1, h2⟩ | h1)
      · exact .inl ⟨h1, (Prod.mk.inj h2).2⟩
      · exact .inr h1
    · rintro (⟨h1, rfl⟩ | h1)
      · exact .inl ⟨h1, by rw [h1]⟩
      · exact .inr h1

/-- The bundle has a line of this name. -/
def PBundle.Has (B : PBundle p) (name : String) : Prop := ∃ L ∈ B.levels.flatten, L.2.name = name

/-- **C125** The look-up of the bundle for sources and probes gives the first bundle with a line of this name. -/
theorem C125_first (P : Parsed p) (name : String) (k : ℕ) :
    P.bundleWithCable name = .ok k ↔ (∃ B, P.bundles[k]? = some B ∧ B.Has name) ∧
      ∀ (j : ℕ) B, j < k → P.bundles[j]? = some B → ¬ B.Has name := by
  have hm : ∀ B : PBundle p, name ∈ lineNames B.levels.flatten ↔ B.Has name := fun B => by
    simp only [lineNames, List.mem_map]; rfl
  unfold Parsed.bundleWithCable
  have e : (match P.bundles.findIdx? fun B => decide (name ∈ lineNames B.levels.flatten) with
      | some k => Except.ok k
      | none => .error PyErr.AttributeError : Py ℕ) = .ok k ↔
      (P.bundles.findIdx? fun B => decide (name ∈ lineNames B.levels.flatten)) = some k := by
    cases P.bundles.findIdx? fun B => decide (name ∈ lineNames B.levels.flatten) <;> simp
  refine e.trans ?_
  rw [List.findIdx?_eq_some_iff_getElem]
  constructor
  · rintro ⟨h1, h2, h3⟩
    refine ⟨⟨_, List.getElem?_eq_getElem h1, (hm _).1 (by simpa using h2)⟩, fun j B hj hB => ?_⟩
    obtain ⟨h4, rfl⟩ := List.getElem?_eq_some_iff.1 hB
    rw [← hm]
    simpa using h3 j hj
  · rintro ⟨⟨B, hB, hn⟩, h⟩
    obtain ⟨h4, rfl⟩ := List.getElem?_eq_some_iff.1 hB
    refine ⟨h4, by simpa using (hm _).2 hn, fun j hj => ?_⟩
    have := h j _ hj (List.getElem?_eq_getElem (by omega))
    rw [← hm] at this
    simpa using this

theorem firstMatch_append {α : Type} {l r : List α} {P : α → Prop} {a : α} :
    FirstMatch (l ++ r) P a ↔ FirstMatch l P a ∨ ((∀ x ∈ l, ¬ P x) ∧ FirstMatch r P a) := by
  induction l with
  | nil => simp [FirstMatch]
  | cons b l ih =>
    rw [List.cons_append, firstMatch_cons, firstMatch_cons, ih]
    simp only [List.mem_cons, forall_eq_or_imp]
    tauto

theorem homes_last (Bs : List (PBundle p)) (name b : String) :
    FirstMatch (allHomes Bs).reverse (fun e => e.1 = name) (name, b) ↔
      ∃ k B, Bs[k]? = some B ∧ B.Has name ∧ b = B.bundle.2.name ∧
        ∀ (j : ℕ) B', k < j → Bs[j]? = some B' → ¬ B'.Has name := by
  induction Bs using List.reverseRecOn with
  | nil => simp [allHomes, FirstMatch]
  | append_singleton Bs B ih =>
    have e : (allHomes (Bs ++ [B])).reverse =
        (B.levels.flatten.map fun L => (L.2.name, B.bundle.2.name)).reverse ++ (allHomes Bs).reverse := by
      simp [allHomes]
    have hlast : (Bs ++ [B])[Bs.length]? = some B := by simp
    have hpre : ∀ j, j < Bs.length → (Bs ++ [B])[j]? = Bs[j]? := fun j hj => List.getElem?_append_left hj
    have hlen : ∀ (j : ℕ) B', (Bs ++ [B])[j]? = some B' → j ≤ Bs.length := by
      intro j B' h
      have := (List.getElem?_eq_some_iff.1 h).1
      rw [List.length_append, List.length_singleton] at this
      omega
    rw [e, firstMatch_append, ih]
    by_cases hB : B.Has name
    · have hno : ¬ ∀ x ∈ (B.levels.flatten.map fun L => (L.2.name, B.bundle.2.name)).reverse, ¬ x.1 = name := by
        intro h
        obtain ⟨L, hL, hn⟩ := hB
        exact h (L.2.name, B.bundle.2.name) (List.mem_reverse.2 (List.mem_map.2 ⟨L, hL, rfl⟩)) hn
      constructor
      · rintro (h | h)
        · refine ⟨Bs.length, B, hlast, hB, ?_, fun j B' hj hB' => absurd (hlen j B' hB') (by omega)⟩
          obtain ⟨L, -, hL⟩ := List.mem_map.1 (List.mem_reverse.1 h.mem)
          exact (Prod.mk.inj hL).2.symm
        · exact absurd h.1 hno
      · rintro ⟨k, B1, h1, h2, rfl, h3⟩
        left
        obtain ⟨⟨x, y⟩, hxy⟩ := firstMatch_exists (l := (B.levels.flatten.map fun L => (L.2.name, B.bundle.2.name)).reverse)
          (P := fun e => e.1 = name) (by by_contra hc; exact hno (by simpa only [not_exists, not_and] using hc))
        have hk : k = Bs.length := by
          by_contra hk
          exact h3 Bs.length B (lt_of_le_of_ne (hlen k B1 h1) hk) hlast hB
        subst hk
        rw [hlast, Option.some.injEq] at h1
        subst h1
        obtain ⟨L, -, hL⟩ := List.mem_map.1 (List.mem_reverse.1 hxy.mem)
        have hx : x = name := by obtain ⟨_, _, -, h, -⟩ := hxy; exact h
        rw [hx, ← (Prod.mk.inj hL).2] at hxy
        exact hxy
    · have hno : ∀ x ∈ (B.levels.flatten.map fun L => (L.2.name, B.bundle.2.name)).reverse, ¬ x.1 = name := by
        intro x hx hn
        obtain ⟨L, hL, rfl⟩ := List.mem_map.1 (List.mem_reverse.1 hx)
        exact hB ⟨L, hL, hn⟩
      constructor
      · rintro (h | ⟨-, k, B1, h1, h2, h3, h4⟩)
        · obtain ⟨_, _, -, h5, -⟩ := id h
          exact absurd h5 (hno _ h.mem)
        · have hk := (List.getElem?_eq_some_iff.1 h1).1
          refine ⟨k, B1, by rw [hpre k hk, h1], h2, h3, fun j B' hj hB' => ?_⟩
          rcases (hlen j B' hB').lt_or_eq with hlt | rfl
          · exact h4 j B' hj (by rw [← hpre j hlt, hB'])
          · rw [hlast, Option.some.injEq] at hB'
            rw [← hB']; exact hB
      · rintro ⟨k, B1, h1, h2, h3, h4⟩
        refine .inr ⟨hno, ?_⟩
        rcases (hlen k B1 h1).lt_or_eq with hlt | rfl
        · exact ⟨k, B1, by rw [← hpre k hlt, h1], h2, h3, fun j B' hj hB' => h4 j B' hj (by
            rw [hpre j (List.getElem?_eq_some_iff.1 hB').1, hB'])⟩
        · rw [hlast, Option.some.injEq] at h1
          subst h1
          exact absurd h2 hB

/-- **C125** The bundle that the terminals of a cable are connected to is the last one with a line of this name. -/
theorem C125_last {order : List String → List String} {F : File} {P : Parsed p}
    (h : Parsed.buildBundles order { file := F } = .ok P) (name b : String) :
    dictGet P.nameToBundle name = .ok b ↔ ∃ k B, P.bundles[k]? = some B ∧ B.Has name ∧ b = B.bundle.2.name ∧
      ∀ (j : ℕ) B', k < j → P.bundles[j]? = some B' → ¬ B'.Has name := by
  rw [(C125_dictionaries h name).2 b, homes_last]

/-- **C125 (partial)** If no two bundles share a cable, all look-ups agree. -/
theorem C125_agree_partial {order : List String → List String} {F : File} {P : Parsed p}
    (h : Parsed.buildBundles order { file := F } = .ok P) {name : String}
    (hd : ∀ (i j : ℕ) B B', P.bundles[i]? = some B → P.bundles[j]? = some B' → B.Has name → B'.Has name → i = j)
    {k : ℕ} (hk : P.bundleWithCable name = .ok k) : ∃ B L, P.bundles[k]? = some B ∧
      dictGet P.nameToBundle name = .ok B.bundle.2.name ∧ dictGet P.nameToLine name = .ok L ∧ L ∈ B.levels.flatten := by
  obtain ⟨⟨B, hB, hn⟩, -⟩ := (C125_first P name k).1 hk
  obtain ⟨L, hL⟩ := firstMatch_exists (l := (allLines P.bundles).reverse) (P := fun L => L.2.name = name) (by
    obtain ⟨L, hL, hLn⟩ := hn
    exact ⟨L, by simp only [allLines, List.mem_reverse, List.mem_flatMap]; exact ⟨B, List.mem_of_getElem? hB, hL⟩, hLn⟩)
  refine ⟨B, L, hB, (C125_last h _ _).2 ⟨k, B, hB, hn, rfl, fun j B' hj hB' hn' => ?_⟩, ((C125_dictionaries h name).1 L).2 hL, ?_⟩
  · exact absurd (hd k j B B' hB hB' hn hn') (by omega)
  · have hm := hL.mem
    simp only [allLines, List.mem_reverse, List.mem_flatMap] at hm
    obtain ⟨B', hB', hL'⟩ := hm
    obtain ⟨j, hj⟩ := List.mem_iff_getElem?.1 hB'
    have hLn : L.2.name = name := by obtain ⟨_, _, -, h, -⟩ := hL; exact h
    obtain rfl := hd k j B B' hB hj hn ⟨L, hL', hLn⟩
    rw [hB, Option.some.injEq] at hj
    rw [hj]; exact hL'

/-- **C125** is false: if two bundles share a cable, and the bundles have different names, sources and probes of the cable
are put on another bundle than its terminals. -/
theorem C125_refuted {order : List String → List String} {F : File} {P : Parsed p}
    (h : Parsed.buildBundles order { file := F } = .ok P) (hF : (F.bundles.map BundleDesc.name).Nodup) {name : String}
    {i j : ℕ} {B B' : PBundle p} (hij : i < j) (hB : P.bundles[i]? = some B) (hB' : P.bundles[j]? = some B')
    (hn : B.Has name) (hn' : B'.Has name) : ∃ k Bk, P.bundleWithCable name = .ok k ∧ P.bundles[k]? = some Bk ∧
      dictGet P.nameToBundle name ≠ .ok Bk.bundle.2.name := by
  classical
  have hex : ∃ k, ∃ B : PBundle p, P.bundles[k]? = some B ∧ B.Has name := ⟨i, B, hB, hn⟩
  obtain ⟨B1, hB1, hn1⟩ := Nat.find_spec hex
  refine ⟨Nat.find hex, B1, (C125_first _ _ _).2 ⟨⟨B1, hB1, hn1⟩, fun l Bl hl hBl hnl => Nat.find_min hex hl ⟨Bl, hBl, hnl⟩⟩,
    hB1, fun hc => ?_⟩
  obtain ⟨l, Bl, hBl, -, hname, hmax⟩ := (C125_last h _ _).1 hc
  have hle : Nat.find hex ≤ i := Nat.find_min' hex ⟨B, hB, hn⟩
  have hlt : Nat.find hex < l := by
    by_contra hcon
    exact hmax j B' (by omega) hB' hn'
  rw [← C124_names h] at hF
  have := (List.getElem?_inj (i := Nat.find hex) (j := l)
    (by have := (List.getElem?_eq_some_iff.1 hB1).1; rw [List.length_map]; exact this) hF).1
    (by rw [List.getElem?_map, List.getElem?_map, hB1, hBl, Option.map_some, Option.map_some, hname])
  omega

/-- A file with two bundles of the same cable. -/
noncomputable def demoTwiceFile : File :=
  { demoShieldFile with bundles := [⟨"B1", .dict 1 (fun _ => 1) fun _ => .ids []⟩, ⟨"B2", .dict 1 (fun _ => 1) fun _ => .ids []⟩] }

/-- Non-vacuity of C124 and C125: the bundles of this file are built, and the two look-ups of the cable "o" differ. -/
theorem C124_C125_example (order : List String → List String) (ho : order ["o"] = ["o"]) : ∃ P : Parsed p,
    Parsed.buildBundles order { file := demoTwiceFile } = .ok P ∧ P.bundleWithCable "o" = .ok 0 ∧
    (P.bundles.map fun B => B.bundle.2.name) = ["B1", "B2"] ∧ dictGet P.nameToBundle "o" = .ok "B2" := by
  obtain ⟨s, hs, hn, -⟩ := demoShield_line (p := p) "o" 1 (by simp)
  have hs' : demoTwiceFile.finishedLine p "o" = .ok ⟨1, s⟩ := hs
  have hg : Graph.build demoTwiceFile (.dict 1 (fun _ => 1) fun _ => .ids []) = .ok ⟨[⟨1, 0, "o"⟩], []⟩ := by
    simp [Graph.build, Graph.addRoot, Graph.addNested, Graph.addInside, Graph.addVertex, File.cableNameOf,
      File.elemIdsToNames, File.transferImpedance, demoTwiceFile, demoShieldFile, dictSet, dictGet, bind, Except.bind, pure,
      Except.pure, List.finRange_succ]
  have hl : Graph.levels ⟨[⟨1, 0, "o"⟩], []⟩ = .ok 1 := by simp [Graph.levels]
  have hc : Graph.cablesAt ⟨[⟨1, 0, "o"⟩], []⟩ 0 = ["o"] := by simp [Graph.cablesAt]
  have hm : mapPy (fun i => mapPy (demoTwiceFile.finishedLine p) (order (Graph.cablesAt ⟨[⟨1, 0, "o"⟩], []⟩ i))) (List.range 1) =
      .ok [[⟨1, s⟩]] := by
    simp [List.range_succ, mapPy, hc, ho, hs', bind, Except.bind]
  have hb : ∀ nm, MTLD.new [[(⟨1, s⟩ : AnyLine p)]] nm = .ok ⟨1, MTLD.assemble ⟨1, s⟩ [[⟨1, s⟩]] nm⟩ := by
    intro nm
    unfold MTLD.new
    simp only
    rw [if_pos]
    · rfl
    · intro L hL
      obtain rfl := List.mem_singleton.1 hL
      exact ⟨rfl, fun _ _ => rfl⟩
  have ht : ∀ B : PBundle p, demoTwiceFile.setTransferImpedances ⟨[⟨1, 0, "o"⟩], []⟩ B = .ok B := by
    intro B
    simp [File.setTransferImpedances, bind, Except.bind, pure, Except.pure, show demoTwiceFile.ends = [] from rfl]
  have ha : ∀ (P : Parsed p) nm, P.file = demoTwiceFile →
      P.addBundle order ⟨nm, .dict 1 (fun _ => 1) fun _ => .ids []⟩ = .ok { P with
        bundles := P.bundles ++ [⟨⟨1, MTLD.assemble ⟨1, s⟩ [[⟨1, s⟩]] nm⟩, [[⟨1, s⟩]]⟩]
        nameToLine := dictSet P.nameToLine "o" ⟨1, s⟩
        nameToBundle := dictSet P.nameToBundle "o" nm } := by
    intro P nm hP
    unfold Parsed.addBundle
    simp only [hP, hg, hl, hm, hb, ht, bind, Except.bind]
    simp [hn]
  refine ⟨{ file := demoTwiceFile
            bundles := [⟨⟨1, MTLD.assemble ⟨1, s⟩ [[⟨1, s⟩]] "B1"⟩, [[⟨1, s⟩]]⟩, ⟨⟨1, MTLD.assemble ⟨1, s⟩ [[⟨1, s⟩]] "B2"⟩, [[⟨1, s⟩]]⟩]
            nameToLine := [("o", ⟨1, s⟩)], nameToBundle := [("o", "B2")] }, ?_, ?_, rfl, ?_⟩
  · unfold Parsed.buildBundles
    show [(⟨"B1", .dict 1 (fun _ => 1) fun _ => .ids []⟩ : BundleDesc), ⟨"B2", .dict 1 (fun _ => 1) fun _ => .ids []⟩].foldlM _ _ = _
    rw [List.foldlM_cons, ha _ _ rfl]
    simp only [bind, Except.bind]
    rw [List.foldlM_cons, ha _ _ rfl]
    simp [dictSet, bind, Except.bind, pure, Except.pure]
  · refine (C125_first _ _ _).2 ⟨⟨_, rfl, ⟨1, s⟩, by simp, hn⟩, fun j B hj => absurd hj (by omega)⟩
  · simp [dictGet]

/-! ## C118 -/

/-- The bundles of the parser with the time step of a run. -/
noncomputable def Parsed.runBundles (P : Parsed p) (dt : ℝ) : List (AnyBundle p) :=
  P.bundles.map fun B => if dt = 0 then B.bundle else ⟨B.bundle.1, B.bundle.2.withDt dt⟩

theorem addNetworkList_ok_iff {nws : List NetworkD} {M M' : MTLN p} : nws.foldlM MTLN.addNetwork M = .ok M' ↔
    (∀ nwd ∈ nws, ∀ e ∈ nwd, ∀ a, findBundle M.bundles (e.2.2.2.nodes a).bundleName ≠ none) ∧
    M' = { M with networks := (M.networks ++
      nws.map fun nwd => nwd.map fun e => (e.1, ⟨_, _, e.2.2.2.registered M.bundles e.1⟩)) } := by
  induction nws generalizing M with
  | nil => simp [pure, Except.pure, eq_comm]
  | cons nwd nws ih =>
    rw [List.foldlM_cons, bind_ok_iff]
    simp only [ih, MTLN.addNetwork, bind_ok_iff, updateIndexNumbers_ok_iff, Except.ok.injEq, List.mem_cons, forall_eq_or_imp]
    constructor
    · rintro ⟨M1, ⟨nwd', ⟨h1, rfl⟩, rfl⟩, h2, rfl⟩
      exact ⟨⟨h1, h2⟩, by simp⟩
    · rintro ⟨⟨h1, h2⟩, rfl⟩
      exact ⟨_, ⟨_, ⟨h1, rfl⟩, rfl⟩, h2, by simp⟩

theorem addBundleList_exists {bs : List (AnyBundle p)} {M : MTLN p} (h : ((M.bundles ++ bs).map fun b => b.2.name).Nodup) :
    ∃ M', bs.foldlM MTLN.addBundle M = .ok M' := by
  induction bs generalizing M with
  | nil => exact ⟨M, rfl⟩
  | cons b bs ih =>
    obtain ⟨M1, h1, h2, -⟩ := addBundle_exists (M := M) (b := b) (by
      rw [List.map_append, List.nodup_append] at h
      intro hb
      exact h.2.2 _ hb _ (by simp) rfl)
    obtain ⟨M2, h3⟩ := ih (M := M1) (by rw [h2]; simpa using h)
    exact ⟨M2, by rw [List.foldlM_cons, h1]; exact h3⟩

/-- **C118** A run sets up a manager with all bundles of the parser, in order, and all its networks, registered with these
bundles.  The time step is the given one, for the manager and every bundle; the default 0 leaves the time steps of the
bundles and takes the smallest one for the manager.  This succeeds exactly when the bundles have different names and every
node of a network belongs to one of them. -/
theorem C118_manager {P : Parsed p} {dt : ℝ} {M : MTLN p} : P.manager dt = .ok M ↔
    ((P.bundles.map fun B => B.bundle.2.name).Nodup ∧
      ∀ nwd ∈ P.networks, ∀ e ∈ nwd, ∀ a, ∃ B ∈ P.bundles, B.bundle.2.name = (e.2.2.2.nodes a).bundleName) ∧
    M.bundles = P.runBundles dt ∧ M.time = 0 ∧
    M.networks = (P.networks.map fun nwd => nwd.map fun e => (e.1, ⟨_, _, e.2.2.2.registered (P.runBundles dt) e.1⟩)) ∧
    (dt ≠ 0 → M.dt = dt) ∧
    (dt = 0 → IsLeast ({10 ^ 10} ∪ {t | ∃ B ∈ P.bundles, t = B.bundle.2.dt}) M.dt) := by
  have hfold : ∀ M0 : MTLN p, (P.bundles.map fun B => B.bundle).foldlM (fun (M : MTLN p) (b : AnyBundle p) =>
      M.addBundle (if dt = 0 then b else ⟨b.1, b.2.withDt dt⟩)) M0 = (P.runBundles dt).foldlM MTLN.addBundle M0 := by
    intro M0
    unfold Parsed.runBundles
    rw [List.foldlM_map, List.foldlM_map]
  have hname : ((P.runBundles dt).map fun b => b.2.name) = P.bundles.map fun B => B.bundle.2.name := by
    unfold Parsed.runBundles
    rw [List.map_map]
    refine List.map_congr_left fun B _ => ?_
    by_cases hdt : dt = 0 <;> simp [hdt, MTLD.withDt]
  have hfind : ∀ nm, findBundle (P.runBundles dt) nm ≠ none ↔ ∃ B ∈ P.bundles, B.bundle.2.name = nm := by
    intro nm
    have : (∃ b ∈ P.runBundles dt, b.2.name = nm) ↔ ∃ B ∈ P.bundles, B.bundle.2.name = nm := by
      rw [← List.mem_map (f := fun b : AnyBundle p => b.2.name), hname, List.mem_map]
    rw [← this]
    unfold findBundle
    rw [ne_eq, List.find?_eq_none]
    simp
  unfold Parsed.manager
  simp only [hfold, bind_ok_iff, C59_add_bundles ({} : MTLN p) _ _ (by simp), addNetworkList_ok_iff, List.nil_append, hname,
    Except.ok.injEq]
  constructor
  · rintro ⟨M1, ⟨h1, h2, h3, h4, h5⟩, M2, ⟨h6, rfl⟩, rfl⟩
    rw [h2] at h6
    refine ⟨⟨h1, fun nwd hn e he a => (hfind _).1 (h6 nwd hn e he a)⟩, ?_⟩
    by_cases hdt : dt = 0
    · simp only [if_pos hdt, h2, h3, h4, List.nil_append]
      refine ⟨trivial, trivial, trivial, fun h => absurd hdt h, fun _ => ?_⟩
      have : {t | ∃ b ∈ P.runBundles dt, t = b.2.dt} = {t | ∃ B ∈ P.bundles, t = B.bundle.2.dt} := by
        ext t
        simp [Parsed.runBundles, hdt]
      rw [← this]
      exact h5
    · simp only [if_neg hdt, h2, h3, h4, List.nil_append]
      exact ⟨trivial, trivial, trivial, fun _ => trivial, fun h => absurd h hdt⟩
  · rintro ⟨⟨h1, h2⟩, h3, h4, h5, h6, h7⟩
    obtain ⟨M1, hM1⟩ := addBundleList_exists (bs := P.runBundles dt) (M := {}) (by simpa [hname] using h1)
    obtain ⟨g1, g2, g3, g4, g5⟩ := (C59_add_bundles ({} : MTLN p) _ _ (by simp)).1 hM1
    simp only [List.nil_append] at g2
    refine ⟨M1, ⟨h1, g2, g3, g4, g5⟩, _, ⟨?_, rfl⟩, ?_⟩
    · rw [g2]
      exact fun nwd hn e he a => (hfind _).2 (h2 nwd hn e he a)
    · simp only [g2, g3, List.nil_append, ← h5]
      by_cases hdt : dt = 0
      · rw [if_pos hdt]
        have : {t | ∃ b ∈ P.runBundles dt, t = b.2.dt} = {t | ∃ B ∈ P.bundles, t = B.bundle.2.dt} := by
          ext t
          simp [Parsed.runBundles, hdt]
        rw [this] at g5
        have e := g5.unique (h7 hdt)
        cases M; cases M1
        simp_all
      · rw [if_neg hdt]
        have e := h6 hdt
        cases M; cases M1
        simp_all

end Mtln
