import Verif.Spec.PlainFile
import Verif.Props.ParserRun
import Verif.Props.ParserSource
import Verif.Props.ParserFile
import Verif.Props.ProgramSources

/-! # The bundles of files of cables without shields -/

namespace Mtln

variable {n p : ℕ}

theorem plain_graph {F : File} {cable : String} : ∀ {l : List ℤ} {g0 g : Graph}, (∀ id ∈ l, F.cableNameOf id = .ok cable) →
    l.foldlM (Graph.addRoot F) g0 = .ok g → g.es = g0.es ∧ g.vs = g0.vs ++ l.map fun id => ⟨id, 0, cable⟩
  | [], g0, g, _, h => by
    obtain rfl : g0 = g := Except.ok.inj h
    simp
  | a :: l, g0, g, hl, h => by
    rw [List.foldlM_cons] at h
    obtain ⟨g1, h1, h⟩ := bind_ok_iff.1 h
    unfold Graph.addRoot Graph.addVertex at h1
    obtain ⟨c, hc, h1⟩ := bind_ok_iff.1 h1
    obtain rfl := Except.ok.inj (hc.symm.trans (hl a List.mem_cons_self))
    split_ifs at h1
    obtain rfl := Except.ok.inj h1
    obtain ⟨h2, h3⟩ := plain_graph (fun id hid => hl id (List.mem_cons_of_mem _ hid)) h
    exact ⟨h2, by rw [h3]; simp⟩

theorem dedup_const {c : String} : ∀ {l : List String}, l ≠ [] → (∀ x ∈ l, x = c) → l.dedup = [c]
  | [], h, _ => absurd rfl h
  | [a], _, h => by
    have := h a (by simp)
    subst this
    simp
  | a :: b :: l, _, h => by
    have e : a = b := (h a (by simp)).trans (h b (by simp)).symm
    rw [List.dedup_cons_of_mem (by simp [e])]
    exact dedup_const (by simp) fun x hx => h x (List.mem_cons_of_mem _ hx)

theorem max_zeros : ∀ {l : List ℕ}, (∀ x ∈ l, x = 0) → l.foldl max 0 = 0
  | [], _ => rfl
  | a :: l, h => by
    rw [List.foldl_cons, h a (by simp), max_self]
    exact max_zeros fun x hx => h x (List.mem_cons_of_mem _ hx)

theorem no_edges {F : File} {g : Graph} (hg : g.es = []) {B B' : PBundle p} (h : F.setTransferImpedances g B = .ok B') :
    B' = B := by
  unfold File.setTransferImpedances at h
  rw [hg] at h
  have h : F.ends.foldlM (F.setEnd g) B = .ok B' := h
  generalize F.ends = es at h
  induction es with
  | nil => exact (Except.ok.inj h).symm
  | cons c es ih =>
    rw [List.foldlM_cons] at h
    obtain ⟨B1, h1, h⟩ := bind_ok_iff.1 h
    unfold File.setEnd at h1
    obtain ⟨node, -, h1⟩ := bind_ok_iff.1 h1
    obtain ⟨⟨el, side⟩, -, h1⟩ := bind_ok_iff.1 h1
    simp only [hg, List.filter_nil, List.foldlM_nil] at h1
    obtain rfl : B = B1 := Except.ok.inj h1
    exact ih h

/-- The bundle of a cable without shields. -/
theorem plain_bundle {order : List String → List String} (ho : ValidOrder order) {F : File} {d : BundleDesc} {B : PBundle p}
    (h : BundleOf order F d B) {ids : List ℤ} {cable : String} (hd : d.nested = .ids ids) (hne : ids ≠ [])
    (hc : ∀ id ∈ ids, F.cableNameOf id = .ok cable) :
    ∃ L, B.levels = [[L]] ∧ L.2.name = cable ∧ F.finishedLine p cable = .ok L ∧ MTLD.new [[L]] d.name = .ok B.bundle := by
  obtain ⟨g, h1, h2, h3, b, h4, h5⟩ := h.graph
  rw [hd] at h1
  obtain ⟨he, hv⟩ := plain_graph hc (show ids.foldlM (Graph.addRoot F) {} = .ok g from h1)
  have hv : g.vs = ids.map fun id => ⟨id, 0, cable⟩ := by simpa using hv
  have hB := no_edges he h5
  have hlen : B.levels.length = 1 := by
    unfold Graph.levels at h2
    split_ifs at h2
    rw [max_zeros (by simp [hv])] at h2
    exact (Except.ok.inj h2).symm
  obtain ⟨lines, hl⟩ := List.length_eq_one_iff.1 hlen
  obtain ⟨h6, h7⟩ := h3 0 lines (by rw [hl]; rfl)
  have hcab : (g.cablesAt 0).dedup = [cable] := by
    refine dedup_const ?_ ?_
    · obtain ⟨a, ha⟩ := List.exists_mem_of_ne_nil _ hne
      refine List.ne_nil_of_mem (a := cable) ?_
      unfold Graph.cablesAt
      rw [hv]
      exact List.mem_map.2 ⟨⟨a, 0, cable⟩, by simp [ha], rfl⟩
    · intro x hx
      unfold Graph.cablesAt at hx
      rw [hv] at hx
      obtain ⟨v, hv', rfl⟩ := List.mem_map.1 hx
      obtain ⟨id, -, rfl⟩ := List.mem_map.1 (List.mem_filter.1 hv').1
      rfl
  have hord := ho (g.cablesAt 0)
  rw [hcab, ← h6, List.perm_singleton] at hord
  obtain ⟨L, hL⟩ : ∃ L, lines = [L] := by
    apply List.length_eq_one_iff.1
    have := congrArg List.length hord
    simpa [lineNames] using this
  subst hL
  have hn : L.2.name = cable := by simpa [lineNames] using hord
  refine ⟨L, hl, hn, ?_, ?_⟩
  · rw [← hn]
    exact h7 L (by simp)
  · rw [← hl, h4, hB]

/-! ## Sources and probes -/

/-- The fields of the call are of a kind. -/
def BundleCall.SourceIn (W : Set (ℝ → ℝ)) : BundleCall → Prop
  | .probe .. => True
  | .field _ _ _ f _ => f ∈ W
  | .external .. => False

/-- The plan of a bundle of a file. -/
structure PlanOf (F : File) (B : PBundle p) (Q : BundlePlan p) : Prop where
  make : Q.make = .ok B.bundle
  name : Q.name = B.bundle.2.name
  line : ∃ L, Q.lines = [L] ∧ B.levels = [[L]] ∧ F.finishedLine p L.2.name = .ok L
  probes : (∀ q ∈ F.probes, q.type = "voltage" ∨ q.type = "current") → ∀ x t, .probe x t ∈ Q.calls → t = "voltage" ∨ t = "current"
  sources : ∀ W, F.SourcesIn W → ∀ c ∈ Q.calls, c.SourceIn W

theorem bundleCall_name {b b' : MTLD n p} {c : BundleCall} (h : BundleCall.run b c = .ok b') (hc : ∀ F D l, c ≠ .external F D l) :
    b'.name = b.name := by
  cases c with
  | probe x t =>
    simp only [BundleCall.run, MTLD.addProbe, bind_ok_iff] at h
    obtain ⟨_, _, _, _, h⟩ := h
    obtain rfl := Except.ok.inj h
    rfl
  | field x y k f t =>
    simp only [BundleCall.run] at h
    split_ifs at h
    simp only [MTLD.addLocalizedField, bind_ok_iff] at h
    obtain ⟨_, _, _, _, _, _, _, _, _, _, h⟩ := h
    obtain rfl := Except.ok.inj h
    rfl
  | external F D l => exact absurd rfl (hc F D l)

theorem plan_more {Q : BundlePlan p} {b : AnyBundle p} (h : Q.make = .ok b) {c : BundleCall} {b' : MTLD b.1 p}
    (hc : BundleCall.run b.2 c = .ok b') : (⟨Q.name, Q.lines, Q.calls ++ [c]⟩ : BundlePlan p).make = .ok ⟨b.1, b'⟩ := by
  obtain ⟨n, b0⟩ := b
  simp only [BundlePlan.make, bind_ok_iff, Except.ok.injEq] at h ⊢
  obtain ⟨⟨n1, b1⟩, h1, b2, h2, h3⟩ := h
  cases h3
  refine ⟨⟨_, b1⟩, h1, b', ?_, rfl⟩
  rw [List.foldlM_append, h2]
  show [c].foldlM (fun b c => BundleCall.run b c) b2 = _
  rw [List.foldlM_cons, hc]
  rfl

/-- One more call. -/
theorem PlanOf.add {F : File} {B : PBundle p} {Q : BundlePlan p} (h : PlanOf F B Q) {c : BundleCall} {b' : MTLD B.bundle.1 p}
    (hc : BundleCall.run B.bundle.2 c = .ok b') (hx : ∀ F D l, c ≠ .external F D l)
    (hp : (∀ q ∈ F.probes, q.type = "voltage" ∨ q.type = "current") → ∀ x t, c = .probe x t → t = "voltage" ∨ t = "current")
    (hs : ∀ W, F.SourcesIn W → c.SourceIn W) :
    PlanOf F { B with bundle := ⟨B.bundle.1, b'⟩ } ⟨Q.name, Q.lines, Q.calls ++ [c]⟩ where
  make := plan_more h.make hc
  name := by
    show Q.name = b'.name
    rw [h.name]
    exact (bundleCall_name hc hx).symm
  line := h.line
  probes := by
    intro hF x t hm
    rcases List.mem_append.1 hm with hm | hm
    · exact h.probes hF x t hm
    · exact hp hF x t (List.mem_singleton.1 hm).symm
  sources := by
    intro W hW c' hm
    rcases List.mem_append.1 hm with hm | hm
    · exact h.sources W hW c' hm
    · rw [List.mem_singleton.1 hm]
      exact hs W hW

theorem forall₂_set {α β : Type} {R : α → β → Prop} {l : List α} {l' : List β} (h : List.Forall₂ R l l') {k : ℕ} {a : α}
    (ha : l[k]? = some a) : ∃ b, R a b ∧ ∀ a' b', R a' b' → List.Forall₂ R (l.set k a') (l'.set k b') := by
  induction h generalizing k with
  | nil => simp at ha
  | @cons x y l l' hxy hl ih =>
    cases k with
    | zero =>
      obtain rfl : x = a := by simpa using ha
      exact ⟨y, hxy, fun a' b' h' => .cons h' hl⟩
    | succ k =>
      obtain ⟨b, h1, h2⟩ := ih (k := k) (by simpa using ha)
      exact ⟨b, h1, fun a' b' h' => .cons hxy (h2 a' b' h')⟩

/-- The parser has the bundles `Bs` with further calls, and everything else as in `P0`. -/
structure Planned (P0 P : Parsed p) : Prop where
  file : P.file = P0.file
  plans : ∃ Qs, List.Forall₂ (PlanOf P0.file) P.bundles Qs
  heads : (P.bundles.map fun B => (B.bundle.2.name, B.levels)) = P0.bundles.map fun B => (B.bundle.2.name, B.levels)
  lines : P.nameToLine = P0.nameToLine
  homes : P.nameToBundle = P0.nameToBundle

theorem map_set_same {α β : Type} {f : α → β} {l : List α} {k : ℕ} {a a' : α} (ha : l[k]? = some a) (h : f a' = f a) :
    (l.set k a').map f = l.map f := by
  rw [List.map_set, h]
  apply List.ext_getElem?
  intro i
  rw [List.getElem?_set]
  split_ifs with h1 h2
  · subst h1
    simp [ha]
  · subst h1
    rw [List.getElem?_eq_none (by simpa using h2)]
  · rfl

theorem Planned.add {P0 P P' : Parsed p} (h : Planned P0 P) {k : ℕ} {B : PBundle p} (hB : P.bundles[k]? = some B) {c : BundleCall}
    {b' : MTLD B.bundle.1 p} (hc : BundleCall.run B.bundle.2 c = .ok b') (hx : ∀ F D l, c ≠ .external F D l)
    (hp : (∀ q ∈ P0.file.probes, q.type = "voltage" ∨ q.type = "current") → ∀ x t, c = .probe x t → t = "voltage" ∨ t = "current")
    (hs : ∀ W, P0.file.SourcesIn W → c.SourceIn W)
    (h1 : P'.file = P.file) (h2 : P'.bundles = P.bundles.set k { B with bundle := ⟨B.bundle.1, b'⟩ })
    (h3 : P'.nameToLine = P.nameToLine) (h4 : P'.nameToBundle = P.nameToBundle) : Planned P0 P' where
  file := h1.trans h.file
  plans := by
    obtain ⟨Qs, hQ⟩ := h.plans
    obtain ⟨Q, h5, h6⟩ := forall₂_set hQ hB
    rw [h2]
    exact ⟨_, h6 _ _ (h5.add hc hx hp hs)⟩
  heads := by
    rw [h2, map_set_same hB, h.heads]
    rw [show ({ B with bundle := ⟨B.bundle.1, b'⟩ } : PBundle p).bundle.2.name = B.bundle.2.name from bundleCall_name hc hx]
  lines := h3.trans h.lines
  homes := h4.trans h.homes

theorem Planned.source {P0 P P' : Parsed p} (h : Planned P0 P) {s : SourceDesc} (hs : s ∈ P0.file.sources)
    (h' : P.addSource s = .ok P') : Planned P0 P' := by
  obtain ⟨name, c, k, -, -, -, h1, h2⟩ := C114_source.1 h'
  by_cases ha : s.Acts
  · obtain ⟨e0, e1, n0, n1, x0, x1, f, B, -, -, -, -, -, -, hf, hB, hc, b', hb, rfl⟩ := h2 ha
    refine h.add hB (c := .field (.list x0) (.list x1) (s.conductor.getD 0) f s.type) ?_ (by simp) (by simp)
      (fun W hW => hW s hs f hf) rfl rfl rfl rfl
    simp only [BundleCall.run]
    rw [dif_pos hc]
    exact hb
  · rw [h1 ha]
    exact h

theorem Planned.sources {P0 : Parsed p} : ∀ {l : List SourceDesc} {P P' : Parsed p}, Planned P0 P → (∀ s ∈ l, s ∈ P0.file.sources) →
    l.foldlM Parsed.addSource P = .ok P' → Planned P0 P'
  | [], P, P', h, _, h' => by
    obtain rfl : P = P' := Except.ok.inj h'
    exact h
  | s :: l, P, P', h, hl, h' => by
    rw [List.foldlM_cons] at h'
    obtain ⟨P1, h1, h'⟩ := bind_ok_iff.1 h'
    exact Planned.sources (h.source (hl s List.mem_cons_self) h1) (fun s hs => hl s (List.mem_cons_of_mem _ hs)) h'

theorem Planned.probe {P0 P P' : Parsed p} (h : Planned P0 P) {d : ProbeDesc} (hd : d ∈ P0.file.probes)
    (h' : P.addProbe d = .ok P') : Planned P0 P' := by
  obtain ⟨k, x, B, b', -, hB, hb, rfl⟩ := C115_probe.1 h'
  exact h.add hB (c := .probe (.list x) d.type) hb (by simp)
    (fun hF x t e => by cases e; exact hF d hd) (fun _ _ => trivial) rfl rfl rfl rfl

theorem Planned.probes {P0 : Parsed p} : ∀ {l : List ProbeDesc} {P P' : Parsed p}, Planned P0 P → (∀ d ∈ l, d ∈ P0.file.probes) →
    l.foldlM Parsed.addProbe P = .ok P' → Planned P0 P'
  | [], P, P', h, _, h' => by
    obtain rfl : P = P' := Except.ok.inj h'
    exact h
  | d :: l, P, P', h, hl, h' => by
    rw [List.foldlM_cons] at h'
    obtain ⟨P1, h1, h'⟩ := bind_ok_iff.1 h'
    exact Planned.probes (h.probe (hl d List.mem_cons_self) h1) (fun d hd => hl d (List.mem_cons_of_mem _ hd)) h'

/-- The bundles of a plain file before sources and probes. -/
theorem planned_start {order : List String → List String} (ho : ValidOrder order) {F : File} (hF : F.Plain p) {P : Parsed p}
    (h : Parsed.buildBundles order { file := F } = .ok P) : Planned P P := by
  obtain ⟨h1, h2, -, -⟩ := C124_bundles h
  refine ⟨rfl, ?_, rfl, rfl, rfl⟩
  have key : ∀ {ds : List BundleDesc} {Bs : List (PBundle p)}, List.Forall₂ (BundleOf order F) ds Bs → (∀ d ∈ ds, d ∈ F.bundles) →
      ∃ Qs, List.Forall₂ (PlanOf F) Bs Qs := by
    intro ds Bs h
    induction h with
    | nil => intro _; exact ⟨[], .nil⟩
    | @cons d B ds Bs hB _ ih =>
      intro hd
      obtain ⟨Qs, hQ⟩ := ih fun d hd' => hd d (List.mem_cons_of_mem _ hd')
      obtain ⟨ids, cable, g1, g2, g3⟩ := hF.bundles d (hd d List.mem_cons_self)
      obtain ⟨L, k1, k2, k3, k4⟩ := plain_bundle ho hB g1 g2 g3
      refine ⟨⟨d.name, [L], []⟩ :: Qs, .cons ⟨?_, hB.name.symm, ⟨L, rfl, k1, k2 ▸ k3⟩, by simp, by simp⟩ hQ⟩
      simp only [BundlePlan.make, bind_ok_iff]
      exact ⟨_, k4, _, rfl, rfl⟩
  rw [h1]
  exact key h2 fun _ h => h

end Mtln
