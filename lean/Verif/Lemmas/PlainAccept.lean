import Verif.Lemmas.PlainFile
import Verif.Lemmas.PlainLines
import Verif.Props.Geometry
import Verif.Props.ParserLine

/-! # Files of cables without shields whose references can be resolved are accepted -/

namespace Mtln

variable {n p N S : ℕ}

theorem foldl_accepted {α β : Type} {f : α → β → Py α} (I : α → Prop) {l : List β}
    (hf : ∀ a, ∀ b ∈ l, I a → ∃ a', f a b = .ok a' ∧ I a') {a : α} (ha : I a) : ∃ a', l.foldlM f a = .ok a' ∧ I a' := by
  induction l generalizing a with
  | nil => exact ⟨a, rfl, ha⟩
  | cons b l ih =>
    obtain ⟨a1, h1, h2⟩ := hf a b List.mem_cons_self ha
    obtain ⟨a2, h3, h4⟩ := ih (fun a b hb => hf a b (List.mem_cons_of_mem _ hb)) h2
    exact ⟨a2, by rw [List.foldlM_cons, h1]; exact h3, h4⟩

/-! ## Bundles -/

theorem graph_accepted {F : File} {cable : String} {l : List ℤ} : ∀ {g0 : Graph}, (∀ id ∈ l, F.cableNameOf id = .ok cable) →
    l.Nodup → (∀ id ∈ l, id ∉ g0.vs.map Vertex.name) → ∃ g, l.foldlM (Graph.addRoot F) g0 = .ok g := by
  induction l with
  | nil => intro g0 _ _ _; exact ⟨g0, rfl⟩
  | cons a l ih =>
    intro g0 hc hn hd
    have h1 : Graph.addRoot F g0 a = .ok { g0 with vs := g0.vs ++ [⟨a, 0, cable⟩] } := by
      unfold Graph.addRoot Graph.addVertex
      rw [hc a List.mem_cons_self]
      show (if _ then _ else _) = _
      rw [if_neg (hd a List.mem_cons_self)]
    obtain ⟨g, hg⟩ := ih (g0 := { g0 with vs := g0.vs ++ [⟨a, 0, cable⟩] }) (fun id hid => hc id (List.mem_cons_of_mem _ hid))
      (List.nodup_cons.1 hn).2 (by
        intro id hid hm
        simp only [List.map_append, List.map_cons, List.map_nil, List.mem_append, List.mem_singleton] at hm
        rcases hm with hm | rfl
        · exact hd id (List.mem_cons_of_mem _ hid) hm
        · exact (List.nodup_cons.1 hn).1 hid)
    exact ⟨g, by rw [List.foldlM_cons, h1]; exact hg⟩

theorem bundle_accepted {order : List String → List String} (ho : ValidOrder order) {F : File} (hU : F.Usable p) {d : BundleDesc}
    (hd : d ∈ F.bundles) {ids : List ℤ} {cable : String} (hids : d.nested = .ids ids) (hne : ids ≠ [])
    (hc : ∀ id ∈ ids, F.cableNameOf id = .ok cable) {P : Parsed p} (hP : P.file = F) : ∃ P', P.addBundle order d = .ok P' := by
  obtain ⟨g, hg⟩ := graph_accepted (g0 := {}) hc (hU.ids d hd ids hids) (by simp)
  obtain ⟨he, hv⟩ := plain_graph hc hg
  have hv : g.vs = ids.map fun id => ⟨id, 0, cable⟩ := by simpa using hv
  have he : g.es = [] := he
  obtain ⟨a, ha⟩ := List.exists_mem_of_ne_nil _ hne
  have hk : g.levels = .ok 1 := by
    unfold Graph.levels
    rw [if_neg (by rw [hv]; simpa using hne), max_zeros (by simp [hv])]
  have hcab : (g.cablesAt 0).dedup = [cable] := by
    refine dedup_const ?_ ?_
    · refine List.ne_nil_of_mem (a := cable) ?_
      unfold Graph.cablesAt
      rw [hv]
      exact List.mem_map.2 ⟨⟨a, 0, cable⟩, by simp [ha], rfl⟩
    · intro x hx
      unfold Graph.cablesAt at hx
      rw [hv] at hx
      obtain ⟨v, hv', rfl⟩ := List.mem_map.1 hx
      obtain ⟨id, -, rfl⟩ := List.mem_map.1 (List.mem_filter.1 hv').1
      rfl
  have hord := ho (g.cablesAt 0)
  rw [hcab, List.perm_singleton] at hord
  obtain ⟨L, hL⟩ := hU.lines cable ⟨d, hd, ids, hids, a, ha, hc a ha⟩
  have hlev : mapPy (fun i => mapPy (F.finishedLine p) (order (g.cablesAt i))) (List.range 1) = .ok [[L]] := by
    rw [mapPy_ok_iff]
    refine .cons ?_ .nil
    rw [hord, mapPy_ok_iff]
    exact .cons hL .nil
  have hb : MTLD.new [[L]] d.name = .ok ⟨_, MTLD.assemble L [[L]] d.name⟩ :=
    bundleNew_ok_iff.2 ⟨L, [], rfl, by
      intro L' hL'
      have : L' = L := by simpa using hL'
      subst this
      exact ⟨rfl, fun _ _ => rfl⟩, rfl⟩
  have hT : ∀ B : PBundle p, ∃ B', F.setTransferImpedances g B = .ok B' := by
    intro B
    unfold File.setTransferImpedances
    rw [he]
    obtain ⟨B', hB', -⟩ := foldl_accepted (f := F.setEnd g) (l := F.ends) (fun _ : PBundle p => True) (a := B) (by
      intro B c hc _
      obtain ⟨node, x, h1, h2⟩ := hU.ends c hc
      refine ⟨B, ?_, trivial⟩
      unfold File.setEnd
      rw [pyIndex_ok_iff.2 h1]
      simp only [bind, Except.bind, h2, he]
      rfl) trivial
    exact ⟨B', hB'⟩
  obtain ⟨B', hB'⟩ := hT { bundle := ⟨_, MTLD.assemble L [[L]] d.name⟩, levels := [[L]] }
  have hg' : Graph.build F d.nested = .ok g := by rw [hids]; exact hg
  unfold Parsed.addBundle
  rw [hP]
  simp only [bind_ok_iff]
  exact ⟨_, g, hg', 1, hk, _, hlev, _, hb, _, hB', rfl⟩

theorem bundles_accepted {order : List String → List String} (ho : ValidOrder order) {F : File} (hF : F.Plain p) (hU : F.Usable p) :
    ∃ P : Parsed p, Parsed.buildBundles order { file := F } = .ok P := by
  obtain ⟨P, hP, -⟩ := foldl_accepted (f := Parsed.addBundle order) (l := F.bundles) (fun P : Parsed p => P.file = F)
    (a := { file := F }) (by
      intro P d hd hP
      obtain ⟨ids, cable, h1, h2, h3⟩ := hF.bundles d hd
      obtain ⟨P', hP'⟩ := bundle_accepted ho hU hd h1 h2 h3 hP
      refine ⟨P', hP', ?_⟩
      obtain ⟨B, -, rfl⟩ := addBundle_effect hP'
      exact hP) rfl
  exact ⟨P, hP⟩

/-! ## Sources -/

theorem sources_accepted {F : File} (hU : F.Usable p) {P : Parsed p} (hP : P.file = F) : P.addSources = .ok P := by
  unfold Parsed.addSources
  rw [hP, List.filter_eq_nil_iff.2 fun s hs => by simpa using hU.fields s hs]
  rfl

theorem terminalSource_accepted {F : File} (hU : F.Usable p) (c : ℤ) : ∃ f, F.terminalSource c = .ok f := by
  have inner : ∀ (id : ℤ) (l : List ElemFields), (∀ e ∈ l, e ≠ []) → ∃ b, File.terminalSource.inner c (.ok id) l = .ok b := by
    intro id l
    induction l with
    | nil => intro _; exact ⟨false, rfl⟩
    | cons e l ih =>
      intro hl
      obtain ⟨b, hb⟩ := ih fun e he => hl e (List.mem_cons_of_mem _ he)
      obtain ⟨x, r, rfl⟩ := List.exists_cons_of_ne_nil (hl e List.mem_cons_self)
      unfold File.terminalSource.inner
      simp only [bind_ok_iff]
      by_cases hx : x = id
      · by_cases hy : (x :: r).getLast (List.cons_ne_nil _ _) = c
        · exact ⟨true, x, rfl, id, rfl, by rw [if_pos hx]; simp [bind_ok_iff, pyLast, List.getLast?_eq_some_getLast, hy]⟩
        · exact ⟨b, x, rfl, id, rfl, by rw [if_pos hx]; simp [bind_ok_iff, pyLast, List.getLast?_eq_some_getLast, hy, hb]⟩
      · exact ⟨b, x, rfl, id, rfl, by rw [if_neg hx]; exact hb⟩
  have key : ∀ l : List SourceDesc, (∀ s ∈ l, s ∈ F.sources ∧ s.sourceType = "TerminalSource") →
      ∃ f, File.terminalSource.go F c l = .ok f := by
    intro l
    induction l with
    | nil => intro _; exact ⟨none, rfl⟩
    | cons s l ih =>
      intro hl
      obtain ⟨f, hf⟩ := ih fun s hs => hl s (List.mem_cons_of_mem _ hs)
      obtain ⟨h1, h2⟩ := hl s List.mem_cons_self
      obtain ⟨h3, g, hg⟩ := hU.sources s h1 h2
      obtain ⟨x, r, hx⟩ := List.exists_cons_of_ne_nil h3
      have hx : pyIndex s.elemIds 0 = .ok x := by rw [hx]; rfl
      obtain ⟨b, hb⟩ := inner x F.nodes hU.nodes
      unfold File.terminalSource.go
      rw [hx]
      simp only [bind_ok_iff]
      cases b with
      | true => exact ⟨some g, true, hb, by simp only [if_true, bind_ok_iff]; exact ⟨g, function_ok_iff.2 hg, rfl⟩⟩
      | false => exact ⟨f, false, hb, by simpa using hf⟩
  unfold File.terminalSource
  exact key _ fun s hs => by simpa using hs

/-! ## Look-ups -/

section

variable {order : List String → List String} {F : File} {P0 P : Parsed p}

theorem bundled_bundle (ho : ValidOrder order) (hF : F.Plain p) (h0 : Parsed.buildBundles order { file := F } = .ok P0) {cable : String}
    (hc : F.Bundled cable) : ∃ B ∈ P0.bundles, ∃ L, B.levels = [[L]] ∧ L.2.name = cable ∧ F.finishedLine p cable = .ok L := by
  obtain ⟨d, hd, ids, hids, id, hid, hc⟩ := hc
  obtain ⟨ids', cable', h1, h2, h3⟩ := hF.bundles d hd
  rw [hids] at h1
  cases h1
  obtain rfl := Except.ok.inj ((h3 id hid).symm.trans hc)
  obtain ⟨B, hB, hdB⟩ := forall₂_mem_left (C124_bundles h0).2.1 d hd
  obtain ⟨L, k1, k2, k3, -⟩ := plain_bundle ho hdB hids h2 h3
  exact ⟨B, hB, L, k1, k2, k3⟩

theorem pin_accepted (ho : ValidOrder order) (hF : F.Plain p) (hU : F.Usable p) (h0 : Parsed.buildBundles order { file := F } = .ok P0)
    (h : Planned P0 P) (hP : P.file = F) {c : ℤ} {x : Connector} {cable : String} {k : ℕ} {s : String}
    (hx : F.connectorAndCableInNode c = .ok (x, cable, k, s)) (hc : F.Bundled cable) : ∃ d : PinData p, P.PinAt c d := by
  obtain ⟨B, hB, L, h1, h2, h3⟩ := bundled_bundle ho hF h0 hc
  obtain ⟨f, hf⟩ := terminalSource_accepted hU c
  obtain ⟨L', hL'⟩ := firstMatch_exists (l := (allLines P0.bundles).reverse) (P := fun L => L.2.name = cable)
    ⟨L, List.mem_reverse.2 (List.mem_flatMap.2 ⟨B, hB, by rw [h1]; simp⟩), h2⟩
  have hL' := ((C125_dictionaries h0 cable).1 L').2 hL'
  obtain ⟨⟨c', b⟩, hb⟩ := firstMatch_exists (l := (allHomes P0.bundles).reverse) (P := fun e => e.1 = cable)
    ⟨(L.2.name, B.bundle.2.name), List.mem_reverse.2 (List.mem_flatMap.2 ⟨B, hB, by rw [h1]; simp⟩), h2⟩
  have e : c' = cable := by obtain ⟨_, _, -, e, -⟩ := hb; exact e
  subst e
  have hb := ((C125_dictionaries h0 c').2 b).2 hb
  obtain ⟨B', hB', g1, -⟩ := h.same hB
  have hl : ∃ j, P.levelOfCable c' = .ok j := by
    unfold Parsed.levelOfCable
    cases hf : P.bundles.findSome? fun B => B.levels.findIdx? fun lines => decide (c' ∈ lineNames lines) with
    | some j => exact ⟨j, rfl⟩
    | none =>
      exfalso
      rw [List.findSome?_eq_none_iff] at hf
      have := hf B' hB'
      rw [g1, h1] at this
      simp [lineNames, h2] at this
  obtain ⟨j, hj⟩ := hl
  refine ⟨⟨⟨c, x, k, f⟩, c', s, j, L', b⟩, ?_⟩
  constructor
  · rfl
  · rw [hP]; exact hx
  · rw [hP]; exact hf
  · exact hj
  · rw [h.lines]; exact hL'
  · rw [h.homes]; exact hb

end

/-! ## Probes -/

theorem addEndResistance_mesh {F : File} {c : Cable} {L L' : AnyLine p} {e : CableEnd}
    (h : F.addEndResistance c L e = .ok L') : L'.2.m = L.2.m ∧ L'.2.u = L.2.u ∧ L'.2.du = L.2.du := by
  unfold File.addEndResistance at h
  obtain ⟨node, -, h⟩ := bind_ok_iff.1 h
  obtain ⟨⟨el, side⟩, -, h⟩ := bind_ok_iff.1 h
  by_cases hel : el ∈ c.elemIds
  · simp only [if_pos hel] at h
    obtain ⟨x, -, h⟩ := bind_ok_iff.1 h
    obtain ⟨conn, -, h⟩ := bind_ok_iff.1 h
    obtain ⟨R, -, h⟩ := bind_ok_iff.1 h
    obtain ⟨s', hs, h⟩ := bind_ok_iff.1 h
    injection h with h
    subst h
    unfold MTL.setResistanceInRegion at hs
    simp only [bind_ok_iff] at hs
    obtain ⟨_, -, v, -, r, -, hs⟩ := hs
    unfold MTL.updateLrTerms at hs
    obtain ⟨lr, -, hs⟩ := bind_ok_iff.1 hs
    injection hs with hs
    subst hs
    exact ⟨rfl, rfl, rfl⟩
  · simp only [if_neg hel, Except.ok.injEq] at h
    rw [← h]
    exact ⟨rfl, rfl, rfl⟩

/-- Resistances at the ends and lumped elements leave the mesh as it is. -/
theorem finishedLine_base {F : File} {name : String} {L : AnyLine p} (h : F.finishedLine p name = .ok L) :
    ∃ L1 : AnyLine p, F.buildLine p name = .ok L1 ∧ L.2.m = L1.2.m ∧ L.2.u = L1.2.u ∧ L.2.du = L1.2.du := by
  unfold File.finishedLine at h
  obtain ⟨L1, h1, h⟩ := bind_ok_iff.1 h
  obtain ⟨L2, h2, h3⟩ := bind_ok_iff.1 h
  have e2 : L2.2.m = L1.2.m ∧ L2.2.u = L1.2.u ∧ L2.2.du = L1.2.du := by
    unfold File.addEndResistances at h2
    exact foldl_inv (fun A : AnyLine p => A.2.m = L1.2.m ∧ A.2.u = L1.2.u ∧ A.2.du = L1.2.du) (fun A c A' _ hA hf =>
      foldl_inv (fun A : AnyLine p => A.2.m = L1.2.m ∧ A.2.u = L1.2.u ∧ A.2.du = L1.2.du) (fun A e A' _ hA hf => by
        obtain ⟨g1, g2, g3⟩ := addEndResistance_mesh hf
        exact ⟨g1.trans hA.1, g2.trans hA.2.1, g3.trans hA.2.2⟩) hA hf) ⟨rfl, rfl, rfl⟩ h2
  have e3 : L.2.m = L2.2.m ∧ L.2.u = L2.2.u ∧ L.2.du = L2.2.du := by
    by_cases h0 : F.lumped = []
    · rw [(C84_first_partial (L' := L)).1 h0, Except.ok.injEq] at h3
      rw [← h3]
      exact ⟨rfl, rfl, rfl⟩
    · obtain ⟨e, c, M, x, xs, k, s, -, -, -, -, -, hs, rfl⟩ := (C84_first_partial.2 h0).1 h3
      unfold MTL.addDispersiveConnector at hs
      obtain ⟨conn, -, hs⟩ := bind_ok_iff.1 hs
      injection hs with hs
      subst hs
      exact ⟨rfl, rfl, rfl⟩
  exact ⟨L1, h1, e3.1.trans e2.1, e3.2.1.trans e2.2.1, e3.2.2.trans e2.2.2⟩

/-- The cells of the line of a cable with the same number of cells on every segment join its nodes. -/
theorem finishedLine_mesh {F : File} (hc : ∀ c ∈ F.cables, ∃ d > 0, ∀ x ∈ c.ndiv, x = d) {name : String} {L : AnyLine p}
    (h : F.finishedLine p name = .ok L) : ∀ k < L.2.m, L.2.du k = L.2.u (k + 1) - L.2.u k := by
  obtain ⟨L1, h1, e1, e2, e3⟩ := finishedLine_base h
  rw [e1, e2, e3]
  unfold File.buildLine at h1
  obtain ⟨c, hcc, h1⟩ := bind_ok_iff.1 h1
  obtain ⟨el, -, h1⟩ := bind_ok_iff.1 h1
  obtain ⟨pos, -, h1⟩ := bind_ok_iff.1 h1
  obtain ⟨w, -, h1⟩ := bind_ok_iff.1 h1
  obtain ⟨⟨l, c', r⟩, -, h1⟩ := bind_ok_iff.1 h1
  have hcm : c ∈ F.cables := by
    unfold File.cableFromLineName at hcc
    split at hcc
    · cases hcc
    · rename_i _ c0 hf
      cases hcc
      exact List.mem_of_find?_eq_some hf
  obtain ⟨d, hd, hds⟩ := hc c hcm
  cases pos with
  | none => cases h1
  | some pos =>
    obtain ⟨n, s⟩ := L1
    intro k hk
    have := (C24_mesh_partial hd hds h1).contiguous k hk
    show s.du k = _
    rw [this]
    module

/-- Every point of a polyline is in a cell. -/
theorem subdivides_point {pos : ℕ → V3} {ndiv : List ℕ} {m : ℕ} {u du : ℕ → V3} (h : Subdivides pos ndiv m u du) {i : ℕ}
    (hi : i < ndiv.length) (h0 : 0 < ndiv[i]) {t : ℝ} (ht0 : 0 ≤ t) (ht1 : t ≤ 1) :
    ∃ k < m, ∃ s : ℝ, 0 ≤ s ∧ s ≤ 1 ∧ pos i + t • (pos (i + 1) - pos i) = u k + s • (u (k + 1) - u k) := by
  obtain ⟨d, hd⟩ : ∃ d, d = ndiv[i] := ⟨_, rfl⟩
  obtain ⟨o, ho⟩ : ∃ o, o = (ndiv.take i).sum := ⟨_, rfl⟩
  have hd0 : (0 : ℝ) < d := by rw [hd]; exact_mod_cast h0
  have hle : o + d ≤ m := by
    rw [h.cells, ho, hd]
    have e : (ndiv.take (i + 1)).sum = (ndiv.take i).sum + ndiv[i] := by
      rw [List.take_succ, List.getElem?_eq_getElem hi, List.sum_append]
      rfl
    rw [← e]
    exact (List.take_sublist _ _).sum_le_sum fun _ _ => Nat.zero_le _
  have hu : ∀ k ≤ d, u (o + k) = pos i + ((k : ℝ) / d) • (pos (i + 1) - pos i) := by
    intro k
    induction k with
    | zero =>
      intro _
      rw [Nat.add_zero, ho, h.through i hi.le]
      simp
    | succ k ih =>
      intro hk
      rw [← Nat.add_assoc, h.contiguous (o + k) (by omega), ih (by omega)]
      funext j
      have := h.equal i hi k (by rw [← hd]; omega) j
      rw [← ho, ← hd] at this
      simp only [Pi.add_apply, Pi.smul_apply, Pi.sub_apply, smul_eq_mul, this]
      push_cast
      field_simp
      ring
  have hfl : (⌊t * d⌋₊ : ℝ) ≤ t * d := Nat.floor_le (by positivity)
  have hfl' : t * d < ⌊t * d⌋₊ + 1 := Nat.lt_floor_add_one _
  obtain ⟨k, hk⟩ : ∃ k, k = min ⌊t * d⌋₊ (d - 1) := ⟨_, rfl⟩
  have hdn : 0 < d := by exact_mod_cast hd0
  have hkd : k < d := by omega
  have hk1 : (k : ℝ) ≤ t * d := le_trans (by exact_mod_cast (by omega : k ≤ ⌊t * d⌋₊)) hfl
  have hk2 : t * d ≤ k + 1 := by
    by_cases hc : ⌊t * d⌋₊ ≤ d - 1
    · rw [hk, min_eq_left hc]
      exact hfl'.le
    · have e : k + 1 = d := by omega
      have : ((k : ℝ) + 1) = d := by exact_mod_cast e
      rw [this]
      nlinarith
  refine ⟨o + k, by omega, t * d - k, by linarith, by linarith, ?_⟩
  rw [Nat.add_assoc, hu (k + 1) (by omega), hu k hkd.le]
  funext j
  simp only [Pi.add_apply, Pi.smul_apply, Pi.sub_apply, smul_eq_mul]
  push_cast
  field_simp
  ring

theorem bundleCall_mesh {b b' : MTLD n p} {c : BundleCall} (h : BundleCall.run b c = .ok b') :
    b'.m = b.m ∧ b'.u = b.u ∧ b'.du = b.du := by
  cases c with
  | probe x t =>
    simp only [BundleCall.run, MTLD.addProbe, bind_ok_iff] at h
    obtain ⟨_, _, _, _, h⟩ := h
    obtain rfl := Except.ok.inj h
    exact ⟨rfl, rfl, rfl⟩
  | field x y k f t =>
    simp only [BundleCall.run] at h
    split_ifs at h
    simp only [MTLD.addLocalizedField, bind_ok_iff] at h
    obtain ⟨_, _, _, _, _, _, _, _, _, _, h⟩ := h
    obtain rfl := Except.ok.inj h
    exact ⟨rfl, rfl, rfl⟩
  | external F D l =>
    simp only [BundleCall.run, MTLD.addExternalField, bind_ok_iff] at h
    obtain ⟨_, _, _, _, h⟩ := h
    obtain rfl := Except.ok.inj h
    exact ⟨rfl, rfl, rfl⟩

theorem plan_mesh {F : File} {B : PBundle p} {Q : BundlePlan p} (h : PlanOf F B Q) {L : AnyLine p} (hL : B.levels = [[L]]) :
    B.bundle.2.m = L.2.m ∧ B.bundle.2.u = L.2.u ∧ B.bundle.2.du = L.2.du := by
  obtain ⟨L', h1, h2, -⟩ := h.line
  obtain rfl : L = L' := by rw [hL] at h2; simpa using h2
  have hm := h.make
  simp only [BundlePlan.make, bind_ok_iff, Except.ok.injEq] at hm
  obtain ⟨b, k1, b', k2, k3⟩ := hm
  rw [h1] at k1
  obtain ⟨first, rest, e1, -, rfl⟩ := bundleNew_ok_iff.1 k1
  obtain ⟨rfl, rfl⟩ : L = first ∧ rest = [] := by
    simp only [List.map_cons, List.map_nil, List.cons.injEq, and_true] at e1
    exact ⟨e1.1, e1.2.symm⟩
  rw [← k3]
  exact foldl_inv (fun b : MTLD _ p => b.m = L.2.m ∧ b.u = L.2.u ∧ b.du = L.2.du) (fun b c b'' _ hb hf => by
    obtain ⟨g1, g2, g3⟩ := bundleCall_mesh hf
    exact ⟨g1.trans hb.1, g2.trans hb.2.1, g3.trans hb.2.2⟩) ⟨rfl, rfl, rfl⟩ k2

theorem probe_accepted {order : List String → List String} {F : File} {P0 P : Parsed p} (ho : ValidOrder order) (hF : F.Plain p)
    (hU : F.Usable p) (h0 : Parsed.buildBundles order { file := F } = .ok P0) (h : Planned P0 P) (hP : P.file = F) {q : ProbeDesc}
    (hq : F.ProbeUsable p q) : ∃ P', P.addProbe q = .ok P' := by
  obtain ⟨id, c, x, cable, h1, h2, h3, h4, h5, h6, h7⟩ := hq
  obtain ⟨B0, hB0, L0, k1, k2, k3⟩ := bundled_bundle ho hF h0 h4
  obtain ⟨B1, hB1, g1, -⟩ := h.same hB0
  have hk : ∃ k, P.bundleWithCable cable = .ok k ∧ ∃ B, P.bundles[k]? = some B ∧ cable ∈ lineNames B.levels.flatten := by
    unfold Parsed.bundleWithCable
    cases hf : P.bundles.findIdx? fun B => decide (cable ∈ lineNames B.levels.flatten) with
    | some k =>
      obtain ⟨hk, h8, -⟩ := List.findIdx?_eq_some_iff_getElem.1 hf
      exact ⟨k, rfl, P.bundles[k], List.getElem?_eq_getElem hk, by simpa using h8⟩
    | none =>
      exfalso
      rw [List.findIdx?_eq_none_iff] at hf
      have := hf B1 hB1
      rw [g1, k1] at this
      simp [lineNames, k2] at this
  obtain ⟨k, hk, B, hB, hm⟩ := hk
  obtain ⟨Qs, hQ⟩ := h.plans
  obtain ⟨Q, -, hQB⟩ := forall₂_mem_left hQ B (List.mem_of_getElem? hB)
  obtain ⟨L, -, hL, hfin⟩ := hQB.line
  have hP0 : P0.file = F := h.file.symm.trans hP
  have hn : L.2.name = cable := by
    rw [hL] at hm
    simpa [lineNames, eq_comm] using hm
  rw [hn, hP0] at hfin
  obtain ⟨i, hi, t, ht0, ht1, hx⟩ := h7 L hfin
  obtain ⟨m1, m2, m3⟩ := plan_mesh hQB hL
  have hacc := C27_accepts_partial (b := B.bundle.2) (x := .list x) (by
    rw [m1, m2, m3]
    exact finishedLine_mesh hU.cells hfin) (k := i) (by rw [m1]; exact hi) ht0 ht1 (by rw [m2]; exact hx) q.type
  have hcab : ∃ C ∈ F.cables, C.name = cable ∧ (q.cable = none → ∃ el, F.lineElemIdFromCoordId c = .ok el ∧
      FirstMatch F.cables (fun c => el ∈ c.elemIds) C) := by
    cases hqc : q.cable with
    | some name =>
      obtain ⟨rfl, C, hC, hCn⟩ := h5 name hqc
      exact ⟨C, hC, hCn, by simp⟩
    | none =>
      obtain ⟨el, C, e1, e2, e3⟩ := h6 hqc
      have hfm : FirstMatch F.cables (fun c => el ∈ c.elemIds) C := by
        unfold File.cableWithElemId at e2
        split at e2
        · cases e2
        · rename_i _ C' hf
          cases e2
          exact find?_iff_firstMatch.1 hf
      exact ⟨C, hfm.mem, e3, fun _ => ⟨el, e1, hfm⟩⟩
  obtain ⟨C, hC, hCn, hCel⟩ := hcab
  refine ⟨_, C115_probe.2 ⟨k, x, B, _, ⟨id, c, h1, by rw [hP]; exact h2, by rw [hP]; exact h3, C, by rw [hP]; exact hC, by rw [hCn]; exact hk,
    fun name hname => ?_, by rw [hP]; exact hCel⟩, hB, hacc, rfl⟩⟩
  rw [hCn, (h5 name hname).1]

theorem probes_accepted {order : List String → List String} {F : File} {P0 P : Parsed p} (ho : ValidOrder order) (hF : F.Plain p)
    (hU : F.Usable p) (h0 : Parsed.buildBundles order { file := F } = .ok P0) (h : Planned P0 P) (hP : P.file = F) :
    ∃ P', P.addProbes = .ok P' := by
  unfold Parsed.addProbes
  have hP0 : P0.file = F := h.file.symm.trans hP
  obtain ⟨P', hP', -⟩ := foldl_accepted (f := Parsed.addProbe) (l := P.file.probes) (fun P : Parsed p => Planned P0 P) (by
    intro P1 q hq h1
    rw [hP] at hq
    obtain ⟨P2, h2⟩ := probe_accepted ho hF hU h0 h1 (h1.file.trans hP0) (hU.probes q hq)
    exact ⟨P2, h2, h1.probe (by rw [hP0]; exact hq) h2⟩) h
  exact ⟨P', hP'⟩

/-! ## Networks -/

/-- The node is in the network. -/
def Network.Has (nw : Network N S) (id : ℤ) : Prop := ∃ a, (nw.nodes a).id = id

theorem call_accepted' {nw : Network N S} {c : Call} (hc : c.IsRC) (h : ∀ id ∈ c.nodes, nw.Has id) : ∃ nw', nw.call c = .ok nw' :=
  (call_accepted hc).2 h

theorem ground_accepted {nw : Network N S} {id : ℤ} (h : nw.Has id) {R : ℝ} (hR : 0 ≤ R) {f : Option (ℝ → ℝ)} (hf : R = 0 → f = none) :
    ∃ nw', nw.connectToGround id R f = .ok nw' := by
  by_cases h0 : R = 0
  · subst h0
    rw [hf rfl]
    obtain ⟨a, ha⟩ := find_exists.2 h
    unfold Network.connectToGround
    simp [Network.assertNode, ha, bind, Except.bind]
  · exact call_accepted' (c := .ground id R f) ⟨trivial, lt_of_le_of_ne hR (Ne.symm h0)⟩ (by simpa [Call.nodes] using h)

theorem short_accepted {nw : Network N S} {id : ℤ} (h : nw.Has id) : ∃ nw', nw.shortToGround id = .ok nw' :=
  call_accepted' (c := .shortGround id) ⟨trivial, trivial⟩ (by simpa [Call.nodes] using h)

theorem capacitor_accepted {nw : Network N S} {id : ℤ} (h : nw.Has id) {C : ℝ} (hC : 0 ≤ C) (f : Option (ℝ → ℝ)) :
    ∃ nw', nw.connectToGroundC id C f = .ok nw' :=
  call_accepted' (c := .groundC id C f) ⟨hC, trivial⟩ (by simpa [Call.nodes] using h)

theorem terminateSingle_accepted {nw : Network N S} {e : Pin} (h : nw.Has e.node) (hc : e.connector.IsRC)
    (ht : e.connector.Terminates e.source) : ∃ nw', nw.terminateSingle e = .ok nw' := by
  unfold Network.terminateSingle
  split_ifs with h1 h2 h3 h4
  · exact short_accepted h
  · obtain ⟨R, hR, hs⟩ := ht.1 h2.symm
    obtain ⟨nw', hn⟩ := ground_accepted h (hc.resistance R hR) hs
    exact ⟨nw', bind_ok_iff.2 ⟨R, pyKey_ok_iff.2 hR, hn⟩⟩
  · obtain ⟨C, hC⟩ := Option.ne_none_iff_exists'.1 (ht.2 h3)
    obtain ⟨nw', hn⟩ := capacitor_accepted h (hc.capacitance C hC) e.source
    exact ⟨nw', bind_ok_iff.2 ⟨C, pyKey_ok_iff.2 hC, hn⟩⟩
  · exact absurd h4 hc.type
  · exact ⟨nw, rfl⟩

theorem vectorEntry_accepted {v : Option (List ℝ)} {k : ℕ} (d : ℝ) (h : ∀ l, v = some l → k < l.length) :
    ∃ x, vectorEntry v k d = .ok x := by
  cases v with
  | none => exact ⟨d, rfl⟩
  | some l => exact ⟨l[k]'(h l rfl), pyIndex_ok_iff.2 (List.getElem?_eq_getElem (h l rfl))⟩

theorem terminateWith_accepted {nw : Network N S} {id : ℤ} {k : ℕ} {c : Connector} {f : Option (ℝ → ℝ)} (h : nw.Has id)
    (hc : c.IsRC) (ht : c.TerminatesAt k f) : ∃ nw', nw.terminateWith id k c (.ok f) = .ok nw' := by
  unfold Network.terminateWith
  split_ifs with hm
  · obtain ⟨h1, h2, h3, ts, type, h4, h5, h6⟩ := ht hm
    obtain ⟨R, hR⟩ := vectorEntry_accepted (v := c.resistanceVector) 0 h1
    obtain ⟨C, hC⟩ := vectorEntry_accepted (v := c.capacitanceVector) (10 ^ 22) h2
    obtain ⟨L, hL⟩ := vectorEntry_accepted (v := c.inductanceVector) 0 h3
    simp only [bind_ok_iff]
    suffices ∃ nw', (if type = "Conn_short" then nw.shortToGround id
        else if type = "Conn_R" ∨ type = "Conn_sRLC" then nw.connectToGround id R f
        else if type = "Conn_LCpRs" then nw.connectToGroundLCpRs id R L C f
        else if type = "Conn_C" then nw.connectToGroundC id C f else .ok nw) = .ok nw' by
      obtain ⟨nw', hn⟩ := this
      exact ⟨nw', R, hR, C, hC, L, hL, ts, pyKey_ok_iff.2 h4, type, pyIndex_ok_iff.2 h5, hn⟩
    split_ifs with k1 k2 k3 k4
    · exact short_accepted h
    · refine ground_accepted h (vectorEntry_nonneg hR le_rfl hc.resistances) fun h0 => ?_
      rcases h6 k2 with h6 | ⟨v, R', e1, e2, e3⟩
      · exact h6
      · rw [e1] at hR
        have := pyIndex_ok_iff.1 hR
        rw [e2] at this
        exact absurd ((Option.some.inj this).trans h0) e3
    · exact absurd (k3 ▸ List.mem_of_getElem? h5) (hc.types ts h4)
    · exact capacitor_accepted h (vectorEntry_nonneg hC (by positivity) hc.capacitances) f
    · exact ⟨nw, rfl⟩
  · exact ⟨nw, rfl⟩

/-- The pins of a group have what their termination needs. -/
structure GroupTerminates (g : List Pin) : Prop where
  single : ∀ e, g = [e] → e.connector.Terminates e.source
  several : 2 ≤ g.length → ∀ e ∈ g, ∃ o, g[e.conductor]? = some o ∧ o.connector.TerminatesAt e.conductor o.source

theorem terminate_accepted {nw : Network N S} {g : List Pin} (h : ∀ e ∈ g, nw.Has e.node) (hc : ∀ e ∈ g, e.connector.IsRC)
    (ht : GroupTerminates g) : ∃ nw', nw.terminate g = .ok nw' := by
  have multi : ∀ g : List Pin, 2 ≤ g.length → (∀ e ∈ g, nw.Has e.node) → (∀ e ∈ g, e.connector.IsRC) → GroupTerminates g →
      ∃ nw', g.foldlM (Network.terminateMulti g) nw = .ok nw' := by
    intro g h2 h hc ht
    obtain ⟨nw', hn, -⟩ := foldl_accepted (f := Network.terminateMulti g) (l := g) (fun x : Network N S => x.nodes = nw.nodes) (a := nw) (by
      intro x e he hx
      obtain ⟨o, ho, hto⟩ := ht.several h2 e he
      obtain ⟨y, hy⟩ := terminateWith_accepted (nw := x) (id := e.node) (by
        unfold Network.Has
        rw [hx]
        exact h e he) (hc o (List.mem_of_getElem? ho)) hto
      have hy' : Network.terminateMulti g x e = .ok y := by
        unfold Network.terminateMulti
        exact bind_ok_iff.2 ⟨o, pyIndex_ok_iff.2 ho, hy⟩
      obtain ⟨l, hl, -⟩ := terminateWith_calls hy
      exact ⟨y, hy', (calls_nodes hl).trans hx⟩) rfl
    exact ⟨nw', hn⟩
  match g, h, hc, ht with
  | [], _, _, _ => exact ⟨nw, rfl⟩
  | [e], h, hc, ht => exact terminateSingle_accepted (h e (by simp)) (hc e (by simp)) (ht.single e rfl)
  | a :: b :: g, h, hc, ht => exact multi (a :: b :: g) (by simp) h hc ht

theorem junctionResistance_accepted {c : Connector} {k : ℕ} (h : c.Joins k) : ∃ R, junctionResistance c k = .ok R := by
  unfold junctionResistance
  split_ifs with h1 h2
  · obtain ⟨R, hR⟩ := Option.ne_none_iff_exists'.1 (h.1 h1.symm)
    exact ⟨R, pyKey_ok_iff.2 hR⟩
  · obtain ⟨ts, type, h3, h4, h5⟩ := h.2 h2
    simp only [bind_ok_iff]
    by_cases ht : type = "Conn_R" ∨ type = "Conn_sRLC"
    · obtain ⟨v, h6, h7⟩ := h5 ht
      refine ⟨v[k], ts, pyKey_ok_iff.2 h3, type, pyIndex_ok_iff.2 h4, ?_⟩
      rw [if_pos ht, bind_ok_iff]
      exact ⟨v, pyKey_ok_iff.2 h6, pyIndex_ok_iff.2 (List.getElem?_eq_getElem h7)⟩
    · exact ⟨0, ts, pyKey_ok_iff.2 h3, type, pyIndex_ok_iff.2 h4, by rw [if_neg ht]⟩
  · exact ⟨0, rfl⟩

theorem join_accepted {nw : Network N S} {g : List Pin} (h2 : g.length = 2) (h : ∀ e ∈ g, nw.Has e.node)
    (hc : ∀ e ∈ g, e.connector.IsRC) (ht : ∀ e ∈ g, e.connector.Joins e.conductor) : ∃ nw', nw.join g = .ok nw' := by
  obtain ⟨e0, e1, rfl⟩ := List.length_eq_two.1 h2
  obtain ⟨R0, h0⟩ := junctionResistance_accepted (ht e0 (by simp))
  obtain ⟨R1, h1⟩ := junctionResistance_accepted (ht e1 (by simp))
  have k0 := junctionResistance_nonneg h0 (hc e0 (by simp)).nonNeg
  have k1 := junctionResistance_nonneg h1 (hc e1 (by simp)).nonNeg
  have hn : nw.Has e0.node ∧ nw.Has e1.node := ⟨h e0 (by simp), h e1 (by simp)⟩
  simp only [C116_join]
  by_cases hR : R0 + R1 = 0
  · obtain ⟨nw', hw⟩ := call_accepted' (nw := nw) (c := .short e0.node e1.node) ⟨trivial, trivial⟩ (by simpa [Call.nodes] using hn)
    exact ⟨nw', e0, e1, R0, R1, rfl, h0, h1, .inl ⟨hR, hw⟩⟩
  · obtain ⟨nw', hw⟩ := call_accepted' (nw := nw) (c := .branch e0.node e1.node (R0 + R1) (addSources e0.source e1.source))
      ⟨trivial, lt_of_le_of_ne (add_nonneg k0 k1) (Ne.symm hR)⟩ (by simpa [Call.nodes] using hn)
    exact ⟨nw', e0, e1, R0, R1, rfl, h0, h1, .inr ⟨hR, hw⟩⟩

/-! ## Joints -/

theorem describe_accepted {P : Parsed p} {once : Bool} {desc : List (String × LineConnections p)} {c : ℤ} {d : PinData p}
    (h : P.PinAt c d) : ∃ r, P.describe once desc c = .ok r := by
  unfold Parsed.describe
  rw [h.cable]
  simp only [bind, Except.bind]
  rw [h.source]
  simp only
  rw [h.level]
  simp only
  rw [h.line]
  simp only
  rw [h.bundle]
  exact ⟨_, rfl⟩

theorem describeJoint_accepted {P : Parsed p} {once : Bool} {t : Joint} (h : ∀ c ∈ t.coordIds.flatten, ∃ d, P.PinAt c d) :
    ∃ B, P.describeJoint once t = .ok B := by
  unfold Parsed.describeJoint
  obtain ⟨B, hB, -⟩ := foldl_accepted (f := P.describeGroup once) (l := t.coordIds) (fun _ => True) (a := {}) (by
    intro B cs hcs _
    obtain ⟨r, hr, -⟩ := foldl_accepted (f := fun (r : JointBuild p × List Pin) c => (do
        let (desc, level, pin) ← P.describe once r.1.description c
        .ok ({ r.1 with description := desc, level := level }, r.2 ++ [pin]) : Py (JointBuild p × List Pin))) (l := cs) (fun _ => True)
      (a := (B, [])) (by
        intro r c hc _
        obtain ⟨d, hd⟩ := h c (List.mem_flatten.2 ⟨cs, hcs, hc⟩)
        obtain ⟨q, hq⟩ := describe_accepted (once := once) (desc := r.1.description) hd
        exact ⟨_, bind_ok_iff.2 ⟨q, hq, rfl⟩, trivial⟩) trivial
    exact ⟨_, bind_ok_iff.2 ⟨r, hr, rfl⟩, trivial⟩) trivial
  exact ⟨B, hB⟩

theorem side_letter {F : File} {c : ℤ} {cable : String} {k : ℕ} {s : String} (h : F.EndAt c cable k s) : s = "S" ∨ s = "L" := by
  obtain ⟨x, h⟩ := h
  unfold File.connectorAndCableInNode at h
  obtain ⟨⟨el, side⟩, -, h⟩ := bind_ok_iff.1 h
  obtain ⟨⟨id, cable', k'⟩, -, h⟩ := bind_ok_iff.1 h
  simp only at h
  split at h
  · cases h
  · have := (Prod.mk.inj (Prod.mk.inj (Prod.mk.inj (Except.ok.inj h)).2).2).2
    rw [← this]
    unfold File.sideLetter
    split_ifs
    · exact .inl rfl
    · exact .inr rfl

theorem stateVarsIn_accepted {c : Connector} {k : ℕ} (h : c.HasEntry k) : ∃ j, stateVarsIn c k = .ok j := by
  unfold stateVarsIn
  split_ifs with h1 h2 h3 h4
  · obtain ⟨a, b⟩ := h.1 h1
    obtain ⟨L, hL⟩ := Option.ne_none_iff_exists'.1 a
    obtain ⟨C, hC⟩ := Option.ne_none_iff_exists'.1 b
    rw [hL, hC]
    exact ⟨_, rfl⟩
  · exact ⟨_, rfl⟩
  · exact ⟨_, rfl⟩
  · obtain ⟨ts, e, hk⟩ := h.2 h4
    rw [e]
    simp only
    rw [List.getElem?_eq_getElem hk]
    exact ⟨_, rfl⟩
  · exact ⟨_, rfl⟩

theorem flatten_forall₂ {α β : Type} {R : α → β → Prop} {l : List (List α)} {l' : List (List β)} (h : List.Forall₂ (List.Forall₂ R) l l') :
    List.Forall₂ R l.flatten l'.flatten := by
  induction h with
  | nil => exact .nil
  | cons a _ ih =>
    rw [List.flatten_cons, List.flatten_cons]
    exact List.rel_append a ih

/-- The network of a joint is created if its coordinates can be looked up. -/
theorem described_accepted {P : Parsed p} {F : File} (hP : P.file = F) (hF : F.Plain p) {once : Bool} {t : Joint} (hU : F.JointUsable p t)
    (honce : once = false → t.coordIds.flatten.Nodup) (hl : ∀ c d, P.PinAt c d → P.Home d.cable d.line d.bundle)
    {gs : List (List (PinData p))} {desc : List (String × LineConnections p)} (hg : List.Forall₂ (List.Forall₂ P.PinAt) t.coordIds gs)
    (hd : Described once gs.flatten desc) :
    ∃ nw, Network.new (desc.map Prod.snd) = .ok nw ∧ ∀ d ∈ gs.flatten, nw.2.2.Has d.pin.node := by
  classical
  have hflat := flatten_forall₂ hg
  have hpin : ∀ d ∈ gs.flatten, d.pin.node ∈ t.coordIds.flatten ∧ P.PinAt d.pin.node d := by
    intro d hd
    obtain ⟨c, hc, h⟩ := forall₂_from hflat d hd
    rw [h.node]
    exact ⟨hc, h⟩
  have hnodes : gs.flatten.map (fun d => d.pin.node) = t.coordIds.flatten := by
    generalize gs.flatten = l at hflat
    generalize t.coordIds.flatten = l' at hflat
    clear hpin
    induction hflat with
    | nil => rfl
    | cons a _ ih => rw [List.map_cons, a.node, ih]
  have hnew : ∃ nw, Network.new (desc.map Prod.snd) = .ok nw := by
    rw [C160_network]
    constructor
    · intro x hx
      obtain ⟨⟨name, y⟩, hy, rfl⟩ := List.mem_map.1 hx
      obtain ⟨d, hm, e1, e2, -⟩ := hd.first name y hy
      have hm' : d ∈ gs.flatten := hm.mem
      have hc : d.cable = name := by obtain ⟨_, _, -, e, -⟩ := hm; exact e
      have hpd := (hpin d hm').2
      refine ⟨?_, ?_⟩
      · simp only [e2]
        exact side_letter hpd.endAt
      · intro c hc'
        obtain ⟨d', hd', hc1, rfl⟩ := (hd.connections name y hy c).1 hc'
        obtain ⟨k1, k2⟩ := hpin d' hd'
        obtain ⟨u1, x', cable, k, s, u2, u3, u4, u5⟩ := hU.ends _ k1
        have q := k2.cable
        rw [hP] at q
        obtain ⟨q1, q2⟩ := Prod.mk.inj (Except.ok.inj (u2.symm.trans q))
        obtain ⟨q3, q4⟩ := Prod.mk.inj q2
        obtain ⟨q5, -⟩ := Prod.mk.inj q4
        rw [q1, q5] at u4
        rw [q3, q5] at u5
        have hh := hl _ _ hpd
        have hline := hh.line
        rw [hP, hc, ← hc1] at hline
        refine ⟨u1, stateVarsIn_accepted u4, ?_, ?_⟩
        · show y.line.2.m ≠ 0
          rw [e1]
          exact (hF.lines _ _ hline).cells.ne'
        · simp only [e1]
          exact u5 _ hline
    · rw [List.nodup_flatMap]
      constructor
      · intro x hx
        obtain ⟨⟨name, y⟩, hy, rfl⟩ := List.mem_map.1 hx
        have hr := hd.repeated name y hy
        cases once with
        | true => simpa using hr
        | false =>
          simp only [Bool.false_eq_true, if_false] at hr
          simp only
          rw [hr, List.map_map]
          have h1 := honce rfl
          rw [← hnodes] at h1
          exact h1.sublist (List.Sublist.map _ List.filter_sublist)
      · rw [List.pairwise_map]
        have hk : desc.Pairwise fun a b => a.1 ≠ b.1 := List.pairwise_map.1 hd.keys
        refine List.Pairwise.imp_of_mem ?_ hk
        rintro ⟨n1, y1⟩ ⟨n2, y2⟩ h1 h2 hne
        intro id hid hid'
        obtain ⟨c1, hc1, rfl⟩ := List.mem_map.1 hid
        obtain ⟨c2, hc2, e⟩ := List.mem_map.1 hid'
        obtain ⟨d1, m1, f1, rfl⟩ := (hd.connections n1 y1 h1 c1).1 hc1
        obtain ⟨d2, m2, f2, rfl⟩ := (hd.connections n2 y2 h2 c2).1 hc2
        have p1 := (hpin d1 m1).2
        have p2 := (hpin d2 m2).2
        have e : d2.pin.node = d1.pin.node := e
        rw [e] at p2
        exact hne (f1.symm.trans ((congrArg PinData.cable (p1.unique p2)).trans f2))
  obtain ⟨nw, hn⟩ := hnew
  refine ⟨nw, hn, fun d hdm => (new_ids hn _).2 ?_⟩
  obtain ⟨⟨name, y⟩, hy, e⟩ := List.mem_map.1 ((hd.cables d.cable).2 ⟨d, hdm, rfl⟩)
  exact ⟨y, List.mem_map.2 ⟨_, hy, rfl⟩, d.connection, (hd.connections name y hy _).2 ⟨d, hdm, e.symm, rfl⟩, rfl⟩

/-- The network of a joint is created and connected. -/
theorem jointNetwork_accepted {P : Parsed p} {F : File} (hP : P.file = F) (hF : F.Plain p) {once : Bool} {t : Joint} (hU : F.JointUsable p t)
    (honce : once = false → t.coordIds.flatten.Nodup) (hl : ∀ c d, P.PinAt c d → P.Home d.cable d.line d.bundle)
    (hpin : ∀ c ∈ t.coordIds.flatten, ∃ d, P.PinAt c d) {f : ∀ {N S}, Network N S → List Pin → Py (Network N S)} (hk : KeepsNodes f)
    (hf : ∀ {N S : ℕ} (nw : Network N S) (cs : List ℤ) (g : List (PinData p)), cs ∈ t.coordIds → List.Forall₂ P.PinAt cs g →
      (∀ d ∈ g, nw.Has d.pin.node) → (∀ d ∈ g, d.pin.connector.IsRC) → ∃ nw', f nw (g.map PinData.pin) = .ok nw') :
    ∃ e, P.jointNetwork once f t = .ok e := by
  obtain ⟨B, hB⟩ := describeJoint_accepted (once := once) hpin
  obtain ⟨gs, k1, k2, k3, -⟩ := describeJoint_effect hB
  obtain ⟨nw, h1, h2⟩ := described_accepted hP hF hU honce hl k1 k2
  unfold Parsed.jointNetwork
  obtain ⟨nw', h3, -⟩ := foldl_accepted (f := fun (nw : Network nw.1 nw.2.1) g => f nw g) (l := B.groups) (fun x => x.nodes = nw.2.2.nodes)
    (a := nw.2.2) (by
      intro x g hg hx
      rw [k3] at hg
      obtain ⟨g', hg', rfl⟩ := List.mem_map.1 hg
      obtain ⟨cs, hcs, hcg⟩ := forall₂_from k1 g' hg'
      obtain ⟨y, hy⟩ := hf x cs g' hcs hcg (by
        intro d hd
        unfold Network.Has
        rw [hx]
        exact h2 d (List.mem_flatten.2 ⟨g', hg', hd⟩)) (by
        intro d hd
        obtain ⟨c, -, hcd⟩ := forall₂_from hcg d hd
        obtain ⟨m, hm, e⟩ := PinAt_connector hcd
        rw [e]
        rw [hP] at hm
        exact hF.connectors m hm)
      exact ⟨y, hy, (hk _ _ _ hy).trans hx⟩) rfl
  exact ⟨_, bind_ok_iff.2 ⟨B, hB, bind_ok_iff.2 ⟨nw, h1, bind_ok_iff.2 ⟨nw', h3, rfl⟩⟩⟩⟩

theorem groupJoints_accepted {F : File} {ts : List Joint} (h : ∀ t ∈ ts, ∃ x, F.JointAt t x) :
    ∃ gs, F.groupJoints ts = .ok gs ∧ ∀ g ∈ gs, ∀ t ∈ g, t ∈ ts := by
  obtain ⟨d, hd, -⟩ := foldl_accepted (f := F.groupStep) (l := ts) (fun _ => True) (a := []) (by
    intro d t ht _
    obtain ⟨x, c, cs, r, e, hx⟩ := h t ht
    unfold File.groupStep
    rw [e]
    simp only [bind_ok_iff]
    cases hf : d.find? fun e => e.1 = x with
    | none => exact ⟨_, ⟨_, pyIndex_ok_iff.2 rfl, _, pyIndex_ok_iff.2 rfl, x, hx, by rw [hf]⟩, trivial⟩
    | some e => exact ⟨_, ⟨_, pyIndex_ok_iff.2 rfl, _, pyIndex_ok_iff.2 rfl, x, hx, by rw [hf]⟩, trivial⟩) trivial
  have hg : F.groupJoints ts = .ok (d.map Prod.snd) := bind_ok_iff.2 ⟨d, hd, rfl⟩
  refine ⟨_, hg, fun g hgm t ht => ?_⟩
  obtain ⟨-, h2, -⟩ := C82_partition hg
  exact (h2 g hgm).2.subset ht

theorem jointNetworks_accepted {P : Parsed p} {once : Bool} {f : ∀ {N S}, Network N S → List Pin → Py (Network N S)} {ts : List Joint}
    (h : ∀ t ∈ ts, ∃ e, P.jointNetwork once f t = .ok e) : ∃ d, P.jointNetworks once f ts = .ok d := by
  unfold Parsed.jointNetworks
  obtain ⟨d, hd, -⟩ := foldl_accepted (f := fun (d : NetworkD) t => (do
      let r ← P.jointNetwork once f t
      .ok (dictSet d r.1 r.2) : Py NetworkD)) (l := ts) (fun _ => True) (a := []) (by
    intro d t ht _
    obtain ⟨e, he⟩ := h t ht
    exact ⟨_, bind_ok_iff.2 ⟨e, he, rfl⟩, trivial⟩) trivial
  exact ⟨d, hd⟩

theorem forall₂_get {α β : Type} {R : α → β → Prop} {l : List α} {l' : List β} (h : List.Forall₂ R l l') {k : ℕ} {a : α}
    (ha : l[k]? = some a) : ∃ b, l'[k]? = some b ∧ R a b := by
  induction h generalizing k with
  | nil => simp at ha
  | cons r _ ih =>
    cases k with
    | zero =>
      obtain rfl : _ = a := by simpa using ha
      exact ⟨_, by simp, r⟩
    | succ k =>
      obtain ⟨b, hb, hr⟩ := ih (by simpa using ha)
      exact ⟨b, by simpa using hb, hr⟩

theorem networks_accepted {order : List String → List String} {F : File} {P0 P : Parsed p} (ho : ValidOrder order) (hF : F.Plain p)
    (hU : F.Usable p) (h0 : Parsed.buildBundles order { file := F } = .ok P0) (h00 : Planned P0 P0) (h : Planned P0 P) (hP : P.file = F) :
    ∃ P', P.buildNetworks = .ok P' := by
  have hl : ∀ c d, P.PinAt c d → P.Home d.cable d.line d.bundle := fun c d hd => plain_home h0 h00 h hd.line hd.bundle
  have hpin : ∀ t ∈ F.junctions ++ F.terminations, ∀ c ∈ t.coordIds.flatten, ∃ d, P.PinAt c d := by
    intro t ht c hc
    obtain ⟨-, x, cable, k, s, h1, h2, -⟩ := (hU.joints t ht).ends c hc
    exact pin_accepted ho hF hU h0 h hP h1 h2
  have hJ : ∀ t ∈ F.junctions, ∃ e, P.jointNetwork true (fun nw g => nw.join g) t = .ok e := by
    intro t ht
    refine jointNetwork_accepted hP hF (hU.joints t (List.mem_append_left _ ht)) (fun h => by cases h) hl
      (hpin t (List.mem_append_left _ ht)) join_keeps ?_
    intro N S nw cs g hcs hg hhas hrc
    obtain ⟨u1, u2⟩ := hU.junctions t ht cs hcs
    refine join_accepted (by rw [List.length_map, ← hg.length_eq, u1]) ?_ ?_ ?_
    · intro e he
      obtain ⟨d, hd, rfl⟩ := List.mem_map.1 he
      exact hhas d hd
    · intro e he
      obtain ⟨d, hd, rfl⟩ := List.mem_map.1 he
      exact hrc d hd
    · intro e he
      obtain ⟨d, hd, rfl⟩ := List.mem_map.1 he
      obtain ⟨c, hc, hcd⟩ := forall₂_from hg d hd
      have := hcd.cable
      rw [hP] at this
      exact u2 c hc _ _ _ _ this
  have hT : ∀ t ∈ F.terminations, ∃ e, P.jointNetwork false (fun nw g => nw.terminate g) t = .ok e := by
    intro t ht
    have hut := hU.terminations t ht
    refine jointNetwork_accepted hP hF (hU.joints t (List.mem_append_right _ ht)) (fun _ => hut.once) hl
      (hpin t (List.mem_append_right _ ht)) terminate_keeps ?_
    intro N S nw cs g hcs hg hhas hrc
    refine terminate_accepted ?_ ?_ ?_
    · intro e he
      obtain ⟨d, hd, rfl⟩ := List.mem_map.1 he
      exact hhas d hd
    · intro e he
      obtain ⟨d, hd, rfl⟩ := List.mem_map.1 he
      exact hrc d hd
    · constructor
      · intro e he
        obtain ⟨d, rfl, rfl⟩ := List.map_eq_singleton_iff.1 he
        obtain ⟨c, hc, hcd⟩ := forall₂_from hg d (by simp)
        have hcs1 : cs = [c] := by
          obtain ⟨a, rfl⟩ := List.length_eq_one_iff.1 hg.length_eq
          rw [List.mem_singleton.1 hc]
        rw [hcs1] at hcs
        have q1 := hcd.cable
        have q2 := hcd.source
        rw [hP] at q1 q2
        exact hut.single c hcs _ _ _ _ _ q1 q2
      · intro h2 e he
        obtain ⟨d, hd, rfl⟩ := List.mem_map.1 he
        obtain ⟨c, hc, hcd⟩ := forall₂_from hg d hd
        rw [List.length_map, ← hg.length_eq] at h2
        have q0 := hcd.endAt
        rw [hP] at q0
        obtain ⟨c', hc', u⟩ := hut.several cs hcs h2 c hc _ _ _ q0
        obtain ⟨d', hd', r⟩ := forall₂_get hg hc'
        refine ⟨d'.pin, by rw [List.getElem?_map, hd']; rfl, ?_⟩
        have q1 := r.cable
        have q2 := r.source
        rw [hP] at q1 q2
        exact u _ _ _ _ _ q1 q2
  obtain ⟨gj, g1, g2⟩ := groupJoints_accepted (F := F) (ts := F.junctions) fun t ht => (hU.joints t (List.mem_append_left _ ht)).position
  obtain ⟨gt, g3, g4⟩ := groupJoints_accepted (F := F) (ts := F.terminations) fun t ht => (hU.joints t (List.mem_append_right _ ht)).position
  obtain ⟨js, k1⟩ := mapPy_exists (f := P.jointNetworks true fun nw g => nw.join g) (l := gj) fun g hg =>
    jointNetworks_accepted fun t ht => hJ t (g2 g hg t ht)
  obtain ⟨ds, k2⟩ := mapPy_exists (f := P.jointNetworks false fun nw g => nw.terminate g) (l := gt) fun g hg =>
    jointNetworks_accepted fun t ht => hT t (g4 g hg t ht)
  unfold Parsed.buildNetworks Parsed.buildJunctions Parsed.buildTerminations
  rw [hP]
  exact ⟨_, bind_ok_iff.2 ⟨js, bind_ok_iff.2 ⟨gj, g1, k1⟩, bind_ok_iff.2 ⟨ds, bind_ok_iff.2 ⟨gt, g3, k2⟩, rfl⟩⟩⟩

end Mtln
