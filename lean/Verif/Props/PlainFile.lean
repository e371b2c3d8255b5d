import Verif.Lemmas.PlainFile
import Verif.Lemmas.PlainLines
import Verif.Props.ParserRepeat
import Verif.Props.EndToEndExact

/-! # Files of cables without shields are well-formed programs: C161 -/

namespace Mtln

variable {n p : ℕ}

section

variable {order : List String → List String} {F : File} {P0 P : Parsed p} {ts : List Joint} {Ns : List (NetPlan p)}
  {nws : List NetworkD} {Qs : List (BundlePlan p)}

theorem plain_pin (h0 : Parsed.buildBundles order { file := F } = .ok P0) (h00 : Planned P0 P0) (h : Planned P0 P) {c : ℤ}
    {d : PinData p} (hd : P.PinAt c d) : P.Home d.cable d.line d.bundle := plain_home h0 h00 h hd.line hd.bundle

theorem plain_names (h0 : Parsed.buildBundles order { file := F } = .ok P0) (h : Planned P0 P) (hF : F.Plain p) :
    (P.bundles.map fun B => B.bundle.2.name).Nodup := by
  have e : (P.bundles.map fun B => B.bundle.2.name) = P0.bundles.map fun B => B.bundle.2.name := by
    have := congrArg (List.map Prod.fst) h.heads
    simpa [List.map_map, Function.comp_def] using this
  rw [e, C124_names h0]
  exact hF.names

/-- The bundle tells the cable. -/
theorem home_cable (hn : (P.bundles.map fun B => B.bundle.2.name).Nodup) {c c' b : String} {L L' : AnyLine p} (h : P.Home c L b)
    (h' : P.Home c' L' b) : c = c' := by
  obtain ⟨B, hB, h1, h2⟩ := h.home
  obtain ⟨B', hB', h1', h2'⟩ := h'.home
  obtain rfl : B = B' := List.inj_on_of_nodup_map hn hB hB' (h2.trans h2'.symm)
  rw [h1] at h1'
  have : L = L' := by simpa using h1'
  rw [← h.name, ← h'.name, this]

theorem mem_items {Q : Program p} {x : ℕ × LineConnections p} : x ∈ Q.items ↔ ∃ N ∈ Q.networks.flatten, x.1 = N.level ∧ x.2 ∈ N.lines := by
  unfold Program.items
  rw [List.mem_flatMap]
  refine exists_congr fun N => and_congr_right fun _ => ?_
  rw [List.mem_map]
  constructor
  · rintro ⟨d, hd, rfl⟩
    exact ⟨rfl, hd⟩
  · rintro ⟨h1, h2⟩
    exact ⟨x.2, h2, Prod.ext h1.symm rfl⟩

theorem flatten_single {α : Type} : ∀ l : List α, (l.map fun a => [a]).flatten = l
  | [] => rfl
  | a :: l => by rw [List.map_cons, List.flatten_cons, flatten_single l]; rfl

theorem plain_levels (h : Planned P0 P) (hN : NetPlans P ts Ns nws) : ∀ N ∈ Ns, N.level = 0 := by
  intro N hNm
  obtain ⟨t, -, e, once, b, desc, gs, h1⟩ := forall₂_from hN.plans N hNm
  rw [h1.level]
  cases hl : gs.flatten.getLast? with
  | none => rfl
  | some d =>
    obtain ⟨-, h2⟩ := h1.pin (List.mem_of_getLast? hl)
    exact plain_level h h2.level

/-- An end of a line is connected once. -/
theorem plain_distinct (h0 : Parsed.buildBundles order { file := F } = .ok P0) (h00 : Planned P0 P0) (h : Planned P0 P) (hF : F.Plain p)
    (hPF : P.file = F) (hN : NetPlans P ts Ns nws) :
    (Ns.flatMap fun N => N.lines.map fun d => (d.bundleName, N.level, d.end')).Nodup := by
  have hn := plain_names h0 h hF
  rw [List.nodup_flatMap]
  constructor
  · intro N hNm
    obtain ⟨t, -, e, once, b, desc, gs, h1⟩ := forall₂_from hN.plans N hNm
    rw [h1.lines, List.map_map]
    refine List.Nodup.map_on ?_ h1.described.keys.of_map
    rintro ⟨a, x⟩ hx ⟨a', x'⟩ hx' e
    obtain ⟨d, hd, rfl, -, -, e1⟩ := h1.entry hx
    obtain ⟨d', hd', rfl, -, -, e1'⟩ := h1.entry hx'
    have e2 : x.bundleName = x'.bundleName := congrArg Prod.fst e
    have k := plain_pin h0 h00 h (h1.pin hd).2
    have k' := plain_pin h0 h00 h (h1.pin hd').2
    rw [← e1, e2, e1'] at k
    refine List.inj_on_of_nodup_map h1.described.keys hx hx' ?_
    exact home_cable hn k k'
  · have honce : ts.Pairwise fun t t' => ∀ c ∈ t.coordIds.flatten, ∀ c' ∈ t'.coordIds.flatten,
        ∀ cable k k' s s', F.EndAt c cable k s → F.EndAt c' cable k' s' → s ≠ s' := by
      have hp := hF.once
      have hj := hN.joints
      rw [hPF] at hj
      refine (hj.pairwise_iff ?_).2 hp
      intro t t' h c hc c' hc' cable k k' s s' g g' e
      exact h c' hc' c hc cable k' k s' s g' g e.symm
    refine pairwise_along hN.plans honce ?_
    rintro t - t' - N N' hS ⟨e, once, b, desc, gs, h1⟩ ⟨e', once', b', desc', gs', h1'⟩
    intro q hq hq'
    obtain ⟨x, hx, rfl⟩ := List.mem_map.1 hq
    obtain ⟨x', hx', e2⟩ := List.mem_map.1 hq'
    have hs := (h1.accepted.1 x hx).1
    have hs' := (h1'.accepted.1 x' hx').1
    rw [h1.lines] at hx
    rw [h1'.lines] at hx'
    obtain ⟨⟨a, y⟩, hy, rfl⟩ := List.mem_map.1 hx
    obtain ⟨⟨a', y'⟩, hy', rfl⟩ := List.mem_map.1 hx'
    obtain ⟨d, hd, rfl, -, f1, e1⟩ := h1.entry hy
    obtain ⟨d', hd', rfl, -, f1', e1'⟩ := h1'.entry hy'
    simp only [Prod.mk.injEq] at e2
    obtain ⟨m, q⟩ := h1.pin hd
    obtain ⟨m', q'⟩ := h1'.pin hd'
    have k := plain_pin h0 h00 h q
    have k' := plain_pin h0 h00 h q'
    rw [← e1, ← e2.1, e1'] at k
    have hcab := home_cable hn k k'
    have g := q.endAt
    have g' := q'.endAt
    rw [hPF] at g g'
    rw [← hcab] at g'
    have hne := hS _ m _ m' _ _ _ _ _ g g'
    rw [← f1, ← f1'] at hne
    have he := e2.2.2
    simp only [LineConnections.end'] at he
    rcases hs with hs | hs <;> rcases hs' with hs' | hs' <;> simp_all

theorem plain_wellFormed (h0 : Parsed.buildBundles order { file := F } = .ok P0) (h00 : Planned P0 P0) (h : Planned P0 P) (hF : F.Plain p)
    (hPF : P.file = F) (hP0 : P0.file = F) (hQ : List.Forall₂ (PlanOf F) P.bundles Qs) (hN : NetPlans P ts Ns nws) :
    (⟨Qs, Ns.map fun N => [N]⟩ : Program p).WellFormed where
  lines := by
    intro B hB L hL
    obtain ⟨B', -, hQB⟩ := forall₂_from hQ B hB
    obtain ⟨L', h1, -, h2⟩ := hQB.line
    rw [h1, List.mem_singleton] at hL
    rw [hL]
    exact hF.lines _ _ h2
  probes := by
    intro B hB x t hx
    obtain ⟨B', -, hQB⟩ := forall₂_from hQ B hB
    exact hQB.probes hF.probes x t hx
  complete := by
    intro x hx
    obtain ⟨N, hNm, -, h2⟩ := mem_items.1 hx
    simp only [flatten_single] at hNm
    obtain ⟨t, ht, e, once, b, desc, gs, h1⟩ := forall₂_from hN.plans N hNm
    refine h1.complete ?_ (fun c d hd => plain_pin h0 h00 h hd) _ h2
    rw [hPF]
    refine hF.complete t ?_
    have := hN.joints.mem_iff.1 ht
    rwa [hPF] at this
  attached := by
    intro x hx
    obtain ⟨N, hNm, h3, h2⟩ := mem_items.1 hx
    simp only [flatten_single] at hNm
    have hlev := plain_levels h hN N hNm
    obtain ⟨t, ht, e, once, b, desc, gs, h1⟩ := forall₂_from hN.plans N hNm
    rw [h1.lines] at h2
    obtain ⟨⟨a, y⟩, hy, e2⟩ := List.mem_map.1 h2
    obtain ⟨d, hd, rfl, f1, -, f2⟩ := h1.entry hy
    have e2 : y = x.2 := e2
    obtain ⟨B, hB, g1, g2⟩ := (plain_pin h0 h00 h (h1.pin hd).2).home
    obtain ⟨Q, hQm, hQB⟩ := forall₂_mem_left hQ B hB
    obtain ⟨L, k1, k2, -⟩ := hQB.line
    refine ⟨Q, hQm, ?_, ?_⟩
    · rw [hQB.name, g2, ← e2, f2]
    · rw [g1] at k2
      have : d.line = L := by simpa using k2
      rw [h3, hlev, k1, ← e2, f1, this]
      rfl
  distinct := by
    have := plain_distinct h0 h00 h hF hPF hN
    unfold Program.items
    rw [flatten_single, List.map_flatMap]
    simpa [List.map_map, Function.comp_def] using this
  elements := by
    intro N hNm c hc
    simp only [flatten_single] at hNm
    obtain ⟨t, ht, e, once, b, desc, gs, h1⟩ := forall₂_from hN.plans N hNm
    exact (h1.calls c hc).rc
  order := by
    intro N hNm
    simp only [flatten_single] at hNm
    obtain ⟨t, ht, e, once, b, desc, gs, h1⟩ := forall₂_from hN.plans N hNm
    refine List.pairwise_iff_forall_sublist.2 fun hs k1 k2 => ?_
    have q1 := (h1.calls _ (hs.subset (by simp))).branch.1 k1
    exact absurd ((h1.calls _ (hs.subset (by simp))).branch.2 q1) k2

theorem plain_sources (h0 : Parsed.buildBundles order { file := F } = .ok P0) (h00 : Planned P0 P0) (h : Planned P0 P)
    (hPF : P.file = F) (hQ : List.Forall₂ (PlanOf F) P.bundles Qs) (hN : NetPlans P ts Ns nws) {W : Submodule ℝ (ℝ → ℝ)}
    (hW : F.SourcesIn W) : (⟨Qs, Ns.map fun N => [N]⟩ : Program p).SourcesIn W where
  fields := by
    intro B hB c hc
    obtain ⟨B', -, hQB⟩ := forall₂_from hQ B hB
    have := hQB.sources W hW c hc
    cases c <;> exact this
  ends := by
    intro x hx k a
    obtain ⟨N, hNm, h3, h2⟩ := mem_items.1 hx
    simp only [flatten_single] at hNm
    obtain ⟨t, ht, e, once, b, desc, gs, h1⟩ := forall₂_from hN.plans N hNm
    rw [h1.lines] at h2
    obtain ⟨⟨nm, y⟩, hy, e2⟩ := List.mem_map.1 h2
    have e2 : y = x.2 := e2
    obtain ⟨d, hd, rfl, f1, -, f2⟩ := h1.entry hy
    have hz : ∀ k a, y.line.2.eT k a = 0 := by
      rw [f1]
      exact finishedLine_eT (plain_pin h0 h00 h (h1.pin hd).2).line
    subst e2
    rw [hz]
    exact W.zero_mem
  voltages := by
    intro N hNm c hc f hf
    simp only [flatten_single] at hNm
    obtain ⟨t, ht, e, once, b, desc, gs, h1⟩ := forall₂_from hN.plans N hNm
    refine (h1.calls c hc).source W ?_ f hf
    intro q hq g hg
    obtain ⟨d, hd, rfl⟩ := List.mem_map.1 hq
    obtain ⟨-, hp⟩ := h1.pin hd
    have hs := hp.source
    rw [hg, hPF] at hs
    obtain ⟨s, hs1, hs2⟩ := terminalSource_mem hs
    exact hW s hs1 g hs2

/-- The cables of the bundles are different. -/
theorem plain_cables (ho : ValidOrder order) (h0 : Parsed.buildBundles order { file := F } = .ok P0) (h : Planned P0 P)
    (hF : F.Plain p) : (P.bundles.map fun B => lineNames B.levels.flatten).Nodup := by
  have e : (P.bundles.map fun B => lineNames B.levels.flatten) = P0.bundles.map fun B => lineNames B.levels.flatten := by
    have := congrArg (List.map fun x : String × List (List (AnyLine p)) => lineNames x.2.flatten) h.heads
    simpa [List.map_map, Function.comp_def] using this
  rw [e]
  unfold List.Nodup
  rw [List.pairwise_map]
  refine pairwise_along (C124_bundles h0).2.1 hF.cables ?_
  intro d hd d' hd' B B' hS hB hB' e
  obtain ⟨ids, cable, g1, g2, g3⟩ := hF.bundles d hd
  obtain ⟨ids', cable', g1', g2', g3'⟩ := hF.bundles d' hd'
  obtain ⟨L, k1, k2, -⟩ := plain_bundle ho hB g1 g2 g3
  obtain ⟨L', k1', k2', -⟩ := plain_bundle ho hB' g1' g2' g3'
  obtain ⟨a, ha⟩ := List.exists_mem_of_ne_nil _ g2
  obtain ⟨a', ha'⟩ := List.exists_mem_of_ne_nil _ g2'
  refine hS ids ids' g1 g1' a ha a' ha' ?_
  rw [g3 a ha, g3' a' ha', ← k2, ← k2']
  rw [k1, k1'] at e
  have : L.2.name = L'.2.name := by simpa [lineNames] using e
  rw [this]

theorem pin_grounded {group : List ℤ} {g : List (PinData p)} (hpin : List.Forall₂ P.PinAt group g) {c : ℤ} {d : PinData p}
    (hc : P.PinAt c d) (hd : d ∈ g) (hg : P.file.GroundsIn group c) : PinGrounded (g.map PinData.pin) d.pin := by
  rcases hg with ⟨rfl, x, cable, k, s, h1, h2⟩ | ⟨h1, cable, k, s, c', x', cable', k', s', ⟨x, h2⟩, h3, h4, h5⟩
  · left
    cases hpin with
    | cons h3 h4 =>
      cases h4
      rw [List.mem_singleton] at hd
      subst hd
      refine ⟨rfl, ?_⟩
      have := Except.ok.inj (h1.symm.trans hc.cable)
      rw [← (Prod.mk.inj this).1]
      exact h2
  · right
    have e := Except.ok.inj (h2.symm.trans hc.cable)
    simp only [Prod.mk.injEq] at e
    have hlen := hpin.length_eq
    refine ⟨by rw [List.length_map, ← hlen]; exact h1, ?_⟩
    rw [← e.2.2.1]
    obtain ⟨hk, e1⟩ := List.getElem?_eq_some_iff.1 h3
    have q := (List.forall₂_iff_get.1 hpin).2 k hk (hlen ▸ hk)
    simp only [List.get_eq_getElem] at q
    rw [e1] at q
    refine ⟨(g[k]'(hlen ▸ hk)).pin, ?_, ?_⟩
    · rw [List.getElem?_map, List.getElem?_eq_getElem (hlen ▸ hk)]
      rfl
    · have e2 := Except.ok.inj (h4.symm.trans q.cable)
      rw [← (Prod.mk.inj e2).1]
      exact h5

theorem plain_grounded (ho : ValidOrder order) (h0 : Parsed.buildBundles order { file := F } = .ok P0) (h00 : Planned P0 P0)
    (h : Planned P0 P) (hF : F.Plain p) (hPF : P.file = F) (hQ : List.Forall₂ (PlanOf F) P.bundles Qs) (hN : NetPlans P ts Ns nws)
    (hg : F.Grounded) : (⟨Qs, Ns.map fun N => [N]⟩ : Program p).Grounded := by
  intro Q hQm
  obtain ⟨B, hB, hQB⟩ := forall₂_from hQ Q hQm
  obtain ⟨L, hL1, hL2, -⟩ := hQB.line
  -- the cable of the bundle
  obtain ⟨d, hd, ids, hids, id, hid, hcab⟩ : ∃ d ∈ F.bundles, ∃ ids, d.nested = .ids ids ∧ ∃ id ∈ ids, F.cableNameOf id = .ok L.2.name := by
    have : (B.bundle.2.name, B.levels) ∈ P0.bundles.map fun B => (B.bundle.2.name, B.levels) := by
      rw [← h.heads]
      exact List.mem_map.2 ⟨B, hB, rfl⟩
    obtain ⟨B0, hB0, e⟩ := List.mem_map.1 this
    obtain ⟨d, hd, hdB⟩ := forall₂_from (C124_bundles h0).2.1 B0 hB0
    obtain ⟨ids, cable, g1, g2, g3⟩ := hF.bundles d hd
    obtain ⟨L', k1, k2, -⟩ := plain_bundle ho hdB g1 g2 g3
    obtain ⟨a, ha⟩ := List.exists_mem_of_ne_nil _ g2
    refine ⟨d, hd, ids, g1, a, ha, ?_⟩
    rw [g3 a ha]
    have e2 := (Prod.mk.inj e).2
    rw [k1, hL2] at e2
    have : L' = L := by simpa using e2
    rw [← this, k2]
  obtain ⟨t, ht, ⟨c, hc, k, s, hend⟩, hall⟩ := hg d hd ids hids id hid L.2.name hcab
  rw [← hPF] at ht
  obtain ⟨N, hNm, e, once, b, desc, gs, h1⟩ := hN.grounds t ht
  refine ⟨if s = "S" then .S else .L, fun level L' hL' => ?_⟩
  have hlev : level = 0 := by
    rw [hL1] at hL'
    obtain ⟨hl, -⟩ := List.getElem?_eq_some_iff.1 hL'
    simpa using hl
  subst hlev
  refine ⟨N, ?_, plain_levels h hN N hNm, ?_⟩
  · show N ∈ (Ns.map fun N => [N]).flatten
    rw [flatten_single]
    exact hNm
  obtain ⟨d0, hd0, hp0⟩ := h1.coord hc
  obtain ⟨x, hx⟩ := hend
  have e0 := hp0.cable
  rw [hPF] at e0
  have e0 := Except.ok.inj (e0.symm.trans hx)
  simp only [Prod.mk.injEq] at e0
  obtain ⟨⟨nm, y⟩, hy, enm⟩ := List.mem_map.1 ((h1.described.cables d0.cable).2 ⟨d0, hd0, rfl⟩)
  have enm : nm = d0.cable := enm
  subst enm
  refine ⟨y, by rw [h1.lines]; exact List.mem_map.2 ⟨_, hy, rfl⟩, ?_, ?_, ?_⟩
  · obtain ⟨d1, hd1, e1, -, -, e2⟩ := h1.entry hy
    have hm := plain_pin h0 h00 h (h1.pin hd1).2
    obtain ⟨B', hB', g1, g2⟩ := hm.home
    have : B' = B := by
      refine List.inj_on_of_nodup_map (plain_cables ho h0 h hF) hB' hB ?_
      rw [g1, hL2]
      simp only [lineNames, List.flatten_cons, List.flatten_nil, List.append_nil, List.map_cons, List.map_nil]
      rw [hm.name, e1, e0.2.1]
    rw [e2, ← g2, this, hQB.name]
  · obtain ⟨d1, hd1, e1, -, e3, -⟩ := h1.entry hy
    obtain ⟨m1, q1⟩ := h1.pin hd1
    have hcomp := (hF.complete t (by rw [← hPF]; exact List.mem_append_right _ ht)).side
    have g1 := q1.endAt
    rw [e1, hPF] at g1
    have g0 := hp0.endAt
    rw [hPF] at g0
    have := (hcomp _ m1 _ hc _ _ _ _ _ g1 g0).1
    unfold LineConnections.end'
    rw [e3, this, e0.2.2.2]
  · intro z hz
    obtain ⟨d1, hd1, e1, rfl⟩ := (h1.described.connections _ _ hy z).1 hz
    obtain ⟨g, hgm, hd1g⟩ := List.mem_flatten.1 hd1
    obtain ⟨group, hgr, hpins⟩ := forall₂_from h1.pins g hgm
    obtain ⟨c1, hc1, q1⟩ := forall₂_from hpins d1 hd1g
    have g1 := q1.endAt
    rw [e1, hPF, e0.2.1] at g1
    have hgi := hall group hgr c1 hc1 _ _ g1
    rw [← hPF] at hgi
    have := h1.groups g hgm d1.pin (List.mem_map.2 ⟨d1, hd1g, rfl⟩) (pin_grounded hpins q1 hd1g hgi)
    rcases this with ⟨R, Vt, hk⟩ | hk
    · exact .ground hk
    · exact .shortGround hk

/-! ## C161 -/

theorem manager_zero (P : Parsed p) : P.manager 0 = MTLN.new (P.bundles.map fun B => B.bundle) P.networks := by
  unfold Parsed.manager MTLN.new
  simp only [if_true]
  cases (P.bundles.map fun B => B.bundle).foldlM MTLN.addBundle ({} : MTLN p) with
  | error e => rfl
  | ok M =>
    show (do let M ← P.networks.foldlM MTLN.addNetwork M; Except.ok M) = P.networks.foldlM MTLN.addNetwork M
    cases P.networks.foldlM MTLN.addNetwork M <;> rfl

theorem forall₂_keys {l : List (PBundle p)} (h : List.Forall₂ (PlanOf F) l Qs) :
    (l.map fun B => B.bundle.2.name) = Qs.map BundlePlan.name := by
  induction h with
  | nil => rfl
  | cons a _ ih => rw [List.map_cons, List.map_cons, ih, a.name]

/-- **C161.** A plain file is simulated as a well-formed program: its lines are the lines of its cables, its sources are those of
the file, and it is grounded if the terminations of the file connect every cable with the ground.  The manager is set up without
an error. -/
theorem C161_program (ho : ValidOrder order) {j : Json} (hr : j.read = .ok F) (hP : Parsed.new p order j = .ok P) (hF : F.Plain p) :
    ∃ (Q : Program p) (M : MTLN p), Q.make = .ok M ∧ P.manager 0 = .ok M ∧ Q.WellFormed ∧
      (∀ B ∈ Q.bundles, ∀ L ∈ B.lines, F.finishedLine p L.2.name = .ok L) ∧
      (∀ W : Submodule ℝ (ℝ → ℝ), F.SourcesIn W → Q.SourcesIn W) ∧ (F.Grounded → Q.Grounded) := by
  unfold Parsed.new at hP
  obtain ⟨F', hF', hP⟩ := bind_ok_iff.1 hP
  obtain rfl := Except.ok.inj (hF'.symm.trans hr)
  obtain ⟨P0, h0, hP⟩ := bind_ok_iff.1 hP
  obtain ⟨P1, h1, hP⟩ := bind_ok_iff.1 hP
  obtain ⟨P2, h2, h3⟩ := bind_ok_iff.1 hP
  have hf0 := (C124_bundles h0).1
  have h00 := planned_start ho hF h0
  have q1 : Planned P0 P1 := by
    unfold Parsed.addSources at h1
    exact h00.sources (fun s hs => (List.mem_filter.1 hs).1) h1
  have q2 : Planned P0 P2 := by
    unfold Parsed.addProbes at h2
    rw [q1.file] at h2
    exact q1.probes (fun _ h => h) h2
  have hPF : P2.file = F' := q2.file.trans hf0
  obtain ⟨ts, Ns, hN, hP'⟩ := plain_networks hF hPF h3
  obtain ⟨Qs, hQ⟩ := q2.plans
  rw [hf0] at hQ
  have hw := plain_wellFormed h0 h00 q2 hF hPF hf0 hQ hN
  have hb : P.bundles = P2.bundles := by rw [hP']
  have e1 : mapPy BundlePlan.make Qs = .ok (P.bundles.map fun B => B.bundle) := by
    rw [mapPy_ok_iff, hb, List.forall₂_map_right_iff]
    exact hQ.flip.imp fun _ _ h => h.make
  have e2 : mapPy (mapPy NetPlan.make) (Ns.map fun N => [N]) = .ok P.networks := mapPy_ok_iff.2 hN.made
  have e3 : (⟨Qs, Ns.map fun N => [N]⟩ : Program p).make = P.manager 0 := by
    rw [manager_zero]
    unfold Program.make
    simp only [e1, e2]
    rfl
  obtain ⟨M, hM⟩ := (C160_program _ hw).2 ⟨by
      have : Qs.map BundlePlan.name = P2.bundles.map fun B => B.bundle.2.name := by
        exact (forall₂_keys hQ).symm
      show (Qs.map BundlePlan.name).Nodup
      rw [this]
      exact plain_names h0 q2 hF,
    mapPy_exists_iff.1 ⟨_, e1⟩, fun N hNm => by
      simp only [flatten_single] at hNm
      obtain ⟨t, ht, e, once, b, desc, gs, h1⟩ := forall₂_from hN.plans N hNm
      exact ⟨e, h1.make⟩⟩
  refine ⟨_, M, hM, e3 ▸ hM, hw, ?_, fun W hW => plain_sources h0 h00 q2 hPF hQ hN hW, plain_grounded ho h0 h00 q2 hF hPF hQ hN⟩
  intro B hB L hL
  obtain ⟨B', -, hQB⟩ := forall₂_from hQ B hB
  obtain ⟨L', k1, -, k2⟩ := hQB.line
  rw [k1, List.mem_singleton] at hL
  rw [hL]
  exact k2

/-- **C161.** Physical cables have proper lines. -/
theorem C161_lines (hF : F.PhysicalCables) {name : String} {L : AnyLine p} (h : F.finishedLine p name = .ok L) : L.2.Proper :=
  (physical_lines hF h).1

/-- A time step given to the parser does what a time step given to the manager does. -/
theorem manager_dt {M : MTLN p} (h : P.manager 0 = .ok M) (dt : ℝ) : P.manager dt = .ok (M.overrideDt dt) := by
  by_cases h0 : dt = 0
  · subst h0
    have : M.overrideDt 0 = M := by
      unfold MTLN.overrideDt
      rw [if_neg (by simp)]
    rw [this]
    exact h
  obtain ⟨h1, h2, h3, h4, -, -⟩ := C118_manager.1 h
  unfold MTLN.overrideDt
  rw [if_pos h0]
  refine C118_manager.2 ⟨h1, ?_, h3, ?_, fun _ => rfl, fun e => absurd e h0⟩
  · show (M.bundles.map fun b => (⟨b.1, b.2.withDt dt⟩ : AnyBundle p)) = _
    rw [h2]
    unfold Parsed.runBundles
    rw [List.map_map]
    refine List.map_congr_left fun B _ => ?_
    simp [h0]
  · show M.networks = _
    rw [h4]
    refine List.map_congr_left fun nwd _ => List.map_congr_left fun e _ => ?_
    have : e.2.2.2.registered (P.runBundles 0) e.1 = e.2.2.2.registered (P.runBundles dt) e.1 := by
      unfold Network.registered
      have : (fun a => (e.2.2.2.nodes a).registered (P.runBundles 0) e.1) =
          fun a => (e.2.2.2.nodes a).registered (P.runBundles dt) e.1 := by
        funext a
        refine Node.registered_congr ?_ _ _
        rw [runBundles_tags, runBundles_tags]
      rw [this]
    rw [this]

theorem override_run (M : MTLN p) (T dt : ℝ) : (M.overrideDt dt).runUntil T 0 = M.runUntil T dt := by
  have : (M.overrideDt dt).overrideDt 0 = M.overrideDt dt := by
    conv_lhs => unfold MTLN.overrideDt
    rw [if_neg (by simp)]
    rfl
  unfold MTLN.runUntil MTLN.start
  simp only [this]

theorem parsed_run {M M' : MTLN p} (h : P.manager 0 = .ok M) {T dt : ℝ} (hr : M.runUntil T dt = .ok M') :
    ∃ P', P.run T dt = .ok P' ∧ (P'.bundles.map fun B => B.bundle) = M'.bundles := by
  have h1 : P.run T dt = .ok (P.after M') := by
    unfold Parsed.run
    rw [manager_dt h dt]
    show ((M.overrideDt dt).runUntil T 0 >>= fun M => Except.ok (P.after M)) = _
    rw [override_run, hr]
    rfl
  obtain ⟨M1, M2, g1, g2, g3, -⟩ := C118_run.1 h1
  rw [manager_dt h dt] at g1
  cases g1
  rw [override_run, hr] at g2
  cases g2
  exact ⟨_, h1, g3⟩

section

variable {j : Json}

/-- **C161.** The parser runs a plain file for any time, with the time step of its lines or with any positive one. -/
theorem C161_runs (ho : ValidOrder order) (hr : j.read = .ok F) (hP : Parsed.new p order j = .ok P) (hF : F.Plain p) {dt : ℝ}
    (h0 : 0 ≤ dt) (T : ℝ) : ∃ P', P.run T dt = .ok P' := by
  obtain ⟨Q, M, h1, h2, h3, -⟩ := C161_program ho hr hP hF
  obtain ⟨M', hM'⟩ := C159_runs h1 h3 h0 T
  obtain ⟨P', hP', -⟩ := parsed_run h2 hM'
  exact ⟨P', hP'⟩

/-- **C161.** From the file alone: with a time step below those of its lines and bounded sources, voltages and currents grow at
most linearly, and not at all if the sources end. -/
theorem C161_stable (ho : ValidOrder order) (hr : j.read = .ok F) (hP : Parsed.new p order j = .ok P) (hF : F.Plain p) {dt : ℝ}
    (h0 : 0 < dt) (hlt : ∀ name L, F.finishedLine p name = .ok L → dt < L.2.dt) (hs : F.SourcesIn {f | ∃ K, ∀ t, |f t| ≤ K}) :
    (∃ K, ∀ T, ∃ P', P.run T dt = .ok P' ∧ ∀ B ∈ P'.bundles,
      (∀ k ≤ B.bundle.2.m, ∀ a, |B.bundle.2.v k a| ≤ K * (1 + |T|)) ∧ ∀ k < B.bundle.2.m, ∀ a, |B.bundle.2.i k a| ≤ K * (1 + |T|)) ∧
    ∀ t₀, F.SourcesIn {f | ∀ t, t₀ ≤ t → f t = 0} → ∃ K, ∀ T, ∃ P', P.run T dt = .ok P' ∧ ∀ B ∈ P'.bundles,
      (∀ k ≤ B.bundle.2.m, ∀ a, |B.bundle.2.v k a| ≤ K) ∧ ∀ k < B.bundle.2.m, ∀ a, |B.bundle.2.i k a| ≤ K := by
  obtain ⟨Q, M, h1, h2, h3, h4, h5, -⟩ := C161_program ho hr hP hF
  obtain ⟨⟨K, hK⟩, g2⟩ := C159_stable_program h1 h3 h0 (fun B hB L hL => hlt _ L (h4 B hB L hL)) (h5 boundedSources hs)
  have hmem : ∀ {P' : Parsed p} {M' : MTLN p}, (P'.bundles.map fun B => B.bundle) = M'.bundles → ∀ B ∈ P'.bundles, B.bundle ∈ M'.bundles :=
    fun e B hB => e ▸ List.mem_map.2 ⟨B, hB, rfl⟩
  refine ⟨⟨|K|, fun T => ?_⟩, fun t₀ ht => ?_⟩
  · obtain ⟨M', hM', hb⟩ := hK T
    obtain ⟨P', hP', e⟩ := parsed_run h2 hM'
    have htime : M'.time ≤ |T| ∧ 0 ≤ M'.time := by
      rw [(C02_time_step M M' T dt hM').2.2.2, (C159_rest h1 h3).2, zero_add, MTLN.runDt_eq, if_pos h0.ne']
      refine ⟨?_, by positivity⟩
      have : ((⌊T / dt⌋.toNat : ℕ) : ℝ) ≤ |T| / dt := by
        have h6 : ((⌊T / dt⌋.toNat : ℕ) : ℝ) = ((max ⌊T / dt⌋ 0 : ℤ) : ℝ) := by
          rw [← Int.toNat_eq_max]
          rfl
        rw [h6]
        push_cast
        refine max_le ((Int.floor_le _).trans ?_) (by positivity)
        gcongr
        exact le_abs_self T
      calc _ ≤ |T| / dt * dt := by gcongr
        _ = |T| := div_mul_cancel₀ _ h0.ne'
    have hle : K * (1 + M'.time) ≤ |K| * (1 + |T|) :=
      mul_le_mul (le_abs_self K) (by linarith) (by linarith) (abs_nonneg K)
    exact ⟨P', hP', fun B hB => ⟨fun k hk a => ((hb _ (hmem e B hB)).1 k hk a).trans hle,
      fun k hk a => ((hb _ (hmem e B hB)).2 k hk a).trans hle⟩⟩
  · obtain ⟨K, hK⟩ := g2 t₀ (h5 (silentFrom t₀) ht)
    refine ⟨K, fun T => ?_⟩
    obtain ⟨M', hM', hb⟩ := hK T
    obtain ⟨P', hP', e⟩ := parsed_run h2 hM'
    exact ⟨P', hP', fun B hB => hb _ (hmem e B hB)⟩

/-- **C161.** From the file alone: with sources that are constant from a time on, and terminations that connect every cable with
the ground, all voltages and currents settle at the solution of the direct current circuit. -/
theorem C161_settles (ho : ValidOrder order) (hr : j.read = .ok F) (hP : Parsed.new p order j = .ok P) (hF : F.Plain p)
    (hg : F.Grounded) {dt t₀ : ℝ} (h0 : 0 < dt) (hlt : ∀ name L, F.finishedLine p name = .ok L → dt < L.2.dt)
    (hs : F.SourcesIn {f | ∀ t, t₀ ≤ t → f t = f t₀}) :
    ∃ M, P.manager dt = .ok M ∧ ∃ V I, (M.withState V I).DC t₀ ∧
      (∀ x, x ∉ (allNodes M.networks).map Node.end' → endV (M.withState V I).bundles x = 0) ∧
      ∀ ε > 0, ∃ T₀, ∀ T ≥ T₀, ∃ P', P.run T dt = .ok P' ∧ ∀ B ∈ P'.bundles,
        (∀ k ≤ B.bundle.2.m, ∀ a : Fin B.bundle.1, |B.bundle.2.v k a - V B.bundle.2.name k a| ≤ ε) ∧
        ∀ k < B.bundle.2.m, ∀ a : Fin B.bundle.1, |B.bundle.2.i k a - I B.bundle.2.name k a| ≤ ε := by
  obtain ⟨Q, M, h1, h2, h3, h4, h5, h6⟩ := C161_program ho hr hP hF
  obtain ⟨V, I, g1, g2, g3⟩ := C159_settles_program h1 h3 (h6 hg) h0 (fun B hB L hL => hlt _ L (h4 B hB L hL))
    (h5 (constantFrom t₀) hs)
  refine ⟨_, manager_dt h2 dt, V, I, g1, g2, fun ε hε => ?_⟩
  obtain ⟨T₀, hT⟩ := g3 ε hε
  refine ⟨T₀, fun T hTT => ?_⟩
  obtain ⟨M', hM', hb⟩ := hT T hTT
  obtain ⟨P', hP', e⟩ := parsed_run h2 hM'
  exact ⟨P', hP', fun B hB => hb _ (e ▸ List.mem_map.2 ⟨B, hB, rfl⟩)⟩

end

end

/-! ## An example -/

theorem demoSingle_first : demoSingleFile.connectorAndCableInNode 1 =
    .ok ({ connectorType := "Conn_R", resistance := some 1 }, "o", 0, "S") := by
  rfl

theorem demoSingle_last : demoSingleFile.connectorAndCableInNode 3 =
    .ok ({ connectorType := "Conn_R", resistance := some 3 }, "o", 0, "L") := by
  rfl

theorem demoSingle_physical : demoSingleFile.PhysicalCables := by
  refine ⟨?_, ?_, ?_, rfl, .inl rfl⟩
  · intro w hw
    simp only [demoSingleFile, List.mem_singleton] at hw
    subst hw
    exact ⟨.inl ⟨1, 1, rfl, rfl, one_pos, one_pos⟩, by simp⟩
  · intro c hc
    simp only [demoSingleFile, List.mem_singleton] at hc
    subst hc
    exact ⟨2, two_pos, by simp⟩
  · intro c hc id ps h1 h2
    simp only [demoSingleFile, List.mem_singleton] at hc
    subst hc
    obtain rfl : 1 = id := by simpa using h1
    have : demoSingleFile.listOfCoordinates 1 = .ok (some [![0, 0, 0], ![0, 0, 2]]) := rfl
    rw [this] at h2
    cases h2
    exact List.isChain_pair.2 demoSingle_ne

theorem demoSingle_plain : demoSingleFile.Plain p := by
  have e1 : ∀ cable k s, demoSingleFile.EndAt 1 cable k s → cable = "o" ∧ k = 0 ∧ s = "S" := by
    rintro cable k s ⟨x, hx⟩
    rw [demoSingle_first] at hx
    simp only [Except.ok.injEq, Prod.mk.injEq] at hx
    exact ⟨hx.2.1.symm, hx.2.2.1.symm, hx.2.2.2.symm⟩
  have e3 : ∀ cable k s, demoSingleFile.EndAt 3 cable k s → cable = "o" ∧ k = 0 ∧ s = "L" := by
    rintro cable k s ⟨x, hx⟩
    rw [demoSingle_last] at hx
    simp only [Except.ok.injEq, Prod.mk.injEq] at hx
    exact ⟨hx.2.1.symm, hx.2.2.1.symm, hx.2.2.2.symm⟩
  have hone : ∀ {name : String} {L : AnyLine p}, demoSingleFile.finishedLine p name = .ok L → L.1 = 1 := by
    intro name L h
    refine (physical_lines demoSingle_physical h).2 fun w hw => ?_
    simp only [demoSingleFile, List.mem_singleton] at hw
    exact ⟨1, by rw [hw]⟩
  refine ⟨?_, ?_, ?_, fun name L h => C161_lines demoSingle_physical h, ?_, ?_, ?_, ?_, ?_, ?_⟩
  · intro d hd
    simp only [demoSingleFile, List.mem_singleton] at hd
    subst hd
    refine ⟨[1], "o", rfl, by simp, fun id hid => ?_⟩
    rw [List.mem_singleton.1 hid]
    rfl
  · simp [demoSingleFile]
  · simp [demoSingleFile]
  · simp [demoSingleFile]
  · intro m hm
    simp only [demoSingleFile, List.mem_cons, List.not_mem_nil, or_false] at hm
    rcases hm with rfl | rfl <;> refine ⟨?_, ?_, ?_, ?_, ?_, ?_⟩ <;> simp
  · exact List.Pairwise.nil
  · refine List.pairwise_pair.2 ?_
    rintro ⟨x, ⟨c, cs, r, h1, h2⟩, c', cs', r', h3, h4⟩
    simp only [List.cons.injEq] at h1 h3
    obtain ⟨⟨rfl, -⟩, -⟩ := h1
    obtain ⟨⟨rfl, -⟩, -⟩ := h3
    have q1 : demoSingleFile.coordinate 1 = .ok ![0, 0, 0] := rfl
    have q3 : demoSingleFile.coordinate 3 = .ok ![0, 0, 2] := rfl
    exact demoSingle_ne (Except.ok.inj ((q1.symm.trans h2).trans (h4.symm.trans q3)))
  · intro t ht
    have : t = ⟨"first", [[1]]⟩ ∨ t = ⟨"second", [[3]]⟩ := by simpa [demoSingleFile] using ht
    rcases this with rfl | rfl
    · refine ⟨?_, ?_⟩
      · simp only [List.flatten_cons, List.flatten_nil, List.append_nil, List.mem_singleton]
        rintro c rfl c' rfl cable k k' s s' q q'
        exact ⟨(e1 _ _ _ q).2.2.trans (e1 _ _ _ q').2.2.symm, fun _ => rfl⟩
      · simp only [List.flatten_cons, List.flatten_nil, List.append_nil, List.mem_singleton]
        rintro c rfl cable k s L q hL k' hk'
        rw [hone hL] at hk'
        obtain rfl : k' = 0 := by omega
        obtain ⟨rfl, rfl, rfl⟩ := e1 _ _ _ q
        exact ⟨1, rfl, _, q⟩
    · refine ⟨?_, ?_⟩
      · simp only [List.flatten_cons, List.flatten_nil, List.append_nil, List.mem_singleton]
        rintro c rfl c' rfl cable k k' s s' q q'
        exact ⟨(e3 _ _ _ q).2.2.trans (e3 _ _ _ q').2.2.symm, fun _ => rfl⟩
      · simp only [List.flatten_cons, List.flatten_nil, List.append_nil, List.mem_singleton]
        rintro c rfl cable k s L q hL k' hk'
        rw [hone hL] at hk'
        obtain rfl : k' = 0 := by omega
        obtain ⟨rfl, rfl, rfl⟩ := e3 _ _ _ q
        exact ⟨3, rfl, _, q⟩
  · refine List.pairwise_pair.2 ?_
    simp only [List.flatten_cons, List.flatten_nil, List.append_nil, List.mem_singleton]
    rintro c rfl c' rfl cable k k' s s' q q'
    rw [(e1 _ _ _ q).2.2, (e3 _ _ _ q').2.2]
    decide

theorem demoSingle_grounded : demoSingleFile.Grounded := by
  intro d hd ids hids id hid cable hc
  simp only [demoSingleFile, List.mem_singleton] at hd
  subst hd
  cases hids
  rw [List.mem_singleton] at hid
  subst hid
  have e : demoSingleFile.cableNameOf 1 = .ok "o" := rfl
  obtain rfl : "o" = cable := Except.ok.inj (e.symm.trans hc)
  refine ⟨⟨"first", [[1]]⟩, by simp [demoSingleFile], ⟨1, by simp, 0, "S", _, demoSingle_first⟩, ?_⟩
  intro group hg c hcm k s _
  obtain rfl := List.mem_singleton.1 hg
  obtain rfl := List.mem_singleton.1 hcm
  exact .inl ⟨rfl, _, _, _, _, demoSingle_first, .inr ⟨.inl rfl, 1, rfl, one_ne_zero⟩⟩

/-- **C161** is not empty: the voltages and currents of the file of **C142** settle. -/
theorem C161_example (order : List String → List String) (ho : ValidOrder order) :
    ∃ (P : Parsed p) (dt : ℝ), Parsed.new p order demoSingle = .ok P ∧ 0 < dt ∧ ∃ V I : String → ℕ → ℕ → ℝ,
      ∀ ε > 0, ∃ T₀, ∀ T ≥ T₀, ∃ P', P.run T dt = .ok P' ∧ ∀ B ∈ P'.bundles,
        (∀ k ≤ B.bundle.2.m, ∀ a : Fin B.bundle.1, |B.bundle.2.v k a - V B.bundle.2.name k a| ≤ ε) ∧
        ∀ k < B.bundle.2.m, ∀ a : Fin B.bundle.1, |B.bundle.2.i k a - I B.bundle.2.name k a| ≤ ε := by
  obtain ⟨P, -, -, -, hP, -⟩ := C142_example (p := p) order ho 0
  obtain ⟨Q, M, -, -, -, h4, -⟩ := C161_program ho demoSingle_read hP demoSingle_plain
  have hone : ∃ dt : ℝ, 0 < dt ∧ ∀ name L, demoSingleFile.finishedLine p name = .ok L → dt < L.2.dt := by
    have hname : ∀ name L, demoSingleFile.finishedLine p name = .ok L → name = "o" := by
      intro name L h
      unfold File.finishedLine File.buildLine at h
      simp only [bind_ok_iff] at h
      obtain ⟨L0, ⟨c, hc, -⟩, -⟩ := h
      unfold File.cableFromLineName at hc
      split at hc
      · cases hc
      · rename_i _ c0 hf
        have h1 := List.find?_some hf
        have h2 := List.mem_of_find?_eq_some hf
        simp only [demoSingleFile, List.mem_singleton] at h2
        subst h2
        exact (by simpa using h1 : "o" = name).symm
    by_cases h : ∃ L, demoSingleFile.finishedLine p "o" = .ok L
    · obtain ⟨L, hL⟩ := h
      have hp := C161_lines demoSingle_physical hL
      have hd : 0 < L.2.dt := (maxTimestep_spec hp.dt fun k hk => (hp.dun k hk).le).1
      refine ⟨L.2.dt / 2, half_pos hd, fun name L' h => ?_⟩
      have := hname _ _ h
      subst this
      obtain rfl := Except.ok.inj (h.symm.trans hL)
      exact half_lt_self hd
    · refine ⟨1, one_pos, fun name L' h' => ?_⟩
      have := hname _ _ h'
      subst this
      exact absurd ⟨L', h'⟩ h
  obtain ⟨dt, hdt, hlt⟩ := hone
  obtain ⟨-, -, V, I, -, -, h⟩ := C161_settles (t₀ := 2) ho demoSingle_read hP demoSingle_plain demoSingle_grounded hdt hlt (by
    intro s hs f hf t ht
    simp only [demoSingleFile, List.mem_singleton] at hs
    subst hs
    have e : ∀ t, f t = demoSingleRamp t := by
      intro t
      have := (hf t).symm.trans (show Magnitude.eval { type := "ramp", amplitude := some 1, t0 := some 1 } t =
        .ok (some (demoSingleRamp t)) by simp [Magnitude.eval, pyKey, rampPulse, demoSingleRamp, bind, Except.bind])
      simpa using this
    have one : ∀ t, 2 ≤ t → demoSingleRamp t = 1 := by
      intro t ht
      have h1 : ¬ t ≤ 1 := by linarith
      have h2 : t ≥ 1 := by linarith
      simp [demoSingleRamp, ind, h1, h2]
    rw [e t, e 2, one t ht, one 2 le_rfl])
  exact ⟨P, dt, hP, hdt, V, I, h⟩

end Mtln
