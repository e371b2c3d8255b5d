import Verif.Lemmas.PlainBundles
import Verif.Lemmas.PlainNetworks
import Verif.Props.ParserLookup
import Verif.Props.ParserRepeat

/-! # The lines, the look-ups and the joints of files of cables without shields -/

namespace Mtln

variable {n p : ℕ}

/-! ## Lines -/

theorem addEndResistance_eT {F : File} {c : Cable} {L L' : AnyLine p} {e : CableEnd}
    (h : F.addEndResistance c L e = .ok L') (h0 : ∀ k a, L.2.eT k a = 0) : ∀ k a, L'.2.eT k a = 0 := by
  unfold File.addEndResistance at h
  obtain ⟨node, -, h⟩ := bind_ok_iff.1 h
  obtain ⟨⟨el, side⟩, -, h⟩ := bind_ok_iff.1 h
  by_cases hel : el ∈ c.elemIds
  · simp only [if_pos hel] at h
    obtain ⟨x, -, h⟩ := bind_ok_iff.1 h
    obtain ⟨conn, -, h⟩ := bind_ok_iff.1 h
    obtain ⟨R, -, h⟩ := bind_ok_iff.1 h
    obtain ⟨s', hs, h⟩ := bind_ok_iff.1 h
    injection h with h
    subst h
    unfold MTL.setResistanceInRegion at hs
    simp only [bind_ok_iff] at hs
    obtain ⟨_, -, v, -, r, -, hs⟩ := hs
    unfold MTL.updateLrTerms at hs
    obtain ⟨lr, -, hs⟩ := bind_ok_iff.1 hs
    injection hs with hs
    subst hs
    exact h0
  · simp only [if_neg hel, Except.ok.injEq] at h
    rw [← h]
    exact h0

theorem addEndResistances_eT {F : File} {L L' : AnyLine p} (h : F.addEndResistances L = .ok L') (h0 : ∀ k a, L.2.eT k a = 0) :
    ∀ k a, L'.2.eT k a = 0 := by
  unfold File.addEndResistances at h
  generalize F.cables.filter _ = cs at h
  have inner : ∀ (es : List CableEnd) (c : Cable) (A B : AnyLine p), es.foldlM (F.addEndResistance c) A = .ok B →
      (∀ k a, A.2.eT k a = 0) → ∀ k a, B.2.eT k a = 0 := by
    intro es c
    induction es with
    | nil => intro A B h h0; simp only [List.foldlM_nil, pure, Except.pure, Except.ok.injEq] at h; rw [← h]; exact h0
    | cons e es ih =>
      intro A B h h0
      rw [List.foldlM_cons] at h
      obtain ⟨C, h1, h2⟩ := bind_ok_iff.1 h
      exact ih C B h2 (addEndResistance_eT h1 h0)
  induction cs generalizing L with
  | nil => simp only [List.foldlM_nil, pure, Except.pure, Except.ok.injEq] at h; rw [← h]; exact h0
  | cons c cs ih =>
    rw [List.foldlM_cons] at h
    obtain ⟨C, h1, h2⟩ := bind_ok_iff.1 h
    exact ih (inner _ _ _ _ h1 h0) h2

/-- The line of a cable has no transverse field. -/
theorem finishedLine_eT {F : File} {name : String} {L : AnyLine p} (h : F.finishedLine p name = .ok L) :
    ∀ k a, L.2.eT k a = 0 := by
  unfold File.finishedLine at h
  obtain ⟨L1, h1, h⟩ := bind_ok_iff.1 h
  obtain ⟨L2, h2, h3⟩ := bind_ok_iff.1 h
  have e1 : ∀ k a, L1.2.eT k a = 0 := by
    unfold File.buildLine at h1
    obtain ⟨c, hc, h1⟩ := bind_ok_iff.1 h1
    obtain ⟨el, -, h1⟩ := bind_ok_iff.1 h1
    obtain ⟨pos, -, h1⟩ := bind_ok_iff.1 h1
    obtain ⟨w, -, h1⟩ := bind_ok_iff.1 h1
    obtain ⟨⟨l, c', r⟩, -, h1⟩ := bind_ok_iff.1 h1
    cases pos with
    | none => cases h1
    | some pos =>
      obtain ⟨n, s⟩ := L1
      obtain ⟨la, ca, ga, ra, zsa, zla, mem, dt, -, -, -, -, -, -, -, h⟩ := new_ok_iff.1 h1
      obtain ⟨-, -, -, rfl⟩ := computeTerminalTerms_ok_iff.1 h
      intro k a
      rfl
  have e2 := addEndResistances_eT h2 e1
  by_cases h0 : F.lumped = []
  · rw [(C84_first_partial (L' := L)).1 h0, Except.ok.injEq] at h3
    rw [← h3]
    exact e2
  · obtain ⟨e, c, M, x, xs, k, s, -, -, -, -, -, hs, rfl⟩ := (C84_first_partial.2 h0).1 h3
    unfold MTL.addDispersiveConnector at hs
    obtain ⟨conn, -, hs⟩ := bind_ok_iff.1 hs
    injection hs with hs
    subst hs
    exact e2

/-! ## Look-ups -/

theorem Planned.bundle {P0 P : Parsed p} (h : Planned P0 P) {B : PBundle p} (hB : B ∈ P.bundles) :
    ∃ L, B.levels = [[L]] ∧ P0.file.finishedLine p L.2.name = .ok L := by
  obtain ⟨Qs, hQ⟩ := h.plans
  obtain ⟨Q, -, hQB⟩ := forall₂_mem_left hQ B hB
  obtain ⟨L, -, h1, h2⟩ := hQB.line
  exact ⟨L, h1, h2⟩

theorem Planned.same {P0 P : Parsed p} (h : Planned P0 P) {B : PBundle p} (hB : B ∈ P0.bundles) :
    ∃ B' ∈ P.bundles, B'.levels = B.levels ∧ B'.bundle.2.name = B.bundle.2.name := by
  have : (B.bundle.2.name, B.levels) ∈ P.bundles.map fun B => (B.bundle.2.name, B.levels) := by
    rw [h.heads]
    exact List.mem_map.2 ⟨B, hB, rfl⟩
  obtain ⟨B', hB', e⟩ := List.mem_map.1 this
  exact ⟨B', hB', (Prod.mk.inj e).2, (Prod.mk.inj e).1⟩

/-- What the look-ups give. -/
structure Parsed.Home (P : Parsed p) (cable : String) (L : AnyLine p) (bundle : String) : Prop where
  name : L.2.name = cable
  line : P.file.finishedLine p cable = .ok L
  home : ∃ B ∈ P.bundles, B.levels = [[L]] ∧ B.bundle.2.name = bundle

theorem plain_home {order : List String → List String} {F : File} {P0 P : Parsed p}
    (h0 : Parsed.buildBundles order { file := F } = .ok P0) (h00 : Planned P0 P0) (h : Planned P0 P) {cable bundle : String} {L : AnyLine p}
    (hL : dictGet P.nameToLine cable = .ok L) (hb : dictGet P.nameToBundle cable = .ok bundle) : P.Home cable L bundle := by
  rw [h.lines] at hL
  rw [h.homes] at hb
  have hL := ((C125_dictionaries h0 cable).1 L).1 hL
  have hb := ((C125_dictionaries h0 cable).2 bundle).1 hb
  have hn : L.2.name = cable := by obtain ⟨_, _, -, e, -⟩ := hL; exact e
  have hm := List.mem_reverse.1 hL.mem
  unfold allLines at hm
  obtain ⟨B1, hB1, hm⟩ := List.mem_flatMap.1 hm
  obtain ⟨L1, e1, f1⟩ := h00.bundle hB1
  rw [e1] at hm
  have : L = L1 := by simpa using hm
  subst this
  rw [hn] at f1
  obtain ⟨k, B, hB, ⟨L', hL', hn'⟩, rfl, -⟩ := (homes_last P0.bundles cable bundle).1 hb
  have hB := List.mem_of_getElem? hB
  obtain ⟨L2, e2, f2⟩ := h00.bundle hB
  rw [e2] at hL'
  have : L' = L2 := by simpa using hL'
  subst this
  rw [hn'] at f2
  obtain rfl := Except.ok.inj (f1.symm.trans f2)
  obtain ⟨B', hB', g1, g2⟩ := h.same hB
  exact ⟨hn, by rw [h.file]; exact f1, B', hB', by rw [g1, e2], g2⟩

theorem plain_level {P0 P : Parsed p} (h : Planned P0 P) {cable : String} {k : ℕ} (hk : P.levelOfCable cable = .ok k) : k = 0 := by
  unfold Parsed.levelOfCable at hk
  cases hf : P.bundles.findSome? fun B => B.levels.findIdx? fun lines => decide (cable ∈ lineNames lines) with
  | none => rw [hf] at hk; cases hk
  | some j =>
    rw [hf] at hk
    obtain rfl := Except.ok.inj hk
    obtain ⟨B, hB, hj⟩ := List.exists_of_findSome?_eq_some hf
    obtain ⟨L, e, -⟩ := h.bundle hB
    rw [e] at hj
    have := (List.findIdx?_eq_some_iff_getElem.1 hj).1
    simpa using this

/-! ## Joints -/

/-- The groups of joints at different positions have one joint each. -/
theorem groups_single {F : File} {ts : List Joint} {gs : List (List Joint)} (h : F.groupJoints ts = .ok gs)
    (hp : ts.Pairwise fun t t' => ¬ ∃ x, F.JointAt t x ∧ F.JointAt t' x) : ∃ ts' : List Joint, ts'.Perm ts ∧ gs = ts'.map fun t => [t] := by
  obtain ⟨h1, h2, h3⟩ := C82_partition h
  have hs : ∀ g ∈ gs, ∃ t, g = [t] := by
    intro g hg
    obtain ⟨h4, h5⟩ := h2 g hg
    have hpg := hp.sublist h5
    match g, h4 with
    | [t], _ => exact ⟨t, rfl⟩
    | a :: b :: g, _ =>
      exfalso
      have := (h3 _ hg a (by simp) b (h5.subset (by simp))).1 (by simp)
      exact (List.pairwise_cons.1 hpg).1 b (by simp) this
  refine ⟨gs.flatten, h1, ?_⟩
  clear h h1 h2 h3
  induction gs with
  | nil => rfl
  | cons g gs ih =>
    obtain ⟨t, rfl⟩ := hs g (by simp)
    rw [List.flatten_cons, List.singleton_append, List.map_cons, ← ih fun g hg => hs g (List.mem_cons_of_mem _ hg)]

/-- The network of a single joint. -/
theorem jointNetworks_single {P : Parsed p} {once : Bool} {f : ∀ {N S}, Network N S → List Pin → Py (Network N S)} {t : Joint}
    {d : NetworkD} (h : P.jointNetworks once f [t] = .ok d) : ∃ e, P.jointNetwork once f t = .ok e ∧ d = [e] := by
  unfold Parsed.jointNetworks at h
  rw [List.foldlM_cons] at h
  obtain ⟨d1, h1, h⟩ := bind_ok_iff.1 h
  obtain ⟨e, h2, h1⟩ := bind_ok_iff.1 h1
  obtain rfl := Except.ok.inj h1
  obtain rfl := Except.ok.inj h
  exact ⟨e, h2, by simp [dictSet]⟩

/-- `N` is the plan of the network `e` of a joint. -/
structure JointPlan (P : Parsed p) (G : List Pin → List Call → Prop) (t : Joint) (N : NetPlan p) (e : ℕ × AnyNetwork)
    (once : Bool) (b : Prop) (desc : List (String × LineConnections p)) (gs : List (List (PinData p))) : Prop where
  make : N.make = .ok e
  lines : N.lines = desc.map Prod.snd
  pins : List.Forall₂ (List.Forall₂ P.PinAt) t.coordIds gs
  described : Described once gs.flatten desc
  level : N.level = (gs.flatten.getLast?.map PinData.level).getD 0
  calls : ∀ c ∈ N.calls, c.For (gs.flatten.map PinData.pin) b
  groups : ∀ g ∈ gs, G (g.map PinData.pin) N.calls

section

variable {P : Parsed p} {G : List Pin → List Call → Prop} {t : Joint} {N : NetPlan p} {e : ℕ × AnyNetwork}
    {once : Bool} {b : Prop} {desc : List (String × LineConnections p)} {gs : List (List (PinData p))}

theorem JointPlan.flat (h : JointPlan P G t N e once b desc gs) : List.Forall₂ P.PinAt t.coordIds.flatten gs.flatten := by
  have h1 := h.pins
  generalize t.coordIds = cs at h1
  clear h
  induction h1 with
  | nil => exact .nil
  | cons a _ ih =>
    rw [List.flatten_cons, List.flatten_cons]
    exact List.rel_append a ih

theorem JointPlan.pin (h : JointPlan P G t N e once b desc gs) {d : PinData p} (hd : d ∈ gs.flatten) :
    d.pin.node ∈ t.coordIds.flatten ∧ P.PinAt d.pin.node d := by
  obtain ⟨c, hc, h1⟩ := forall₂_from h.flat d hd
  rw [h1.node]
  exact ⟨hc, h1⟩

theorem JointPlan.coord (h : JointPlan P G t N e once b desc gs) {c : ℤ} (hc : c ∈ t.coordIds.flatten) :
    ∃ d ∈ gs.flatten, P.PinAt c d := by
  obtain ⟨d, hd, h1⟩ := forall₂_mem_left h.flat c hc
  exact ⟨d, hd, h1⟩

theorem Parsed.PinAt.endAt {c : ℤ} {d : PinData p} (h : P.PinAt c d) : P.file.EndAt c d.cable d.pin.conductor d.side :=
  ⟨_, h.cable⟩

/-- The line of an entry of the description. -/
theorem JointPlan.entry (h : JointPlan P G t N e once b desc gs) {name : String} {x : LineConnections p} (hx : (name, x) ∈ desc) :
    ∃ d ∈ gs.flatten, d.cable = name ∧ x.line = d.line ∧ x.side = d.side ∧ x.bundleName = d.bundle := by
  obtain ⟨d, hd, h1⟩ := h.described.first name x hx
  refine ⟨d, hd.mem, ?_, h1⟩
  obtain ⟨_, _, -, e, -⟩ := hd
  exact e

theorem JointPlan.accepted (h : JointPlan P G t N e once b desc gs) :
    (∀ d ∈ N.lines, (d.side = "S" ∨ d.side = "L") ∧ ∀ c ∈ d.connections, d.Allows c) ∧
      (N.lines.flatMap fun d => d.connections.map Connection.id).Nodup := by
  have := h.make
  simp only [NetPlan.make, bind_ok_iff] at this
  obtain ⟨nw, h1, -⟩ := this
  exact (C160_network N.lines).1 ⟨nw, h1⟩

/-- All conductors of the lines are connected. -/
theorem JointPlan.complete (h : JointPlan P G t N e once b desc gs) (hc : P.file.JointComplete p t)
    (hl : ∀ c d, P.PinAt c d → P.Home d.cable d.line d.bundle) :
    ∀ x ∈ N.lines, x.Complete := by
  intro x hx
  obtain ⟨h1, h2⟩ := h.accepted
  have hids : (x.connections.map Connection.id).Nodup := (List.nodup_flatMap.1 h2).1 x hx
  have hx' := hx
  rw [h.lines] at hx'
  obtain ⟨⟨name, x'⟩, hm, e⟩ := List.mem_map.1 hx'
  obtain rfl : x' = x := e
  obtain ⟨d, hd, rfl, h3, h4, h5⟩ := h.entry hm
  have hconn := h.described.connections _ _ hm
  have hinj : ∀ c ∈ x'.connections, ∀ c' ∈ x'.connections, c.conductor = c'.conductor → c = c' := by
    intro c hc1 c' hc2 e
    refine List.inj_on_of_nodup_map hids hc1 hc2 ?_
    obtain ⟨d1, hd1, e1, rfl⟩ := (hconn c).1 hc1
    obtain ⟨d2, hd2, e2, rfl⟩ := (hconn c').1 hc2
    obtain ⟨m1, q1⟩ := h.pin hd1
    obtain ⟨m2, q2⟩ := h.pin hd2
    exact (hc.side _ m1 _ m2 d.cable _ _ _ _ (e1 ▸ q1.endAt) (e2 ▸ q2.endAt)).2 e
  refine (List.perm_ext_iff_of_nodup (List.Nodup.map_on (fun c hc1 c' hc2 => hinj c hc1 c' hc2) hids.of_map) List.nodup_range).2 fun k => ?_
  rw [List.mem_range]
  constructor
  · intro hk
    obtain ⟨c, hc1, rfl⟩ := List.mem_map.1 hk
    exact ((h1 _ hx).2 c hc1).2.2.2
  · intro hk
    obtain ⟨m1, q1⟩ := h.pin hd
    rw [h3] at hk
    obtain ⟨c', hc', s', g⟩ := hc.all _ m1 d.cable _ _ _ q1.endAt (hl _ _ q1).line k hk
    obtain ⟨d', hd', q'⟩ := h.coord hc'
    obtain ⟨y, hy⟩ := g
    have := Except.ok.inj (hy.symm.trans q'.cable)
    simp only [Prod.mk.injEq] at this
    refine List.mem_map.2 ⟨d'.connection, (hconn _).2 ⟨d', hd', this.2.1.symm, rfl⟩, ?_⟩
    exact this.2.2.1.symm

end

/-- The plans of all joints. -/
theorem joints_plans {P : Parsed p} {once : Bool} {f : ∀ {N S}, Network N S → List Pin → Py (Network N S)} {b : Prop}
    {G : List Pin → List Call → Prop} (hG : ∀ a l l', (∀ c ∈ l, c ∈ l') → G a l → G a l')
    (hf : ∀ {N S : ℕ} (nw nw' : Network N S) (g : List Pin), f nw g = .ok nw' → (∀ e ∈ g, e.connector.IsRC) →
      ∃ l : List Call, nw.calls l = .ok nw' ∧ (∀ c ∈ l, c.For g b) ∧ G g l)
    (hc : ∀ m ∈ P.file.connectors, m.connector.IsRC) {ts : List Joint} {gs : List (List Joint)} {ds : List NetworkD}
    (hg : P.file.groupJoints ts = .ok gs) (hd : mapPy (P.jointNetworks once f) gs = .ok ds)
    (hp : ts.Pairwise fun t t' => ¬ ∃ x, P.file.JointAt t x ∧ P.file.JointAt t' x) :
    ∃ (ts' : List Joint) (Ns : List (NetPlan p)), ts'.Perm ts ∧
      List.Forall₂ (fun t N => ∃ e desc gs, JointPlan P G t N e once b desc gs) ts' Ns ∧
      List.Forall₂ (fun Ns d => mapPy NetPlan.make Ns = .ok d) (Ns.map fun N => [N]) ds := by
  obtain ⟨ts', h1, rfl⟩ := groups_single hg hp
  have h2 := mapPy_ok_iff.1 hd
  have key : ∃ Ns : List (NetPlan p), List.Forall₂ (fun t N => ∃ e desc gs, JointPlan P G t N e once b desc gs) ts' Ns ∧
      List.Forall₂ (fun Ns d => mapPy NetPlan.make Ns = .ok d) (Ns.map fun N => [N]) ds := by
    clear h1 hd hg
    induction ts' generalizing ds with
    | nil => cases h2; exact ⟨[], .nil, .nil⟩
    | cons t ts' ih =>
      rw [List.map_cons] at h2
      cases h2 with
      | cons h3 h4 =>
        obtain ⟨Ns, h5, h6⟩ := ih h4
        obtain ⟨e, h7, rfl⟩ := jointNetworks_single h3
        obtain ⟨N, desc, gs, k1, k2, k3, k4, k5, k6, k7⟩ := joint_plan hG hf h7 hc
        exact ⟨N :: Ns, .cons ⟨e, desc, gs, k1, k2, k3, k4, k5, k6, k7⟩ h5, .cons (mapPy_ok_iff.2 (.cons k1 .nil)) h6⟩
  obtain ⟨Ns, h5, h6⟩ := key
  exact ⟨ts', Ns, h1, h5, h6⟩

theorem pairwise_along {α β : Type} {R : α → β → Prop} {S : α → α → Prop} {T : β → β → Prop} {l : List α} {l' : List β}
    (h : List.Forall₂ R l l') (hl : l.Pairwise S) (hT : ∀ a ∈ l, ∀ a' ∈ l, ∀ b b', S a a' → R a b → R a' b' → T b b') : l'.Pairwise T := by
  induction h with
  | nil => exact .nil
  | @cons a b l l' hab hl' ih =>
    rw [List.pairwise_cons] at hl ⊢
    refine ⟨fun b' hb' => ?_, ih hl.2 fun a ha a' ha' => hT a (List.mem_cons_of_mem _ ha) a' (List.mem_cons_of_mem _ ha')⟩
    obtain ⟨a', ha', h'⟩ := forall₂_from hl' b' hb'
    exact hT a List.mem_cons_self a' (List.mem_cons_of_mem _ ha') b b' (hl.1 a' ha') hab h'

/-- Junctions and terminations of a plain file: the plans of their networks. -/
structure NetPlans (P : Parsed p) (ts : List Joint) (Ns : List (NetPlan p)) (nws : List NetworkD) : Prop where
  made : List.Forall₂ (fun Ns d => mapPy NetPlan.make Ns = .ok d) (Ns.map fun N => [N]) nws
  joints : ts.Perm (P.file.junctions ++ P.file.terminations)
  plans : List.Forall₂ (fun t N => ∃ e once b desc gs, JointPlan P (fun _ _ => True) t N e once b desc gs) ts Ns
  grounds : ∀ t ∈ P.file.terminations, ∃ N ∈ Ns, ∃ e once b desc gs,
    JointPlan P (fun g l => ∀ e ∈ g, PinGrounded g e → GroundedBy l e.node) t N e once b desc gs

theorem JointPlan.any {P : Parsed p} {G : List Pin → List Call → Prop} {t : Joint} {N : NetPlan p} {e : ℕ × AnyNetwork}
    {once : Bool} {b : Prop} {desc : List (String × LineConnections p)} {gs : List (List (PinData p))}
    (h : JointPlan P G t N e once b desc gs) : JointPlan P (fun _ _ => True) t N e once b desc gs :=
  ⟨h.make, h.lines, h.pins, h.described, h.level, h.calls, fun _ _ => trivial⟩

theorem plain_networks {F : File} (hF : F.Plain p) {P P' : Parsed p} (hPF : P.file = F) (h : P.buildNetworks = .ok P') :
    ∃ ts Ns, NetPlans P ts Ns P'.networks ∧ P' = { P with networks := P'.networks } := by
  unfold Parsed.buildNetworks at h
  obtain ⟨js, h1, h⟩ := bind_ok_iff.1 h
  obtain ⟨ds, h2, h⟩ := bind_ok_iff.1 h
  obtain rfl := Except.ok.inj h
  unfold Parsed.buildJunctions at h1
  obtain ⟨gj, h3, h1⟩ := bind_ok_iff.1 h1
  unfold Parsed.buildTerminations at h2
  obtain ⟨gt, h4, h2⟩ := bind_ok_iff.1 h2
  subst hPF
  obtain ⟨tj, Nj, a1, a2, a3⟩ := joints_plans (G := fun _ _ => True) (b := True) (fun _ _ _ _ _ => trivial)
    (fun nw nw' g hg hgc => by
      obtain ⟨l, k1, k2⟩ := join_rc hg hgc
      exact ⟨l, k1, k2, trivial⟩) hF.connectors h3 h1 hF.junctions
  obtain ⟨tt, Nt, b1, b2, b3⟩ := joints_plans (G := fun g l => ∀ e ∈ g, PinGrounded g e → GroundedBy l e.node) (b := False)
    (fun g l l' hs h e he hg => (h e he hg).mono hs)
    (fun nw nw' g hg hgc => terminate_rc hg hgc) hF.connectors h4 h2 hF.terminations
  refine ⟨tj ++ tt, Nj ++ Nt, ⟨?_, a1.append b1, ?_, ?_⟩, rfl⟩
  · rw [List.map_append]
    exact List.rel_append a3 b3
  · refine List.rel_append (a2.imp ?_) (b2.imp ?_)
    · rintro t N ⟨e, desc, gs, h⟩
      exact ⟨e, _, _, desc, gs, h⟩
    · rintro t N ⟨e, desc, gs, h⟩
      exact ⟨e, _, _, desc, gs, h.any⟩
  · intro t ht
    obtain ⟨N, hN, e, desc, gs, h⟩ := forall₂_mem_left b2 t (b1.mem_iff.2 ht)
    exact ⟨N, List.mem_append_right _ hN, e, _, _, desc, gs, h⟩

end Mtln
