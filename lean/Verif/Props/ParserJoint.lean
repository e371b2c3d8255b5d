import Verif.Props.ParserJunction

/-! # The nodes and the level of the network of a joint: C119, C127; all networks of a file: C128 -/

namespace Mtln

open Matrix

variable {n p N S : ℕ}

/-! ## The description of a joint -/

theorem described_nil (once : Bool) : Described (p := p) once [] [] := by
  refine ⟨by simp, by simp, ?_, ?_, ?_⟩ <;> intro name e he <;> simp at he

/-- The loop over the coordinates of one group. -/
theorem describeGroup_effect {P : Parsed p} {once : Bool} {ds : List (PinData p)} {B B' : JointBuild p} {coords : List ℤ}
    (hds : ∀ d ∈ ds, P.PinAt d.pin.node d) (hd : Described once ds B.description)
    (h : P.describeGroup once B coords = .ok B') :
    ∃ g : List (PinData p), List.Forall₂ P.PinAt coords g ∧ Described once (ds ++ g) B'.description ∧
      B'.groups = B.groups ++ [g.map PinData.pin] ∧ B'.level = (g.getLast?.map PinData.level).getD B.level := by
  have key : ∀ (coords : List ℤ) (ds : List (PinData p)) (r r' : JointBuild p × List Pin),
      (∀ d ∈ ds, P.PinAt d.pin.node d) → Described once ds r.1.description →
      coords.foldlM (fun (r : JointBuild p × List Pin) c => do
        let (desc, level, pin) ← P.describe once r.1.description c
        .ok ({ r.1 with description := desc, level := level }, r.2 ++ [pin])) r = (.ok r' : Py _) →
      ∃ g : List (PinData p), List.Forall₂ P.PinAt coords g ∧ Described once (ds ++ g) r'.1.description ∧
        r'.1.groups = r.1.groups ∧ r'.2 = r.2 ++ g.map PinData.pin ∧
        r'.1.level = (g.getLast?.map PinData.level).getD r.1.level := by
    intro coords
    induction coords with
    | nil =>
      intro ds r r' _ hd h
      obtain rfl : r = r' := Except.ok.inj h
      exact ⟨[], .nil, by simpa using hd, rfl, by simp, rfl⟩
    | cons c coords ih =>
      intro ds r r' hds hd h
      rw [List.foldlM_cons] at h
      obtain ⟨r1, h1, h⟩ := bind_ok_iff.1 h
      obtain ⟨⟨desc, level, pin⟩, h2, h3⟩ := bind_ok_iff.1 h1
      have h3 : ({ r.1 with description := desc, level := level }, r.2 ++ [pin]) = r1 := Except.ok.inj h3
      obtain ⟨d, hp, rfl, rfl, hd1⟩ := describe_step hds hd h2
      subst h3
      have hds1 : ∀ d' ∈ ds ++ [d], P.PinAt d'.pin.node d' := by
        intro d' hd'
        rcases List.mem_append.1 hd' with h4 | h4
        · exact hds d' h4
        · obtain rfl := List.mem_singleton.1 h4
          rw [hp.node]
          exact hp
      obtain ⟨g, h4, h5, h6, h7, h8⟩ := ih (ds ++ [d]) _ _ hds1 hd1 h
      refine ⟨d :: g, .cons hp h4, ?_, h6, ?_, ?_⟩
      · rw [List.append_assoc] at h5
        exact h5
      · rw [h7, List.append_assoc]
        rfl
      · rw [h8]
        cases g with
        | nil => simp
        | cons a g =>
          rw [List.getLast?_cons_cons, List.getLast?_eq_some_getLast (List.cons_ne_nil a g)]
          rfl
  unfold Parsed.describeGroup at h
  obtain ⟨r, h1, h2⟩ := bind_ok_iff.1 h
  have h2 : ({ r.1 with groups := r.1.groups ++ [r.2] } : JointBuild p) = B' := Except.ok.inj h2
  obtain ⟨g, h3, h4, h5, h6, h7⟩ := key coords ds (B, []) r hds hd h1
  subst h2
  exact ⟨g, h3, h4, by simp [h5, h6], h7⟩

/-- The loops over all coordinates of a joint. -/
theorem describeJoint_effect {P : Parsed p} {once : Bool} {t : Joint} {B : JointBuild p}
    (h : P.describeJoint once t = .ok B) :
    ∃ gs : List (List (PinData p)), List.Forall₂ (List.Forall₂ P.PinAt) t.coordIds gs ∧
      Described once gs.flatten B.description ∧ B.groups = gs.map (List.map PinData.pin) ∧
      B.level = (gs.flatten.getLast?.map PinData.level).getD 0 := by
  have key : ∀ (cs : List (List ℤ)) (ds : List (PinData p)) (B B' : JointBuild p),
      (∀ d ∈ ds, P.PinAt d.pin.node d) → Described once ds B.description →
      cs.foldlM (P.describeGroup once) B = .ok B' → ∃ gs : List (List (PinData p)),
        List.Forall₂ (List.Forall₂ P.PinAt) cs gs ∧ Described once (ds ++ gs.flatten) B'.description ∧
        B'.groups = B.groups ++ gs.map (List.map PinData.pin) ∧
        B'.level = (gs.flatten.getLast?.map PinData.level).getD B.level := by
    intro cs
    induction cs with
    | nil =>
      intro ds B B' _ hd h
      obtain rfl : B = B' := Except.ok.inj h
      exact ⟨[], .nil, by simpa using hd, by simp, by simp⟩
    | cons c cs ih =>
      intro ds B B' hds hd h
      rw [List.foldlM_cons] at h
      obtain ⟨B1, h1, h⟩ := bind_ok_iff.1 h
      obtain ⟨g, h2, h3, h4, h5⟩ := describeGroup_effect hds hd h1
      have hds1 : ∀ d' ∈ ds ++ g, P.PinAt d'.pin.node d' := by
        intro d' hd'
        rcases List.mem_append.1 hd' with h6 | h6
        · exact hds d' h6
        · obtain ⟨i, hi, rfl⟩ := List.getElem_of_mem h6
          have := List.forall₂_iff_get.1 h2
          have hp := this.2 i (this.1 ▸ hi) hi
          simp only [List.get_eq_getElem] at hp
          rw [hp.node]
          exact hp
      obtain ⟨gs, h6, h7, h8, h9⟩ := ih (ds ++ g) _ _ hds1 h3 h
      refine ⟨g :: gs, .cons h2 h6, ?_, ?_, ?_⟩
      · rw [List.append_assoc] at h7
        exact h7
      · rw [h8, h4, List.append_assoc]
        rfl
      · rw [h9, h5, List.flatten_cons, List.getLast?_append]
        cases gs.flatten.getLast? <;> simp
  obtain ⟨gs, h1, h2, h3, h4⟩ := key t.coordIds [] {} B (by simp) (described_nil once) h
  exact ⟨gs, h1, by simpa using h2, by simpa using h3, h4⟩

/-! ## Connections -/

/-- The resistances of the connector are not negative. -/
structure Connector.NonNeg (c : Connector) : Prop where
  single : ∀ R, c.resistance = some R → 0 ≤ R
  several : ∀ v, c.resistanceVector = some v → ∀ R ∈ v, 0 ≤ R

/-- A connection to ground is a call, or none at all (resistance 0 without a source). -/
theorem ground_calls {nw nw' : Network N S} {id : ℤ} {R : ℝ} {Vt : Option (ℝ → ℝ)} (h : nw.connectToGround id R Vt = .ok nw') :
    ∃ l : List Call, nw.calls l = .ok nw' ∧ (∀ c ∈ l, ¬ c.IsBranch) ∧ (0 ≤ R → ∀ c ∈ l, c.Positive) := by
  by_cases hR : R = 0
  · refine ⟨[], ?_, by simp, by simp⟩
    subst hR
    unfold Network.connectToGround at h
    obtain ⟨a, -, h⟩ := bind_ok_iff.1 h
    cases Vt with
    | none =>
      rw [calls_nil]
      simpa using h.symm
    | some f => simp [raiseIf, bind, Except.bind] at h
  · refine ⟨[.ground id R Vt], calls_cons.2 ⟨nw', h, calls_nil.2 rfl⟩, ?_, ?_⟩
    · simp [Call.IsBranch]
    · intro h0 c hc
      rw [List.mem_singleton.1 hc]
      exact lt_of_le_of_ne h0 (Ne.symm hR)

theorem one_call {nw nw' : Network N S} {c : Call} (h : nw.call c = .ok nw') (hb : ¬ c.IsBranch) {A : Prop}
    (hp : A → c.Positive) : ∃ l : List Call, nw.calls l = .ok nw' ∧ (∀ c ∈ l, ¬ c.IsBranch) ∧ (A → ∀ c ∈ l, c.Positive) := by
  refine ⟨[c], calls_cons.2 ⟨nw', h, calls_nil.2 rfl⟩, ?_, ?_⟩
  · intro c' hc'; rw [List.mem_singleton.1 hc']; exact hb
  · intro h0 c' hc'; rw [List.mem_singleton.1 hc']; exact hp h0

theorem no_call (nw : Network N S) (A : Prop) :
    ∃ l : List Call, nw.calls l = .ok nw ∧ (∀ c ∈ l, ¬ c.IsBranch) ∧ (A → ∀ c ∈ l, c.Positive) :=
  ⟨[], calls_nil.2 rfl, by simp, by simp⟩

theorem lcprs_positive {nw nw' : Network N S} {id : ℤ} {R L C : ℝ} {Vt : Option (ℝ → ℝ)}
    (h : nw.call (.groundLCpRs id R L C Vt) = .ok nw') : 0 < R := by
  obtain ⟨E, ⟨a, x, y, -, hR, -, -, hRC, -⟩, -⟩ := call_ok_iff.1 h
  exact lt_of_le_of_ne hR (fun e => hRC (by rw [← e, zero_mul]))

theorem terminateSingle_calls {nw nw' : Network N S} {e : Pin} (h : nw.terminateSingle e = .ok nw') :
    ∃ l : List Call, nw.calls l = .ok nw' ∧ (∀ c ∈ l, ¬ c.IsBranch) ∧ (e.connector.NonNeg → ∀ c ∈ l, c.Positive) := by
  unfold Network.terminateSingle at h
  split_ifs at h
  · exact one_call (c := .shortGround e.node) h (by simp [Call.IsBranch]) fun _ => trivial
  · obtain ⟨R, h1, h⟩ := bind_ok_iff.1 h
    obtain ⟨l, h2, h3, h4⟩ := ground_calls h
    exact ⟨l, h2, h3, fun hn => h4 (hn.single R (pyKey_ok_iff.1 h1))⟩
  · obtain ⟨C, h1, h⟩ := bind_ok_iff.1 h
    exact one_call (c := .groundC e.node C e.source) h (by simp [Call.IsBranch]) fun _ => trivial
  · obtain ⟨R, h1, h⟩ := bind_ok_iff.1 h
    obtain ⟨L, h2, h⟩ := bind_ok_iff.1 h
    obtain ⟨C, h3, h⟩ := bind_ok_iff.1 h
    exact one_call (c := .groundLCpRs e.node R L C e.source) h (by simp [Call.IsBranch]) fun _ => lcprs_positive h
  · obtain rfl : nw = nw' := Except.ok.inj h
    exact no_call nw _

theorem terminateWith_calls {nw nw' : Network N S} {id : ℤ} {k : ℕ} {c : Connector} {s : Option (ℝ → ℝ)}
    (h : nw.terminateWith id k c (.ok s) = .ok nw') :
    ∃ l : List Call, nw.calls l = .ok nw' ∧ (∀ c ∈ l, ¬ c.IsBranch) ∧ (c.NonNeg → ∀ c ∈ l, c.Positive) := by
  unfold Network.terminateWith at h
  split_ifs at h
  · obtain ⟨R, h1, h⟩ := bind_ok_iff.1 h
    obtain ⟨C, h2, h⟩ := bind_ok_iff.1 h
    obtain ⟨L, h3, h⟩ := bind_ok_iff.1 h
    obtain ⟨ts, h4, h⟩ := bind_ok_iff.1 h
    obtain ⟨type, h5, h⟩ := bind_ok_iff.1 h
    split_ifs at h
    · exact one_call (c := .shortGround id) h (by simp [Call.IsBranch]) fun _ => trivial
    · obtain ⟨l, h2, h3, h4⟩ := ground_calls (Vt := s) h
      refine ⟨l, h2, h3, fun hn => h4 ?_⟩
      unfold vectorEntry at h1
      cases hv : c.resistanceVector with
      | none =>
        rw [hv] at h1
        exact (Except.ok.inj h1).le
      | some v =>
        rw [hv] at h1
        exact hn.several v hv R (List.mem_of_getElem? (pyIndex_ok_iff.1 h1))
    · exact one_call (c := .groundLCpRs id R L C s) h (by simp [Call.IsBranch]) fun _ => lcprs_positive h
    · exact one_call (c := .groundC id C s) h (by simp [Call.IsBranch]) fun _ => trivial
    · obtain rfl : nw = nw' := Except.ok.inj h
      exact no_call nw _
  · obtain rfl : nw = nw' := Except.ok.inj h
    exact no_call nw _

/-- The connections of a list of items are the calls of the items, one after the other. -/
theorem fold_calls {α : Type} {f : Network N S → α → Py (Network N S)} {A : Prop} {T Q : Call → Prop} {l : List α}
    (hf : ∀ a ∈ l, ∀ nw nw', f nw a = .ok nw' → ∃ cs : List Call, nw.calls cs = .ok nw' ∧ (∀ c ∈ cs, T c) ∧
      (A → ∀ c ∈ cs, Q c)) {nw nw' : Network N S} (h : l.foldlM f nw = .ok nw') :
    ∃ cs : List Call, nw.calls cs = .ok nw' ∧ (∀ c ∈ cs, T c) ∧ (A → ∀ c ∈ cs, Q c) := by
  induction l generalizing nw with
  | nil =>
    obtain rfl : nw = nw' := Except.ok.inj h
    exact ⟨[], calls_nil.2 rfl, by simp, by simp⟩
  | cons a l ih =>
    rw [List.foldlM_cons] at h
    obtain ⟨nw1, h1, h⟩ := bind_ok_iff.1 h
    obtain ⟨c1, h2, h3, h4⟩ := hf a List.mem_cons_self _ _ h1
    obtain ⟨c2, h5, h6, h7⟩ := ih (fun a ha => hf a (List.mem_cons_of_mem _ ha)) h
    refine ⟨c1 ++ c2, calls_append.2 ⟨_, h2, h5⟩, ?_, ?_⟩
    · intro c hc
      exact (List.mem_append.1 hc).elim (h3 c) (h6 c)
    · intro hA c hc
      exact (List.mem_append.1 hc).elim (h4 hA c) (h7 hA c)

/-- The termination of a group consists of calls that connect single nodes to ground. -/
theorem terminate_calls {nw nw' : Network N S} {group : List Pin} (h : nw.terminate group = .ok nw') :
    ∃ l : List Call, nw.calls l = .ok nw' ∧ (∀ c ∈ l, ¬ c.IsBranch) ∧
      ((∀ e ∈ group, e.connector.NonNeg) → ∀ c ∈ l, c.Positive) := by
  have multi : ∀ group : List Pin, group.foldlM (Network.terminateMulti group) nw = .ok nw' →
      ∃ l : List Call, nw.calls l = .ok nw' ∧ (∀ c ∈ l, ¬ c.IsBranch) ∧
      ((∀ e ∈ group, e.connector.NonNeg) → ∀ c ∈ l, c.Positive) := by
    intro group h
    refine fold_calls (fun e _ nw nw' h1 => ?_) h
    unfold Network.terminateMulti at h1
    obtain ⟨other, h2, h3⟩ := bind_ok_iff.1 h1
    obtain ⟨l, h4, h5, h6⟩ := terminateWith_calls h3
    exact ⟨l, h4, h5, fun hn => h6 (hn other (List.mem_of_getElem? (pyIndex_ok_iff.1 h2)))⟩
  match group, h with
  | [], h =>
    obtain rfl : nw = nw' := Except.ok.inj h
    exact no_call nw _
  | [e], h =>
    obtain ⟨l, h1, h2, h3⟩ := terminateSingle_calls (e := e) h
    exact ⟨l, h1, h2, fun hn => h3 (hn e (by simp))⟩
  | a :: b :: group, h => exact multi (a :: b :: group) h

theorem junctionResistance_nonneg {c : Connector} {k : ℕ} {R : ℝ} (h : junctionResistance c k = .ok R) (hn : c.NonNeg) :
    0 ≤ R := by
  unfold junctionResistance at h
  split_ifs at h
  · exact hn.single R (pyKey_ok_iff.1 h)
  · obtain ⟨ts, -, h⟩ := bind_ok_iff.1 h
    obtain ⟨type, -, h⟩ := bind_ok_iff.1 h
    split_ifs at h
    · obtain ⟨v, h1, h2⟩ := bind_ok_iff.1 h
      exact hn.several v (pyKey_ok_iff.1 h1) R (List.mem_of_getElem? (pyIndex_ok_iff.1 h2))
    · exact (Except.ok.inj h).le
  · exact (Except.ok.inj h).le

/-- The connections of a junction are calls that connect two nodes. -/
theorem join_calls {nw nw' : Network N S} {group : List Pin} (h : nw.join group = .ok nw') :
    ∃ l : List Call, nw.calls l = .ok nw' ∧ (∀ c ∈ l, c.IsBranch) ∧
      ((∀ e ∈ group, e.connector.NonNeg) → ∀ c ∈ l, c.Positive) := by
  obtain ⟨e0, e1, R0, R1, rfl, h0, h1, ⟨hR, hc⟩ | ⟨hR, hc⟩⟩ := C116_join.1 h
  · refine ⟨[_], calls_cons.2 ⟨nw', hc, calls_nil.2 rfl⟩, ?_, ?_⟩
    · simp [Call.IsBranch]
    · intro _ c hc'
      rw [List.mem_singleton.1 hc']
      trivial
  · refine ⟨[_], calls_cons.2 ⟨nw', hc, calls_nil.2 rfl⟩, ?_, ?_⟩
    · simp [Call.IsBranch]
    · intro hn c hc'
      rw [List.mem_singleton.1 hc']
      have a0 := junctionResistance_nonneg h0 (hn e0 (by simp))
      have a1 := junctionResistance_nonneg h1 (hn e1 (by simp))
      exact lt_of_le_of_ne (add_nonneg a0 a1) (Ne.symm hR)

/-! ## C119, C127 -/

/-- Connecting groups leaves the nodes as they are. -/
def KeepsNodes (f : ∀ {N S}, Network N S → List Pin → Py (Network N S)) : Prop :=
  ∀ {N S : ℕ} (nw nw' : Network N S) (g : List Pin), f nw g = .ok nw' → nw'.nodes = nw.nodes

theorem terminate_keeps : KeepsNodes fun nw g => nw.terminate g := fun _ _ _ h => by
  obtain ⟨l, h1, -⟩ := terminate_calls h
  exact calls_nodes h1

theorem join_keeps : KeepsNodes fun nw g => nw.join g := fun _ _ _ h => by
  obtain ⟨l, h1, -⟩ := join_calls h
  exact calls_nodes h1

/-- **C119, C127** The network of a joint: there is a node for each coordinate, of the line and the conductor that start or
end there, but at the end that belongs to the first coordinate of the same cable in the joint; the network is registered at the
level of the cable of the last coordinate. -/
theorem C119_nodes {P : Parsed p} {once : Bool} {f : ∀ {N S}, Network N S → List Pin → Py (Network N S)}
    (hf : KeepsNodes f) {t : Joint} {level : ℕ} {nw : AnyNetwork} (h : P.jointNetwork once f t = .ok (level, nw)) :
    ∃ gs : List (List (PinData p)), List.Forall₂ (List.Forall₂ P.PinAt) t.coordIds gs ∧
      (∀ a : Fin nw.1, ∃ d ∈ gs.flatten, ∃ d0, FirstMatch gs.flatten (fun d0 => d0.cable = d.cable) d0 ∧
        (nw.2.2.nodes a).origin = (d.pin.node, d.line.2.name, d.pin.conductor, if d0.side = "S" then .S else .L, d.bundle)) ∧
      (∀ d ∈ gs.flatten, ∃ a : Fin nw.1, (nw.2.2.nodes a).id = d.pin.node) ∧
      level = (gs.flatten.getLast?.map PinData.level).getD 0 := by
  unfold Parsed.jointNetwork at h
  obtain ⟨B, hB, h⟩ := bind_ok_iff.1 h
  obtain ⟨nw0, h0, h⟩ := bind_ok_iff.1 h
  obtain ⟨nw1, h1, h⟩ := bind_ok_iff.1 h
  have h2 : (B.level, (⟨nw0.1, nw0.2.1, nw1⟩ : AnyNetwork)) = (level, nw) := Except.ok.inj h
  obtain ⟨h3, h4⟩ := Prod.mk.inj h2
  subst h3 h4
  obtain ⟨gs, k1, k2, k3, k4⟩ := describeJoint_effect hB
  have hnodes : nw1.nodes = nw0.2.2.nodes := by
    have : ∀ (l : List (List Pin)) (x y : Network nw0.1 nw0.2.1), l.foldlM (fun nw g => f nw g) x = .ok y →
        y.nodes = x.nodes := by
      intro l
      induction l with
      | nil =>
        intro x y h
        obtain rfl : x = y := Except.ok.inj h
        rfl
      | cons g l ih =>
        intro x y h
        rw [List.foldlM_cons] at h
        obtain ⟨z, h1, h⟩ := bind_ok_iff.1 h
        rw [ih _ _ h, hf _ _ _ h1]
    exact this _ _ _ h1
  have horder := C53_order h0
  have hat : ∀ d ∈ gs.flatten, P.PinAt d.pin.node d := by
    intro d hd
    obtain ⟨g, hg, hdg⟩ := List.mem_flatten.1 hd
    obtain ⟨i, hi, rfl⟩ := List.getElem_of_mem hg
    have q := List.forall₂_iff_get.1 k1
    have q1 := q.2 i (q.1 ▸ hi) hi
    simp only [List.get_eq_getElem] at q1
    obtain ⟨j, hj, rfl⟩ := List.getElem_of_mem hdg
    have q2 := List.forall₂_iff_get.1 q1
    have q3 := q2.2 j (q2.1 ▸ hj) hj
    simp only [List.get_eq_getElem] at q3
    rw [q3.node]
    exact q3
  refine ⟨gs, k1, ?_, ?_, k4⟩
  · intro a
    have ha : (nw0.2.2.nodes a).origin ∈ List.ofFn fun a => (nw0.2.2.nodes a).origin := List.mem_ofFn.2 ⟨a, rfl⟩
    rw [horder] at ha
    obtain ⟨e, he, ha⟩ := List.mem_flatMap.1 ha
    obtain ⟨⟨name, e'⟩, hne, rfl⟩ := List.mem_map.1 he
    obtain ⟨c, hc, hca⟩ := List.mem_map.1 ha
    have hc' := (C53_sorted e').1.mem_iff.1 hc
    obtain ⟨d, hd, hdn, rfl⟩ := (k2.connections _ _ hne c).1 hc'
    obtain ⟨d0, hd0, hl, hs, hb⟩ := k2.first _ _ hne
    have hd0n : d0.cable = name := by
      obtain ⟨_, _, _, hq, _⟩ := hd0
      exact hq
    have hd0m := hd0.mem
    refine ⟨d, hd, d0, by rw [hdn]; exact hd0, ?_⟩
    show (nw1.nodes a).origin = _
    rw [hnodes, ← hca]
    have e1 : d0.line = d.line := Except.ok.inj ((hat d0 hd0m).line.symm.trans ((by rw [hd0n, hdn] : dictGet P.nameToLine
      d0.cable = dictGet P.nameToLine d.cable).trans (hat d hd).line))
    have e2 : d0.bundle = d.bundle := Except.ok.inj ((hat d0 hd0m).bundle.symm.trans ((by rw [hd0n, hdn] : dictGet P.nameToBundle
      d0.cable = dictGet P.nameToBundle d.cable).trans (hat d hd).bundle))
    have e3 : e'.line.2.name = d.line.2.name := congrArg (fun L : AnyLine p => L.2.name) (hl.trans e1)
    unfold LineConnections.origin LineConnections.end'
    simp only [hs, hb, e2, e3, PinData.connection]
  · intro d hd
    obtain ⟨⟨name, e⟩, he, hname⟩ := List.mem_map.1 ((k2.cables d.cable).2 ⟨d, hd, rfl⟩)
    have hname : name = d.cable := hname
    subst hname
    have hc := (k2.connections _ _ he d.connection).2 ⟨d, hd, rfl, rfl⟩
    have : e.origin d.connection ∈ List.ofFn fun a => (nw0.2.2.nodes a).origin := by
      rw [horder]
      exact List.mem_flatMap.2 ⟨e, List.mem_map.2 ⟨_, he, rfl⟩,
        List.mem_map.2 ⟨_, (C53_sorted e).1.mem_iff.2 hc, rfl⟩⟩
    obtain ⟨a, ha⟩ := List.mem_ofFn.1 this
    refine ⟨a, ?_⟩
    show (nw1.nodes a).id = _
    rw [hnodes]
    exact congrArg Prod.fst ha

/-- **C119 (partial)** If the coordinates of the same cable in the joint are on the same side, each node of the network is of the
line and the conductor and at the end its coordinate is at. -/
theorem C119_ends_partial {P : Parsed p} {once : Bool} {f : ∀ {N S}, Network N S → List Pin → Py (Network N S)}
    (hf : KeepsNodes f) {t : Joint} {level : ℕ} {nw : AnyNetwork} (h : P.jointNetwork once f t = .ok (level, nw))
    (hs : ∀ c ∈ t.coordIds.flatten, ∀ c' ∈ t.coordIds.flatten, ∀ x x' cable k k' s s',
      P.file.connectorAndCableInNode c = .ok (x, cable, k, s) → P.file.connectorAndCableInNode c' = .ok (x', cable, k', s') →
      s = s') (a : Fin nw.1) :
    ∃ c ∈ t.coordIds.flatten, ∃ x cable k s line bundle, P.file.connectorAndCableInNode c = .ok (x, cable, k, s) ∧
      dictGet P.nameToLine cable = .ok line ∧ dictGet P.nameToBundle cable = .ok bundle ∧
      (nw.2.2.nodes a).origin = (c, line.2.name, k, if s = "S" then .S else .L, bundle) := by
  obtain ⟨gs, h1, h2, -, -⟩ := C119_nodes hf h
  have hmem : ∀ d ∈ gs.flatten, d.pin.node ∈ t.coordIds.flatten ∧ P.PinAt d.pin.node d := by
    intro d hd
    obtain ⟨g, hg, hdg⟩ := List.mem_flatten.1 hd
    obtain ⟨i, hi, rfl⟩ := List.getElem_of_mem hg
    have q := List.forall₂_iff_get.1 h1
    have q1 := q.2 i (q.1 ▸ hi) hi
    simp only [List.get_eq_getElem] at q1
    obtain ⟨j, hj, rfl⟩ := List.getElem_of_mem hdg
    have q2 := List.forall₂_iff_get.1 q1
    have q3 := q2.2 j (q2.1 ▸ hj) hj
    simp only [List.get_eq_getElem] at q3
    rw [q3.node]
    exact ⟨List.mem_flatten.2 ⟨_, List.getElem_mem _, List.getElem_mem _⟩, q3⟩
  obtain ⟨d, hd, d0, hd0, ho⟩ := h2 a
  obtain ⟨m1, m2⟩ := hmem d hd
  obtain ⟨m3, m4⟩ := hmem d0 hd0.mem
  have hc : d0.cable = d.cable := by
    obtain ⟨_, _, _, hq, _⟩ := hd0
    exact hq
  have m5 := m4.cable
  rw [hc] at m5
  have hside := hs _ m3 _ m1 _ _ _ _ _ _ _ m5 m2.cable
  refine ⟨_, m1, _, _, _, _, _, _, m2.cable, m2.line, m2.bundle, ?_⟩
  rw [ho, hside]

/-- **C127 (partial)** The level of the network of a joint is that of the cable of the last coordinate; it is the level of all
cables of the joint if they have the same one. -/
theorem C127_level_partial {P : Parsed p} {once : Bool} {f : ∀ {N S}, Network N S → List Pin → Py (Network N S)}
    (hf : KeepsNodes f) {t : Joint} {level : ℕ} {nw : AnyNetwork} (h : P.jointNetwork once f t = .ok (level, nw)) :
    (∀ c, t.coordIds.flatten.getLast? = some c → ∃ x cable k s, P.file.connectorAndCableInNode c = .ok (x, cable, k, s) ∧
      P.levelOfCable cable = .ok level) ∧
    (∀ k, (∀ c ∈ t.coordIds.flatten, ∀ x cable i s, P.file.connectorAndCableInNode c = .ok (x, cable, i, s) →
      P.levelOfCable cable = .ok k) → t.coordIds.flatten ≠ [] → level = k) := by
  obtain ⟨gs, h1, -, -, h2⟩ := C119_nodes hf h
  have hfl : List.Forall₂ P.PinAt t.coordIds.flatten gs.flatten := by
    generalize t.coordIds = cs at h1
    clear h2
    induction h1 with
    | nil => exact .nil
    | cons a _ ih =>
      rw [List.flatten_cons, List.flatten_cons]
      exact List.rel_append a ih
  generalize t.coordIds.flatten = cs at hfl ⊢
  generalize gs.flatten = ds at hfl h2
  have hlast : ∀ c, cs.getLast? = some c → ∃ x cable k s, P.file.connectorAndCableInNode c = .ok (x, cable, k, s) ∧
      P.levelOfCable cable = .ok level := by
    intro c hc
    have hlen := hfl.length_eq
    have hne : cs ≠ [] := by rintro rfl; simp at hc
    have hpos : 0 < cs.length := List.length_pos_iff.2 hne
    have hdl : ds.getLast? = some (ds[ds.length - 1]'(by omega)) := by
      rw [List.getLast?_eq_getElem?, List.getElem?_eq_getElem]
    have hcl : cs[cs.length - 1]'(by omega) = c := by
      rw [List.getLast?_eq_getElem?, List.getElem?_eq_getElem (by omega)] at hc
      exact Option.some.inj hc
    have q := (List.forall₂_iff_get.1 hfl).2 (cs.length - 1) (by omega) (by omega)
    simp only [List.get_eq_getElem] at q
    rw [hcl] at q
    have e : ds[cs.length - 1]'(by omega) = ds[ds.length - 1]'(by omega) := by simp [hlen]
    rw [e] at q
    rw [hdl] at h2
    refine ⟨_, _, _, _, q.cable, ?_⟩
    rw [h2]
    exact q.level
  refine ⟨hlast, fun k hk hne => ?_⟩
  obtain ⟨x, cable, i, s, h3, h4⟩ := hlast _ (List.getLast?_eq_some_getLast hne)
  exact Except.ok.inj (h4.symm.trans (hk _ (List.getLast_mem hne) _ _ _ _ h3))

/-! The file with a wire whose ends are joined, and a file with a junction of a shield and a wire. -/

/-- The parsed bundle of the file. -/
theorem demoShield_parsed {order : List String → List String} (h0 : order ["o"] = ["o"])
    (h1 : order ["a", "b"] = ["a", "b"]) (js : List Joint) : ∃ (P : Parsed p) (b : AnyBundle p) (o a s : MTL 1 p),
      Parsed.buildBundles order { file := demoShieldWith [] [] [] [] js } = .ok P ∧ P.file = demoShieldWith [] [] [] [] js ∧
      P.bundles = [⟨b, [[⟨1, o⟩], [⟨1, a⟩, ⟨1, s⟩]]⟩] ∧ o.name = "o" ∧ a.name = "a" ∧ s.name = "b" ∧ o.m = 1 ∧ a.m = 1 ∧
      P.nameToLine = [("o", ⟨1, o⟩), ("a", ⟨1, a⟩), ("b", ⟨1, s⟩)] ∧ P.nameToBundle = [("o", "B"), ("a", "B"), ("b", "B")] := by
  obtain ⟨o, ho, no, mo, uo, uo', -⟩ := demoShield_line (p := p) "o" 1 (by simp)
  obtain ⟨a, ha, na, ma, ua, ua', -⟩ := demoShield_line (p := p) "a" 1 (by simp)
  obtain ⟨b, hb, nb, mb, ub, ub', -⟩ := demoShield_line (p := p) "b" 2 (by simp)
  have hm : ∀ L ∈ [(⟨1, o⟩ : AnyLine p), ⟨1, a⟩, ⟨1, b⟩], SameMesh o.m o.u L := by
    have e : ∀ s : MTL 1 p, s.m = 1 → s.u 0 = ![0, 0, 0] → s.u 1 = ![0, 0, 1] → SameMesh o.m o.u ⟨1, s⟩ := by
      intro s h1 h2 h3
      refine ⟨h1.trans mo.symm, fun k hk => ?_⟩
      rw [mo] at hk
      interval_cases k
      · rw [h2, uo]
      · rw [h3, uo']
    intro L hL
    simp only [List.mem_cons, List.not_mem_nil, or_false] at hL
    rcases hL with rfl | rfl | rfl
    · exact e o mo uo uo'
    · exact e a ma ua ua'
    · exact e b mb ub ub'
  exact ⟨_, _, o, a, b, demoShield_bundle_with (ns := []) (ss := []) (ps := []) (ts := []) (js := js) h0 h1 (.inl rfl) ho ha hb no
    na nb hm, rfl, rfl, no, na, nb, mo, ma, rfl, rfl⟩

/-- The connector of the file. -/
noncomputable def demoR : Connector := { connectorType := "Conn_R", resistance := some 50 }

theorem demoShield_pins (js : List Joint) :
    (demoShieldWith [] [] [] [] js).connectorAndCableInNode 1 = .ok (demoR, "o", 0, "S") ∧
    (demoShieldWith [] [] [] [] js).connectorAndCableInNode 2 = .ok (demoR, "a", 0, "S") ∧
    (demoShieldWith [] [] [] [] js).connectorAndCableInNode 5 = .ok (demoR, "a", 0, "L") ∧
    ∀ c, (demoShieldWith [] [] [] [] js).terminalSource c = .ok none := by
  refine ⟨?_, ?_, ?_, fun c => ?_⟩
  · simp [File.connectorAndCableInNode, File.elementOfNode, File.elementOfNode.go, demoShieldWith, demoShieldFile, pyIndex, pyLast,
      bind, Except.bind, File.connectorAndCableOnSide, File.connectorIdOf, pyKey, File.sideLetter, demoR]
  · simp [File.connectorAndCableInNode, File.elementOfNode, File.elementOfNode.go, demoShieldWith, demoShieldFile, pyIndex, pyLast,
      bind, Except.bind, File.connectorAndCableOnSide, File.connectorIdOf, pyKey, File.sideLetter, demoR]
  · simp [File.connectorAndCableInNode, File.elementOfNode, File.elementOfNode.go, demoShieldWith, demoShieldFile, pyIndex, pyLast,
      bind, Except.bind, File.connectorAndCableOnSide, File.connectorIdOf, pyKey, File.sideLetter, demoR]
  · simp [File.terminalSource, File.terminalSource.go, demoShieldWith, demoShieldFile]

/-- Two nodes are joined by their resistors. -/
theorem demoR_join {nw : Network 2 0} {c0 c1 : ℤ} (h0 : (nw.nodes 0).id = c0) (h1 : (nw.nodes 1).id = c1) (hne : c0 ≠ c1) :
    ∃ nw', nw.join [⟨c0, demoR, 0, none⟩, ⟨c1, demoR, 0, none⟩] = .ok nw' := by
  have f0 : nw.find c0 = some 0 := by simp [Network.find, List.finRange_succ, h0]
  have f1 : nw.find c1 = some 1 := by simp [Network.find, List.finRange_succ, h0, h1, hne]
  exact ⟨_, C116_join.2 ⟨_, _, 50, 50, rfl, by simp [junctionResistance, pyKey, demoR],
    by simp [junctionResistance, pyKey, demoR], .inr ⟨by norm_num, call_ok_iff.2 ⟨_, ⟨0, 1, f0, f1, by norm_num, rfl⟩, rfl⟩⟩⟩⟩

/-- **C119 is false**: in this file a junction joins the two ends of the wire "a"; both nodes of its network are at the start of
the wire. -/
theorem C119_refuted {order : List String → List String} (h0 : order ["o"] = ["o"]) (h1 : order ["a", "b"] = ["a", "b"]) :
    ∃ (P : Parsed p) (nw : Network 2 0),
      Parsed.buildBundles order { file := demoShieldWith [] [] [] [] [⟨"loop", [[2, 5]]⟩] } = .ok P ∧
      P.buildJunctions = .ok [[(1, ⟨2, 0, nw⟩)]] ∧
      P.file.connectorAndCableInNode 5 = .ok (demoR, "a", 0, "L") ∧ (nw.nodes 1).id = 5 ∧ (nw.nodes 1).lineName = "a" ∧
      (nw.nodes 1).side = .S := by
  obtain ⟨P, b, o, a, s, hP, hF, hB, no, na, ns, mo, ma, hl, hn⟩ := demoShield_parsed (p := p) h0 h1 [⟨"loop", [[2, 5]]⟩]
  obtain ⟨-, p2, p5, ps⟩ := demoShield_pins [⟨"loop", [[2, 5]]⟩]
  have hlev : P.levelOfCable "a" = .ok 1 := by
    simp [Parsed.levelOfCable, hB, lineNames, na, no, List.findIdx?_cons]
  have hd : P.describeJoint true ⟨"loop", [[2, 5]]⟩ = .ok
      { description := [("a", { line := ⟨1, a⟩, side := "S", bundleName := "B", connections :=
          [{ id := 2, conductor := 0, connector := demoR }, { id := 5, conductor := 0, connector := demoR }] })]
        groups := [[⟨2, demoR, 0, none⟩, ⟨5, demoR, 0, none⟩]]
        level := 1 } := by
    simp [Parsed.describeJoint, Parsed.describeGroup, Parsed.describe, hF, p2, p5, ps, hlev, hl, hn, bind, Except.bind, pure,
      Except.pure, dictSet, dictGet]
  set B : NetBuild := ⟨[⟨2, a.name, 0, .S, "B", [], a.dun 0, a.eT 0 0⟩, ⟨5, a.name, 0, .S, "B", [], a.dun 0, a.eT 0 0⟩], 0,
    [⟨1, a.c 0⟩]⟩
  have hnw : Network.new [({ line := ⟨1, a⟩, side := "S", bundleName := "B", connections :=
          [{ id := 2, conductor := 0, connector := demoR }, { id := 5, conductor := 0, connector := demoR }] }
          : LineConnections p)] = .ok ⟨2, 0, B.finish⟩ := by
    refine networkNew_ok_iff.2 ⟨B, ?_, rfl⟩
    simp [NetBuild.addLine, NetBuild.addNode, bind, Except.bind, pyAssert, raiseIf, stateVarsIn, List.insertionSort,
      pure, Except.pure, ma, demoR, B]
  obtain ⟨nw', hj⟩ := demoR_join (nw := B.finish) (c0 := 2) (c1 := 5) rfl rfl (by norm_num)
  obtain ⟨l, hc, -⟩ := join_calls hj
  have hnodes := calls_nodes hc
  refine ⟨P, nw', hP, ?_, by rw [hF]; exact p5, by rw [hnodes]; rfl, by rw [hnodes]; exact na, by rw [hnodes]; rfl⟩
  have hg : P.file.groupJoints P.file.junctions = .ok [[⟨"loop", [[2, 5]]⟩]] := by
    rw [hF]
    simp [File.groupJoints, File.groupStep, demoShieldWith, demoShieldFile, pyIndex, bind, Except.bind, File.coordinate, dictGet,
      pure, Except.pure, dictSet]
  have hjn : P.jointNetwork true (fun nw g => nw.join g) ⟨"loop", [[2, 5]]⟩ = .ok (1, ⟨2, 0, nw'⟩) := by
    unfold Parsed.jointNetwork
    rw [hd]
    simp only [bind, Except.bind, List.map_cons, List.map_nil, hnw, List.foldlM_cons, List.foldlM_nil, hj, pure, Except.pure]
  unfold Parsed.buildJunctions
  rw [hg]
  simp [bind, Except.bind, mapPy, Parsed.jointNetworks, hjn, dictSet, pure, Except.pure]

/-- **C127 is false**: in this file a junction joins the shield "o" and the wire "a" in it; the network is registered at the
level of the wire, 1, though the shield is at level 0. -/
theorem C127_refuted {order : List String → List String} (h0 : order ["o"] = ["o"]) (h1 : order ["a", "b"] = ["a", "b"]) :
    ∃ (P : Parsed p) (nw : Network 2 0),
      Parsed.buildBundles order { file := demoShieldWith [] [] [] [] [⟨"bond", [[1, 2]]⟩] } = .ok P ∧
      P.buildJunctions = .ok [[(1, ⟨2, 0, nw⟩)]] ∧ (nw.nodes 0).lineName = "o" ∧ P.levelOfCable "o" = .ok 0 := by
  obtain ⟨P, b, o, a, s, hP, hF, hB, no, na, ns, mo, ma, hl, hn⟩ := demoShield_parsed (p := p) h0 h1 [⟨"bond", [[1, 2]]⟩]
  obtain ⟨p1, p2, -, ps⟩ := demoShield_pins [⟨"bond", [[1, 2]]⟩]
  have hlev : P.levelOfCable "a" = .ok 1 := by
    simp [Parsed.levelOfCable, hB, lineNames, na, no, List.findIdx?_cons]
  have hlev0 : P.levelOfCable "o" = .ok 0 := by
    simp [Parsed.levelOfCable, hB, lineNames, no, List.findIdx?_cons]
  have hd : P.describeJoint true ⟨"bond", [[1, 2]]⟩ = .ok
      { description := [("o", { line := ⟨1, o⟩, side := "S", bundleName := "B", connections :=
          [{ id := 1, conductor := 0, connector := demoR }] }), ("a", { line := ⟨1, a⟩, side := "S", bundleName := "B", connections :=
          [{ id := 2, conductor := 0, connector := demoR }] })]
        groups := [[⟨1, demoR, 0, none⟩, ⟨2, demoR, 0, none⟩]]
        level := 1 } := by
    simp [Parsed.describeJoint, Parsed.describeGroup, Parsed.describe, hF, p1, p2, ps, hlev, hlev0, hl, hn, bind, Except.bind, pure,
      Except.pure, dictSet, dictGet]
  set B : NetBuild := ⟨[⟨1, o.name, 0, .S, "B", [], o.dun 0, o.eT 0 0⟩, ⟨2, a.name, 0, .S, "B", [], a.dun 0, a.eT 0 0⟩], 0,
    [⟨1, o.c 0⟩, ⟨1, a.c 0⟩]⟩
  have hnw : Network.new [({ line := ⟨1, o⟩, side := "S", bundleName := "B", connections :=
          [{ id := 1, conductor := 0, connector := demoR }] } : LineConnections p), { line := ⟨1, a⟩, side := "S", bundleName := "B", connections :=
          [{ id := 2, conductor := 0, connector := demoR }] }] =
      .ok ⟨2, 0, B.finish⟩ := by
    refine networkNew_ok_iff.2 ⟨B, ?_, rfl⟩
    simp [NetBuild.addLine, NetBuild.addNode, bind, Except.bind, pyAssert, raiseIf, stateVarsIn, List.insertionSort,
      pure, Except.pure, ma, mo, demoR, B]
  obtain ⟨nw', hj⟩ := demoR_join (nw := B.finish) (c0 := 1) (c1 := 2) rfl rfl (by norm_num)
  obtain ⟨l, hc, -⟩ := join_calls hj
  have hnodes := calls_nodes hc
  refine ⟨P, nw', hP, ?_, by rw [hnodes]; exact no, hlev0⟩
  have hg : P.file.groupJoints P.file.junctions = .ok [[⟨"bond", [[1, 2]]⟩]] := by
    rw [hF]
    simp [File.groupJoints, File.groupStep, demoShieldWith, demoShieldFile, pyIndex, bind, Except.bind, File.coordinate, dictGet,
      pure, Except.pure, dictSet]
  have hjn : P.jointNetwork true (fun nw g => nw.join g) ⟨"bond", [[1, 2]]⟩ = .ok (1, ⟨2, 0, nw'⟩) := by
    unfold Parsed.jointNetwork
    rw [hd]
    simp only [bind, Except.bind, List.map_cons, List.map_nil, hnw, List.foldlM_cons, List.foldlM_nil, hj, pure, Except.pure]
  unfold Parsed.buildJunctions
  rw [hg]
  simp [bind, Except.bind, mapPy, Parsed.jointNetworks, hjn, dictSet, pure, Except.pure]

/-! ## C128 -/

/-- A network made from a new one by calls of a kind `T`, that are `Q` under the condition `A`. -/
def MadeBy (p : ℕ) (T : Call → Prop) (A : Prop) (nw : AnyNetwork) : Prop :=
  ∃ (d : List (LineConnections p)) (nw0 : AnyNetwork) (nw1 : Network nw0.1 nw0.2.1) (l : List Call),
    Network.new d = .ok nw0 ∧ nw0.2.2.calls l = .ok nw1 ∧ nw = ⟨_, _, nw1⟩ ∧ (∀ c ∈ l, T c) ∧ (A → ∀ c ∈ l, c.Positive)

theorem new_zero {d : List (LineConnections p)} {nw : AnyNetwork} (h : Network.new d = .ok nw) : nw.2.2.P1 = 0 ∧ nw.2.2.Ps = 0 := by
  obtain ⟨B, -, rfl⟩ := networkNew_ok_iff.1 h
  exact ⟨rfl, rfl⟩

theorem MadeBy.symm {T : Call → Prop} {A : Prop} {nw : AnyNetwork} (h : MadeBy p T A nw) : nw.2.2.P1.IsSymm := by
  obtain ⟨d, nw0, nw1, l, h1, h2, rfl, -⟩ := h
  exact C48_symmetric_new h1 h2

theorem MadeBy.passive {T : Call → Prop} {A : Prop} {nw : AnyNetwork} (h : MadeBy p T A nw)
    (hT : (∀ c, T c → c.IsBranch) ∨ (∀ c, T c → ¬ c.IsBranch)) (hA : A) (v : Fin nw.1 → ℝ) : v ⬝ᵥ nw.2.2.P1.mulVec v ≤ 0 := by
  obtain ⟨d, nw0, nw1, l, h1, h2, rfl, h3, h4⟩ := h
  refine C49_passive_partial (new_zero h1).1 (h4 hA) ?_ h2 v
  have : ∀ c ∈ l, ∀ c' ∈ l, ¬ (c.IsBranch ∧ ¬ c'.IsBranch) := by
    rintro c hc c' hc' ⟨k1, k2⟩
    rcases hT with hT | hT
    · exact k2 (hT _ (h3 c' hc'))
    · exact hT _ (h3 c hc) k1
  exact List.pairwise_iff_forall_sublist.2 fun hs k1 k2 => absurd ⟨k1, k2⟩
    (this _ (hs.subset (by simp)) _ (hs.subset (by simp)))

theorem MadeBy.conserved {A : Prop} {nw : AnyNetwork} (h : MadeBy p Call.IsBranch A nw) (v : Fin nw.1 → ℝ) :
    ∑ i, nw.2.2.P1.mulVec v i = 0 := by
  obtain ⟨d, nw0, nw1, l, h1, h2, rfl, h3, -⟩ := h
  exact C50_conserved (new_zero h1).1 h3 h2 v

/-- The connectors a file gives are those of its material list. -/
theorem PinAt_connector {P : Parsed p} {c : ℤ} {d : PinData p} (h : P.PinAt c d) :
    ∃ m ∈ P.file.connectors, d.pin.connector = m.connector := by
  have h := h.cable
  unfold File.connectorAndCableInNode at h
  obtain ⟨⟨el, side⟩, -, h⟩ := bind_ok_iff.1 h
  obtain ⟨⟨id, cable, k⟩, -, h⟩ := bind_ok_iff.1 h
  simp only at h
  cases hf : P.file.connectors.find? fun c => decide (c.materialId = id) with
  | none => rw [hf] at h; cases h
  | some m =>
    rw [hf] at h
    have := Except.ok.inj h
    simp only [Prod.mk.injEq] at this
    exact ⟨m, List.mem_of_find?_eq_some hf, this.1.symm⟩

theorem jointNetwork_made {P : Parsed p} {once : Bool} {f : ∀ {N S}, Network N S → List Pin → Py (Network N S)}
    {T : Call → Prop} (hf : ∀ {N S : ℕ} (nw nw' : Network N S) (g : List Pin), f nw g = .ok nw' →
      ∃ l : List Call, nw.calls l = .ok nw' ∧ (∀ c ∈ l, T c) ∧ ((∀ e ∈ g, e.connector.NonNeg) → ∀ c ∈ l, c.Positive))
    {t : Joint} {level : ℕ} {nw : AnyNetwork} (h : P.jointNetwork once f t = .ok (level, nw)) :
    MadeBy p T (∀ m ∈ P.file.connectors, m.connector.NonNeg) nw := by
  unfold Parsed.jointNetwork at h
  obtain ⟨B, hB, h⟩ := bind_ok_iff.1 h
  obtain ⟨nw0, h0, h⟩ := bind_ok_iff.1 h
  obtain ⟨nw1, h1, h⟩ := bind_ok_iff.1 h
  have h2 : (B.level, (⟨nw0.1, nw0.2.1, nw1⟩ : AnyNetwork)) = (level, nw) := Except.ok.inj h
  obtain ⟨h3, h4⟩ := Prod.mk.inj h2
  subst h3 h4
  obtain ⟨gs, k1, -, k3, -⟩ := describeJoint_effect hB
  obtain ⟨l, h5, h6, h7⟩ := fold_calls (A := ∀ m ∈ P.file.connectors, m.connector.NonNeg) (Q := Call.Positive) (T := T)
    (fun g hg x y hxy => by
      obtain ⟨l, h5, h6, h7⟩ := hf x y g hxy
      refine ⟨l, h5, h6, fun hA => h7 fun e he => ?_⟩
      rw [k3] at hg
      obtain ⟨g', hg', rfl⟩ := List.mem_map.1 hg
      obtain ⟨d, hd, rfl⟩ := List.mem_map.1 he
      obtain ⟨cs, hcs, hcs'⟩ : ∃ cs, cs ∈ t.coordIds ∧ List.Forall₂ P.PinAt cs g' := by
        obtain ⟨i, hi, rfl⟩ := List.getElem_of_mem hg'
        have q := List.forall₂_iff_get.1 k1
        exact ⟨_, List.getElem_mem (q.1 ▸ hi), q.2 i (q.1 ▸ hi) hi⟩
      obtain ⟨c, hc⟩ : ∃ c, P.PinAt c d := by
        obtain ⟨i, hi, rfl⟩ := List.getElem_of_mem hd
        have q := List.forall₂_iff_get.1 hcs'
        exact ⟨_, q.2 i (q.1 ▸ hi) hi⟩
      obtain ⟨m, hm, e⟩ := PinAt_connector hc
      rw [e]
      exact hA m hm) h1
  exact ⟨_, nw0, nw1, l, h0, h5, rfl, h6, h7⟩

theorem mem_dictSet_elim {α β : Type} [DecidableEq α] {d : List (α × β)} {k : α} {v : β} {e : α × β} (h : e ∈ dictSet d k v) :
    e = (k, v) ∨ e ∈ d := by
  unfold dictSet at h
  split_ifs at h
  · obtain ⟨a, ha, h1⟩ := List.mem_map.1 h
    split_ifs at h1
    · exact .inl h1.symm
    · exact .inr (h1 ▸ ha)
  · rcases List.mem_append.1 h with h | h
    · exact .inr h
    · exact .inl (List.mem_singleton.1 h)

/-- Every network of a position is the network of one of the joints. -/
theorem jointNetworks_mem {P : Parsed p} {once : Bool} {f : ∀ {N S}, Network N S → List Pin → Py (Network N S)}
    {ts : List Joint} {d : NetworkD} (h : P.jointNetworks once f ts = .ok d) :
    ∀ e ∈ d, ∃ t ∈ ts, P.jointNetwork once f t = .ok e := by
  have key : ∀ (ts : List Joint) (d0 d : NetworkD), ts.foldlM (fun (d : NetworkD) t => do
      let r ← P.jointNetwork once f t
      .ok (dictSet d r.1 r.2)) d0 = (.ok d : Py _) → ∀ e ∈ d, e ∈ d0 ∨ ∃ t ∈ ts, P.jointNetwork once f t = .ok e := by
    intro ts
    induction ts with
    | nil =>
      intro d0 d h e he
      obtain rfl : d0 = d := Except.ok.inj h
      exact .inl he
    | cons t ts ih =>
      intro d0 d h e he
      rw [List.foldlM_cons] at h
      obtain ⟨d1, h1, h⟩ := bind_ok_iff.1 h
      obtain ⟨r, hr, h1⟩ := bind_ok_iff.1 h1
      obtain rfl := Except.ok.inj h1
      rcases ih _ _ h e he with h2 | ⟨t', ht', h2⟩
      · rcases mem_dictSet_elim h2 with rfl | h3
        · exact .inr ⟨t, List.mem_cons_self, hr⟩
        · exact .inl h3
      · exact .inr ⟨t', List.mem_cons_of_mem _ ht', h2⟩
  intro e he
  rcases key ts [] d h e he with h1 | h1
  · simp at h1
  · exact h1

theorem buildTerminations_made {P : Parsed p} {ds : List NetworkD} (h : P.buildTerminations = .ok ds) :
    ∀ d ∈ ds, ∀ e ∈ d, MadeBy p (fun c => ¬ c.IsBranch) (∀ m ∈ P.file.connectors, m.connector.NonNeg) e.2 := by
  intro d hd e he
  unfold Parsed.buildTerminations at h
  obtain ⟨gs, -, h⟩ := bind_ok_iff.1 h
  obtain ⟨ts, -, h1⟩ := mapPy_mem h d hd
  obtain ⟨t, -, h2⟩ := jointNetworks_mem h1 e he
  exact jointNetwork_made (fun _ _ _ h => terminate_calls h) (level := e.1) h2

theorem buildJunctions_made {P : Parsed p} {ds : List NetworkD} (h : P.buildJunctions = .ok ds) :
    ∀ d ∈ ds, ∀ e ∈ d, MadeBy p Call.IsBranch (∀ m ∈ P.file.connectors, m.connector.NonNeg) e.2 := by
  intro d hd e he
  unfold Parsed.buildJunctions at h
  obtain ⟨gs, -, h⟩ := bind_ok_iff.1 h
  obtain ⟨ts, -, h1⟩ := mapPy_mem h d hd
  obtain ⟨t, -, h2⟩ := jointNetworks_mem h1 e he
  exact jointNetwork_made (fun _ _ _ h => join_calls h) (level := e.1) h2

/-- **C128** The networks of a file are reciprocal: their matrices `P1` are symmetric.  With resistances that are not negative
they dissipate: `v · P1 v ≤ 0` for all voltages `v` of the nodes.  The currents into the nodes of a junction add up to 0. -/
theorem C128_networks {P P' : Parsed p} (h : P.buildNetworks = .ok P') :
    (∀ d ∈ P'.networks, ∀ e ∈ d, e.2.2.2.P1.IsSymm) ∧
    ((∀ m ∈ P.file.connectors, m.connector.NonNeg) → ∀ d ∈ P'.networks, ∀ e ∈ d, ∀ v, v ⬝ᵥ e.2.2.2.P1.mulVec v ≤ 0) ∧
    ∃ js ts, P.buildJunctions = .ok js ∧ P.buildTerminations = .ok ts ∧ P'.networks = js ++ ts ∧
      ∀ d ∈ js, ∀ e ∈ d, ∀ v, ∑ i, e.2.2.2.P1.mulVec v i = 0 := by
  unfold Parsed.buildNetworks at h
  obtain ⟨js, h1, h⟩ := bind_ok_iff.1 h
  obtain ⟨ts, h2, h⟩ := bind_ok_iff.1 h
  obtain rfl := Except.ok.inj h
  refine ⟨?_, ?_, js, ts, h1, h2, rfl, ?_⟩
  · intro d hd e he
    rcases List.mem_append.1 hd with hd | hd
    · exact (buildJunctions_made h1 d hd e he).symm
    · exact (buildTerminations_made h2 d hd e he).symm
  · intro hn d hd e he v
    rcases List.mem_append.1 hd with hd | hd
    · exact (buildJunctions_made h1 d hd e he).passive (.inl fun _ => id) hn v
    · exact (buildTerminations_made h2 d hd e he).passive (.inr fun _ => id) hn v
  · intro d hd e he v
    exact (buildJunctions_made h1 d hd e he).conserved v

/-- Non-vacuity: a file with resistances of 50 Ω and a network. -/
theorem C128_example {order : List String → List String} (h0 : order ["o"] = ["o"]) (h1 : order ["a", "b"] = ["a", "b"]) :
    ∃ P P' : Parsed p, Parsed.buildBundles order { file := demoShieldWith [] [] [] [] [⟨"bond", [[1, 2]]⟩] } = .ok P ∧
      P.buildNetworks = .ok P' ∧ P'.networks ≠ [] ∧ ∀ m ∈ P.file.connectors, m.connector.NonNeg := by
  obtain ⟨P, nw, h2, h3, -⟩ := C127_refuted (p := p) h0 h1
  have hF : P.file = demoShieldWith [] [] [] [] [⟨"bond", [[1, 2]]⟩] := by
    obtain ⟨P', -, -, -, -, h4, h5, -⟩ := demoShield_parsed (p := p) h0 h1 [⟨"bond", [[1, 2]]⟩]
    rw [← Except.ok.inj (h4.symm.trans h2)]
    exact h5
  have ht : P.buildTerminations = .ok [] := by
    unfold Parsed.buildTerminations
    rw [hF]
    rfl
  refine ⟨P, { P with networks := [[(1, ⟨2, 0, nw⟩)]] }, h2, ?_, by simp, ?_⟩
  · unfold Parsed.buildNetworks
    rw [h3, ht]
    rfl
  · intro m hm
    rw [hF] at hm
    have : m = { materialId := 5, connector := { connectorType := "Conn_R", resistance := some 50 } } := by
      simpa [demoShieldWith, demoShieldFile] using hm
    subst this
    exact ⟨by simp, by simp⟩

end Mtln
