import Verif.Spec.PlainFile
import Verif.Props.ParserJoint
import Verif.Props.ParserRead
import Verif.Props.ProgramSources

/-! # The networks of files of resistors and capacitors -/

namespace Mtln

variable {n p N S : ℕ}

/-- What the connections of a joint with these pins may be. -/
structure Call.For (pins : List Pin) (branch : Prop) (c : Call) : Prop where
  rc : c.IsRC
  branch : c.IsBranch ↔ branch
  source : ∀ W : Submodule ℝ (ℝ → ℝ), (∀ e ∈ pins, ∀ f, e.source = some f → f ∈ W) → ∀ f, c.source = some f → f ∈ W

theorem Call.For.mono {pins pins' : List Pin} {b : Prop} {c : Call} (hs : ∀ e ∈ pins, e ∈ pins') (h : c.For pins b) :
    c.For pins' b := ⟨h.rc, h.branch, fun W hW => h.source W fun e he => hW e (hs e he)⟩

/-- A resistance or a short circuit from the node to the ground. -/
def GroundedBy (l : List Call) (id : ℤ) : Prop := (∃ R Vt, .ground id R Vt ∈ l) ∨ .shortGround id ∈ l

theorem GroundedBy.mono {l l' : List Call} {id : ℤ} (hs : ∀ c ∈ l, c ∈ l') (h : GroundedBy l id) : GroundedBy l' id := by
  rcases h with ⟨R, Vt, h⟩ | h
  · exact .inl ⟨R, Vt, hs _ h⟩
  · exact .inr (hs _ h)

theorem pin_source {pins : List Pin} {e : Pin} (he : e ∈ pins) {c : Call} (hc : c.source = e.source ∨ c.source = none)
    (W : Submodule ℝ (ℝ → ℝ)) (hW : ∀ e ∈ pins, ∀ f, e.source = some f → f ∈ W) (f : ℝ → ℝ) (hf : c.source = some f) : f ∈ W := by
  rcases hc with hc | hc
  · exact hW e he f (hc ▸ hf)
  · rw [hc] at hf; cases hf

theorem single_rc {nw nw' : Network N S} {c : Call} (h : nw.call c = .ok nw') {pins : List Pin} {b : Prop} (hc : c.For pins b)
    {A : Prop} {id : ℤ} (hA : A → GroundedBy [c] id) :
    ∃ l : List Call, nw.calls l = .ok nw' ∧ (∀ c ∈ l, c.For pins b) ∧ (A → GroundedBy l id) :=
  ⟨[c], calls_cons.2 ⟨nw', h, calls_nil.2 rfl⟩, fun c' hc' => by rw [List.mem_singleton.1 hc']; exact hc, hA⟩

theorem none_rc (nw : Network N S) (pins : List Pin) (b : Prop) {A : Prop} {id : ℤ} (hA : ¬ A) :
    ∃ l : List Call, nw.calls l = .ok nw ∧ (∀ c ∈ l, c.For pins b) ∧ (A → GroundedBy l id) :=
  ⟨[], calls_nil.2 rfl, by simp, fun h => absurd h hA⟩

theorem ground_rc {nw nw' : Network N S} {id : ℤ} {R : ℝ} {pins : List Pin} {e : Pin} (he : e ∈ pins)
    (h : nw.connectToGround id R e.source = .ok nw') (h0 : 0 ≤ R) {A : Prop} (hA : A → R ≠ 0) :
    ∃ l : List Call, nw.calls l = .ok nw' ∧ (∀ c ∈ l, c.For pins False) ∧ (A → GroundedBy l id) := by
  by_cases hR : R = 0
  · subst hR
    obtain rfl : nw = nw' := by
      unfold Network.connectToGround at h
      obtain ⟨a, -, h⟩ := bind_ok_iff.1 h
      cases hV : e.source with
      | none =>
        rw [hV] at h
        simpa using h
      | some f =>
        rw [hV] at h
        simp [raiseIf, bind, Except.bind] at h
    exact none_rc nw pins False fun a => hA a rfl
  · refine single_rc (c := .ground id R e.source) h ⟨⟨trivial, lt_of_le_of_ne h0 (Ne.symm hR)⟩, by simp [Call.IsBranch], ?_⟩
      fun _ => .inl ⟨R, e.source, by simp⟩
    exact pin_source he (.inl rfl)

theorem short_rc {nw nw' : Network N S} {id : ℤ} {pins : List Pin} (h : nw.shortToGround id = .ok nw') {A : Prop} :
    ∃ l : List Call, nw.calls l = .ok nw' ∧ (∀ c ∈ l, c.For pins False) ∧ (A → GroundedBy l id) :=
  single_rc (c := .shortGround id) h ⟨⟨trivial, trivial⟩, by simp [Call.IsBranch], fun _ _ f hf => by cases hf⟩
    fun _ => .inr (by simp)

theorem capacitor_rc {nw nw' : Network N S} {id : ℤ} {C : ℝ} {pins : List Pin} {e : Pin} (he : e ∈ pins)
    (h : nw.connectToGroundC id C e.source = .ok nw') (h0 : 0 ≤ C) {A : Prop} (hA : ¬ A) :
    ∃ l : List Call, nw.calls l = .ok nw' ∧ (∀ c ∈ l, c.For pins False) ∧ (A → GroundedBy l id) :=
  single_rc (c := .groundC id C e.source) h ⟨⟨h0, trivial⟩, by simp [Call.IsBranch], pin_source he (.inl rfl)⟩
    fun a => absurd a hA

theorem terminateSingle_rc {nw nw' : Network N S} {e : Pin} (h : nw.terminateSingle e = .ok nw') (hc : e.connector.IsRC)
    {pins : List Pin} (he : e ∈ pins) :
    ∃ l : List Call, nw.calls l = .ok nw' ∧ (∀ c ∈ l, c.For pins False) ∧ (e.connector.Grounds → GroundedBy l e.node) := by
  unfold Network.terminateSingle at h
  split_ifs at h with h1 h2 h3 h4
  · exact short_rc h
  · obtain ⟨R, h5, h⟩ := bind_ok_iff.1 h
    have h5 := pyKey_ok_iff.1 h5
    refine ground_rc he h (hc.resistance R h5) ?_
    rintro (h6 | ⟨-, R', h6, h7⟩)
    · exact absurd h6 h1
    · rw [h5] at h6
      rw [Option.some.inj h6]
      exact h7
  · obtain ⟨C, h5, h⟩ := bind_ok_iff.1 h
    refine capacitor_rc he h (hc.capacitance C (pyKey_ok_iff.1 h5)) ?_
    rintro (h6 | ⟨h6, -⟩)
    · exact h1 h6
    · exact h2 h6.symm
  · exact absurd h4 hc.type
  · obtain rfl : nw = nw' := Except.ok.inj h
    refine none_rc nw pins False ?_
    rintro (h6 | ⟨h6, -⟩)
    · exact h1 h6
    · exact h2 h6.symm

theorem vectorEntry_nonneg {v : Option (List ℝ)} {k : ℕ} {d R : ℝ} (h : vectorEntry v k d = .ok R) (hd : 0 ≤ d)
    (hv : ∀ l, v = some l → ∀ R ∈ l, 0 ≤ R) : 0 ≤ R := by
  unfold vectorEntry at h
  cases v with
  | none => exact Except.ok.inj h ▸ hd
  | some l => exact hv l rfl R (List.mem_of_getElem? (pyIndex_ok_iff.1 h))

theorem terminateWith_rc {nw nw' : Network N S} {id : ℤ} {k : ℕ} {e : Pin} (h : nw.terminateWith id k e.connector (.ok e.source) = .ok nw')
    (hc : e.connector.IsRC) {pins : List Pin} (he : e ∈ pins) :
    ∃ l : List Call, nw.calls l = .ok nw' ∧ (∀ c ∈ l, c.For pins False) ∧ (e.connector.GroundsAt k → GroundedBy l id) := by
  unfold Network.terminateWith at h
  split_ifs at h with hm
  · obtain ⟨R, h1, h⟩ := bind_ok_iff.1 h
    obtain ⟨C, h2, h⟩ := bind_ok_iff.1 h
    obtain ⟨L, h3, h⟩ := bind_ok_iff.1 h
    obtain ⟨ts, h4, h⟩ := bind_ok_iff.1 h
    obtain ⟨type, h5, h⟩ := bind_ok_iff.1 h
    have h4 := pyKey_ok_iff.1 h4
    have h5 := pyIndex_ok_iff.1 h5
    have hg : e.connector.GroundsAt k → type = "Conn_short" ∨ ((type = "Conn_R" ∨ type = "Conn_sRLC") ∧ R ≠ 0) := by
      rintro ⟨-, ts', g1, g2⟩
      rw [h4] at g1
      obtain rfl := Option.some.inj g1
      rw [h5] at g2
      simp only [Option.some.injEq] at g2
      refine g2.imp_right fun ⟨g3, v, R', g4, g5, g6⟩ => ⟨g3, ?_⟩
      rw [g4] at h1
      have := pyIndex_ok_iff.1 h1
      rw [g5] at this
      rw [← Option.some.inj this]
      exact g6
    split_ifs at h with k1 k2 k3 k4
    · exact short_rc h
    · exact ground_rc (R := R) he h (vectorEntry_nonneg h1 le_rfl hc.resistances) fun a => (hg a).elim (absurd · k1) And.right
    · exact absurd (k3 ▸ List.mem_of_getElem? h5) (hc.types ts h4)
    · exact capacitor_rc (C := C) he h (vectorEntry_nonneg h2 (by positivity) hc.capacitances)
        fun a => (hg a).elim k1 fun b => k2 b.1
    · obtain rfl : nw = nw' := Except.ok.inj h
      exact none_rc nw pins False fun a => (hg a).elim k1 fun b => k2 b.1
  · obtain rfl : nw = nw' := Except.ok.inj h
    exact none_rc nw pins False fun a => hm a.1

theorem fold_rc {α : Type} {f : Network N S → α → Py (Network N S)} {T : Call → Prop} {G : α → List Call → Prop}
    (hG : ∀ a l l', (∀ c ∈ l, c ∈ l') → G a l → G a l') {l : List α}
    (hf : ∀ a ∈ l, ∀ nw nw', f nw a = .ok nw' → ∃ cs : List Call, nw.calls cs = .ok nw' ∧ (∀ c ∈ cs, T c) ∧ G a cs)
    {nw nw' : Network N S} (h : l.foldlM f nw = .ok nw') :
    ∃ cs : List Call, nw.calls cs = .ok nw' ∧ (∀ c ∈ cs, T c) ∧ ∀ a ∈ l, G a cs := by
  induction l generalizing nw with
  | nil =>
    obtain rfl : nw = nw' := Except.ok.inj h
    exact ⟨[], calls_nil.2 rfl, by simp, by simp⟩
  | cons a l ih =>
    rw [List.foldlM_cons] at h
    obtain ⟨nw1, h1, h⟩ := bind_ok_iff.1 h
    obtain ⟨c1, h2, h3, h4⟩ := hf a List.mem_cons_self _ _ h1
    obtain ⟨c2, h5, h6, h7⟩ := ih (fun a ha => hf a (List.mem_cons_of_mem _ ha)) h
    refine ⟨c1 ++ c2, calls_append.2 ⟨_, h2, h5⟩, ?_, ?_⟩
    · intro c hc
      exact (List.mem_append.1 hc).elim (h3 c) (h6 c)
    · intro a' ha'
      rcases List.mem_cons.1 ha' with rfl | ha'
      · exact hG _ _ _ (fun c hc => List.mem_append_left _ hc) h4
      · exact hG _ _ _ (fun c hc => List.mem_append_right _ hc) (h7 a' ha')

/-- The pin `e` of the group is connected with the ground. -/
def PinGrounded (group : List Pin) (e : Pin) : Prop :=
  (group = [e] ∧ e.connector.Grounds) ∨
    (2 ≤ group.length ∧ ∃ other, group[e.conductor]? = some other ∧ other.connector.GroundsAt e.conductor)

/-- The termination of a group. -/
theorem terminate_rc {nw nw' : Network N S} {group : List Pin} (h : nw.terminate group = .ok nw')
    (hc : ∀ e ∈ group, e.connector.IsRC) :
    ∃ l : List Call, nw.calls l = .ok nw' ∧ (∀ c ∈ l, c.For group False) ∧ ∀ e ∈ group, PinGrounded group e → GroundedBy l e.node := by
  have multi : ∀ group : List Pin, 2 ≤ group.length → (∀ e ∈ group, e.connector.IsRC) →
      group.foldlM (Network.terminateMulti group) nw = .ok nw' →
      ∃ l : List Call, nw.calls l = .ok nw' ∧ (∀ c ∈ l, c.For group False) ∧
        ∀ e ∈ group, PinGrounded group e → GroundedBy l e.node := by
    intro group h2 hc h
    refine fold_rc (G := fun e l => PinGrounded group e → GroundedBy l e.node) (fun e l l' hs hl a => (hl a).mono hs)
      (fun e _ nw nw' h1 => ?_) h
    unfold Network.terminateMulti at h1
    obtain ⟨other, h2, h3⟩ := bind_ok_iff.1 h1
    have h2 := pyIndex_ok_iff.1 h2
    have hm := List.mem_of_getElem? h2
    obtain ⟨l, h4, h5, h6⟩ := terminateWith_rc h3 (hc other hm) hm
    refine ⟨l, h4, h5, ?_⟩
    rintro (⟨rfl, -⟩ | ⟨-, o, h7, h8⟩)
    · simp at *
    · rw [h2] at h7
      obtain rfl := Option.some.inj h7
      exact h6 h8
  match group, h with
  | [], h =>
    obtain rfl : nw = nw' := Except.ok.inj h
    exact ⟨[], calls_nil.2 rfl, by simp, by simp⟩
  | [e], h =>
    obtain ⟨l, h1, h2, h3⟩ := terminateSingle_rc (e := e) h (hc e (by simp)) (pins := [e]) (by simp)
    refine ⟨l, h1, h2, fun e' he' hg => ?_⟩
    obtain rfl := List.mem_singleton.1 he'
    rcases hg with ⟨-, hg⟩ | ⟨hg, -⟩
    · exact h3 hg
    · simp at hg
  | a :: b :: group, h => exact multi (a :: b :: group) (by simp) hc h

theorem addSources_mem {W : Submodule ℝ (ℝ → ℝ)} {s s' : Option (ℝ → ℝ)} (h : ∀ f, s = some f → f ∈ W)
    (h' : ∀ f, s' = some f → f ∈ W) (f : ℝ → ℝ) (hf : addSources s s' = some f) : f ∈ W := by
  match s, s', hf with
  | none, some g, hf => exact h' f hf
  | some g, none, hf => exact h f hf
  | some g, some g', hf =>
    rw [← Option.some.inj hf]
    exact W.add_mem (h g rfl) (h' g' rfl)

theorem Connector.IsRC.nonNeg {c : Connector} (h : c.IsRC) : c.NonNeg := ⟨h.resistance, h.resistances⟩

/-- The connection of a pair of a junction. -/
theorem join_rc {nw nw' : Network N S} {group : List Pin} (h : nw.join group = .ok nw') (hc : ∀ e ∈ group, e.connector.IsRC) :
    ∃ l : List Call, nw.calls l = .ok nw' ∧ ∀ c ∈ l, c.For group True := by
  obtain ⟨e0, e1, R0, R1, rfl, h0, h1, ⟨hR, hk⟩ | ⟨hR, hk⟩⟩ := C116_join.1 h
  · refine ⟨[_], calls_cons.2 ⟨nw', hk, calls_nil.2 rfl⟩, fun c hcl => ?_⟩
    rw [List.mem_singleton.1 hcl]
    exact ⟨⟨trivial, trivial⟩, by simp [Call.IsBranch], fun _ _ f hf => by cases hf⟩
  · refine ⟨[_], calls_cons.2 ⟨nw', hk, calls_nil.2 rfl⟩, fun c hcl => ?_⟩
    rw [List.mem_singleton.1 hcl]
    have k0 := junctionResistance_nonneg h0 (hc e0 (by simp)).nonNeg
    have k1 := junctionResistance_nonneg h1 (hc e1 (by simp)).nonNeg
    refine ⟨⟨trivial, lt_of_le_of_ne (add_nonneg k0 k1) (Ne.symm hR)⟩, by simp [Call.IsBranch], fun W hW f hf => ?_⟩
    exact addSources_mem (hW e0 (by simp)) (hW e1 (by simp)) f hf

/-- The plan of the network of a joint. -/
theorem joint_plan {P : Parsed p} {once : Bool} {f : ∀ {N S}, Network N S → List Pin → Py (Network N S)} {b : Prop}
    {G : List Pin → List Call → Prop} (hG : ∀ a l l', (∀ c ∈ l, c ∈ l') → G a l → G a l')
    (hf : ∀ {N S : ℕ} (nw nw' : Network N S) (g : List Pin), f nw g = .ok nw' → (∀ e ∈ g, e.connector.IsRC) →
      ∃ l : List Call, nw.calls l = .ok nw' ∧ (∀ c ∈ l, c.For g b) ∧ G g l)
    {t : Joint} {e : ℕ × AnyNetwork} (h : P.jointNetwork once f t = .ok e) (hc : ∀ m ∈ P.file.connectors, m.connector.IsRC) :
    ∃ (N : NetPlan p) (desc : List (String × LineConnections p)) (gs : List (List (PinData p))), N.make = .ok e ∧
      N.lines = desc.map Prod.snd ∧ List.Forall₂ (List.Forall₂ P.PinAt) t.coordIds gs ∧ Described once gs.flatten desc ∧
      N.level = (gs.flatten.getLast?.map PinData.level).getD 0 ∧
      (∀ c ∈ N.calls, c.For (gs.flatten.map PinData.pin) b) ∧ ∀ g ∈ gs, G (g.map PinData.pin) N.calls := by
  unfold Parsed.jointNetwork at h
  obtain ⟨B, hB, h⟩ := bind_ok_iff.1 h
  obtain ⟨nw0, h0, h⟩ := bind_ok_iff.1 h
  obtain ⟨nw1, h1, h⟩ := bind_ok_iff.1 h
  obtain rfl := Except.ok.inj h
  obtain ⟨gs, k1, k2, k3, k4⟩ := describeJoint_effect hB
  have hpin : ∀ g' ∈ gs, ∀ d ∈ g', ∃ c, P.PinAt c d := by
    intro g' hg' d hd
    obtain ⟨cs, -, hcs⟩ := forall₂_from k1 g' hg'
    obtain ⟨c, -, hc⟩ := forall₂_from hcs d hd
    exact ⟨c, hc⟩
  obtain ⟨l, h5, h6, h7⟩ := fold_rc (T := fun c => c.For (gs.flatten.map PinData.pin) b) hG
    (fun g hg x y hxy => by
      rw [k3] at hg
      obtain ⟨g', hg', rfl⟩ := List.mem_map.1 hg
      obtain ⟨l, h5, h6, h7⟩ := hf x y _ hxy fun e he => by
        obtain ⟨d, hd, rfl⟩ := List.mem_map.1 he
        obtain ⟨c, hcd⟩ := hpin g' hg' d hd
        obtain ⟨m, hm, e⟩ := PinAt_connector hcd
        rw [e]
        exact hc m hm
      refine ⟨l, h5, fun c hcl => (h6 c hcl).mono fun e he => ?_, h7⟩
      obtain ⟨d, hd, rfl⟩ := List.mem_map.1 he
      exact List.mem_map.2 ⟨d, List.mem_flatten.2 ⟨g', hg', hd⟩, rfl⟩) h1
  refine ⟨⟨B.level, B.description.map Prod.snd, l⟩, B.description, gs, ?_, rfl, k1, k2, k4, h6, fun g hg => h7 _ ?_⟩
  · simp only [NetPlan.make, bind_ok_iff]
    exact ⟨nw0, h0, nw1, h5, rfl⟩
  · rw [k3]
    exact List.mem_map.2 ⟨g, hg, rfl⟩

/-- Every terminal source of a node is a source of the file. -/
theorem terminalSource_mem {F : File} {node : ℤ} {f : ℝ → ℝ} (h : F.terminalSource node = .ok (some f)) :
    ∃ s ∈ F.sources, ∀ t, s.magnitude.eval t = .ok (some (f t)) := by
  unfold File.terminalSource at h
  have key : ∀ l : List SourceDesc, File.terminalSource.go F node l = .ok (some f) →
      ∃ s ∈ l, ∀ t, s.magnitude.eval t = .ok (some (f t)) := by
    intro l
    induction l with
    | nil => intro h; simp [File.terminalSource.go] at h
    | cons s l ih =>
      intro h
      unfold File.terminalSource.go at h
      obtain ⟨q, h1, h⟩ := bind_ok_iff.1 h
      split_ifs at h with hq
      · obtain ⟨g, h2, h⟩ := bind_ok_iff.1 h
        obtain rfl := Option.some.inj (Except.ok.inj h)
        exact ⟨s, List.mem_cons_self, function_ok_iff.1 h2⟩
      · obtain ⟨s', hs', h'⟩ := ih h
        exact ⟨s', List.mem_cons_of_mem _ hs', h'⟩
  obtain ⟨s, hs, h'⟩ := key _ h
  exact ⟨s, (List.mem_filter.1 hs).1, h'⟩

end Mtln
