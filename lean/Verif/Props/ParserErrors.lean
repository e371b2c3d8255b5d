import Verif.Props.BuildErrors
import Verif.Props.LookupErrors
import Verif.Props.ParserSource
import Verif.Props.ParserTermination
import Verif.Props.ParserJunction

/-! # Exactly when and how sources, probes, terminations and junctions of a file raise -/

namespace Mtln

variable {n p N S : ℕ}

/-- A loop raises what its first failing pass raises. -/
theorem groupM_error_iff {α β : Type} {f : β → α → Py β} {l : List α} {b : β} {e : PyErr} :
    l.foldlM f b = .error e ↔ ∃ l₁ x l₂ c, l = l₁ ++ x :: l₂ ∧ l₁.foldlM f b = .ok c ∧ f c x = .error e := by
  induction l generalizing b with
  | nil => simp [pure, Except.pure]
  | cons x l ih =>
    rw [List.foldlM_cons, bind_error_iff]
    constructor
    · rintro (h | ⟨c, hc, h⟩)
      · exact ⟨[], x, l, b, rfl, rfl, h⟩
      · obtain ⟨l₁, y, l₂, d, rfl, hd, hy⟩ := ih.1 h
        exact ⟨x :: l₁, y, l₂, d, rfl, by rw [List.foldlM_cons, hc]; exact hd, hy⟩
    · rintro ⟨l₁, y, l₂, d, hl, hd, hy⟩
      cases l₁ with
      | nil =>
        obtain ⟨rfl, rfl⟩ := List.cons.inj hl
        left
        have : b = d := by simpa [pure, Except.pure] using hd
        rw [this]
        exact hy
      | cons z l₁ =>
        obtain ⟨rfl, rfl⟩ := List.cons.inj hl
        rw [List.foldlM_cons, bind_ok_iff] at hd
        obtain ⟨c, hc, hd⟩ := hd
        exact .inr ⟨c, hc, ih.2 ⟨l₁, y, l₂, d, rfl, hd, hy⟩⟩

/-- **C119** `_getLevelOfCable` raises exactly for cables no bundle has a line of, an `Exception`. -/
theorem C119_level_errors {P : Parsed p} {name : String} (e : PyErr) : P.levelOfCable name = .error e ↔
    (∀ B ∈ P.bundles, ∀ lines ∈ B.levels, ∀ L ∈ lines, L.2.name ≠ name) ∧ e = .Exception := by
  have key : (P.bundles.findSome? fun B => B.levels.findIdx? fun lines => name ∈ lineNames lines) = none ↔
      ∀ B ∈ P.bundles, ∀ lines ∈ B.levels, ∀ L ∈ lines, L.2.name ≠ name := by
    rw [List.findSome?_eq_none_iff]
    refine forall₂_congr fun B _ => ?_
    rw [List.findIdx?_eq_none_iff]
    refine forall₂_congr fun lines _ => ?_
    rw [decide_eq_false_iff_not]
    unfold lineNames
    simp only [List.mem_map, not_exists, not_and]
  unfold Parsed.levelOfCable
  rw [← key]
  cases P.bundles.findSome? fun B => B.levels.findIdx? fun lines => name ∈ lineNames lines with
  | none => simp [eq_comm]
  | some k => simp

/-- **C115** `_getBundleWithCable` raises exactly for cables no bundle has a line of, an `AttributeError` (of its message). -/
theorem C115_bundle_errors {P : Parsed p} {name : String} (e : PyErr) : P.bundleWithCable name = .error e ↔
    (∀ B ∈ P.bundles, ∀ lines ∈ B.levels, ∀ L ∈ lines, L.2.name ≠ name) ∧ e = .AttributeError := by
  have key : (P.bundles.findIdx? fun B => name ∈ lineNames B.levels.flatten) = none ↔
      ∀ B ∈ P.bundles, ∀ lines ∈ B.levels, ∀ L ∈ lines, L.2.name ≠ name := by
    rw [List.findIdx?_eq_none_iff]
    refine forall₂_congr fun B _ => ?_
    rw [decide_eq_false_iff_not]
    unfold lineNames
    simp only [List.mem_map, List.mem_flatten, not_exists, not_and, and_imp, forall_exists_index]
    exact ⟨fun h lines hl L hL => h L lines hl hL, fun h L lines hl hL => h lines hl L hL⟩
  unfold Parsed.bundleWithCable
  rw [← key]
  cases P.bundles.findIdx? fun B => name ∈ lineNames B.levels.flatten with
  | none => simp [eq_comm]
  | some k => simp

/-- **C82** The exceptions of grouping a joint by its position: no first coordinate (`IndexError`), or one without a position
(`KeyError`). -/
theorem C82_errors {F : File} {d : List (V3 × List Joint)} {t : Joint} (e : PyErr) : F.groupStep d t = .error e ↔
    ((t.coordIds = [] ∨ ∃ l, t.coordIds = [] :: l) ∧ e = .IndexError) ∨
    ∃ c cs l, t.coordIds = (c :: cs) :: l ∧ F.coordinate c = .error e := by
  unfold File.groupStep
  rw [bind_error_iff, pyIndex_error_iff]
  rcases ht : t.coordIds with _ | ⟨_ | ⟨c, cs⟩, l⟩
  · simp [pyIndex]
  · simp [pyIndex, bind, Except.bind, eq_comm]
  · have h1 : pyIndex ((c :: cs) :: l) 0 = .ok (c :: cs) := rfl
    have h2 : pyIndex (c :: cs) 0 = .ok c := rfl
    rw [h1]
    simp only [Except.ok.injEq, exists_eq_left', h2]
    constructor
    · rintro (h | h)
      · exact absurd h.1 (by simp)
      · right
        refine ⟨c, cs, l, rfl, ?_⟩
        rw [bind_error_iff] at h
        rcases h with h | ⟨_, hc, h⟩
        · cases h
        · cases hc
          rw [bind_error_iff] at h
          rcases h with h | ⟨x, hx, h⟩
          · exact h
          · split at h <;> cases h
    · rintro (⟨h | ⟨_, h⟩, -⟩ | ⟨c', cs', l', h', h⟩)
      · cases h
      · cases h
      · cases h'
        right
        rw [bind_error_iff]
        right
        refine ⟨c, rfl, ?_⟩
        rw [bind_error_iff]
        exact .inl h

theorem vectorEntry_error_iff {v : Option (List ℝ)} {k : ℕ} {d : ℝ} {e : PyErr} : vectorEntry v k d = .error e ↔
    (∃ l, v = some l ∧ l.length ≤ k) ∧ e = .IndexError := by
  unfold vectorEntry
  cases v with
  | none => simp
  | some l => simp [pyIndex_error_iff]

/-- **C116** The exceptions of the resistance a connector contributes to a junction: a resistor without a resistance (`KeyError`), a
connector of several wires without types (`KeyError`) or without one for the conductor (`IndexError`), or a resistor in it without
resistances (`KeyError`) or without one for the conductor (`IndexError`). -/
theorem C116_resistance_errors {c : Connector} {k : ℕ} (e : PyErr) : junctionResistance c k = .error e ↔
    ((c.connectorType = "Conn_sRLC" ∨ c.connectorType = "Conn_R") ∧ c.resistance = none ∧ e = .KeyError) ∨
    (c.connectorType = "MultiwireConnector" ∧ ((c.connections = none ∧ e = .KeyError) ∨ ∃ ts, c.connections = some ts ∧
      ((ts.length ≤ k ∧ e = .IndexError) ∨ ∃ type, ts[k]? = some type ∧ (type = "Conn_R" ∨ type = "Conn_sRLC") ∧
        ((c.resistanceVector = none ∧ e = .KeyError) ∨ ∃ v, c.resistanceVector = some v ∧ v.length ≤ k ∧ e = .IndexError)))) := by
  unfold junctionResistance
  by_cases h1 : c.connectorType = "Conn_sRLC" ∨ c.connectorType = "Conn_R"
  · rw [if_pos h1, pyKey_error_iff]
    have h2 : c.connectorType ≠ "MultiwireConnector" := by
      rcases h1 with h | h <;> rw [h] <;> decide
    simp [h1, h2]
  rw [if_neg h1]
  simp only [h1, false_and, false_or]
  by_cases h2 : c.connectorType = "MultiwireConnector"
  swap
  · rw [if_neg h2]
    simp [h2]
  rw [if_pos h2]
  simp only [h2, true_and]
  rw [bind_error_iff, pyKey_error_iff]
  refine or_congr Iff.rfl (exists_congr fun ts => and_congr ?_ ?_)
  · cases c.connections <;> simp [pyKey]
  · rw [bind_error_iff, pyIndex_error_iff]
    refine or_congr Iff.rfl (exists_congr fun type => and_congr pyIndex_ok_iff ?_)
    by_cases h3 : type = "Conn_R" ∨ type = "Conn_sRLC"
    · rw [if_pos h3, bind_error_iff, pyKey_error_iff]
      simp only [h3, true_and]
      refine or_congr Iff.rfl (exists_congr fun v => and_congr ?_ pyIndex_error_iff)
      cases c.resistanceVector <;> simp [pyKey]
    · rw [if_neg h3]
      simp [h3]

/-- **C116** The exceptions of joining a group of nodes: not two nodes (`ValueError`), those of the two resistances, and those of
`short_nodes` and `connect_nodes`. -/
theorem C116_errors {nw : Network N S} {group : List Pin} (e : PyErr) : nw.join group = .error e ↔
    (group.length ≠ 2 ∧ e = .ValueError) ∨ ∃ e0 e1, group = [e0, e1] ∧
      (junctionResistance e0.connector e0.conductor = .error e ∨ ∃ R0, junctionResistance e0.connector e0.conductor = .ok R0 ∧
        (junctionResistance e1.connector e1.conductor = .error e ∨ ∃ R1, junctionResistance e1.connector e1.conductor = .ok R1 ∧
          ((R1 + R0 = 0 ∧ nw.shortNodes e0.node e1.node = .error e) ∨
            (R1 + R0 ≠ 0 ∧ nw.connectNodes e0.node e1.node (R0 + R1) (addSources e0.source e1.source) = .error e)))) := by
  rcases group with _ | ⟨e0, _ | ⟨e1, _ | ⟨e2, l⟩⟩⟩
  · constructor
    · intro h
      cases h
      exact .inl ⟨by simp, rfl⟩
    · rintro (⟨-, rfl⟩ | ⟨_, _, h, _⟩)
      · rfl
      · simp at h
  · constructor
    · intro h
      cases h
      exact .inl ⟨by simp, rfl⟩
    · rintro (⟨-, rfl⟩ | ⟨_, _, h, _⟩)
      · rfl
      · simp at h
  · simp only [Network.join, List.length_cons, List.length_nil, zero_add, Nat.reduceAdd, ne_eq, not_true_eq_false, false_and, false_or,
      List.cons.injEq, and_true]
    rw [bind_error_iff]
    constructor
    · intro h
      refine ⟨e0, e1, ⟨rfl, rfl⟩, h.imp id fun ⟨R0, h0, h⟩ => ⟨R0, h0, ?_⟩⟩
      rw [bind_error_iff] at h
      refine h.imp id fun ⟨R1, h1, h⟩ => ⟨R1, h1, ?_⟩
      split at h
      · rename_i hR; exact .inl ⟨hR, h⟩
      · rename_i hR; exact .inr ⟨hR, h⟩
    · rintro ⟨_, _, ⟨rfl, rfl⟩, h⟩
      refine h.imp id fun ⟨R0, h0, h⟩ => ⟨R0, h0, ?_⟩
      rw [bind_error_iff]
      refine h.imp id fun ⟨R1, h1, h⟩ => ⟨R1, h1, ?_⟩
      rcases h with ⟨hR, h⟩ | ⟨hR, h⟩
      · rw [if_pos hR]; exact h
      · rw [if_neg hR]; exact h
  · constructor
    · intro h
      cases h
      exact .inl ⟨by simp, rfl⟩
    · rintro (⟨-, rfl⟩ | ⟨_, _, h, _⟩)
      · rfl
      · simp at h

/-- **C85** The exceptions of the termination of a single node: an element without its parameter (`KeyError`), and those of the
connection to ground. -/
theorem C85_single_errors {nw : Network N S} {x : Pin} (e : PyErr) : nw.terminateSingle x = .error e ↔
    (x.connector.connectorType = "Conn_short" ∧ nw.shortToGround x.node = .error e) ∨
    ((x.connector.connectorType = "Conn_sRLC" ∨ x.connector.connectorType = "Conn_R") ∧
      ((x.connector.resistance = none ∧ e = .KeyError) ∨
        ∃ R, x.connector.resistance = some R ∧ nw.connectToGround x.node R x.source = .error e)) ∨
    (x.connector.connectorType = "Conn_C" ∧ ((x.connector.capacitance = none ∧ e = .KeyError) ∨
        ∃ C, x.connector.capacitance = some C ∧ nw.connectToGroundC x.node C x.source = .error e)) ∨
    (x.connector.connectorType = "Conn_LCpRs" ∧
      (((x.connector.resistance = none ∨ x.connector.inductance = none ∨ x.connector.capacitance = none) ∧ e = .KeyError) ∨
        ∃ R L C, x.connector.resistance = some R ∧ x.connector.inductance = some L ∧ x.connector.capacitance = some C ∧
          nw.connectToGroundLCpRs x.node R L C x.source = .error e)) := by
  unfold Network.terminateSingle
  generalize x.connector.connectorType = ty
  by_cases h1 : ty = "Conn_short"
  · subst h1; simp
  rw [if_neg h1]
  by_cases h2 : ty = "Conn_sRLC" ∨ ty = "Conn_R"
  · rw [if_pos h2]
    have h3 : ty ≠ "Conn_C" ∧ ty ≠ "Conn_LCpRs" := by rcases h2 with rfl | rfl <;> decide
    simp only [h1, h2, h3.1, h3.2, false_and, false_or, true_and, or_false]
    cases x.connector.resistance <;> simp [pyKey, bind, Except.bind, eq_comm]
  rw [if_neg h2]
  by_cases h3 : ty = "Conn_C"
  · rw [if_pos h3]
    subst h3
    simp only [h1, h2, false_and, false_or, true_and]
    cases x.connector.capacitance <;> simp [pyKey, bind, Except.bind, eq_comm]
  rw [if_neg h3]
  by_cases h4 : ty = "Conn_LCpRs"
  · rw [if_pos h4]
    subst h4
    simp only [h1, h2, h3, false_and, false_or, true_and]
    cases x.connector.resistance <;> cases x.connector.inductance <;> cases x.connector.capacitance <;>
      simp [pyKey, bind, Except.bind, eq_comm]
  · rw [if_neg h4]
    simp [h1, h2, h3, h4]

theorem pyKey_ok_iff' {α : Type} {x : Option α} {y : α} : pyKey x = .ok y ↔ x = some y := by
  cases x <;> simp [pyKey]

/-- **C85** The exceptions of the termination of one of several nodes: no entry for its conductor in a vector of parameters or in the
types (`IndexError`), no types (`KeyError`), and those of the connection to ground. -/
theorem C85_multi_errors {nw : Network N S} {node : ℤ} {k : ℕ} {c : Connector} {f : Option (ℝ → ℝ)} (e : PyErr) :
    nw.terminateWith node k c (.ok f) = .error e ↔ c.connectorType = "MultiwireConnector" ∧
      (((∃ l, (c.resistanceVector = some l ∨ c.capacitanceVector = some l ∨ c.inductanceVector = some l) ∧ l.length ≤ k) ∧
          e = .IndexError) ∨
        ∃ R C L, vectorEntry c.resistanceVector k 0 = .ok R ∧ vectorEntry c.capacitanceVector k (10 ^ 22) = .ok C ∧
          vectorEntry c.inductanceVector k 0 = .ok L ∧ ((c.connections = none ∧ e = .KeyError) ∨ ∃ ts, c.connections = some ts ∧
            ((ts.length ≤ k ∧ e = .IndexError) ∨ ∃ type, ts[k]? = some type ∧
              ((type = "Conn_short" ∧ nw.shortToGround node = .error e) ∨
                ((type = "Conn_R" ∨ type = "Conn_sRLC") ∧ nw.connectToGround node R f = .error e) ∨
                (type = "Conn_LCpRs" ∧ nw.connectToGroundLCpRs node R L C f = .error e) ∨
                (type = "Conn_C" ∧ nw.connectToGroundC node C f = .error e))))) := by
  unfold Network.terminateWith
  by_cases hc : c.connectorType = "MultiwireConnector"
  swap
  · rw [if_neg hc]
    simp [hc]
  rw [if_pos hc]
  simp only [hc, true_and]
  have tail : ∀ R C L, ((do
      let ts ← pyKey c.connections
      let type ← pyIndex ts k
      if type = "Conn_short" then nw.shortToGround node
      else if type = "Conn_R" ∨ type = "Conn_sRLC" then do
        let f ← (.ok f : Py (Option (ℝ → ℝ)))
        nw.connectToGround node R f
      else if type = "Conn_LCpRs" then do
        let f ← (.ok f : Py (Option (ℝ → ℝ)))
        nw.connectToGroundLCpRs node R L C f
      else if type = "Conn_C" then do
        let f ← (.ok f : Py (Option (ℝ → ℝ)))
        nw.connectToGroundC node C f
      else .ok nw : Py (Network N S)) = .error e ↔ ((c.connections = none ∧ e = .KeyError) ∨ ∃ ts, c.connections = some ts ∧
            ((ts.length ≤ k ∧ e = .IndexError) ∨ ∃ type, ts[k]? = some type ∧
              ((type = "Conn_short" ∧ nw.shortToGround node = .error e) ∨
                ((type = "Conn_R" ∨ type = "Conn_sRLC") ∧ nw.connectToGround node R f = .error e) ∨
                (type = "Conn_LCpRs" ∧ nw.connectToGroundLCpRs node R L C f = .error e) ∨
                (type = "Conn_C" ∧ nw.connectToGroundC node C f = .error e))))) := by
    intro R C L
    rw [bind_error_iff, pyKey_error_iff]
    refine or_congr Iff.rfl (exists_congr fun ts => and_congr pyKey_ok_iff' ?_)
    rw [bind_error_iff, pyIndex_error_iff]
    refine or_congr Iff.rfl (exists_congr fun type => and_congr pyIndex_ok_iff ?_)
    by_cases h1 : type = "Conn_short"
    · subst h1; simp
    rw [if_neg h1]
    by_cases h2 : type = "Conn_R" ∨ type = "Conn_sRLC"
    · rw [if_pos h2]
      have h3 : type ≠ "Conn_LCpRs" ∧ type ≠ "Conn_C" := by rcases h2 with rfl | rfl <;> decide
      simp only [h1, h2, h3.1, h3.2, false_and, false_or, true_and, or_false]
      rfl
    rw [if_neg h2]
    by_cases h3 : type = "Conn_LCpRs"
    · rw [if_pos h3]
      have h4 : type ≠ "Conn_C" := by rw [h3]; decide
      simp only [h1, h2, h3, h4, false_and, false_or, true_and]
      subst h3
      simp [bind, Except.bind]
    rw [if_neg h3]
    by_cases h4 : type = "Conn_C"
    · rw [if_pos h4]
      subst h4
      simp [bind, Except.bind]
    · rw [if_neg h4]
      simp [h1, h2, h3, h4]
  rw [bind_error_iff, vectorEntry_error_iff]
  constructor
  · rintro (⟨⟨l, h1, h2⟩, rfl⟩ | ⟨R, hR, h⟩)
    · exact .inl ⟨⟨l, .inl h1, h2⟩, rfl⟩
    · rw [bind_error_iff, vectorEntry_error_iff] at h
      rcases h with ⟨⟨l, h1, h2⟩, rfl⟩ | ⟨C, hC, h⟩
      · exact .inl ⟨⟨l, .inr (.inl h1), h2⟩, rfl⟩
      · rw [bind_error_iff, vectorEntry_error_iff] at h
        rcases h with ⟨⟨l, h1, h2⟩, rfl⟩ | ⟨L, hL, h⟩
        · exact .inl ⟨⟨l, .inr (.inr h1), h2⟩, rfl⟩
        · exact .inr ⟨R, C, L, hR, hC, hL, (tail R C L).1 h⟩
  · intro h
    by_cases hR : ∃ l, c.resistanceVector = some l ∧ l.length ≤ k
    · left
      refine ⟨hR, ?_⟩
      rcases h with ⟨-, h⟩ | ⟨R, C, L, h, -⟩
      · exact h
      · rw [vectorEntry_error_iff.2 ⟨hR, rfl⟩] at h
        cases h
    right
    obtain ⟨R, hR'⟩ : ∃ R, vectorEntry c.resistanceVector k 0 = .ok R := by
      cases hq : vectorEntry c.resistanceVector k 0 with
      | ok R => exact ⟨R, rfl⟩
      | error e' => exact absurd (vectorEntry_error_iff.1 hq).1 hR
    refine ⟨R, hR', ?_⟩
    rw [bind_error_iff, vectorEntry_error_iff]
    by_cases hC : ∃ l, c.capacitanceVector = some l ∧ l.length ≤ k
    · left
      refine ⟨hC, ?_⟩
      rcases h with ⟨-, h⟩ | ⟨R, C, L, -, h, -⟩
      · exact h
      · rw [vectorEntry_error_iff.2 ⟨hC, rfl⟩] at h
        cases h
    right
    obtain ⟨C, hC'⟩ : ∃ C, vectorEntry c.capacitanceVector k (10 ^ 22) = .ok C := by
      cases hq : vectorEntry c.capacitanceVector k (10 ^ 22) with
      | ok C => exact ⟨C, rfl⟩
      | error e' => exact absurd (vectorEntry_error_iff.1 hq).1 hC
    refine ⟨C, hC', ?_⟩
    rw [bind_error_iff, vectorEntry_error_iff]
    rcases h with ⟨⟨l, h1, h2⟩, rfl⟩ | ⟨R', C', L, e1, e2, e3, h⟩
    · left
      rcases h1 with h1 | h1 | h1
      · exact absurd ⟨l, h1, h2⟩ hR
      · exact absurd ⟨l, h1, h2⟩ hC
      · exact ⟨⟨l, h1, h2⟩, rfl⟩
    · right
      rw [hR'] at e1
      rw [hC'] at e2
      cases e1
      cases e2
      exact ⟨L, e3, (tail _ _ L).2 h⟩

/-- **C85** The exceptions of the termination of a group of several nodes, at its first node that raises: no node at the position of its
conductor (`IndexError`), or those of its termination. -/
theorem C85_group_errors {nw : Network N S} {group : List Pin} (h2 : 2 ≤ group.length) (e : PyErr) : nw.terminate group = .error e ↔
    ∃ l₁ x l₂ nw', group = l₁ ++ x :: l₂ ∧ l₁.foldlM (Network.terminateMulti group) nw = .ok nw' ∧
      ((group.length ≤ x.conductor ∧ e = .IndexError) ∨ ∃ y, group[x.conductor]? = some y ∧
        nw'.terminateWith x.node x.conductor y.connector (.ok y.source) = .error e) := by
  have : nw.terminate group = group.foldlM (Network.terminateMulti group) nw := by
    rcases group with _ | ⟨a, _ | ⟨b, l⟩⟩
    · simp at h2
    · simp at h2
    · rfl
  rw [this, groupM_error_iff]
  refine exists_congr fun l₁ => exists_congr fun x => exists_congr fun l₂ => exists_congr fun nw' => and_congr Iff.rfl
    (and_congr Iff.rfl ?_)
  unfold Network.terminateMulti
  rw [bind_error_iff, pyIndex_error_iff]
  exact or_congr Iff.rfl (exists_congr fun y => and_congr pyIndex_ok_iff Iff.rfl)

/-- **C112** The exceptions of building the line of a cable, in the order of their tests: no cable of that name (`Exception`), a cable
without elements (`IndexError`), a coordinate without a position, no wire of the material (`Exception`), parameters that do not fit, no
line element (`AttributeError`), and those of the line itself. -/
theorem C112_errors {F : File} {name : String} (e : PyErr) : F.buildLine p name = .error e ↔
    F.cableFromLineName name = .error e ∨ ∃ c, F.cableFromLineName name = .ok c ∧
      ((c.elemIds = [] ∧ e = .IndexError) ∨ ∃ el, c.elemIds.head? = some el ∧ (F.listOfCoordinates el = .error e ∨
        ∃ pos, F.listOfCoordinates el = .ok pos ∧ (F.wireWithMaterialId c.materialId = .error e ∨
          ∃ w, F.wireWithMaterialId c.materialId = .ok w ∧ (w.args = .error e ∨ ∃ l C r, w.args = .ok (l, C, r) ∧
            ((pos = none ∧ e = .AttributeError) ∨ ∃ xs, pos = some xs ∧
              MTL.new p l C r (.scalar 0) 1 xs c.ndiv (.scalar 0) (.scalar 0) c.name = .error e))))) := by
  unfold File.buildLine
  rw [bind_error_iff]
  refine or_congr Iff.rfl (exists_congr fun c => and_congr Iff.rfl ?_)
  rw [bind_error_iff, pyIndex_error_iff]
  refine or_congr (and_congr (by simp) Iff.rfl) (exists_congr fun el => and_congr (by rw [pyIndex_ok_iff, List.head?_eq_getElem?]) ?_)
  rw [bind_error_iff]
  refine or_congr Iff.rfl (exists_congr fun pos => and_congr Iff.rfl ?_)
  rw [bind_error_iff]
  refine or_congr Iff.rfl (exists_congr fun w => and_congr Iff.rfl ?_)
  rw [bind_error_iff]
  refine or_congr Iff.rfl ?_
  constructor
  · rintro ⟨⟨l, C, r⟩, ha, h⟩
    refine ⟨l, C, r, ha, ?_⟩
    cases pos with
    | none => cases h; exact .inl ⟨rfl, rfl⟩
    | some xs => exact .inr ⟨xs, rfl, h⟩
  · rintro ⟨l, C, r, ha, ⟨rfl, rfl⟩ | ⟨xs, rfl, h⟩⟩
    · exact ⟨(l, C, r), ha, rfl⟩
    · exact ⟨(l, C, r), ha, h⟩

/-- **C120** The graph of a bundle has no cable for an element exactly if no cable lists it (`KeyError`). -/
theorem C120_errors {F : File} {id : ℤ} (e : PyErr) : F.cableNameOf id = .error e ↔ (∀ c ∈ F.cables, id ∉ c.elemIds) ∧ e = .KeyError := by
  unfold File.cableNameOf File.elemIdsToNames
  generalize F.cables = l
  induction l using List.reverseRecOn with
  | nil => simp [dictGet, eq_comm]
  | append_singleton l c ih =>
    rw [List.foldl_append, List.foldl_cons, List.foldl_nil, dictGet_foldl_same]
    by_cases h : id ∈ c.elemIds
    · rw [if_pos h]
      simp only [reduceCtorEq, false_iff, not_and]
      intro hc
      exact absurd h (hc c (by simp))
    · rw [if_neg h, ih]
      simp only [List.mem_append, List.mem_singleton]
      refine and_congr ⟨?_, ?_⟩ Iff.rfl
      · rintro h1 x (hx | rfl)
        · exact h1 x hx
        · exact h
      · exact fun h1 x hx => h1 x (.inl hx)

theorem addVertex_error_iff {g : Graph} {v : Vertex} {e : PyErr} : g.addVertex v = .error e ↔ v.name ∈ g.vs.map Vertex.name ∧ e = .NotModelled := by
  unfold Graph.addVertex
  by_cases h : v.name ∈ g.vs.map Vertex.name
  · rw [if_pos h]
    simp only [Except.error.injEq, h, true_and]
    exact eq_comm
  · rw [if_neg h]
    simp [h]

theorem cableNameOf_exists {F : File} {id : ℤ} : (∃ name, F.cableNameOf id = .ok name) ↔ ∃ c ∈ F.cables, id ∈ c.elemIds := by
  have := C120_errors (F := F) (id := id) .KeyError
  constructor
  · rintro ⟨name, h⟩
    by_contra hc
    push Not at hc
    rw [this.2 ⟨hc, rfl⟩] at h
    cases h
  · rintro ⟨c, hc, hid⟩
    cases h : F.cableNameOf id with
    | ok name => exact ⟨name, rfl⟩
    | error e => exact absurd hid ((C120_errors e).1 h |>.1 c hc)

/-- **C83** The exceptions of a vertex of level 0: an element of no cable (`KeyError`); repeated elements are not modelled. -/
theorem C83_root_errors {F : File} {g : Graph} {node : ℤ} (e : PyErr) : g.addRoot F node = .error e ↔
    ((∀ c ∈ F.cables, node ∉ c.elemIds) ∧ e = .KeyError) ∨
    ((∃ c ∈ F.cables, node ∈ c.elemIds) ∧ node ∈ g.vs.map Vertex.name ∧ e = .NotModelled) := by
  unfold Graph.addRoot
  rw [bind_error_iff, C120_errors]
  refine or_congr Iff.rfl ?_
  simp only [addVertex_error_iff]
  rw [exists_and_right, cableNameOf_exists]

/-- **C83** The exceptions of a vertex inside of another: an element of no cable (`KeyError`); repeated elements are not modelled; the
surrounding element of no cable (`KeyError`). -/
theorem C83_inside_errors {F : File} {g : Graph} {parent child : ℤ} {level : ℕ} (e : PyErr) :
    Graph.addInside F parent child level g = .error e ↔
    ((∀ c ∈ F.cables, child ∉ c.elemIds) ∧ e = .KeyError) ∨ ((∃ c ∈ F.cables, child ∈ c.elemIds) ∧
      ((child ∈ g.vs.map Vertex.name ∧ e = .NotModelled) ∨
        (child ∉ g.vs.map Vertex.name ∧ (∀ c ∈ F.cables, parent ∉ c.elemIds) ∧ e = .KeyError))) := by
  unfold Graph.addInside
  rw [bind_error_iff, C120_errors]
  refine or_congr Iff.rfl ?_
  rw [← cableNameOf_exists, ← exists_and_right]
  refine exists_congr fun name => and_congr Iff.rfl ?_
  rw [bind_error_iff, addVertex_error_iff]
  refine or_congr Iff.rfl ?_
  by_cases h : child ∈ g.vs.map Vertex.name
  · simp [Graph.addVertex, h]
  · simp only [h, not_false_eq_true, true_and]
    have : g.addVertex { name := child, level := level, cable := name } = .ok { g with vs := g.vs ++ [⟨child, level, name⟩] } := by
      unfold Graph.addVertex
      rw [if_neg h]
    rw [this]
    simp only [Except.ok.injEq, exists_eq_left']
    rw [bind_error_iff, C120_errors]
    simp

theorem changeBundle_error_iff {P : Parsed p} {k : ℕ} {f : ∀ {n}, MTLD n p → Py (MTLD n p)} {e : PyErr} :
    P.changeBundle k f = .error e ↔ (P.bundles.length ≤ k ∧ e = .IndexError) ∨
      ∃ B, P.bundles[k]? = some B ∧ f B.bundle.2 = .error e := by
  unfold Parsed.changeBundle
  rw [bind_error_iff, pyIndex_error_iff]
  refine or_congr Iff.rfl (exists_congr fun B => and_congr pyIndex_ok_iff ?_)
  rw [bind_error_iff]
  unfold PBundle.change
  rw [bind_error_iff]
  simp

theorem bundleWithCable_lt {P : Parsed p} {name : String} {k : ℕ} (h : P.bundleWithCable name = .ok k) : k < P.bundles.length := by
  unfold Parsed.bundleWithCable at h
  split at h
  · rename_i j hj
    cases h
    exact (List.findIdx?_eq_some_iff_findIdx_eq.1 hj).1
  · cases h

/-- What reading a position of the file raises. -/
def File.SpotRaises (F : File) (ids : List ℤ) (j : ℕ) (e : PyErr) : Prop :=
  (ids.length ≤ j ∧ e = .IndexError) ∨ ∃ id, ids[j]? = some id ∧ (F.nodeCoordId id = .error e ∨
    ∃ c, F.nodeCoordId id = .ok c ∧ F.coordinate c = .error e)

/-- A position of the file. -/
def File.Spot (F : File) (ids : List ℤ) (j : ℕ) (x : V3) : Prop :=
  ∃ id c, ids[j]? = some id ∧ F.nodeCoordId id = .ok c ∧ F.coordinate c = .ok x

theorem spot_error_iff {F : File} {ids : List ℤ} {j : ℕ} {β : Type} {f : V3 → Py β} {e : PyErr} :
    (do let id ← pyIndex ids j
        let c ← F.nodeCoordId id
        let x ← F.coordinate c
        f x : Py β) = .error e ↔ F.SpotRaises ids j e ∨ ∃ x, F.Spot ids j x ∧ f x = .error e := by
  unfold File.SpotRaises File.Spot
  rw [bind_error_iff, pyIndex_error_iff, or_assoc]
  refine or_congr Iff.rfl ?_
  constructor
  · rintro ⟨id, hid, h⟩
    rw [pyIndex_ok_iff] at hid
    rw [bind_error_iff] at h
    rcases h with h | ⟨c, hc, h⟩
    · exact .inl ⟨id, hid, .inl h⟩
    · rw [bind_error_iff] at h
      rcases h with h | ⟨x, hx, h⟩
      · exact .inl ⟨id, hid, .inr ⟨c, hc, h⟩⟩
      · exact .inr ⟨x, ⟨id, c, hid, hc, hx⟩, h⟩
  · rintro (⟨id, hid, h⟩ | ⟨x, ⟨id, c, hid, hc, hx⟩, h⟩)
    · refine ⟨id, pyIndex_ok_iff.2 hid, ?_⟩
      rw [bind_error_iff]
      rcases h with h | ⟨c, hc, h⟩
      · exact .inl h
      · exact .inr ⟨c, hc, by rw [bind_error_iff]; exact .inl h⟩
    · refine ⟨id, pyIndex_ok_iff.2 hid, ?_⟩
      rw [bind_error_iff]
      exact .inr ⟨c, hc, by rw [bind_error_iff]; exact .inr ⟨x, hx, h⟩⟩

theorem cableNamed_then {F : File} {name : String} {f : String → Prop} :
    (∃ c, pyIndex (F.cables.filter fun c => c.name = name) 0 = .ok c ∧ f c.name) ↔ (∃ c ∈ F.cables, c.name = name) ∧ f name := by
  constructor
  · rintro ⟨c, hc, hf⟩
    rw [pyIndex_filter_ok_iff] at hc
    have hm := hc.mem
    obtain ⟨-, -, -, hn, -⟩ := hc
    rw [show c.name = name from hn] at hf
    exact ⟨⟨c, hm, hn⟩, hf⟩
  · rintro ⟨hc, hf⟩
    cases h : pyIndex (F.cables.filter fun c => c.name = name) 0 with
    | ok c =>
      rw [pyIndex_filter_ok_iff] at h
      obtain ⟨-, -, -, hn, -⟩ := h
      exact ⟨c, rfl, by rw [show c.name = name from hn]; exact hf⟩
    | error e' =>
      rw [pyIndex_filter_error_iff] at h
      obtain ⟨c, hc, hn⟩ := hc
      exact absurd hn (h.1 c hc)

/-- **C114** The exceptions of a distributed source, in the order of their tests: no cable (`KeyError`), no cable of that name
(`IndexError`), a cable in no bundle (`AttributeError`), and for the two known types the exceptions of reading the two positions, a
magnitude that is no function, no such conductor (`IndexError`), and those of `add_localized_longitudinal_field`. -/
theorem C114_errors {P : Parsed p} {s : SourceDesc} (e : PyErr) : P.addSource s = .error e ↔
    (s.cable = none ∧ e = .KeyError) ∨ ∃ name, s.cable = some name ∧
      (((∀ c ∈ P.file.cables, c.name ≠ name) ∧ e = .IndexError) ∨ ((∃ c ∈ P.file.cables, c.name = name) ∧
        (P.bundleWithCable name = .error e ∨ ∃ k, P.bundleWithCable name = .ok k ∧
          (s.type = "localized efield drive" ∨ s.type = "Planewave") ∧
          (P.file.SpotRaises s.elemIds 0 e ∨ ∃ x0, P.file.Spot s.elemIds 0 x0 ∧
            (P.file.SpotRaises s.elemIds 1 e ∨ ∃ x1, P.file.Spot s.elemIds 1 x1 ∧
              (s.magnitude.function = .error e ∨ ∃ f B, s.magnitude.function = .ok f ∧ P.bundles[k]? = some B ∧
                ((B.bundle.1 ≤ s.conductor.getD 0 ∧ e = .IndexError) ∨ ∃ h : s.conductor.getD 0 < B.bundle.1,
                  B.bundle.2.addLocalizedField (.list x0) (.list x1) ⟨s.conductor.getD 0, h⟩ f s.type = .error e))))))) := by
  unfold Parsed.addSource
  rw [bind_error_iff, pyKey_error_iff]
  refine or_congr Iff.rfl (exists_congr fun name => and_congr pyKey_ok_iff' ?_)
  rw [bind_error_iff]
  unfold File.cableNamed
  rw [pyIndex_filter_error_iff]
  refine or_congr Iff.rfl ?_
  rw [cableNamed_then (f := fun n => (P.bundleWithCable n >>= _ : Py (Parsed p)) = .error e)]
  refine and_congr Iff.rfl ?_
  rw [bind_error_iff]
  refine or_congr Iff.rfl (exists_congr fun k => and_congr_right fun hk => ?_)
  by_cases ht : s.type = "localized efield drive" ∨ s.type = "Planewave"
  swap
  · rw [if_neg ht]
    simp [ht]
  rw [if_pos ht, spot_error_iff]
  simp only [ht, true_and]
  refine or_congr Iff.rfl (exists_congr fun x0 => and_congr Iff.rfl ?_)
  rw [spot_error_iff]
  refine or_congr Iff.rfl (exists_congr fun x1 => and_congr Iff.rfl ?_)
  rw [bind_error_iff]
  refine or_congr Iff.rfl (exists_congr fun f => ?_)
  rw [exists_and_left]
  refine and_congr Iff.rfl ?_
  rw [changeBundle_error_iff]
  have hl := bundleWithCable_lt hk
  constructor
  · rintro (⟨h, -⟩ | ⟨B, hB, h⟩)
    · omega
    · refine ⟨B, hB, ?_⟩
      by_cases hn : s.conductor.getD 0 < B.bundle.1
      · rw [dif_pos hn] at h
        exact .inr ⟨hn, h⟩
      · rw [dif_neg hn] at h
        cases h
        exact .inl ⟨not_lt.1 hn, rfl⟩
  · rintro ⟨B, hB, h⟩
    refine .inr ⟨B, hB, ?_⟩
    rcases h with ⟨hn, rfl⟩ | ⟨hn, h⟩
    · rw [dif_neg (not_lt.2 hn)]
    · rw [dif_pos hn]; exact h

theorem cableWithElemId_error_iff {F : File} {el : ℤ} {e : PyErr} : F.cableWithElemId el = .error e ↔
    (∀ c ∈ F.cables, el ∉ c.elemIds) ∧ e = .TypeError := by
  constructor
  · intro h
    have h0 : ∀ c ∈ F.cables, el ∉ c.elemIds := by
      by_contra hc
      push Not at hc
      unfold File.cableWithElemId at h
      cases h1 : F.cables.find? fun c => el ∈ c.elemIds with
      | some c => rw [h1] at h; cases h
      | none =>
        obtain ⟨c, hc, hm⟩ := hc
        simpa [hm] using List.find?_eq_none.1 h1 c hc
    rw [(C81_cables F el).2.2.2 h0] at h
    cases h
    exact ⟨h0, rfl⟩
  · rintro ⟨h, rfl⟩
    exact (C81_cables F el).2.2.2 h

/-- **C115** The exceptions of finding the bundle around an element: those of the look-ups of its node and line, a line in no cable
(`TypeError`), and a cable in no bundle (`AttributeError`). -/
theorem C115_element_errors {P : Parsed p} {id : ℤ} (e : PyErr) : P.bundleFromElemId id = .error e ↔
    P.file.nodeCoordId id = .error e ∨ ∃ x, P.file.nodeCoordId id = .ok x ∧
      (P.file.lineElemIdFromCoordId x = .error e ∨ ∃ el, P.file.lineElemIdFromCoordId x = .ok el ∧
        (((∀ c ∈ P.file.cables, el ∉ c.elemIds) ∧ e = .TypeError) ∨
          ∃ c, FirstMatch P.file.cables (fun c => el ∈ c.elemIds) c ∧
            (∀ B ∈ P.bundles, ∀ lines ∈ B.levels, ∀ L ∈ lines, L.2.name ≠ c.name) ∧ e = .AttributeError)) := by
  unfold Parsed.bundleFromElemId
  rw [bind_error_iff]
  refine or_congr Iff.rfl (exists_congr fun x => and_congr Iff.rfl ?_)
  rw [bind_error_iff]
  refine or_congr Iff.rfl (exists_congr fun el => and_congr Iff.rfl ?_)
  rw [bind_error_iff, cableWithElemId_error_iff]
  refine or_congr Iff.rfl (exists_congr fun c => and_congr ((C81_cables _ el).2.2.1 c) ?_)
  exact C115_bundle_errors e

/-- The bundle of a probe. -/
def Parsed.ProbeBundle (P : Parsed p) (d : ProbeDesc) (k : ℕ) : Prop :=
  (∃ name, d.cable = some name ∧ (∃ c ∈ P.file.cables, c.name = name) ∧ P.bundleWithCable name = .ok k) ∨
  (d.cable = none ∧ ∃ id, d.elemIds[0]? = some id ∧ P.bundleFromElemId id = .ok k)

/-- **C115** The exceptions of a probe: for a probe with a cable, no cable of that name (`IndexError`) or a cable in no bundle
(`AttributeError`); for a probe without, no element (`IndexError`) or no bundle around its element; then those of reading its position, and
those of `add_probe`. -/
theorem C115_errors {P : Parsed p} {d : ProbeDesc} (e : PyErr) : P.addProbe d = .error e ↔
    (∃ name, d.cable = some name ∧ (((∀ c ∈ P.file.cables, c.name ≠ name) ∧ e = .IndexError) ∨
      ((∃ c ∈ P.file.cables, c.name = name) ∧
        (∀ B ∈ P.bundles, ∀ lines ∈ B.levels, ∀ L ∈ lines, L.2.name ≠ name) ∧ e = .AttributeError))) ∨
    (d.cable = none ∧ ((d.elemIds = [] ∧ e = .IndexError) ∨ ∃ id, d.elemIds[0]? = some id ∧ P.bundleFromElemId id = .error e)) ∨
    ∃ k, P.ProbeBundle d k ∧ (P.file.SpotRaises d.elemIds 0 e ∨ ∃ x B, P.file.Spot d.elemIds 0 x ∧ P.bundles[k]? = some B ∧
      B.bundle.2.addProbe (.list x) d.type = .error e) := by
  unfold Parsed.addProbe
  rw [bind_error_iff, ← or_assoc]
  have hlt : ∀ k, P.ProbeBundle d k → k < P.bundles.length := by
    rintro k (⟨name, -, -, h⟩ | ⟨-, id, -, h⟩)
    · exact bundleWithCable_lt h
    · unfold Parsed.bundleFromElemId at h
      simp only [bind_ok_iff] at h
      obtain ⟨_, -, _, -, _, -, h⟩ := h
      exact bundleWithCable_lt h
  refine or_congr ?_ (exists_congr fun k => ?_)
  · cases hd : d.cable with
    | some name =>
      simp only [Option.some.injEq, exists_eq_left', reduceCtorEq, false_and, or_false]
      rw [bind_error_iff]
      unfold File.cableNamed
      rw [pyIndex_filter_error_iff, cableNamed_then (f := fun n => P.bundleWithCable n = .error e), C115_bundle_errors]
    | none =>
      simp only [reduceCtorEq, false_and, exists_false, true_and, false_or]
      rw [bind_error_iff, pyIndex_error_iff]
      simp only [pyIndex_ok_iff, Nat.le_zero_eq, List.length_eq_zero_iff]
  · have h1 : (match d.cable with
      | some name => (do
        let cable ← P.file.cableNamed name
        P.bundleWithCable cable.name : Py ℕ)
      | none => do
        let id ← pyIndex d.elemIds 0
        P.bundleFromElemId id) = .ok k ↔ P.ProbeBundle d k := by
      unfold Parsed.ProbeBundle
      cases hd : d.cable with
      | some name =>
        simp only [Option.some.injEq, exists_eq_left', reduceCtorEq, false_and, or_false]
        rw [bind_ok_iff]
        unfold File.cableNamed
        rw [cableNamed_then (f := fun n => P.bundleWithCable n = .ok k)]
      | none =>
        simp only [reduceCtorEq, false_and, exists_false, true_and, false_or]
        rw [bind_ok_iff]
        simp only [pyIndex_ok_iff]
    refine Iff.trans (and_congr h1 Iff.rfl) ?_
    refine and_congr_right fun hk => ?_
    rw [spot_error_iff]
    refine or_congr Iff.rfl (exists_congr fun x => ?_)
    rw [exists_and_left]
    refine and_congr Iff.rfl ?_
    rw [bind_error_iff, pyIndex_error_iff]
    have hl := hlt k hk
    constructor
    · rintro (⟨h, -⟩ | ⟨B, hB, h⟩)
      · omega
      · rw [bind_error_iff, changeBundle_error_iff] at h
        rcases h with (⟨h, -⟩ | h) | ⟨_, -, h⟩
        · omega
        · exact h
        · cases h
    · rintro ⟨B, hB, h⟩
      refine .inr ⟨B, pyIndex_ok_iff.2 hB, ?_⟩
      rw [bind_error_iff, changeBundle_error_iff]
      exact .inl (.inr ⟨B, hB, h⟩)

/-- The hypotheses are met: a file without cables, and a probe that names one. -/
example : (({} : File).cableNameOf 3 = .error .KeyError) ∧
    (({ file := {} } : Parsed 0).addProbe { name := "a", type := "voltage", elemIds := [1], cable := some "w" } = .error .IndexError) :=
  ⟨(C120_errors _).2 ⟨by simp, rfl⟩, (C115_errors _).2 (.inl ⟨"w", rfl, .inl ⟨by simp, rfl⟩⟩)⟩

/-- A probe without an element. -/
example : ({ file := {} } : Parsed 0).addProbe { name := "a", type := "voltage", elemIds := [], cable := none } = .error .IndexError :=
  (C115_errors _).2 (.inr (.inl ⟨rfl, .inl ⟨rfl, rfl⟩⟩))

end Mtln
