import Verif.Props.Manager

/-! # The exceptions of the exchange between networks and bundles: C52 -/

namespace Mtln

variable {p : ℕ}

/-- The first exception of a loop whose body keeps what decides about exceptions. -/
theorem foldlM_error_iff {α β : Type} {f : β → α → Py β} {E : α → PyErr → Prop} {I : β → Prop}
    (hE : ∀ b a e, I b → (f b a = .error e ↔ E a e)) (hI : ∀ b a b', I b → f b a = .ok b' → I b') :
    ∀ {l : List α} {b : β} {e : PyErr}, I b → (l.foldlM f b = .error e ↔
      ∃ l₁ a l₂, l = l₁ ++ a :: l₂ ∧ E a e ∧ ∀ x ∈ l₁, ∀ e', ¬ E x e')
  | [], b, e, _ => by simp [pure, Except.pure]
  | a :: l, b, e, hb => by
    rw [List.foldlM_cons]
    rcases h : f b a with e' | b'
    · have he := (hE b a e' hb).1 h
      constructor
      · intro h1
        have : e' = e := Except.error.inj h1
        exact ⟨[], a, l, rfl, this ▸ he, by simp⟩
      · rintro ⟨l₁, x, l₂, hl, hx, hn⟩
        cases l₁ with
        | nil =>
          obtain ⟨rfl, rfl⟩ := List.cons.inj hl
          rw [(hE b a e hb).2 hx] at h
          rw [← Except.error.inj h]
          rfl
        | cons y l₁ =>
          obtain ⟨rfl, rfl⟩ := List.cons.inj hl
          exact absurd he (hn a List.mem_cons_self e')
    · have ha : ∀ e', ¬ E a e' := fun e' he => by
        rw [(hE b a e' hb).2 he] at h
        exact absurd h (by simp)
      refine (foldlM_error_iff hE hI (hI b a b' hb h)).trans ?_
      constructor
      · rintro ⟨l₁, x, l₂, rfl, hx, hn⟩
        refine ⟨a :: l₁, x, l₂, rfl, hx, fun y hy => ?_⟩
        rcases List.mem_cons.1 hy with rfl | hy
        · exact ha
        · exact hn y hy
      · rintro ⟨l₁, x, l₂, hl, hx, hn⟩
        cases l₁ with
        | nil =>
          obtain ⟨rfl, rfl⟩ := List.cons.inj hl
          exact absurd hx (ha e)
        | cons y l₁ =>
          obtain ⟨rfl, rfl⟩ := List.cons.inj hl
          exact ⟨l₁, x, l₂, rfl, hx, fun y hy => hn y (List.mem_cons_of_mem _ hy)⟩

/-- The exception that a row of a bundle raises: `KeyError` if there is no bundle of that name, `IndexError` if it has no such
conductor. -/
def EndError (bs : List (AnyBundle p)) (name : String) (row : ℕ) (e : PyErr) : Prop :=
  ((∀ b ∈ bs, b.2.name ≠ name) ∧ e = .KeyError) ∨ ((∃ b, findBundle bs name = some b ∧ b.1 ≤ row) ∧ e = .IndexError)

theorem findBundle_none {bs : List (AnyBundle p)} {name : String} : findBundle bs name = none ↔ ∀ b ∈ bs, b.2.name ≠ name := by
  simp [findBundle]

theorem Write.run_error_iff {bs : List (AnyBundle p)} {w : Write} {e : PyErr} :
    w.run bs = .error e ↔ EndError bs w.bundle w.row e := by
  unfold Write.run EndError
  rw [← findBundle_none]
  cases findBundle bs w.bundle with
  | none => simp [eq_comm]
  | some b =>
    by_cases h : w.row < b.1
    · simp [h]
    · simp [h, Nat.not_lt.1 h, eq_comm]

/-- **C52** `update_voltages` fails at the first node whose bundle or conductor does not exist, with `KeyError` or `IndexError`. -/
theorem C52_voltage_errors {N S : ℕ} (nw : Network N S) (bs : List (AnyBundle p)) (e : PyErr) :
    nw.updateVoltages bs = .error e ↔ ∃ a, EndError bs (nw.nodes a).bundleName (nw.nodes a).lineIndex e ∧
      ∀ a' < a, ∀ e', ¬ EndError bs (nw.nodes a').bundleName (nw.nodes a').lineIndex e' := by
  have h := foldlM_error_iff (f := Write.run) (E := fun w e => EndError bs w.bundle w.row e)
    (I := fun bs' : List (AnyBundle p) => ∃ ws : List Write, bs' = bs.map fun b => ⟨b.1, b.2.hit ws⟩) (by
      rintro _ w e ⟨ws, rfl⟩
      rw [Write.run_error_iff]
      unfold EndError
      rw [← findBundle_none, ← findBundle_none, findBundle_map bs (MTLD.hit ws) (MTLD.hit_name ws)]
      cases findBundle bs w.bundle <;> simp) (by
      rintro _ w _ ⟨ws, rfl⟩ h
      obtain ⟨-, rfl⟩ := Write.run_ok_iff.1 h
      refine ⟨ws ++ [w], ?_⟩
      rw [List.map_map]
      refine List.map_congr_left fun b _ => ?_
      show (⟨b.1, w.on (b.2.hit ws)⟩ : AnyBundle p) = ⟨b.1, b.2.hit (ws ++ [w])⟩
      rw [MTLD.hit_append]
      rfl) (l := nw.writes) (b := bs) (e := e) ⟨[], by simp [MTLD.hit]⟩
  refine h.trans ?_
  constructor
  · rintro ⟨l₁, w, l₂, hl, hw, hn⟩
    have hlen : l₁.length < N := by
      have := congrArg List.length hl
      simp [Network.writes] at this
      omega
    have hat : ∀ (k : ℕ) (hk : k < N), nw.writes[k]? = some ⟨(nw.nodes ⟨k, hk⟩).bundleName, (nw.nodes ⟨k, hk⟩).lineIndex, (nw.nodes ⟨k, hk⟩).side, nw.v ⟨k, hk⟩⟩ := by
      intro k hk
      simp [Network.writes, hk]
    refine ⟨⟨l₁.length, hlen⟩, ?_, fun a' ha' => ?_⟩
    · have := hat _ hlen
      rw [hl, List.getElem?_append_right le_rfl, Nat.sub_self] at this
      have := Option.some.inj this
      rw [this] at hw
      exact hw
    · have := hat a' a'.2
      have hlt : (a' : ℕ) < l₁.length := ha'
      rw [hl, List.getElem?_append_left hlt] at this
      exact hn _ (List.mem_of_getElem? this)
  · rintro ⟨a, ha, hn⟩
    have hN : (a : ℕ) < nw.writes.length := by simp [Network.writes]
    refine ⟨nw.writes.take a, nw.writes[(a : ℕ)], nw.writes.drop (a + 1), ?_, ?_, ?_⟩
    · rw [← List.drop_eq_getElem_cons hN, List.take_append_drop]
    · simpa [Network.writes] using ha
    · intro w hw
      obtain ⟨i, hi, rfl⟩ := List.mem_iff_getElem.1 hw
      have hia : i < a := by
        have := hi
        rw [List.length_take] at this
        omega
      have := hn ⟨i, hia.trans a.2⟩ hia
      simpa [Network.writes] using this

theorem readCurrent_error_iff {bs : List (AnyBundle p)} {d : Node} {e : PyErr} :
    readCurrent bs d = .error e ↔ EndError bs d.bundleName d.lineIndex e ∨
      ((∃ b, findBundle bs d.bundleName = some b ∧ b.2.m = 0) ∧ e = .IndexError) := by
  unfold readCurrent EndError
  rw [← findBundle_none]
  cases findBundle bs d.bundleName with
  | none => simp [eq_comm]
  | some b =>
    by_cases h : d.lineIndex < b.1 <;> by_cases hm : b.2.m = 0 <;> simp [h, hm, Nat.not_lt.1, eq_comm] <;> omega

/-- **C52** `update_currents` fails at the first node whose bundle or conductor does not exist, or whose bundle has no cells. -/
theorem C52_current_errors {N S : ℕ} (nw : Network N S) (bs : List (AnyBundle p)) (e : PyErr) :
    nw.updateCurrents bs = .error e ↔ ∃ a, (EndError bs (nw.nodes a).bundleName (nw.nodes a).lineIndex e ∨
        ((∃ b, findBundle bs (nw.nodes a).bundleName = some b ∧ b.2.m = 0) ∧ e = .IndexError)) ∧
      ∀ a' < a, ∀ e', ¬ (EndError bs (nw.nodes a').bundleName (nw.nodes a').lineIndex e' ∨
        ((∃ b, findBundle bs (nw.nodes a').bundleName = some b ∧ b.2.m = 0) ∧ e' = .IndexError)) := by
  obtain ⟨E, hE⟩ : ∃ E : Fin N → PyErr → Prop, E = fun a e => EndError bs (nw.nodes a).bundleName (nw.nodes a).lineIndex e ∨
      ((∃ b, findBundle bs (nw.nodes a).bundleName = some b ∧ b.2.m = 0) ∧ e = .IndexError) := ⟨_, rfl⟩
  have h := foldlM_error_iff (f := fun (nw : Network N S) a => do
      let x ← readCurrent bs (nw.nodes a)
      .ok { nw with i := Function.update nw.i a x }) (E := E)
    (I := fun nw' : Network N S => nw'.nodes = nw.nodes) (by
      intro nw' a e hn
      rw [hE]
      show _ ↔ _ ∨ _
      rw [← readCurrent_error_iff]
      simp only [hn]
      rcases readCurrent bs (nw.nodes a) with e' | x
      · simp [bind, Except.bind]
      · simp [bind, Except.bind]) (by
      intro nw' a nw'' hn h
      obtain ⟨x, -, hx⟩ := bind_ok_iff.1 h
      rw [← Except.ok.inj hx]
      exact hn) (l := List.finRange N) (b := nw) (e := e) rfl
  have hE' : ∀ a e, (EndError bs (nw.nodes a).bundleName (nw.nodes a).lineIndex e ∨
      ((∃ b, findBundle bs (nw.nodes a).bundleName = some b ∧ b.2.m = 0) ∧ e = .IndexError)) ↔ E a e := fun a e => by rw [hE]
  simp only [hE']
  refine h.trans ?_
  constructor
  · rintro ⟨l₁, a, l₂, hl, ha, hn⟩
    refine ⟨a, ha, fun a' ha' => hn a' ?_⟩
    have hs := List.pairwise_lt_finRange N
    rw [hl, List.pairwise_append] at hs
    have hm : a' ∈ List.finRange N := List.mem_finRange a'
    rw [hl, List.mem_append, List.mem_cons] at hm
    rcases hm with hm | rfl | hm
    · exact hm
    · exact absurd ha' (lt_irrefl _)
    · exact absurd ((List.pairwise_cons.1 hs.2.1).1 a' hm) (not_lt.2 ha'.le)
  · rintro ⟨a, ha, hn⟩
    obtain ⟨l₁, l₂, hl⟩ := List.append_of_mem (List.mem_finRange a)
    refine ⟨l₁, a, l₂, hl, ha, fun x hx => hn x ?_⟩
    have hs := List.pairwise_lt_finRange N
    rw [hl, List.pairwise_append] at hs
    exact hs.2.2 x hx a List.mem_cons_self

/-- Non-vacuity: without bundles every node fails. -/
theorem C52_errors_example (nw : Network 2 0) : nw.updateVoltages ([] : List (AnyBundle p)) = .error .KeyError ∧
    nw.updateCurrents ([] : List (AnyBundle p)) = .error .KeyError :=
  ⟨(C52_voltage_errors _ _ _).2 ⟨0, .inl ⟨by simp, rfl⟩, fun a h => absurd h (by simp)⟩,
    (C52_current_errors _ _ _).2 ⟨0, .inl (.inl ⟨by simp, rfl⟩), fun a h => absurd h (by simp)⟩⟩

/-- **C52** `advance_voltage` raises in exactly these cases: before the terms are computed, when the capacitance blocks do not
cover the nodes, and when its matrix is singular. -/
theorem C52_advance_errors {N S : ℕ} (nw : Network N S) (time dt : ℝ) (hdt : dt ≠ 0) (e : PyErr) :
    nw.advanceVoltage time dt = .error e ↔ (nw.terms = none ∧ e = .AttributeError) ∨
      ∃ T, nw.terms = some T ∧ ((nw.cSize ≠ N ∧ e = .Exception) ∨ (nw.cSize = N ∧ T.A.det = 0 ∧ e = .LinAlgError)) := by
  unfold Network.advanceVoltage
  cases hT : nw.terms with
  | none => simp [eq_comm]
  | some T =>
    by_cases h1 : nw.cSize = N <;> by_cases h2 : T.A.det = 0 <;>
      simp [raiseIf, h1, h2, hdt, bind, Except.bind, pure, Except.pure, throw, throwThe, MonadExceptOf.throw, eq_comm]

end Mtln
