import Verif.Lemmas.Parser

/-!
# The graph of nested elements (C83)
-/

namespace Mtln

/-- An element is listed in a nesting, at a depth. -/
inductive Nested.At : Nested → ℤ → ℕ → Prop
  | ids {l : List ℤ} {a : ℤ} (h : a ∈ l) : Nested.At (.ids l) a 0
  | key {k : ℕ} {key : Fin k → ℤ} {sub : Fin k → Nested} (i : Fin k) : Nested.At (.dict k key sub) (key i) 0
  | sub {k : ℕ} {key : Fin k → ℤ} {sub : Fin k → Nested} {a : ℤ} {d : ℕ} (i : Fin k) (h : Nested.At (sub i) a d) :
      Nested.At (.dict k key sub) a (d + 1)

/-- `b` is directly inside of `a` in a nesting. -/
inductive Nested.Inside : Nested → ℤ → ℤ → Prop
  | child {k : ℕ} {key : Fin k → ℤ} {sub : Fin k → Nested} {b : ℤ} (i : Fin k) (h : Nested.At (sub i) b 0) :
      Nested.Inside (.dict k key sub) (key i) b
  | sub {k : ℕ} {key : Fin k → ℤ} {sub : Fin k → Nested} {a b : ℤ} (i : Fin k) (h : Nested.Inside (sub i) a b) :
      Nested.Inside (.dict k key sub) a b

theorem Nested.At.ids_iff {l : List ℤ} {a : ℤ} {d : ℕ} : Nested.At (.ids l) a d ↔ a ∈ l ∧ d = 0 := by
  constructor
  · rintro ⟨h⟩; exact ⟨h, rfl⟩
  · rintro ⟨h, rfl⟩; exact .ids h

theorem Nested.At.dict_iff {k : ℕ} {key : Fin k → ℤ} {sub : Fin k → Nested} {a : ℤ} {d : ℕ} :
    Nested.At (.dict k key sub) a d ↔ ∃ i, (a = key i ∧ d = 0) ∨ ∃ d', d = d' + 1 ∧ Nested.At (sub i) a d' := by
  constructor
  · intro h
    cases h with
    | key i => exact ⟨i, Or.inl ⟨rfl, rfl⟩⟩
    | sub i h => exact ⟨i, Or.inr ⟨_, rfl, h⟩⟩
  · rintro ⟨i, (⟨rfl, rfl⟩ | ⟨d', rfl, h⟩)⟩
    · exact .key i
    · exact .sub i h

theorem Nested.Inside.ids_iff {l : List ℤ} {a b : ℤ} : ¬ Nested.Inside (.ids l) a b := by
  rintro ⟨⟩

theorem Nested.Inside.dict_iff {k : ℕ} {key : Fin k → ℤ} {sub : Fin k → Nested} {a b : ℤ} :
    Nested.Inside (.dict k key sub) a b ↔ ∃ i, (a = key i ∧ Nested.At (sub i) b 0) ∨ Nested.Inside (sub i) a b := by
  constructor
  · intro h
    cases h with
    | child i h => exact ⟨i, Or.inl ⟨rfl, h⟩⟩
    | sub i h => exact ⟨i, Or.inr h⟩
  · rintro ⟨i, (⟨rfl, h⟩ | h)⟩
    · exact .child i h
    · exact .sub i h

/-- What is inside is one deeper. -/
theorem Nested.Inside.depth {t : Nested} {a b : ℤ} (h : t.Inside a b) : ∃ d, t.At a d ∧ t.At b (d + 1) := by
  induction h with
  | child i h => exact ⟨0, .key i, .sub i h⟩
  | sub i _ ih =>
    obtain ⟨d, h1, h2⟩ := ih
    exact ⟨d + 1, .sub i h1, .sub i h2⟩

/-- `g'` is `g` with the vertices and edges described. -/
def Graph.Adds (g g' : Graph) (PV : Vertex → Prop) (PE : Edge → Prop) : Prop :=
  ∃ nv ne, g'.vs = g.vs ++ nv ∧ g'.es = g.es ++ ne ∧ (∀ v, v ∈ nv ↔ PV v) ∧ (∀ e, e ∈ ne ↔ PE e) ∧
    ((g.vs.map Vertex.name).Nodup → (g'.vs.map Vertex.name).Nodup)

theorem Graph.Adds.refl (g : Graph) : g.Adds g (fun _ => False) (fun _ => False) :=
  ⟨[], [], by simp, by simp, by simp, by simp, id⟩

theorem Graph.Adds.trans {g1 g2 g3 : Graph} {PV PV' : Vertex → Prop} {PE PE' : Edge → Prop} (h : g1.Adds g2 PV PE)
    (h' : g2.Adds g3 PV' PE') : g1.Adds g3 (fun v => PV v ∨ PV' v) (fun e => PE e ∨ PE' e) := by
  obtain ⟨nv, ne, h1, h2, h3, h4, h5⟩ := h
  obtain ⟨nv', ne', h1', h2', h3', h4', h5'⟩ := h'
  refine ⟨nv ++ nv', ne ++ ne', by rw [h1', h1, List.append_assoc], by rw [h2', h2, List.append_assoc], ?_, ?_,
    fun h => h5' (h5 h)⟩
  · intro v; rw [List.mem_append, h3, h3']
  · intro e; rw [List.mem_append, h4, h4']

theorem Graph.Adds.congr {g1 g2 : Graph} {PV PV' : Vertex → Prop} {PE PE' : Edge → Prop} (h : g1.Adds g2 PV PE)
    (hv : ∀ v, PV v ↔ PV' v) (he : ∀ e, PE e ↔ PE' e) : g1.Adds g2 PV' PE' := by
  obtain ⟨nv, ne, h1, h2, h3, h4, h5⟩ := h
  exact ⟨nv, ne, h1, h2, fun v => (h3 v).trans (hv v), fun e => (h4 e).trans (he e), h5⟩

theorem Graph.Adds.fold {ι : Type} {step : Graph → ι → Py Graph} {PV : ι → Vertex → Prop} {PE : ι → Edge → Prop}
    (hs : ∀ g i g', step g i = .ok g' → g.Adds g' (PV i) (PE i)) {l : List ι} {g g' : Graph}
    (h : l.foldlM step g = .ok g') : g.Adds g' (fun v => ∃ i ∈ l, PV i v) (fun e => ∃ i ∈ l, PE i e) := by
  induction l generalizing g with
  | nil =>
    obtain rfl := Except.ok.inj h
    exact (Graph.Adds.refl g).congr (by simp) (by simp)
  | cons i l ih =>
    rw [List.foldlM_cons] at h
    obtain ⟨g1, h1, h⟩ := bind_ok_iff.1 h
    exact ((hs g i g1 h1).trans (ih h)).congr (by simp) (by simp)

/-- The vertex of an element. -/
def Vertex.Is (F : File) (a : ℤ) (level : ℕ) (v : Vertex) : Prop :=
  v.name = a ∧ v.level = level ∧ F.cableNameOf a = .ok v.cable

/-- The edge between two elements. -/
def Edge.Is (F : File) (a b : ℤ) (e : Edge) : Prop :=
  e.source = a ∧ e.target = b ∧ ∃ c, F.cableNameOf a = .ok c ∧ e.Zt = F.transferImpedance c

theorem addVertex_adds {F : File} {g g' : Graph} {a : ℤ} {level : ℕ} {c : String} (hc : F.cableNameOf a = .ok c)
    (h : g.addVertex { name := a, level := level, cable := c } = .ok g') :
    g.Adds g' (Vertex.Is F a level) (fun _ => False) := by
  unfold Graph.addVertex at h
  split at h
  · simp at h
  · rename_i hn
    obtain rfl := Except.ok.inj h
    refine ⟨[⟨a, level, c⟩], [], rfl, by simp, fun v => ?_, by simp, fun hd => ?_⟩
    · rw [List.mem_singleton]
      constructor
      · rintro rfl; exact ⟨rfl, rfl, hc⟩
      · rintro ⟨h1, h2, h3⟩
        rw [hc, Except.ok.injEq] at h3
        cases v
        simp_all
    · rw [List.map_append, List.nodup_append]
      refine ⟨hd, by simp, fun x hx y hy e => ?_⟩
      simp only [List.map_cons, List.map_nil, List.mem_singleton] at hy
      subst hy
      exact hn (e ▸ hx)

theorem addRoot_adds {F : File} {g g' : Graph} {a : ℤ} (h : g.addRoot F a = .ok g') :
    g.Adds g' (Vertex.Is F a 0) (fun _ => False) := by
  obtain ⟨c, hc, h⟩ := bind_ok_iff.1 h
  exact addVertex_adds hc h

theorem addInside_adds {F : File} {g g' : Graph} {a b : ℤ} {level : ℕ} (h : Graph.addInside F a b level g = .ok g') :
    g.Adds g' (Vertex.Is F b level) (Edge.Is F a b) := by
  obtain ⟨c, hc, h⟩ := bind_ok_iff.1 h
  obtain ⟨g1, h1, h⟩ := bind_ok_iff.1 h
  obtain ⟨c', hc', h⟩ := bind_ok_iff.1 h
  obtain rfl := Except.ok.inj h
  have h2 : g1.Adds { g1 with es := g1.es ++ [{ source := a, target := b, Zt := F.transferImpedance c' }] }
      (fun _ => False) (Edge.Is F a b) := by
    refine ⟨[], [⟨a, b, F.transferImpedance c'⟩], by simp, rfl, by simp, fun e => ?_, id⟩
    rw [List.mem_singleton]
    constructor
    · rintro rfl; exact ⟨rfl, rfl, c', hc', rfl⟩
    · rintro ⟨h1, h2, c'', h3, h4⟩
      rw [hc', Except.ok.injEq] at h3
      cases e
      simp_all
  exact ((addVertex_adds hc h1).trans h2).congr (by simp) (by simp)

theorem addNested_adds {F : File} {t : Nested} {g g' : Graph} {a : ℤ} {level : ℕ}
    (h : Graph.addNested F t a level g = .ok g') :
    g.Adds g' (fun v => ∃ b d, t.At b d ∧ v.Is F b (level + d))
      (fun e => ∃ x y, ((x = a ∧ t.At y 0) ∨ t.Inside x y) ∧ e.Is F x y) := by
  induction t generalizing g g' a level with
  | ids l =>
    unfold Graph.addNested at h
    refine (Graph.Adds.fold (fun g i g' h => addInside_adds h) h).congr (fun v => ?_) (fun e => ?_)
    · constructor
      · rintro ⟨i, hi, hv⟩; exact ⟨i, 0, .ids hi, hv⟩
      · rintro ⟨b, d, hb, hv⟩
        obtain ⟨hm, rfl⟩ := Nested.At.ids_iff.1 hb
        exact ⟨b, hm, hv⟩
    · constructor
      · rintro ⟨i, hi, he⟩; exact ⟨a, i, Or.inl ⟨rfl, .ids hi⟩, he⟩
      · rintro ⟨x, y, (⟨rfl, hy⟩ | hy), he⟩
        · exact ⟨y, (Nested.At.ids_iff.1 hy).1, he⟩
        · exact absurd hy Nested.Inside.ids_iff
  | dict k key sub ih =>
    unfold Graph.addNested at h
    refine (Graph.Adds.fold (PV := fun i v => v.Is F (key i) level ∨
        ∃ b d, (sub i).At b d ∧ v.Is F b (level + 1 + d))
      (PE := fun i e => e.Is F a (key i) ∨
        ∃ x y, ((x = key i ∧ (sub i).At y 0) ∨ (sub i).Inside x y) ∧ e.Is F x y)
      (fun g i g' h => ?_) h).congr (fun v => ?_) (fun e => ?_)
    · obtain ⟨g1, h1, h⟩ := bind_ok_iff.1 h
      exact (addInside_adds h1).trans (ih i h)
    · constructor
      · rintro ⟨i, -, (hv | ⟨b, d, hb, hv⟩)⟩
        · exact ⟨key i, 0, .key i, hv⟩
        · exact ⟨b, d + 1, .sub i hb, by rw [show level + (d + 1) = level + 1 + d by omega]; exact hv⟩
      · rintro ⟨b, d, hb, hv⟩
        obtain ⟨i, (⟨rfl, rfl⟩ | ⟨d', rfl, hm⟩)⟩ := Nested.At.dict_iff.1 hb
        · exact ⟨i, List.mem_finRange i, Or.inl hv⟩
        · exact ⟨i, List.mem_finRange i, Or.inr ⟨b, d', hm, by
            rw [show level + 1 + d' = level + (d' + 1) by omega]; exact hv⟩⟩
    · constructor
      · rintro ⟨i, -, (he | ⟨x, y, (⟨rfl, hy⟩ | hy), he⟩)⟩
        · exact ⟨a, key i, Or.inl ⟨rfl, .key i⟩, he⟩
        · exact ⟨key i, y, Or.inr (.child i hy), he⟩
        · exact ⟨x, y, Or.inr (.sub i hy), he⟩
      · rintro ⟨x, y, (⟨rfl, hy⟩ | hy), he⟩
        · obtain ⟨i, (⟨rfl, -⟩ | ⟨d', hd, -⟩)⟩ := Nested.At.dict_iff.1 hy
          · exact ⟨i, List.mem_finRange i, Or.inl he⟩
          · exact absurd hd (by omega)
        · obtain ⟨i, hi⟩ := Nested.Inside.dict_iff.1 hy
          exact ⟨i, List.mem_finRange i, Or.inr ⟨x, y, hi, he⟩⟩

/-- **C83** The vertices of the graph are the elements of the nesting, with their depth as level and their cable; the
edges are the pairs of directly nested elements, with the transfer impedance of the outer cable. -/
theorem C83_graph {F : File} {t : Nested} {g : Graph} (h : Graph.build F t = .ok g) :
    (g.vs.map Vertex.name).Nodup ∧
    (∀ v, v ∈ g.vs ↔ t.At v.name v.level ∧ F.cableNameOf v.name = .ok v.cable) ∧
    (∀ e, e ∈ g.es ↔ t.Inside e.source e.target ∧
      ∃ c, F.cableNameOf e.source = .ok c ∧ e.Zt = F.transferImpedance c) := by
  have ha : Graph.Adds {} g (fun v => ∃ b d, t.At b d ∧ v.Is F b d) (fun e => ∃ x y, t.Inside x y ∧ e.Is F x y) := by
    cases t with
    | ids l =>
      unfold Graph.build at h
      refine (Graph.Adds.fold (fun g i g' h => addRoot_adds h) h).congr (fun v => ?_) (fun e => ?_)
      · constructor
        · rintro ⟨i, hi, hv⟩; exact ⟨i, 0, .ids hi, hv⟩
        · rintro ⟨b, d, hb, hv⟩
          obtain ⟨hm, rfl⟩ := Nested.At.ids_iff.1 hb
          exact ⟨b, hm, hv⟩
      · constructor
        · rintro ⟨i, hi, he⟩; exact absurd he id
        · rintro ⟨x, y, hy, -⟩; exact absurd hy Nested.Inside.ids_iff
    | dict k key sub =>
      unfold Graph.build at h
      refine (Graph.Adds.fold (PV := fun i v => v.Is F (key i) 0 ∨ ∃ b d, (sub i).At b d ∧ v.Is F b (1 + d))
        (PE := fun i e => False ∨ ∃ x y, ((x = key i ∧ (sub i).At y 0) ∨ (sub i).Inside x y) ∧ e.Is F x y)
        (fun g i g' h => ?_) h).congr (fun v => ?_) (fun e => ?_)
      · obtain ⟨g1, h1, h⟩ := bind_ok_iff.1 h
        exact (addRoot_adds h1).trans (addNested_adds h)
      · constructor
        · rintro ⟨i, -, (hv | ⟨b, d, hb, hv⟩)⟩
          · exact ⟨key i, 0, .key i, hv⟩
          · exact ⟨b, d + 1, .sub i hb, by rw [Nat.add_comm]; exact hv⟩
        · rintro ⟨b, d, hb, hv⟩
          obtain ⟨i, (⟨rfl, rfl⟩ | ⟨d', rfl, hm⟩)⟩ := Nested.At.dict_iff.1 hb
          · exact ⟨i, List.mem_finRange i, Or.inl hv⟩
          · exact ⟨i, List.mem_finRange i, Or.inr ⟨b, d', hm, by rw [Nat.add_comm]; exact hv⟩⟩
      · constructor
        · rintro ⟨i, -, (he | ⟨x, y, (⟨rfl, hy⟩ | hy), he⟩)⟩
          · exact absurd he id
          · exact ⟨key i, y, .child i hy, he⟩
          · exact ⟨x, y, .sub i hy, he⟩
        · rintro ⟨x, y, hy, he⟩
          obtain ⟨i, hi⟩ := Nested.Inside.dict_iff.1 hy
          exact ⟨i, List.mem_finRange i, Or.inr ⟨x, y, hi, he⟩⟩
  obtain ⟨nv, ne, h1, h2, h3, h4, h5⟩ := ha
  refine ⟨h5 List.nodup_nil, fun v => ?_, fun e => ?_⟩
  · rw [h1]
    show v ∈ nv ↔ _
    rw [h3]
    constructor
    · rintro ⟨b, d, hb, rfl, rfl, hc⟩; exact ⟨hb, hc⟩
    · rintro ⟨hb, hc⟩; exact ⟨_, _, hb, rfl, rfl, hc⟩
  · rw [h2]
    show e ∈ ne ↔ _
    rw [h4]
    constructor
    · rintro ⟨x, y, hi, rfl, rfl, hc⟩; exact ⟨hi, hc⟩
    · rintro ⟨hi, hc⟩; exact ⟨_, _, hi, rfl, rfl, hc⟩

theorem foldlM_steps {ι : Type} {γ : Type} {step : γ → ι → Py γ} {l : List ι} {g g' : γ}
    (h : l.foldlM step g = .ok g') : ∀ i ∈ l, ∃ g1 g2, step g1 i = .ok g2 := by
  induction l generalizing g with
  | nil => simp
  | cons i l ih =>
    rw [List.foldlM_cons] at h
    obtain ⟨g1, h1, h⟩ := bind_ok_iff.1 h
    intro j hj
    rcases List.mem_cons.1 hj with rfl | hj
    · exact ⟨g, g1, h1⟩
    · exact ih h j hj

theorem addNested_cable {F : File} {t : Nested} {g g' : Graph} {a : ℤ} {level : ℕ}
    (h : Graph.addNested F t a level g = .ok g') {b : ℤ} {d : ℕ} (hb : t.At b d) : ∃ c, F.cableNameOf b = .ok c := by
  induction t generalizing g g' a level d with
  | ids l =>
    unfold Graph.addNested at h
    obtain ⟨hm, rfl⟩ := Nested.At.ids_iff.1 hb
    obtain ⟨g1, g2, h1⟩ := foldlM_steps h b hm
    obtain ⟨c, hc, -⟩ := bind_ok_iff.1 h1
    exact ⟨c, hc⟩
  | dict k key sub ih =>
    unfold Graph.addNested at h
    obtain ⟨i, hi⟩ := Nested.At.dict_iff.1 hb
    obtain ⟨g1, g2, h1⟩ := foldlM_steps h i (List.mem_finRange i)
    obtain ⟨g3, h3, h1⟩ := bind_ok_iff.1 h1
    rcases hi with ⟨rfl, rfl⟩ | ⟨d', rfl, hm⟩
    · obtain ⟨c, hc, -⟩ := bind_ok_iff.1 h3
      exact ⟨c, hc⟩
    · exact ih i h1 hm

/-- Every element of an accepted nesting has a cable. -/
theorem build_cable {F : File} {t : Nested} {g : Graph} (h : Graph.build F t = .ok g) {b : ℤ} {d : ℕ} (hb : t.At b d) :
    ∃ c, F.cableNameOf b = .ok c := by
  cases t with
  | ids l =>
    unfold Graph.build at h
    obtain ⟨hm, rfl⟩ := Nested.At.ids_iff.1 hb
    obtain ⟨g1, g2, h1⟩ := foldlM_steps h b hm
    obtain ⟨c, hc, -⟩ := bind_ok_iff.1 h1
    exact ⟨c, hc⟩
  | dict k key sub =>
    unfold Graph.build at h
    obtain ⟨i, hi⟩ := Nested.At.dict_iff.1 hb
    obtain ⟨g1, g2, h1⟩ := foldlM_steps h i (List.mem_finRange i)
    obtain ⟨g3, h3, h1⟩ := bind_ok_iff.1 h1
    rcases hi with ⟨rfl, rfl⟩ | ⟨d', rfl, hm⟩
    · obtain ⟨c, hc, -⟩ := bind_ok_iff.1 h3
      exact ⟨c, hc⟩
    · exact addNested_cable h1 hm

/-- **C83** Every element of an accepted nesting is found in the graph, with its depth as level. -/
theorem C83_vertex {F : File} {t : Nested} {g : Graph} (h : Graph.build F t = .ok g) (a : ℤ) (d : ℕ) :
    t.At a d ↔ ∃ v, g.vertex a = .ok v ∧ v.name = a ∧ v.level = d := by
  obtain ⟨hn, hv, -⟩ := C83_graph h
  constructor
  · intro ha
    obtain ⟨c, hc⟩ := build_cable h ha
    have hm : (⟨a, d, c⟩ : Vertex) ∈ g.vs := (hv _).2 ⟨ha, hc⟩
    unfold Graph.vertex
    cases hf : g.vs.find? fun v => v.name = a with
    | none => exact absurd (List.find?_eq_none.1 hf _ hm) (by simp)
    | some w =>
      have hw := List.mem_of_find?_eq_some hf
      have hp := List.find?_some hf
      simp only [decide_eq_true_eq] at hp
      have := List.inj_on_of_nodup_map hn hw hm hp
      subst this
      exact ⟨_, rfl, rfl, rfl⟩
  · rintro ⟨v, h1, rfl, rfl⟩
    unfold Graph.vertex at h1
    cases hf : g.vs.find? fun w => w.name = v.name with
    | none => rw [hf] at h1; simp at h1
    | some w =>
      rw [hf, Except.ok.injEq] at h1
      subst h1
      exact ((hv _).1 (List.mem_of_find?_eq_some hf)).1

/-- **C83** Every edge leads from a vertex of one level to a vertex of the next level. -/
theorem C83_levels {F : File} {t : Nested} {g : Graph} (h : Graph.build F t = .ok g) {e : Edge} (he : e ∈ g.es) :
    ∃ v w, g.vertex e.source = .ok v ∧ g.vertex e.target = .ok w ∧ w.level = v.level + 1 := by
  obtain ⟨hn, hv, hE⟩ := C83_graph h
  obtain ⟨hi, -⟩ := (hE e).1 he
  obtain ⟨d, h1, h2⟩ := hi.depth
  have key : ∀ {a d}, t.At a d → ∃ v, g.vertex a = .ok v ∧ v.level = d := by
    intro a d ha
    obtain ⟨v, h1, -, h2⟩ := (C83_vertex h a d).1 ha
    exact ⟨v, h1, h2⟩
  obtain ⟨v, hv1, hv2⟩ := key h1
  obtain ⟨w, hw1, hw2⟩ := key h2
  exact ⟨v, w, hv1, hw1, by omega⟩

/-- The elements of a nesting in the order of the file. -/
def Nested.elems : Nested → List ℤ
  | .ids l => l
  | .dict k key sub => (List.finRange k).flatMap fun i => key i :: (sub i).elems

theorem foldlM_names {ι : Type} {step : Graph → ι → Py Graph} {names : ι → List ℤ}
    (l : List ι) (hs : ∀ g, ∀ i ∈ l, (g.vs.map Vertex.name ++ names i).Nodup → ∃ g', step g i = .ok g' ∧
      g'.vs.map Vertex.name = g.vs.map Vertex.name ++ names i) (g : Graph)
    (hn : (g.vs.map Vertex.name ++ l.flatMap names).Nodup) :
    ∃ g', l.foldlM step g = .ok g' ∧ g'.vs.map Vertex.name = g.vs.map Vertex.name ++ l.flatMap names := by
  induction l generalizing g with
  | nil => exact ⟨g, rfl, by simp⟩
  | cons i l ih =>
    rw [List.flatMap_cons, ← List.append_assoc] at hn
    obtain ⟨g1, h1, e1⟩ := hs g i (by simp) (List.Nodup.sublist (List.sublist_append_left _ _) hn)
    rw [← e1] at hn
    obtain ⟨g2, h2, e2⟩ := ih (fun g j hj => hs g j (by simp [hj])) g1 hn
    refine ⟨g2, ?_, ?_⟩
    · rw [List.foldlM_cons, h1]; exact h2
    · rw [e2, e1, List.flatMap_cons, List.append_assoc]

theorem addRoot_names {F : File} {g : Graph} {a : ℤ} (hc : ∃ c, F.cableNameOf a = .ok c)
    (hn : (g.vs.map Vertex.name ++ [a]).Nodup) : ∃ g', g.addRoot F a = .ok g' ∧
      g'.vs.map Vertex.name = g.vs.map Vertex.name ++ [a] := by
  obtain ⟨c, hc⟩ := hc
  have : a ∉ g.vs.map Vertex.name := fun h => (List.nodup_append.1 hn).2.2 a h a (by simp) rfl
  refine ⟨_, by
    unfold Graph.addRoot Graph.addVertex
    rw [hc]
    simp only [bind, Except.bind]
    rw [if_neg this], by simp⟩

theorem addInside_names {F : File} {g : Graph} {a b : ℤ} {level : ℕ} (hc : ∃ c, F.cableNameOf a = .ok c)
    (hc' : ∃ c, F.cableNameOf b = .ok c) (hn : (g.vs.map Vertex.name ++ [b]).Nodup) :
    ∃ g', Graph.addInside F a b level g = .ok g' ∧ g'.vs.map Vertex.name = g.vs.map Vertex.name ++ [b] := by
  obtain ⟨c, hc⟩ := hc
  obtain ⟨c', hc'⟩ := hc'
  have : b ∉ g.vs.map Vertex.name := fun h => (List.nodup_append.1 hn).2.2 b h b (by simp) rfl
  refine ⟨_, by
    unfold Graph.addInside Graph.addVertex
    rw [hc']
    simp only [bind, Except.bind]
    rw [if_neg this]
    simp only
    rw [hc], by simp⟩

theorem addNested_names {F : File} {t : Nested} {g : Graph} {a : ℤ} {level : ℕ} (ha : ∃ c, F.cableNameOf a = .ok c)
    (hc : ∀ b ∈ t.elems, ∃ c, F.cableNameOf b = .ok c) (hn : (g.vs.map Vertex.name ++ t.elems).Nodup) :
    ∃ g', Graph.addNested F t a level g = .ok g' ∧ g'.vs.map Vertex.name = g.vs.map Vertex.name ++ t.elems := by
  induction t generalizing g a level with
  | ids l =>
    unfold Graph.addNested
    have hl : l.flatMap (fun b : ℤ => [b]) = l := by simp
    have := foldlM_names (names := fun b : ℤ => [b]) l
      (fun g b hb hn => addInside_names (level := level) ha (hc b hb) hn) g (by rw [hl]; exact hn)
    rwa [hl] at this
  | dict k key sub ih =>
    unfold Graph.addNested
    refine foldlM_names (names := fun i => key i :: (sub i).elems) (List.finRange k) (fun g i _ hn => ?_) g hn
    have hk : ∃ c, F.cableNameOf (key i) = .ok c := hc _ (by
      unfold Nested.elems
      exact List.mem_flatMap.2 ⟨i, List.mem_finRange i, by simp⟩)
    have e : g.vs.map Vertex.name ++ key i :: (sub i).elems = (g.vs.map Vertex.name ++ [key i]) ++ (sub i).elems := by
      simp
    rw [e] at hn
    obtain ⟨g1, h1, e1⟩ := addInside_names (level := level) ha hk (List.Nodup.sublist (List.sublist_append_left _ _) hn)
    rw [← e1] at hn
    obtain ⟨g2, h2, e2⟩ := ih i (level := level + 1) hk (fun b hb => hc b (by
      unfold Nested.elems
      exact List.mem_flatMap.2 ⟨i, List.mem_finRange i, by simp [hb]⟩)) hn
    refine ⟨g2, ?_, by rw [e2, e1, e]⟩
    rw [h1]
    exact h2

theorem Nested.mem_elems {t : Nested} {a : ℤ} : a ∈ t.elems ↔ ∃ d, t.At a d := by
  induction t with
  | ids l =>
    unfold Nested.elems
    constructor
    · intro h; exact ⟨0, .ids h⟩
    · rintro ⟨d, h⟩; exact (Nested.At.ids_iff.1 h).1
  | dict k key sub ih =>
    unfold Nested.elems
    rw [List.mem_flatMap]
    constructor
    · rintro ⟨i, -, h⟩
      rcases List.mem_cons.1 h with rfl | h
      · exact ⟨0, .key i⟩
      · obtain ⟨d, h⟩ := (ih i).1 h
        exact ⟨d + 1, .sub i h⟩
    · rintro ⟨d, h⟩
      obtain ⟨i, (⟨rfl, -⟩ | ⟨d', -, h⟩)⟩ := Nested.At.dict_iff.1 h
      · exact ⟨i, List.mem_finRange i, by simp⟩
      · exact ⟨i, List.mem_finRange i, by simp [(ih i).2 ⟨d', h⟩]⟩

/-- **C83** A nesting without repeated elements, all of them in cables, is accepted. -/
theorem C83_total {F : File} {t : Nested} (hn : t.elems.Nodup) (hc : ∀ a ∈ t.elems, ∃ c, F.cableNameOf a = .ok c) :
    ∃ g, Graph.build F t = .ok g ∧ g.vs.map Vertex.name = t.elems := by
  cases t with
  | ids l =>
    unfold Graph.build
    have hl : l.flatMap (fun b : ℤ => [b]) = l := by simp
    have := foldlM_names (names := fun b : ℤ => [b]) l (fun g b hb hn => addRoot_names (hc b hb) hn) {}
      (by rw [hl]; exact hn)
    rwa [hl] at this
  | dict k key sub =>
    unfold Graph.build
    refine foldlM_names (names := fun i => key i :: (sub i).elems) (List.finRange k) (fun g i _ hn => ?_) {} hn
    have hk : ∃ c, F.cableNameOf (key i) = .ok c := hc _ (by
      unfold Nested.elems
      exact List.mem_flatMap.2 ⟨i, List.mem_finRange i, by simp⟩)
    have e : g.vs.map Vertex.name ++ key i :: (sub i).elems = (g.vs.map Vertex.name ++ [key i]) ++ (sub i).elems := by
      simp
    rw [e] at hn
    obtain ⟨g1, h1, e1⟩ := addRoot_names hk (List.Nodup.sublist (List.sublist_append_left _ _) hn)
    rw [← e1] at hn
    obtain ⟨g2, h2, e2⟩ := addNested_names (level := 1) hk (fun b hb => hc b (by
      unfold Nested.elems
      exact List.mem_flatMap.2 ⟨i, List.mem_finRange i, by simp [hb]⟩)) hn
    refine ⟨g2, ?_, by rw [e2, e1, e]⟩
    rw [h1]
    exact h2

/-- A cable with two wires inside of a shield, which is inside of another shield. -/
def demoNested : Nested := .dict 1 (fun _ => 1) fun _ => .dict 1 (fun _ => 2) fun _ => .ids [3, 4]

/-- A file with the three cables. -/
def demoNestedFile : File where
  cables := [{ name := "outer", materialId := 1, elemIds := [1], ndiv := [1] },
    { name := "inner", materialId := 1, elemIds := [2], ndiv := [1] },
    { name := "wires", materialId := 1, elemIds := [3, 4], ndiv := [1] }]

/-- Non-vacuity of C83: three levels. -/
theorem C83_example : ∃ g, Graph.build demoNestedFile demoNested = .ok g ∧ g.vs.map Vertex.name = [1, 2, 3, 4] ∧
    demoNested.At 4 2 ∧ demoNested.Inside 2 4 := by
  have he : demoNested.elems = [1, 2, 3, 4] := by simp [demoNested, Nested.elems, List.finRange_succ]
  obtain ⟨g, hg, hv⟩ := C83_total (F := demoNestedFile) (t := demoNested) (by rw [he]; decide) (by
    rw [he]
    intro a ha
    simp only [List.mem_cons, List.not_mem_nil, or_false] at ha
    rcases ha with rfl | rfl | rfl | rfl <;>
      simp [File.cableNameOf, File.elemIdsToNames, demoNestedFile, dictSet, dictGet])
  exact ⟨g, hg, by rw [hv, he], .sub 0 (.sub 0 (.ids (by simp))), .sub 0 (.child 0 (.ids (by simp)))⟩

end Mtln
