import Verif.Model.Parser
import Verif.Lemmas.Network

/-!
# Dictionaries, first matches and loops of the parser
-/

namespace Mtln

section dict

variable {α β : Type} [DecidableEq α]

theorem dictGet_map_ne {d : List (α × β)} {key k : α} {value : β} (h : k ≠ key) :
    dictGet (d.map fun e => if e.1 = key then (key, value) else e) k = dictGet d k := by
  induction d with
  | nil => rfl
  | cons a d ih =>
    unfold dictGet at ih ⊢
    by_cases ha : a.1 = key
    · have h1 : ¬ key = k := fun e => h e.symm
      have h2 : ¬ a.1 = k := fun e => h (e.symm.trans ha)
      simp only [List.map_cons, if_pos ha, List.find?_cons, h1, h2, decide_false]
      exact ih
    · by_cases hk : a.1 = k
      · rw [List.map_cons, if_neg ha]
        simp only [List.find?_cons, hk, decide_true]
      · rw [List.map_cons, if_neg ha]
        simp only [List.find?_cons, hk, decide_false]
        exact ih

theorem dictGet_map_self {d : List (α × β)} {key : α} {value : β} (h : key ∈ d.map Prod.fst) :
    dictGet (d.map fun e => if e.1 = key then (key, value) else e) key = .ok value := by
  induction d with
  | nil => simp at h
  | cons a d ih =>
    unfold dictGet at ih ⊢
    by_cases ha : a.1 = key
    · simp only [List.map_cons, if_pos ha, List.find?_cons, decide_true]
    · rw [List.map_cons, if_neg ha]
      simp only [List.find?_cons, ha, decide_false]
      refine ih ?_
      rcases List.mem_cons.1 h with e | e
      · exact absurd e.symm ha
      · exact e

theorem dictGet_append {d d' : List (α × β)} {k : α} (h : k ∉ d.map Prod.fst) :
    dictGet (d ++ d') k = dictGet d' k := by
  induction d with
  | nil => rfl
  | cons a d ih =>
    have h1 : ¬ a.1 = k := fun e => h (by simp [e])
    have h2 : k ∉ d.map Prod.fst := fun e => h (by simp at e ⊢; exact Or.inr e)
    have := ih h2
    unfold dictGet at this ⊢
    simp only [List.cons_append, List.find?_cons, h1, decide_false]
    exact this

theorem dictGet_append_mem {d d' : List (α × β)} {k : α} (h : k ∈ d.map Prod.fst) :
    dictGet (d ++ d') k = dictGet d k := by
  induction d with
  | nil => simp at h
  | cons a d ih =>
    unfold dictGet at ih ⊢
    by_cases ha : a.1 = k
    · simp only [List.cons_append, List.find?_cons, ha, decide_true]
    · simp only [List.cons_append, List.find?_cons, ha, decide_false]
      refine ih ?_
      rcases List.mem_cons.1 h with e | e
      · exact absurd e.symm ha
      · exact e

theorem dictGet_not_mem {d : List (α × β)} {k : α} (h : k ∉ d.map Prod.fst) : dictGet d k = .error .KeyError := by
  have := dictGet_append (d' := []) h
  rw [List.append_nil] at this
  rw [this]
  rfl

theorem dictGet_dictSet (d : List (α × β)) (key k : α) (value : β) :
    dictGet (dictSet d key value) k = if k = key then .ok value else dictGet d k := by
  unfold dictSet
  by_cases hm : key ∈ d.map Prod.fst
  · rw [if_pos hm]
    by_cases hk : k = key
    · rw [if_pos hk, hk]
      exact dictGet_map_self hm
    · rw [if_neg hk]
      exact dictGet_map_ne hk
  · rw [if_neg hm]
    by_cases hk : k = key
    · rw [if_pos hk, hk, dictGet_append hm]
      simp [dictGet]
    · rw [if_neg hk]
      by_cases hd : k ∈ d.map Prod.fst
      · exact dictGet_append_mem hd
      · rw [dictGet_append hd, dictGet_not_mem hd]
        simp [dictGet, Ne.symm hk]

/-- The keys after an assignment. -/
theorem keys_dictSet (d : List (α × β)) (key : α) (value : β) :
    (dictSet d key value).map Prod.fst = if key ∈ d.map Prod.fst then d.map Prod.fst else d.map Prod.fst ++ [key] := by
  unfold dictSet
  split
  · rw [List.map_map]
    refine List.map_congr_left fun e _ => ?_
    simp only [Function.comp_apply]
    split
    · rename_i h; exact h.symm
    · rfl
  · simp

theorem mem_keys_dictSet (d : List (α × β)) (key : α) (value : β) (k : α) :
    k ∈ (dictSet d key value).map Prod.fst ↔ k ∈ d.map Prod.fst ∨ k = key := by
  rw [keys_dictSet]
  split
  · constructor
    · exact Or.inl
    · rintro (h | rfl)
      · exact h
      · assumption
  · rw [List.mem_append, List.mem_singleton]

theorem nodup_keys_dictSet {d : List (α × β)} (h : (d.map Prod.fst).Nodup) (key : α) (value : β) :
    ((dictSet d key value).map Prod.fst).Nodup := by
  rw [keys_dictSet]
  split
  · exact h
  · rename_i hk
    rw [List.nodup_append]
    refine ⟨h, by simp, fun a ha b hb => ?_⟩
    rw [List.mem_singleton] at hb
    exact fun e => hk (by rw [← hb, ← e]; exact ha)

theorem dictGet_ok_iff {d : List (α × β)} {k : α} {v : β} (h : (d.map Prod.fst).Nodup) :
    dictGet d k = .ok v ↔ (k, v) ∈ d := by
  induction d with
  | nil => simp [dictGet]
  | cons a d ih =>
    rw [List.map_cons, List.nodup_cons] at h
    have ih := ih h.2
    unfold dictGet at ih ⊢
    by_cases ha : a.1 = k
    · simp only [List.find?_cons, ha, decide_true]
      constructor
      · intro e
        have : a = (k, v) := Prod.ext ha (Except.ok.inj e)
        rw [this]
        exact List.mem_cons_self
      · intro e
        rcases List.mem_cons.1 e with e | e
        · rw [← e]
        · exact absurd (List.mem_map_of_mem (f := Prod.fst) e) (by rw [← ha]; exact h.1)
    · simp only [List.find?_cons, ha, decide_false]
      rw [ih, List.mem_cons]
      constructor
      · exact Or.inr
      · rintro (e | e)
        · exact absurd (by rw [← e]) ha
        · exact e

end dict

/-! ## First matches -/

/-- `a` is the first element of `l` with the property. -/
def FirstMatch {α : Type} (l : List α) (P : α → Prop) (a : α) : Prop :=
  ∃ pre post, l = pre ++ a :: post ∧ P a ∧ ∀ b ∈ pre, ¬ P b

theorem FirstMatch.mem {α : Type} {l : List α} {P : α → Prop} {a : α} (h : FirstMatch l P a) : a ∈ l := by
  obtain ⟨pre, post, rfl, -, -⟩ := h
  simp

theorem firstMatch_cons {α : Type} {l : List α} {P : α → Prop} {a b : α} :
    FirstMatch (b :: l) P a ↔ (P b ∧ a = b) ∨ (¬ P b ∧ FirstMatch l P a) := by
  constructor
  · rintro ⟨pre, post, h, ha, hpre⟩
    cases pre with
    | nil =>
      rw [List.nil_append] at h
      injection h with h1 h2
      exact Or.inl ⟨h1 ▸ ha, h1.symm⟩
    | cons c pre =>
      rw [List.cons_append] at h
      injection h with h1 h2
      exact Or.inr ⟨h1 ▸ hpre c (by simp), pre, post, h2, ha, fun x hx => hpre x (by simp [hx])⟩
  · rintro (⟨h1, rfl⟩ | ⟨h1, pre, post, rfl, ha, hpre⟩)
    · exact ⟨[], l, rfl, h1, by simp⟩
    · refine ⟨b :: pre, post, rfl, ha, fun x hx => ?_⟩
      rcases List.mem_cons.1 hx with rfl | hx
      · exact h1
      · exact hpre x hx

theorem find?_iff_firstMatch {α : Type} {l : List α} {P : α → Prop} [DecidablePred P] {a : α} :
    (l.find? fun x => P x) = some a ↔ FirstMatch l P a := by
  induction l with
  | nil =>
    constructor
    · intro h; simp at h
    · intro h; exact absurd h.mem (by simp)
  | cons b l ih =>
    rw [firstMatch_cons, List.find?_cons]
    by_cases hb : P b
    · simp only [hb, decide_true, Option.some.injEq]
      constructor
      · intro e; exact Or.inl ⟨trivial, e.symm⟩
      · rintro (e | e)
        · exact e.2.symm
        · exact absurd trivial e.1
    · simp only [hb, decide_false]
      rw [ih]
      simp

/-- The first match is unique. -/
theorem FirstMatch.unique {α : Type} {l : List α} {P : α → Prop} {a b : α} (ha : FirstMatch l P a)
    (hb : FirstMatch l P b) : a = b := by
  classical
  rw [← find?_iff_firstMatch] at ha hb
  exact Option.some.inj (ha.symm.trans hb)

theorem firstMatch_exists {α : Type} {l : List α} {P : α → Prop} (h : ∃ a ∈ l, P a) : ∃ a, FirstMatch l P a := by
  classical
  obtain ⟨a, ha, hP⟩ := h
  cases e : l.find? fun x => P x with
  | none => exact absurd (List.find?_eq_none.1 e a ha) (by simpa using hP)
  | some b => exact ⟨b, find?_iff_firstMatch.1 e⟩

theorem pyIndex_ok_iff {α : Type} {l : List α} {k : ℕ} {a : α} : pyIndex l k = .ok a ↔ l[k]? = some a := by
  unfold pyIndex
  cases h : l[k]? with
  | none => simp
  | some b => simp

theorem pyKey_ok_iff {α : Type} {o : Option α} {a : α} : pyKey o = .ok a ↔ o = some a := by
  cases o <;> simp [pyKey]

theorem pyLast_ok_iff {α : Type} {l : List α} {a : α} : pyLast l = .ok a ↔ l.getLast? = some a := by
  unfold pyLast
  cases h : l.getLast? with
  | none => simp
  | some b => simp

theorem pyIndex_filter_ok_iff {α : Type} {l : List α} {P : α → Prop} [DecidablePred P] {a : α} :
    pyIndex (l.filter fun x => P x) 0 = .ok a ↔ FirstMatch l P a := by
  rw [pyIndex_ok_iff, ← List.head?_eq_getElem?, List.head?_filter, find?_iff_firstMatch]

end Mtln
