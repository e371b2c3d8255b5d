import Verif.Spec.Text
import Verif.Lemmas.Run

import Mathlib.Data.Nat.Digits.Lemmas
import Mathlib.Data.List.TakeWhile

/-! # The texts of files: C164 -/

namespace Mtln.Text

/-! ## Splitting -/

theorem splitFrom_blank {b : List Char} (hb : ∀ c ∈ b, space c) (s : List Char) : splitFrom (b ++ s) [] = splitFrom s [] := by
  induction b with
  | nil => rfl
  | cons c b ih =>
    rw [List.cons_append, splitFrom, if_pos (hb c List.mem_cons_self), if_pos rfl]
    exact ih fun c hc => hb c (List.mem_cons_of_mem _ hc)

theorem splitFrom_field {t : List Char} (ht : ∀ c ∈ t, ¬ space c) (s cur : List Char) :
    splitFrom (t ++ s) cur = splitFrom s (t.reverse ++ cur) := by
  induction t generalizing cur with
  | nil => rfl
  | cons c t ih =>
    rw [List.cons_append, splitFrom, if_neg (ht c List.mem_cons_self), ih fun c hc => ht c (List.mem_cons_of_mem _ hc)]
    simp

theorem splitFrom_end {t s : List Char} (ht : t ≠ []) (hs : ∀ c, s.head? = some c → space c) :
    splitFrom s t.reverse = t :: splitFrom s [] := by
  have ht' : t.reverse ≠ [] := by simpa using ht
  cases s with
  | nil =>
    obtain ⟨c, cs, h⟩ := List.exists_cons_of_ne_nil ht'
    rw [h]
    show [(c :: cs).reverse] = _
    rw [← h, List.reverse_reverse]
    rfl
  | cons c s =>
    rw [splitFrom, if_pos (hs c rfl), if_neg ht', List.reverse_reverse]
    congr 1
    rw [splitFrom, if_pos (hs c rfl), if_pos rfl]

theorem split_step {b t s : List Char} (hb : ∀ c ∈ b, space c) (ht : t ≠ []) (ht' : ∀ c ∈ t, ¬ space c)
    (hs : ∀ c, s.head? = some c → space c) : split (b ++ t ++ s) = t :: split s := by
  unfold split
  rw [List.append_assoc, splitFrom_blank hb, splitFrom_field ht', List.append_nil, splitFrom_end ht hs]

theorem split_of_fields {s : List Char} {ts : List (List Char)} (h : Fields s ts) : split s = ts := by
  induction h with
  | nil hb =>
    have := splitFrom_blank hb []
    rw [List.append_nil] at this
    exact this
  | cons hb ht ht' hs _ ih => rw [split_step hb ht ht' hs, ih]

theorem fields_split (s : List Char) : Fields s (split s) := by
  induction hn : s.length using Nat.strong_induction_on generalizing s with
  | _ k ih =>
    have e1 : s = s.takeWhile space ++ s.dropWhile space := (List.takeWhile_append_dropWhile).symm
    have hb : ∀ c ∈ s.takeWhile space, space c := fun c hc => List.mem_takeWhile_imp hc
    obtain ⟨r, hr⟩ : ∃ r, r = s.dropWhile space := ⟨_, rfl⟩
    rw [← hr] at e1
    rcases List.eq_nil_or_concat r with h0 | ⟨_, _, hne⟩
    · rw [h0, List.append_nil] at e1
      have hall : ∀ c ∈ s, space c := by rw [e1]; exact hb
      have h2 : split s = [] := split_of_fields (.nil hall)
      rw [h2]
      exact .nil hall
    · have hr0 : r ≠ [] := by rw [hne]; simp
      have e2 : r = r.takeWhile (fun c => !space c) ++ r.dropWhile (fun c => !space c) := (List.takeWhile_append_dropWhile).symm
      have ht' : ∀ c ∈ r.takeWhile (fun c => !space c), ¬ space c := fun c hc => by
        have := List.mem_takeWhile_imp hc
        simpa using this
      have ht : r.takeWhile (fun c => !space c) ≠ [] := by
        obtain ⟨c, cs, hc⟩ := List.exists_cons_of_ne_nil hr0
        have hns : ¬ space c = true := by
          have := List.head_dropWhile_not (p := space) (l := s) (by rw [← hr]; exact hr0)
          simp only [← hr, hc, List.head_cons] at this
          simp [this]
        rw [hc, List.takeWhile_cons]
        simp [hns]
      have hs : ∀ c, (r.dropWhile (fun c => !space c)).head? = some c → space c := by
        intro c hc
        have hne' : r.dropWhile (fun c => !space c) ≠ [] := by intro h; rw [h] at hc; simp at hc
        have := List.head_dropWhile_not (p := fun c => !space c) (l := r) hne'
        rw [List.head?_eq_some_head hne', Option.some.injEq] at hc
        rw [hc] at this
        simpa using this
      obtain ⟨t, htt⟩ : ∃ t, t = r.takeWhile (fun c => !space c) := ⟨_, rfl⟩
      obtain ⟨s', hss⟩ : ∃ s', s' = r.dropWhile (fun c => !space c) := ⟨_, rfl⟩
      rw [← htt] at e2 ht ht'
      rw [← hss] at e2 hs
      have e3 : s = s.takeWhile space ++ t ++ s' := by
        rw [List.append_assoc, ← e2]; exact e1
      have hlt : s'.length < k := by
        have h1 := congrArg List.length e3
        simp only [List.length_append] at h1
        have : 0 < t.length := List.length_pos_iff.2 ht
        omega
      have h3 := ih _ hlt s' rfl
      obtain ⟨b, hbb⟩ : ∃ b, b = s.takeWhile space := ⟨_, rfl⟩
      rw [← hbb] at e3 hb
      rw [e3, split_step hb ht ht' hs]
      exact .cons hb ht ht' hs h3

/-- **C164** The fields of a text are the words between its blanks. -/
theorem C164_fields (s : List Char) (ts : List (List Char)) : split s = ts ↔ Fields s ts :=
  ⟨fun h => h ▸ fields_split s, split_of_fields⟩

/-! ## Numbers -/

theorem digit_toNat (d : Fin 10) : (Char.ofNat (48 + d)).toNat = 48 + d := by
  revert d; decide

theorem digit_ofNat (d : Fin 10) : digit (Char.ofNat (48 + d)) = true ∧ strange (Char.ofNat (48 + d)) = false ∧
    space (Char.ofNat (48 + d)) = false ∧ Char.ofNat (48 + d) ≠ '-' ∧ Char.ofNat (48 + d) ≠ '+' ∧ Char.ofNat (48 + d) ≠ '.' ∧
    Char.ofNat (48 + d) ≠ 'e' ∧ Char.ofNat (48 + d) ≠ 'E' ∧ (Char.ofNat (48 + d)).toLower = Char.ofNat (48 + d) ∧
    Char.ofNat (48 + d) ≠ 'i' ∧ Char.ofNat (48 + d) ≠ 'n' := by
  revert d; decide

theorem mem_digitText {l : List (Fin 10)} {c : Char} (h : c ∈ digitText l) : ∃ d : Fin 10, c = Char.ofNat (48 + d) := by
  unfold digitText at h
  obtain ⟨d, -, rfl⟩ := List.mem_map.1 h
  exact ⟨d, rfl⟩

theorem foldl_digits (l : List (Fin 10)) (v : ℕ) :
    (digitText l).foldl (fun v c => 10 * v + (c.toNat - 48)) v = v * 10 ^ l.length + digitSum l := by
  induction l generalizing v with
  | nil => simp [digitText, digitSum]
  | cons d l ih =>
    unfold digitText at ih ⊢
    rw [List.map_cons, List.foldl_cons, ih, digit_toNat, Nat.add_sub_cancel_left, digitSum, List.length_cons]
    ring

theorem natOf_digits {l : List (Fin 10)} (h : l ≠ []) : natOf (digitText l) = .ok (digitSum l) := by
  unfold natOf
  rw [if_neg, if_pos]
  · unfold digitsValue
    rw [foldl_digits, zero_mul, zero_add]
  · refine ⟨by simpa [digitText] using h, ?_⟩
    rw [List.all_eq_true]
    intro c hc
    obtain ⟨d, rfl⟩ := mem_digitText hc
    exact (digit_ofNat d).1
  · rw [Bool.not_eq_true, List.any_eq_false]
    intro c hc
    obtain ⟨d, rfl⟩ := mem_digitText hc
    rw [(digit_ofNat d).2.1]
    simp

/-- The digits of a natural number. -/
def digitsOf (k : ℕ) : List (Fin 10) := if k = 0 then [0] else (Nat.digits 10 k).reverse.map fun d => Fin.ofNat 10 d

theorem natStr_eq (k : ℕ) : natStr k = digitText (digitsOf k) := by
  unfold natStr digitText digitsOf
  split_ifs with h
  · rfl
  · rw [List.map_map]
    refine List.map_congr_left fun d hd => ?_
    have : d < 10 := Nat.digits_lt_base (by norm_num) (List.mem_reverse.1 hd)
    simp [Fin.ofNat, Nat.mod_eq_of_lt this]

theorem digitSum_append (a b : List (Fin 10)) : digitSum (a ++ b) = digitSum a * 10 ^ b.length + digitSum b := by
  induction a with
  | nil => simp [digitSum]
  | cons d a ih => rw [List.cons_append, digitSum, digitSum, ih, List.length_append, pow_add]; ring

theorem digitSum_reverse (l : List ℕ) (hl : ∀ d ∈ l, d < 10) : digitSum (l.reverse.map fun d => Fin.ofNat 10 d) = Nat.ofDigits 10 l := by
  induction l with
  | nil => rfl
  | cons d l ih =>
    rw [List.reverse_cons, List.map_append, digitSum_append, ih fun d hd => hl d (List.mem_cons_of_mem _ hd), Nat.ofDigits_cons]
    simp only [List.map_cons, List.map_nil, digitSum, List.length_cons, List.length_nil, pow_zero]
    have : d < 10 := hl d List.mem_cons_self
    simp [Fin.ofNat, Nat.mod_eq_of_lt this]
    ring

theorem digitSum_digitsOf (k : ℕ) : digitSum (digitsOf k) = k := by
  unfold digitsOf
  split_ifs with h
  · rw [h]; rfl
  · rw [digitSum_reverse _ fun d hd => Nat.digits_lt_base (by norm_num) hd, Nat.ofDigits_digits]

theorem digitsOf_ne (k : ℕ) : digitsOf k ≠ [] := by
  unfold digitsOf
  split_ifs with h
  · simp
  · simpa [Nat.digits_eq_nil_iff_eq_zero] using h

theorem int_digits {l : List (Fin 10)} (h : l ≠ []) : int (digitText l) = .ok (digitSum l : ℤ) := by
  have hn := natOf_digits h
  obtain ⟨d, l', rfl⟩ := List.exists_cons_of_ne_nil h
  have e : digitText (d :: l') = Char.ofNat (48 + d) :: digitText l' := rfl
  obtain ⟨-, -, -, h1, h2, -⟩ := digit_ofNat d
  rw [e] at hn ⊢
  unfold int
  split
  · rename_i heq; exact absurd (List.cons.inj heq).1 h1
  · rename_i heq; exact absurd (List.cons.inj heq).1 h2
  · rw [hn]; rfl

/-- **C164** The number of a text written by Python is the number: `int(str(k)) == k`. -/
theorem C164_int (k : ℤ) : int (str k) = .ok k := by
  unfold str
  rw [natStr_eq]
  split_ifs with h
  · show (do let k ← natOf (digitText (digitsOf k.natAbs)); .ok (-(k : ℤ)) : Py ℤ) = _
    rw [natOf_digits (digitsOf_ne _), digitSum_digitsOf]
    show Except.ok (-((k.natAbs : ℕ) : ℤ)) = _
    congr 1
    omega
  · rw [int_digits (digitsOf_ne _), digitSum_digitsOf]
    congr 1
    omega

theorem str_inj {a b : ℤ} : str a = str b ↔ a = b := by
  constructor
  · intro h
    have := C164_int a
    rw [h, C164_int] at this
    injection this with this
    exact this.symm
  · rintro rfl; rfl

theorem str_field (k : ℤ) : str k ≠ [] ∧ ∀ c ∈ str k, ¬ space c := by
  have h1 : ∀ c ∈ natStr k.natAbs, ¬ space c := by
    intro c hc
    rw [natStr_eq] at hc
    obtain ⟨d, rfl⟩ := mem_digitText hc
    rw [(digit_ofNat d).2.2.1]
    simp
  have h2 : natStr k.natAbs ≠ [] := by
    rw [natStr_eq]
    simpa [digitText] using digitsOf_ne k.natAbs
  unfold str
  split_ifs
  · refine ⟨by simp, fun c hc => ?_⟩
    rcases List.mem_cons.1 hc with rfl | hc
    · decide
    · exact h1 c hc
  · exact ⟨h2, h1⟩

/-- Every list of ids can be written as a row. -/
theorem row_exists (ids : List ℤ) : Row ((ids.map fun k => ' ' :: str k).flatten) ids := by
  unfold Row
  induction ids with
  | nil => exact .nil (by simp)
  | cons k ids ih =>
    have : ((k :: ids).map fun k => ' ' :: str k).flatten = [' '] ++ str k ++ (ids.map fun k => ' ' :: str k).flatten := by simp
    rw [this]
    refine .cons (by intro c hc; rw [List.mem_singleton] at hc; subst hc; decide) (str_field k).1 (str_field k).2 ?_ ih
    intro c hc
    cases ids with
    | nil => simp at hc
    | cons k' ids =>
      simp at hc
      subst hc
      decide


/-! ## Numbers with a fraction -/

theorem span_append {q : Char → Bool} {a b : List Char} (ha : ∀ c ∈ a, q c = true) (hb : ∀ c, b.head? = some c → q c = false) :
    (a ++ b).span q = (a, b) := by
  rw [List.span_eq_takeWhile_dropWhile]
  have h1 : b.takeWhile q = [] ∧ b.dropWhile q = b := by
    cases b with
    | nil => exact ⟨rfl, rfl⟩
    | cons c b => rw [List.takeWhile_cons, List.dropWhile_cons, hb c rfl]; exact ⟨rfl, rfl⟩
  rw [List.takeWhile_append_of_pos ha, List.dropWhile_append_of_pos ha, h1.1, h1.2, List.append_nil]

/-- The text of a number without its sign. -/
def Decimal.body (d : Decimal) : List Char :=
  digitText d.whole ++ (if d.fraction = [] then [] else '.' :: digitText d.fraction) ++ d.exponent.elim [] fun k => 'e' :: str k

theorem body_head (d : Decimal) (h : d.whole ++ d.fraction ≠ []) :
    ∃ c s, d.body = c :: s ∧ (c = '.' ∨ ∃ x : Fin 10, c = Char.ofNat (48 + x)) := by
  unfold Decimal.body
  rcases hw : d.whole with _ | ⟨x, w⟩
  · have hf : d.fraction ≠ [] := by rw [hw] at h; exact h
    rw [if_neg hf]
    exact ⟨'.', _, rfl, Or.inl rfl⟩
  · exact ⟨Char.ofNat (48 + x), _, rfl, Or.inr ⟨x, rfl⟩⟩

theorem head_ok {c : Char} (h : c = '.' ∨ ∃ x : Fin 10, c = Char.ofNat (48 + x)) :
    c ≠ '-' ∧ c ≠ '+' ∧ c.toLower ≠ 'i' ∧ c.toLower ≠ 'n' := by
  rcases h with rfl | ⟨x, rfl⟩
  · decide
  · obtain ⟨-, -, -, h1, h2, -, -, -, h3, h4, h5⟩ := digit_ofNat x
    rw [h3]
    exact ⟨h1, h2, h4, h5⟩

theorem mantissa_text (w f : List (Fin 10)) :
    mantissa (digitText w ++ (if f = [] then [] else '.' :: digitText f)) = .ok (digitText w, digitText f) := by
  unfold mantissa
  rw [span_append (q := (· ≠ '.'))]
  · split_ifs with h
    · rw [h]; rfl
    · rfl
  · intro c hc
    obtain ⟨x, rfl⟩ := mem_digitText hc
    simpa using (digit_ofNat x).2.2.2.2.2.1
  · intro c hc
    split_ifs at hc with h
    · simp at hc
    · simp at hc
      simp [← hc]

theorem unsignedFloat_body (d : Decimal) (h : d.whole ++ d.fraction ≠ []) : unsignedFloat d.body =
    .ok ((digitSum d.whole + digitSum d.fraction / 10 ^ d.fraction.length) * (10 : ℝ) ^ (d.exponent.getD 0)) := by
  unfold unsignedFloat Decimal.body
  rw [span_append (q := fun c => c ≠ 'e' ∧ c ≠ 'E')]
  · simp only [mantissa_text]
    have e1 : digitText d.whole ++ digitText d.fraction = digitText (d.whole ++ d.fraction) := by
      unfold digitText; rw [List.map_append]
    show (do let v ← natOf (digitText d.whole ++ digitText d.fraction); _) = _
    rw [e1, natOf_digits h, digitSum_append]
    have e2 : (digitText d.fraction).length = d.fraction.length := by unfold digitText; rw [List.length_map]
    cases hx : d.exponent with
    | none =>
      show Except.ok (_ / 10 ^ (digitText d.fraction).length * (10 : ℝ) ^ (0 : ℤ)) = _
      rw [e2]
      congr 2
      push_cast
      field_simp
    | some k =>
      show (do let x ← int (str k); _) = _
      rw [C164_int]
      show Except.ok (_ / 10 ^ (digitText d.fraction).length * (10 : ℝ) ^ k) = _
      rw [e2]
      congr 2
      push_cast
      field_simp
  · intro c hc
    rcases List.mem_append.1 hc with hc | hc
    · obtain ⟨x, rfl⟩ := mem_digitText hc
      obtain ⟨-, -, -, -, -, -, h1, h2, -⟩ := digit_ofNat x
      simp [h1, h2]
    · split_ifs at hc with h
      · simp at hc
      · rcases List.mem_cons.1 hc with rfl | hc
        · decide
        · obtain ⟨x, rfl⟩ := mem_digitText hc
          obtain ⟨-, -, -, -, -, -, h1, h2, -⟩ := digit_ofNat x
          simp [h1, h2]
  · intro c hc
    cases hx : d.exponent with
    | none => rw [hx] at hc; simp at hc
    | some k => rw [hx] at hc; simp at hc; simp [← hc]

/-- **C164** The number of a text in decimal notation is its value. -/
theorem C164_float (d : Decimal) (h : d.whole ++ d.fraction ≠ []) : float d.text = .ok d.value := by
  have ht : d.text = (if d.negative then ['-'] else []) ++ d.body := by
    unfold Decimal.text Decimal.body
    rw [List.append_assoc, List.append_assoc, List.append_assoc]
  obtain ⟨c, s, hb, hc⟩ := body_head d h
  obtain ⟨h1, h2, h3, h4⟩ := head_ok hc
  have hsp : special d.body = false := by
    rw [hb]
    unfold special
    simp only [List.map_cons, decide_eq_false_iff_not]
    rintro (e | e | e)
    · exact h3 (List.cons.inj e).1
    · exact h3 (List.cons.inj e).1
    · exact h4 (List.cons.inj e).1
  have hu := unsignedFloat_body d h
  unfold Decimal.value
  cases hn : d.negative with
  | true =>
    rw [hn] at ht
    rw [ht]
    unfold float
    show (if special d.body then _ else (do let x ← unsignedFloat d.body; _)) = _
    rw [hsp, hu, if_neg (by simp)]
    show Except.ok (if some '-' = some '-' then _ else _) = _
    rw [if_pos rfl, if_pos rfl]
    congr 1
    ring
  | false =>
    rw [hn] at ht
    have ht' : d.text = d.body := ht
    rw [ht']
    unfold float
    have hm : unsigned d.body = d.body := by
      rw [hb]
      unfold unsigned
      split
      · rename_i heq; exact absurd (List.cons.inj heq).1 h1
      · rename_i heq; exact absurd (List.cons.inj heq).1 h2
      · rfl
    simp only [hm, hsp, hu]
    have hh : ¬ d.body.head? = some '-' := by rw [hb]; simpa using h1
    rw [if_neg (by simp)]
    show Except.ok (if d.body.head? = some '-' then _ else _) = _
    rw [if_neg hh, if_neg (by simp), one_mul]

theorem decimal_field (d : Decimal) (h : d.whole ++ d.fraction ≠ []) : d.text ≠ [] ∧ ∀ c ∈ d.text, ¬ space c := by
  have ht : d.text = (if d.negative then ['-'] else []) ++ d.body := by
    unfold Decimal.text Decimal.body
    rw [List.append_assoc, List.append_assoc, List.append_assoc]
  obtain ⟨c, s, hb, -⟩ := body_head d h
  have hd : ∀ l : List (Fin 10), ∀ c ∈ digitText l, ¬ space c := by
    intro l c hc
    obtain ⟨x, rfl⟩ := mem_digitText hc
    rw [(digit_ofNat x).2.2.1]
    simp
  refine ⟨by rw [ht, hb]; simp, fun c hc => ?_⟩
  rw [ht] at hc
  unfold Decimal.body at hc
  simp only [List.mem_append] at hc
  rcases hc with hc | (hc | hc) | hc
  · split_ifs at hc
    · rw [List.mem_singleton] at hc; subst hc; decide
    · simp at hc
  · exact hd _ _ hc
  · split_ifs at hc
    · simp at hc
    · rcases List.mem_cons.1 hc with rfl | hc
      · decide
      · exact hd _ _ hc
  · cases hx : d.exponent with
    | none => rw [hx] at hc; simp at hc
    | some k =>
      rw [hx] at hc
      rcases List.mem_cons.1 hc with rfl | hc
      · decide
      · exact (str_field k).2 _ hc

/-- A row of the coordinates: the id, three numbers, and perhaps more. -/
def CoordinateRow (row : List Char) (c : ℤ × V3) : Prop :=
  ∃ (x y z : Decimal) (more : List (List Char)), Fields row (str c.1 :: x.text :: y.text :: z.text :: more) ∧
    x.whole ++ x.fraction ≠ [] ∧ y.whole ++ y.fraction ≠ [] ∧ z.whole ++ z.fraction ≠ [] ∧ c.2 = ![x.value, y.value, z.value]

/-- **C164** The coordinates of a file are the numbers its rows say, the last row of an id counts. -/
theorem C164_coordinates {rows : List (List Char)} {cs : List (ℤ × V3)} (h : List.Forall₂ CoordinateRow rows cs) :
    readCoordinates rows = .ok (Mtln.readCoordinates cs) := by
  unfold readCoordinates Mtln.readCoordinates
  generalize ([] : List (ℤ × V3)) = d
  induction h generalizing d with
  | nil => rfl
  | @cons row c rows cs h _ ih =>
    obtain ⟨x, y, z, more, hf, hx, hy, hz, hc⟩ := h
    have hs := split_of_fields hf
    have e : coordinate row = .ok c := by
      unfold coordinate
      rw [hs]
      refine bind_ok_iff.2 ⟨_, rfl, bind_ok_iff.2 ⟨_, C164_int _, bind_ok_iff.2 ⟨_, rfl, bind_ok_iff.2 ⟨_, C164_float x hx,
        bind_ok_iff.2 ⟨_, rfl, bind_ok_iff.2 ⟨_, C164_float y hy, bind_ok_iff.2 ⟨_, rfl, bind_ok_iff.2 ⟨_, C164_float z hz, ?_⟩⟩⟩⟩⟩⟩⟩⟩
      rw [← hc]
    rw [List.foldlM_cons, List.foldl_cons, e]
    exact ih _

/-! ## Look-ups -/

theorem pyIndex_map {α β : Type} (f : α → β) (l : List α) (k : ℕ) : pyIndex (l.map f) k = (pyIndex l k).map f := by
  unfold pyIndex
  rw [List.getElem?_map]
  cases l[k]? <;> rfl

theorem pyLast_map {α β : Type} (f : α → β) (l : List α) : pyLast (l.map f) = (pyLast l).map f := by
  unfold pyLast
  rw [List.getLast?_map]
  cases l.getLast? <;> rfl

theorem index_int (ids : List ℤ) (k : ℕ) {α : Type} (g : ℤ → Py α) :
    (do let x ← pyIndex (ids.map str) k; let y ← int x; g y) = (do let x ← pyIndex ids k; g x) := by
  rw [pyIndex_map]
  cases pyIndex ids k with
  | error e => rfl
  | ok x =>
    show (do let y ← int (str x); g y) = g x
    rw [C164_int]
    rfl

theorem last_int (ids : List ℤ) {α : Type} (g : ℤ → Py α) :
    (do let x ← pyLast (ids.map str); let y ← int x; g y) = (do let x ← pyLast ids; g x) := by
  rw [pyLast_map]
  cases pyLast ids with
  | error e => rfl
  | ok x =>
    show (do let y ← int (str x); g y) = g x
    rw [C164_int]
    rfl

variable {rows : List (List Char)} {lines : List ElemFields}

/-- **C164** On rows whose ids are written as Python writes them, with whatever blanks, the look-ups in the texts are those
in the numbers. -/
theorem C164_elementOfNode_partial (h : List.Forall₂ Row rows lines) (F : File) (hF : F.lines = lines) (node : ℤ) :
    elementOfNode node rows = F.elementOfNode node := by
  unfold File.elementOfNode
  rw [hF]
  clear hF
  induction h with
  | nil => rfl
  | @cons row ids rows lines h _ ih =>
    have hs := split_of_fields h
    unfold elementOfNode File.elementOfNode.go
    rw [hs, ih, pyIndex_map, pyLast_map]
    simp only [index_int]
    cases pyIndex ids 3 with
    | error e => rfl
    | ok x =>
      show (if str x = str node then _ else _) = (if x = node then _ else _)
      simp only [str_inj]
      split_ifs
      · rfl
      · cases pyLast ids with
        | error e => rfl
        | ok y =>
          show (if str y = str node then _ else _) = (if y = node then _ else _)
          simp only [str_inj]

theorem C164_nodeCoordId_partial (h : List.Forall₂ Row rows lines) (F : File) (hF : F.nodes = lines) (id : ℤ) :
    nodeCoordId id rows = F.nodeCoordId id := by
  unfold File.nodeCoordId
  rw [hF]
  clear hF
  induction h with
  | nil => rfl
  | @cons row ids rows lines h _ ih =>
    have hs := split_of_fields h
    unfold nodeCoordId File.nodeCoordId.go
    rw [hs, ih, index_int]
    refine bind_congr fun x => ?_
    split_ifs
    · rw [pyLast_map]
      cases pyLast ids with
      | error e => rfl
      | ok y => exact C164_int y
    · rfl

theorem C164_lineElemId_partial (h : List.Forall₂ Row rows lines) (F : File) (hF : F.lines = lines) (coord : ℤ) :
    lineElemIdFromCoordId coord rows = F.lineElemIdFromCoordId coord := by
  unfold File.lineElemIdFromCoordId
  rw [hF]
  clear hF
  induction h with
  | nil => rfl
  | @cons row ids rows lines h _ ih =>
    have hs := split_of_fields h
    unfold lineElemIdFromCoordId
    rw [hs, ih, ← List.map_drop, List.find?_cons]
    have e : str coord ∈ (ids.drop 3).map str ↔ coord ∈ ids.drop 3 := by
      rw [List.mem_map]
      constructor
      · rintro ⟨x, hx, hx'⟩; rw [str_inj] at hx'; rwa [← hx']
      · intro hx; exact ⟨coord, hx, rfl⟩
    by_cases hc : coord ∈ ids.drop 3
    · rw [if_pos (e.2 hc)]
      simp only [hc, decide_true]
      rw [pyIndex_map]
      cases pyIndex ids 0 with
      | error e => rfl
      | ok y => exact C164_int y
    · rw [if_neg (fun h => hc (e.1 h))]
      simp only [hc, decide_false]

theorem C164_listOfCoordinates_partial (h : List.Forall₂ Row rows lines) (F : File) (hF : F.lines = lines) (id : ℤ) :
    listOfCoordinates F.coordinates id rows = F.listOfCoordinates id := by
  unfold File.listOfCoordinates
  rw [hF]
  clear hF
  induction h with
  | nil => rfl
  | @cons row ids rows lines h _ ih =>
    have hs := split_of_fields h
    unfold listOfCoordinates File.listOfCoordinates.go
    rw [hs, ih, index_int]
    refine bind_congr fun x => ?_
    split_ifs
    · congr 1
      rw [← List.map_drop]
      generalize ids.drop 3 = l
      induction l with
      | nil => rfl
      | cons c l ihl =>
        rw [List.map_cons]
        simp only [mapPy, C164_int, ihl]
        rfl
    · rfl

theorem C164_isAtNode_partial (h : List.Forall₂ Row rows lines) (node : ℤ) (id : Py ℤ) :
    isAtNode node id rows = File.terminalSource.inner node id lines := by
  induction h with
  | nil => rfl
  | @cons row ids rows lines h _ ih =>
    have hs := split_of_fields h
    unfold isAtNode File.terminalSource.inner
    rw [hs, ih, index_int]
    simp only [last_int]

/-- The source at a node, as it is found in the texts and in the numbers. -/
theorem C164_terminalSource_partial (h : List.Forall₂ Row rows lines) (F : File) (hF : F.nodes = lines) (node : ℤ) :
    (do
      let s ← terminalSource node rows (F.sources.filter fun s => s.sourceType = "TerminalSource")
      match s with
      | none => .ok none
      | some s => do
        let f ← s.magnitude.function
        .ok (some f)) = F.terminalSource node := by
  unfold File.terminalSource
  generalize F.sources.filter (fun s => s.sourceType = "TerminalSource") = l
  induction l with
  | nil => rfl
  | cons s l ih =>
    unfold terminalSource File.terminalSource.go
    rw [C164_isAtNode_partial h, hF, ← ih]
    cases File.terminalSource.inner node (pyIndex s.elemIds 0) lines with
    | error e => rfl
    | ok b => cases b <;> rfl

/-- **C164** is false of the code: with a leading zero the coordinate of an element is found when the line is built, but the
element is not found as the one at this coordinate. -/
theorem C164_refuted_zeros : ∃ row : List Char, ∃ x : V3, row = "7 0 0 03 4".toList ∧
    listOfCoordinates [(3, x), (4, x)] 7 [row] = .ok (some [x, x]) ∧ elementOfNode 4 [row] = .ok (7, "end") ∧
    elementOfNode 3 [row] = .error .Exception ∧ lineElemIdFromCoordId 3 [row] = .error .TypeError := by
  have hs : split "7 0 0 03 4".toList = ["7".toList, "0".toList, "0".toList, "03".toList, "4".toList] := by decide
  have h7 : int "7".toList = .ok 7 := rfl
  have h3 : int "03".toList = .ok 3 := rfl
  have h4 : int "4".toList = .ok 4 := rfl
  have s3 : str 3 = "3".toList := by decide
  have s4 : str 4 = "4".toList := by decide
  refine ⟨_, 0, rfl, ?_, ?_, ?_, ?_⟩
  · unfold listOfCoordinates
    rw [hs]
    have hi : pyIndex ["7".toList, "0".toList, "0".toList, "03".toList, "4".toList] 0 = .ok "7".toList := rfl
    rw [hi]
    refine bind_ok_iff.2 ⟨_, rfl, bind_ok_iff.2 ⟨_, h7, ?_⟩⟩
    rw [if_pos rfl]
    refine bind_ok_iff.2 ⟨_, ?_, rfl⟩
    show mapPy _ ["03".toList, "4".toList] = _
    simp only [mapPy, h3, h4]
    rfl
  · unfold elementOfNode
    rw [hs, s4]
    rfl
  · unfold elementOfNode elementOfNode
    rw [hs, s3]
    rfl
  · unfold lineElemIdFromCoordId lineElemIdFromCoordId
    rw [hs, s3]
    rfl

/-- Rows with single and other blanks, and a coordinate. -/
example : Row "7 0 0 3 4".toList [7, 0, 0, 3, 4] ∧ Row "\t7  0 0 3 4 \n".toList [7, 0, 0, 3, 4] ∧ Row "-1".toList [-1] :=
  ⟨(C164_fields _ _).1 (by decide), (C164_fields _ _).1 (by decide), (C164_fields _ _).1 (by decide)⟩

example : CoordinateRow "12 0.5 -2e-1 3".toList (12, ![0.5, -0.2, 3]) := by
  refine ⟨⟨false, [0], [5], none⟩, ⟨true, [2], [], some (-1)⟩, ⟨false, [3], [], none⟩, [], (C164_fields _ _).1 (by decide), by simp, by simp,
    by simp, ?_⟩
  simp [Decimal.value, digitSum]
  norm_num

end Mtln.Text
