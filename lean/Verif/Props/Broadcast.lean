import Verif.Model.Broadcast
import Verif.Props.Impedance

/-!
# C165: the objects of the dispersive elements compute what the model of the pole vectors says, if the models that meet in a cell
have the same number of poles
-/

namespace Mtln

open Obj

variable {n p : ℕ}

/-- The vector of `p` numbers with the entries of a list, and zeros after them. -/
def padded (p : ℕ) (l : List ℂ) : Poles p := fun s => l.getD s 0

/-- The object `o` holds the values `a` of `L` poles: an array of `L` entries, the number zero, or, for one pole, a number. -/
def Obj.Shows (L : ℕ) (o : Obj) (a : Poles p) : Prop :=
  (∃ l : List ℂ, o = .arr l ∧ l.length = L ∧ a = padded p l) ∨ (o = .num 0 ∧ a = 0) ∨
    ∃ z, o = .num z ∧ L = 1 ∧ a = padded p [z]

theorem padded_map (f : ℂ → ℂ) (hf : f 0 = 0) (l : List ℂ) : padded p (l.map f) = fun s => f (padded p l s) := by
  funext s
  simp only [padded, List.getD_eq_getElem?_getD, List.getElem?_map]
  cases l[(s : ℕ)]? <;> simp [hf]

theorem padded_zip (f : ℂ → ℂ → ℂ) (hf : f 0 0 = 0) {l l' : List ℂ} (h : l.length = l'.length) :
    padded p (List.zipWith f l l') = fun s => f (padded p l s) (padded p l' s) := by
  funext s
  simp only [padded, List.getD_eq_getElem?_getD, List.getElem?_zipWith]
  by_cases hs : (s : ℕ) < l.length
  · simp [hs, h ▸ hs]
  · have h1 : l[(s : ℕ)]? = none := List.getElem?_eq_none (by omega)
    have h2 : l'[(s : ℕ)]? = none := List.getElem?_eq_none (by omega)
    simp [h1, h2, hf]

theorem Obj.Shows.mul {L : ℕ} {o o' : Obj} {a b : Poles p} (h : o.Shows L a) (h' : o'.Shows L b) :
    ∃ y, Obj.mul o o' = .ok y ∧ y.Shows L (fun s => a s * b s) := by
  rcases h with ⟨l, rfl, hl, rfl⟩ | ⟨rfl, rfl⟩ | ⟨z, rfl, hL, rfl⟩ <;>
    rcases h' with ⟨l', rfl, hl', rfl⟩ | ⟨rfl, rfl⟩ | ⟨z', rfl, hL', rfl⟩
  · refine ⟨.arr (List.zipWith (· * ·) l l'), by simp [Obj.mul, op, hl, hl'], Or.inl ⟨_, rfl, by simp [hl, hl'], ?_⟩⟩
    rw [padded_zip _ (by simp) (hl.trans hl'.symm)]
  · refine ⟨_, rfl, Or.inl ⟨_, rfl, by simp [hl], ?_⟩⟩
    rw [padded_map _ (by simp)]
    simp
  · refine ⟨_, rfl, Or.inl ⟨_, rfl, by simp [hl], ?_⟩⟩
    obtain ⟨x, rfl⟩ := List.length_eq_one_iff.1 (hl.trans hL')
    funext s
    rcases s with ⟨_ | s, hs⟩ <;> simp [padded]
  · refine ⟨_, rfl, Or.inl ⟨_, rfl, by simp [hl'], ?_⟩⟩
    rw [padded_map _ (by simp)]
    simp
  · exact ⟨_, rfl, Or.inr (Or.inl ⟨by simp, by funext s; simp⟩)⟩
  · exact ⟨_, rfl, Or.inr (Or.inl ⟨by simp, by funext s; simp⟩)⟩
  · refine ⟨_, rfl, Or.inl ⟨_, rfl, by simp [hl'], ?_⟩⟩
    obtain ⟨x, rfl⟩ := List.length_eq_one_iff.1 (hl'.trans hL)
    funext s
    rcases s with ⟨_ | s, hs⟩ <;> simp [padded]
  · exact ⟨_, rfl, Or.inr (Or.inl ⟨by simp, by funext s; simp⟩)⟩
  · refine ⟨_, rfl, Or.inr (Or.inr ⟨_, rfl, hL, ?_⟩)⟩
    funext s
    rcases s with ⟨_ | s, hs⟩ <;> simp [padded]

theorem Obj.Shows.scale {L : ℕ} {o : Obj} {a : Poles p} (h : o.Shows L a) (x : ℂ) :
    ∃ y, Obj.mul o (.num x) = .ok y ∧ y.Shows L (fun s => a s * x) := by
  rcases h with ⟨l, rfl, hl, rfl⟩ | ⟨rfl, rfl⟩ | ⟨z, rfl, hL, rfl⟩
  · refine ⟨_, rfl, Or.inl ⟨_, rfl, by simp [hl], ?_⟩⟩
    rw [padded_map _ (by simp)]
  · exact ⟨_, rfl, Or.inr (Or.inl ⟨by simp, by funext s; simp⟩)⟩
  · refine ⟨_, rfl, Or.inr (Or.inr ⟨_, rfl, hL, ?_⟩)⟩
    funext s
    rcases s with ⟨_ | s, hs⟩ <;> simp [padded]

theorem Obj.Shows.add {L : ℕ} {o o' : Obj} {a b : Poles p} (h : o.Shows L a) (h' : o'.Shows L b) :
    ∃ y, Obj.add o o' = .ok y ∧ y.Shows L (fun s => a s + b s) := by
  rcases h with ⟨l, rfl, hl, rfl⟩ | ⟨rfl, rfl⟩ | ⟨z, rfl, hL, rfl⟩ <;>
    rcases h' with ⟨l', rfl, hl', rfl⟩ | ⟨rfl, rfl⟩ | ⟨z', rfl, hL', rfl⟩
  · refine ⟨.arr (List.zipWith (· + ·) l l'), by simp [Obj.add, op, hl, hl'], Or.inl ⟨_, rfl, by simp [hl, hl'], ?_⟩⟩
    rw [padded_zip _ (by simp) (hl.trans hl'.symm)]
  · refine ⟨_, rfl, Or.inl ⟨_, rfl, by simp [hl], ?_⟩⟩
    simp
  · refine ⟨_, rfl, Or.inl ⟨_, rfl, by simp [hl], ?_⟩⟩
    obtain ⟨x, rfl⟩ := List.length_eq_one_iff.1 (hl.trans hL')
    funext s
    rcases s with ⟨_ | s, hs⟩ <;> simp [padded]
  · refine ⟨_, rfl, Or.inl ⟨_, rfl, by simp [hl'], ?_⟩⟩
    simp
  · exact ⟨_, rfl, Or.inr (Or.inl ⟨by simp, by funext s; simp⟩)⟩
  · exact ⟨_, rfl, Or.inr (Or.inr ⟨z', by simp, hL', by funext s; simp⟩)⟩
  · refine ⟨_, rfl, Or.inl ⟨_, rfl, by simp [hl'], ?_⟩⟩
    obtain ⟨x, rfl⟩ := List.length_eq_one_iff.1 (hl'.trans hL)
    funext s
    rcases s with ⟨_ | s, hs⟩ <;> simp [padded]
  · exact ⟨_, rfl, Or.inr (Or.inr ⟨z, by simp, hL, by funext s; simp⟩)⟩
  · refine ⟨_, rfl, Or.inr (Or.inr ⟨_, rfl, hL, ?_⟩)⟩
    funext s
    rcases s with ⟨_ | s, hs⟩ <;> simp [padded]

theorem shows_fold {L : ℕ} (xs : List (Obj × Obj)) (vs : List (Poles p))
    (h : List.Forall₂ (fun x v => ∃ y, Obj.mul x.1 x.2 = .ok y ∧ y.Shows L v) xs vs) :
    ∀ {t : Obj} {a : Poles p}, t.Shows L a → ∃ y, xs.foldlM accumulate t = .ok y ∧ y.Shows L (a + vs.sum) := by
  induction h with
  | nil => exact fun {t a} ht => ⟨t, rfl, by simpa using ht⟩
  | @cons x v xs vs hx _ ih =>
    intro t a ht
    obtain ⟨y, hy, hs⟩ := hx
    obtain ⟨z, hz, hs'⟩ := ht.add hs
    obtain ⟨w, hw, hs''⟩ := ih hs'
    refine ⟨w, ?_, ?_⟩
    · rw [List.foldlM_cons, accumulate, hy]
      show (Obj.add t y >>= fun t' => xs.foldlM accumulate t') = _
      rw [hz]
      exact hw
    · rw [List.sum_cons, ← add_assoc]
      exact hs''

theorem shows_dot {L : ℕ} {xs : List (Obj × Obj)} {vs : List (Poles p)}
    (h : List.Forall₂ (fun x v => ∃ y, Obj.mul x.1 x.2 = .ok y ∧ y.Shows L v) xs vs) :
    ∃ y, Obj.dot xs = .ok y ∧ y.Shows L vs.sum := by
  cases h with
  | nil => exact ⟨_, rfl, Or.inr (Or.inl ⟨rfl, rfl⟩)⟩
  | @cons x v xs vs hx hr =>
    obtain ⟨y, hy, hs⟩ := hx
    obtain ⟨z, hz, hs'⟩ := shows_fold xs vs hr hs
    refine ⟨z, ?_, by rw [List.sum_cons]; exact hs'⟩
    rw [Obj.dot, hy]
    exact hz

theorem shows_rowDot {L : ℕ} {q : Fin n → Fin n → Obj} {x : Fin n → Obj} {i : Fin n} {v : Fin n → Poles p}
    (h : ∀ j, ∃ y, Obj.mul (q i j) (x j) = .ok y ∧ y.Shows L (v j)) :
    ∃ y, Obj.rowDot q x i = .ok y ∧ y.Shows L (fun s => ∑ j, v j s) := by
  obtain ⟨y, hy, hs⟩ := shows_dot (xs := (List.finRange n).map fun j => (q i j, x j)) (vs := (List.finRange n).map v) (L := L) (by
    rw [List.forall₂_map_left_iff, List.forall₂_map_right_iff, List.forall₂_same]
    exact fun j _ => h j)
  refine ⟨y, hy, ?_⟩
  convert hs using 1
  funext s
  rw [show ((List.finRange n).map v).sum = ∑ j, v j from (Fin.sum_univ_def v).symm]
  simp

theorem Obj.Shows.total {L : ℕ} (hL : L ≤ p) {o : Obj} {a : Poles p} (h : o.Shows L a) : o.total = poleSum a := by
  have key : ∀ l : List ℂ, l.length ≤ p → l.sum = ∑ s : Fin p, padded p l s := by
    intro l hl
    rw [Finset.sum_fin_eq_sum_range]
    rw [← Fin.sum_univ_getElem, Finset.sum_fin_eq_sum_range]
    refine (Finset.sum_subset (Finset.range_mono hl) fun s _ hs => ?_).trans (Finset.sum_congr rfl fun s hs => ?_)
    · have : ¬ s < l.length := by simpa using hs
      rw [dif_neg this]
    · have hs : s < p := by simpa using hs
      rw [dif_pos hs]
      split
      · rename_i h; simp [padded, h]
      · rename_i h; simp [padded, List.getElem?_eq_none (show l.length ≤ s by omega)]
  unfold poleSum
  rcases h with ⟨l, rfl, hl, rfl⟩ | ⟨rfl, rfl⟩ | ⟨z, rfl, h1, rfl⟩
  · rw [← key l (by omega)]; rfl
  · simp [Obj.total]
  · rw [← key [z] (by simpa using by omega)]; simp [Obj.total]

/-! ## Agreement with the vectors of poles -/

/-- A model with one pole, `1 / (s + 1)`. -/
def demoPole : RationalModel := ⟨0, 0, [-1], [0], [1], [0]⟩

/-- The objects of cell `k` hold the coefficients of `D`, with `L` poles. -/
structure Obj.Holds (L : ℕ) (D : Disp n p) (k : ℕ) (q1 q2 q3 : Fin n → Fin n → Obj) : Prop where
  q1 : ∀ i j, (q1 i j).Shows L (D.q1 k i j).val
  q2 : ∀ i j, (q2 i j).Shows L (D.q2 k i j).val
  q3 : ∀ i j, (q3 i j).Shows L (D.q3 k i j).val

theorem Obj.Holds.newPhi {L : ℕ} {D : Disp n p} {k : ℕ} {q1 q2 q3 : Fin n → Fin n → Obj} (H : Obj.Holds L D k q1 q2 q3)
    {phi : Memory n p} {ph : Fin n → Obj} (hp : ∀ i, (ph i).Shows L (phi k i)) (a b : Grid n) (i : Fin n) :
    ∃ y, Obj.newPhi q1 q2 q3 ph (a k) (b k) i = .ok y ∧ y.Shows L (D.updatePhi phi a b k i) := by
  obtain ⟨y1, e1, s1⟩ := shows_rowDot (q := q1) (i := i) (x := fun j => .num (b k j)) fun j => (H.q1 i j).scale (b k j)
  obtain ⟨y2, e2, s2⟩ := shows_rowDot (q := q2) (i := i) (x := fun j => .num (a k j)) fun j => (H.q2 i j).scale (a k j)
  obtain ⟨y3, e3, s3⟩ := shows_rowDot (q := q3) (i := i) (x := ph) fun j => (H.q3 i j).mul (hp j)
  obtain ⟨y4, e4, s4⟩ := s1.add s2
  obtain ⟨y5, e5, s5⟩ := s4.add s3
  refine ⟨y5, ?_, s5⟩
  unfold Obj.newPhi
  rw [e1, e2, e3]
  simp only [bind, Except.bind, e4, e5]

theorem Obj.Holds.term {L : ℕ} (hL : L ≤ p) {D : Disp n p} {k : ℕ} {q1 q2 q3 : Fin n → Fin n → Obj} (H : Obj.Holds L D k q1 q2 q3)
    {phi : Memory n p} {ph : Fin n → Obj} (hp : ∀ i, (ph i).Shows L (phi k i)) (i : Fin n) :
    Obj.term q3 ph i = .ok (D.q3phi phi k i) := by
  obtain ⟨y3, e3, s3⟩ := shows_rowDot (q := q3) (i := i) (x := ph) fun j => (H.q3 i j).mul (hp j)
  unfold Obj.term
  rw [e3]
  simp only [bind, Except.bind, s3.total hL]
  rfl

/-- **C165**, agreement: if the objects of a cell hold the coefficients of the vectors of poles, all with the same number of poles,
then in any number of steps with any currents the arithmetic of numpy raises no exception, and its history term is the one of the
model of vectors. -/
theorem C165_agrees_partial {L : ℕ} (hL : L ≤ p) {D : Disp n p} {k : ℕ} {q1 q2 q3 : Fin n → Fin n → Obj}
    (H : Obj.Holds L D k q1 q2 q3) (phi : ℕ → Memory n p) (iPrev iNow : ℕ → Grid n) (h0 : ∀ i, phi 0 k i = 0)
    (h : ∀ j, phi (j + 1) = D.updatePhi (phi j) (iPrev j) (iNow j)) :
    ∃ ph : ℕ → Fin n → Obj, ph 0 = (fun _ => .num 0) ∧
      (∀ j i, Obj.newPhi q1 q2 q3 (ph j) (iPrev j k) (iNow j k) i = .ok (ph (j + 1) i)) ∧
      ∀ j i, Obj.term q3 (ph j) i = .ok (D.q3phi (phi j) k i) := by
  have step : ∀ j (x : {ph : Fin n → Obj // ∀ i, (ph i).Shows L (phi j k i)}),
      ∃ y : {ph : Fin n → Obj // ∀ i, (ph i).Shows L (phi (j + 1) k i)},
        ∀ i, Obj.newPhi q1 q2 q3 x.1 (iPrev j k) (iNow j k) i = .ok (y.1 i) := by
    rintro j ⟨ph, hp⟩
    choose y hy hs using fun i => H.newPhi hp (iPrev j) (iNow j) i
    exact ⟨⟨y, fun i => by rw [h]; exact hs i⟩, hy⟩
  choose next hnext using step
  let seq : ∀ j, {ph : Fin n → Obj // ∀ i, (ph i).Shows L (phi j k i)} := fun j =>
    Nat.rec ⟨fun _ => .num 0, fun i => Or.inr (Or.inl ⟨rfl, h0 i⟩)⟩ (fun j x => next j x) j
  exact ⟨fun j => (seq j).1, rfl, fun j i => hnext j (seq j) i, fun j i => H.term hL (seq j).2 i⟩

/-! ## Cells with the connectors of given models -/

/-- The memory of one pole of a model: `phi' = q1 i_now + q2 i_prev + q3 phi`. -/
noncomputable def memoryOf (M : RationalModel) (du dt : ℝ) (iPrev iNow : ℕ → ℝ) (s : ℕ) : ℕ → ℂ
  | 0 => 0
  | j + 1 => -coefA (M.pole s) (M.residue du s) dt * iNow j + coefB (M.pole s) (M.residue du s) dt * iPrev j
      + coefE (M.pole s) dt * memoryOf M du dt iPrev iNow s j

/-- The history term of the connector of conductor `i`: each pole of its model decays for one time step. -/
noncomputable def historyOf (f : Fin n → Option RationalModel) (du dt : ℝ) (iPrev iNow : ℕ → Fin n → ℝ) (j : ℕ) (i : Fin n) : ℝ :=
  (f i).elim 0 fun M => (∑ s ∈ Finset.range M.polesReal.length,
    coefE (M.pole s) dt * memoryOf M du dt (fun j => iPrev j i) (fun j => iNow j i) s j).re

/-- The coefficients of one cell with these models as vectors of `L` poles. -/
noncomputable def cellDisp (L : ℕ) (f : Fin n → Option RationalModel) (du dt : ℝ) : Disp n L where
  dt := dt
  q1 := fun _ i j => if i = j then (f i).map fun M s => -coefA (M.pole s) (M.residue du s) dt else none
  q2 := fun _ i j => if i = j then (f i).map fun M s => coefB (M.pole s) (M.residue du s) dt else none
  q3 := fun _ i j => if i = j then (f i).map fun M s => coefE (M.pole s) dt else none
  d := fun _ => 0
  e := fun _ => 0
  q1sum := fun _ => 0
  q2sum := fun _ => 0

theorem shows_entries {L : ℕ} {f : Fin n → Option RationalModel} (hf : ∀ i, ∀ M ∈ f i, M.polesReal.length = L)
    {coef coef' : RationalModel → ℕ → ℂ} (hc : ∀ M s, coef M s = coef' M s) (i j : Fin n) :
    (Obj.entries coef f i j).Shows L
      (QEntry.val (if i = j then (f i).map fun M (s : Fin L) => coef' M s else none)) := by
  unfold Obj.entries
  split
  · cases h : f i with
    | none => exact Or.inr (Or.inl ⟨rfl, rfl⟩)
    | some M =>
      refine Or.inl ⟨_, rfl, by simp [hf i M h], ?_⟩
      funext s
      have hs : (s : ℕ) < M.polesReal.length := by rw [hf i M h]; exact s.2
      simp [padded, QEntry.val, hc, hs]
  · exact Or.inr (Or.inl ⟨rfl, rfl⟩)

/-- **C165**, what remains true: if all connectors of a cell have models with the same number of poles, then in any number of steps
with any currents the arithmetic of numpy raises no exception, and the history term of each conductor is that of its own model. -/
theorem C165_same_order_partial {L : ℕ} {f : Fin n → Option RationalModel} (hf : ∀ i, ∀ M ∈ f i, M.polesReal.length = L)
    (du dt : ℝ) (iPrev iNow : ℕ → Fin n → ℝ) :
    ∃ ph : ℕ → Fin n → Obj, ph 0 = (fun _ => .num 0) ∧
      (∀ j i, Obj.newPhi (q1Of f du dt) (q2Of f du dt) (q3Of f dt) (ph j) (iPrev j) (iNow j) i = .ok (ph (j + 1) i)) ∧
      ∀ j i, Obj.term (q3Of f dt) (ph j) i = .ok (historyOf f du dt iPrev iNow j i) := by
  have H : Obj.Holds L (cellDisp L f du dt) 0 (q1Of f du dt) (q2Of f du dt) (q3Of f dt) :=
    ⟨fun i j => shows_entries hf (coef' := fun M s => -coefA (M.pole s) (M.residue du s) dt) (fun M s => by ring) i j,
      fun i j => shows_entries hf (coef' := fun M s => coefB (M.pole s) (M.residue du s) dt) (fun M s => by ring) i j,
      fun i j => shows_entries hf (coef' := fun M s => coefE (M.pole s) dt) (fun M s => by ring) i j⟩
  obtain ⟨phi, hphi⟩ : ∃ phi : ℕ → Memory n L, phi = fun j => Nat.rec (fun _ _ => 0)
    (fun j x => (cellDisp L f du dt).updatePhi x (fun _ => iPrev j) (fun _ => iNow j)) j := ⟨_, rfl⟩
  have hstep : ∀ j, phi (j + 1) = (cellDisp L f du dt).updatePhi (phi j) (fun _ => iPrev j) (fun _ => iNow j) := by
    subst hphi; exact fun j => rfl
  have h0 : ∀ i, phi 0 0 i = 0 := by subst hphi; exact fun i => rfl
  obtain ⟨ph, e0, e1, e2⟩ := C165_agrees_partial le_rfl H phi (fun j _ => iPrev j) (fun j _ => iNow j) h0 hstep
  refine ⟨ph, e0, e1, fun j i => (e2 j i).trans ?_⟩
  congr 1
  have hmem : ∀ j i, ∀ M ∈ f i, ∀ s : Fin L, phi j 0 i s = memoryOf M du dt (fun j => iPrev j i) (fun j => iNow j i) s j := by
    intro j
    induction j with
    | zero => intro i M _ s; rw [h0]; rfl
    | succ j ih =>
      intro i M hM s
      have hM' : f i = some M := hM
      rw [hstep, memoryOf, ← ih i M hM s]
      unfold Disp.updatePhi
      congr 1
      · congr 1
        all_goals
          rw [Finset.sum_eq_single i (fun b _ hb => by simp [cellDisp, Ne.symm hb, QEntry.val]) (by simp)]
          simp [cellDisp, hM', QEntry.val]
      · rw [Finset.sum_eq_single i (fun b _ hb => by simp [cellDisp, Ne.symm hb, QEntry.val]) (by simp)]
        simp [cellDisp, hM', QEntry.val]
  unfold Disp.q3phi historyOf poleSum
  cases hM : f i with
  | none =>
    rw [Option.elim_none, Finset.sum_eq_zero]
    · rfl
    · intro s _
      refine Finset.sum_eq_zero fun b _ => ?_
      by_cases hb : i = b
      · simp [cellDisp, ← hb, hM, QEntry.val]
      · simp [cellDisp, hb, QEntry.val]
  | some M =>
    rw [Option.elim_some, hf i M hM, Finset.sum_range]
    congr 1
    refine Finset.sum_congr rfl fun s _ => ?_
    show ∑ b, ((cellDisp L f du dt).q3 0 i b).val s * phi j 0 b s = _
    rw [Finset.sum_eq_single i (fun b _ hb => by simp [cellDisp, Ne.symm hb, QEntry.val]) (by simp), hmem j i M hM s]
    simp [cellDisp, hM, QEntry.val]

theorem equipped_holds {D : Disp n p} {u : ℕ → V3} {f : ℕ → Fin n → Option RationalModel} (hD : D.Equipped u f) (k : ℕ) :
    Obj.Holds p D k (q1Of (f k) (cellLength u k) D.dt) (q2Of (f k) (cellLength u k) D.dt) (q3Of (f k) D.dt) := by
  have hf : ∀ i, ∀ M ∈ f k i, M.polesReal.length = p := fun i M hM => hD.poles k i M hM
  constructor
  · intro i j
    have h := shows_entries hf (coef := fun M s => 0 - coefA (M.pole s) (M.residue (cellLength u k) s) D.dt)
      (coef' := fun M s => -coefA (M.pole s) (M.residue (cellLength u k) s) D.dt) (fun M s => by ring) i j
    have e : D.q1 k i j = if i = j then (f k i).map fun M (s : Fin p) => -coefA (M.pole s) (M.residue (cellLength u k) s) D.dt else none := by
      by_cases hij : i = j
      · subst hij
        cases hM : f k i with
        | none => simp [(hD.bare k i hM).1]
        | some M => simp [hD.q1 k i M hM]
      · simp [hij, (hD.off k i j hij).1]
    rw [e]
    exact h
  · intro i j
    have h := shows_entries hf (coef := fun M s => 0 + coefB (M.pole s) (M.residue (cellLength u k) s) D.dt)
      (coef' := fun M s => coefB (M.pole s) (M.residue (cellLength u k) s) D.dt) (fun M s => by ring) i j
    have e : D.q2 k i j = if i = j then (f k i).map fun M (s : Fin p) => coefB (M.pole s) (M.residue (cellLength u k) s) D.dt else none := by
      by_cases hij : i = j
      · subst hij
        cases hM : f k i with
        | none => simp [(hD.bare k i hM).2.1]
        | some M => simp [hD.q2 k i M hM]
      · simp [hij, (hD.off k i j hij).2.1]
    rw [e]
    exact h
  · intro i j
    have h := shows_entries hf (coef := fun M s => 0 + coefE (M.pole s) D.dt)
      (coef' := fun M s => coefE (M.pole s) D.dt) (fun M s => by ring) i j
    have e : D.q3 k i j = if i = j then (f k i).map fun M (s : Fin p) => coefE (M.pole s) D.dt else none := by
      by_cases hij : i = j
      · subst hij
        cases hM : f k i with
        | none => simp [(hD.bare k i hM).2.2.1]
        | some M => simp [hD.q3 k i M hM]
      · simp [hij, (hD.off k i j hij).2.2.1]
    rw [e]
    exact h

/-- **C165**, in a run of a line: on every cell of a line to which connectors of one order were added, all along a run that starts with
empty memories, the objects of numpy give the history terms that the voltages and currents of the model are computed from. -/
theorem C165_run_partial {s₀ s s' : MTL n p} {items : List (V3 × Fin n × RationalModel)} {dt T : ℝ} {N : ℕ} {tr : ℕ → MTL n p}
    (h0 : s₀.conn = Disp.new dt) (hadd : s₀.addConnectors items = .ok s) (R : RunTrace s T s' N tr) (hphi : s.phi = fun _ _ => 0)
    (k : ℕ) :
    ∃ ph : ℕ → Fin n → Obj, ph 0 = (fun _ => .num 0) ∧ ∀ j < N, ∀ i,
      Obj.newPhi (q1Of (placed s.u s.m items k) (cellLength s.u k) dt) (q2Of (placed s.u s.m items k) (cellLength s.u k) dt)
        (q3Of (placed s.u s.m items k) dt) (ph j) ((tr (j + 1)).i k) ((tr (j + 1)).i k) i = .ok (ph (j + 1) i) ∧
      Obj.term (q3Of (placed s.u s.m items k) dt) (ph j) i = .ok (s.conn.q3phi (tr j).phi k i) := by
  obtain ⟨⟨D, hD, hDdt⟩, hE⟩ := addConnectors_equipped items rfl rfl (h0 ▸ equipped_new dt s₀.u) hadd
  have hdt : s.conn.dt = dt := by rw [hD]; rw [h0] at hDdt; exact hDdt
  have hu : s₀.u = s.u := by rw [hD]
  have hm : s₀.m = s.m := by rw [hD]
  rw [hu, hm] at hE
  have H := equipped_holds hE k
  rw [hdt] at H
  obtain ⟨phi, hphi'⟩ : ∃ phi : ℕ → Memory n p, phi = fun j => Nat.rec s.phi
    (fun j x => s.conn.updatePhi x (tr (j + 1)).i (tr (j + 1)).i) j := ⟨_, rfl⟩
  have hstep : ∀ j, phi (j + 1) = s.conn.updatePhi (phi j) (tr (j + 1)).i (tr (j + 1)).i := by
    subst hphi'; exact fun j => rfl
  have hz : phi 0 = s.phi := by subst hphi'; rfl
  have heq : ∀ j ≤ N, phi j = (tr j).phi := by
    intro j
    induction j with
    | zero =>
      intro _
      obtain ⟨lr, cg, -, -, e0⟩ := R.start
      rw [hz, e0]
    | succ j ih =>
      intro hj
      obtain ⟨lr, cg, -, -, hst⟩ := R.state
      obtain ⟨hc, hf, -⟩ := hst j (by omega)
      obtain ⟨-, hi, hp⟩ := hf.step_fields (R.step j (by omega))
      rw [hstep, ih (by omega), hp, advanceFields_phi, ← hi, hc.conn]
  obtain ⟨ph, e0, e1, e2⟩ := C165_agrees_partial le_rfl H phi (fun j => (tr (j + 1)).i) (fun j => (tr (j + 1)).i)
    (fun i => by rw [hz, hphi]) hstep
  refine ⟨ph, e0, fun j hj i => ⟨e1 j i, ?_⟩⟩
  rw [← heq j hj.le]
  exact e2 j i

example : ∀ i : Fin 2, ∀ M ∈ (![some demoPole, some demoPole] : Fin 2 → Option RationalModel) i, M.polesReal.length = 1 := by
  intro i M hM
  fin_cases i <;> (obtain rfl : demoPole = M := by simpa using hM) <;> rfl

/-! ## Models of different orders in one cell -/

/-- The memory after the first step of two connectors in one cell: arrays with one number per pole of each. -/
theorem first_phi (f : Fin 2 → Option RationalModel) {M₀ M₁ : RationalModel} (h0 : f 0 = some M₀) (h1 : f 1 = some M₁)
    (du dt : ℝ) (iPrev iNow : Fin 2 → ℝ) :
    Obj.newPhi (q1Of f du dt) (q2Of f du dt) (q3Of f dt) (fun _ => .num 0) iPrev iNow 0
        = .ok (.arr ((List.range M₀.polesReal.length).map fun s =>
            memoryOf M₀ du dt (fun _ => iPrev 0) (fun _ => iNow 0) s 1)) ∧
      Obj.newPhi (q1Of f du dt) (q2Of f du dt) (q3Of f dt) (fun _ => .num 0) iPrev iNow 1
        = .ok (.arr ((List.range M₁.polesReal.length).map fun s =>
            memoryOf M₁ du dt (fun _ => iPrev 1) (fun _ => iNow 1) s 1)) := by
  constructor
  · simp [Obj.newPhi, Obj.rowDot, List.finRange_succ, Obj.dot, accumulate, q1Of, q2Of, q3Of, entries, h0, ofModel, Obj.mul, op, bind,
      Except.bind, Obj.add, pure, Except.pure, memoryOf, List.zipWith_map, List.zipWith_self]
  · simp [Obj.newPhi, Obj.rowDot, List.finRange_succ, Obj.dot, accumulate, q1Of, q2Of, q3Of, entries, h1, ofModel, Obj.mul, op, bind,
      Except.bind, Obj.add, pure, Except.pure, memoryOf, List.zipWith_map, List.zipWith_self]

/-- **C165 fails**: connectors on two conductors of one cell, with different numbers of poles that are not one, cannot be run: the
second step raises `ValueError` (whatever the currents and the coefficients). -/
theorem C165_fails_raises (f : Fin 2 → Option RationalModel) {M₀ M₁ : RationalModel} (h0 : f 0 = some M₀) (h1 : f 1 = some M₁)
    (hne : M₀.polesReal.length ≠ M₁.polesReal.length) (h0' : M₀.polesReal.length ≠ 1) (h1' : M₁.polesReal.length ≠ 1)
    (du dt : ℝ) (iPrev iNow : Fin 2 → ℝ) :
    ∃ ph : Fin 2 → Obj,
      (∀ i, Obj.newPhi (q1Of f du dt) (q2Of f du dt) (q3Of f dt) (fun _ => .num 0) iPrev iNow i = .ok (ph i)) ∧
      Obj.term (q3Of f dt) ph 0 = .error .ValueError := by
  obtain ⟨e0, e1⟩ := first_phi f h0 h1 du dt iPrev iNow
  refine ⟨fun i => .arr ((List.range (if i = 0 then M₀ else M₁).polesReal.length).map fun s =>
    memoryOf (if i = 0 then M₀ else M₁) du dt (fun _ => iPrev i) (fun _ => iNow i) s 1), ?_, ?_⟩
  · intro i
    fin_cases i
    · exact e0
    · exact e1
  · simp [Obj.term, Obj.rowDot, List.finRange_succ, Obj.dot, accumulate, q3Of, entries, h0, ofModel, Obj.mul, op, bind, Except.bind,
      Obj.add, hne, h0', h1']

/-- **C165 fails**: a connector with one pole that shares the cell with a connector of `L` poles on another conductor: in the
second step its history is counted `L` times, and lost if the other one has no poles (a resistance or an inductance). -/
theorem C165_fails_repeated (f : Fin 2 → Option RationalModel) {M₀ M₁ : RationalModel} (h0 : f 0 = some M₀) (h1 : f 1 = some M₁)
    (h0' : M₀.polesReal.length = 1) (du dt : ℝ) (iPrev iNow : Fin 2 → ℝ) :
    ∃ ph : Fin 2 → Obj,
      (∀ i, Obj.newPhi (q1Of f du dt) (q2Of f du dt) (q3Of f dt) (fun _ => .num 0) iPrev iNow i = .ok (ph i)) ∧
      Obj.term (q3Of f dt) ph 0
        = .ok (M₁.polesReal.length * historyOf f du dt (fun _ => iPrev) (fun _ => iNow) 1 0) := by
  obtain ⟨e0, e1⟩ := first_phi f h0 h1 du dt iPrev iNow
  refine ⟨fun i => .arr ((List.range (if i = 0 then M₀ else M₁).polesReal.length).map fun s =>
    memoryOf (if i = 0 then M₀ else M₁) du dt (fun _ => iPrev i) (fun _ => iNow i) s 1), ?_, ?_⟩
  · intro i
    fin_cases i
    · exact e0
    · exact e1
  · by_cases hL : 1 = M₁.polesReal.length
    · simp [Obj.term, Obj.rowDot, List.finRange_succ, Obj.dot, accumulate, q3Of, entries, h0, ofModel, Obj.mul, op, bind, Except.bind,
        Obj.add, h0', ← hL, Obj.total, historyOf, pure, Except.pure]
    · simp [Obj.term, Obj.rowDot, List.finRange_succ, Obj.dot, accumulate, q3Of, entries, h0, ofModel, Obj.mul, op, bind, Except.bind,
        Obj.add, h0', hL, Obj.total, historyOf, pure, Except.pure, Function.comp_def]

/-- **C165 fails**: the same for a connector with one pole on the second conductor. -/
theorem C165_fails_repeated_second (f : Fin 2 → Option RationalModel) {M₀ M₁ : RationalModel} (h0 : f 0 = some M₀)
    (h1 : f 1 = some M₁) (h1' : M₁.polesReal.length = 1) (du dt : ℝ) (iPrev iNow : Fin 2 → ℝ) :
    ∃ ph : Fin 2 → Obj,
      (∀ i, Obj.newPhi (q1Of f du dt) (q2Of f du dt) (q3Of f dt) (fun _ => .num 0) iPrev iNow i = .ok (ph i)) ∧
      Obj.term (q3Of f dt) ph 1
        = .ok (M₀.polesReal.length * historyOf f du dt (fun _ => iPrev) (fun _ => iNow) 1 1) := by
  obtain ⟨e0, e1⟩ := first_phi f h0 h1 du dt iPrev iNow
  refine ⟨fun i => .arr ((List.range (if i = 0 then M₀ else M₁).polesReal.length).map fun s =>
    memoryOf (if i = 0 then M₀ else M₁) du dt (fun _ => iPrev i) (fun _ => iNow i) s 1), ?_, ?_⟩
  · intro i
    fin_cases i
    · exact e0
    · exact e1
  · by_cases hL : M₀.polesReal.length = 1
    · simp [Obj.term, Obj.rowDot, List.finRange_succ, Obj.dot, accumulate, q3Of, entries, h1, ofModel, Obj.mul, op, bind, Except.bind,
        Obj.add, h1', hL, Obj.total, historyOf, pure, Except.pure]
    · simp [Obj.term, Obj.rowDot, List.finRange_succ, Obj.dot, accumulate, q3Of, entries, h1, ofModel, Obj.mul, op, bind, Except.bind,
        Obj.add, h1', hL, Obj.total, historyOf, pure, Except.pure, Function.comp_def]

/-- A resistance of one ohm. -/
def demoOhm : RationalModel := ⟨1, 0, [], [], [], []⟩

/-- The history of the pole after a step with unit currents. -/
theorem demoPole_history : historyOf (n := 2) ![some demoPole, some demoOhm] 1 1 (fun _ _ => 1) (fun _ _ => 1) 1 0
    = Real.exp (-1) * (1 - Real.exp (-1)) := by
  have h : Complex.exp (-1) = ((Real.exp (-1) : ℝ) : ℂ) := by push_cast; rfl
  have hp : demoPole.pole 0 = -1 := by simp [demoPole, RationalModel.pole]
  have hr : demoPole.residue 1 0 = 1 := by simp [demoPole, RationalModel.residue]
  have e : (∑ s ∈ Finset.range demoPole.polesReal.length,
      coefE (demoPole.pole s) 1 * memoryOf demoPole 1 1 (fun _ => 1) (fun _ => 1) s 1)
      = ((Real.exp (-1) * (1 - Real.exp (-1)) : ℝ) : ℂ) := by
    rw [show demoPole.polesReal.length = 1 from rfl, Finset.sum_range_one, hp, memoryOf, memoryOf, hp, hr]
    unfold coefA coefB coefE
    simp only [Complex.ofReal_one, mul_one, h]
    push_cast
    ring
  exact (congrArg Complex.re e).trans (Complex.ofReal_re _)

/-- **C165 is refuted**: a pole on one conductor and a resistance on the other one, in the same cell: after a step with unit currents
the history of the pole is not zero, but the code takes it as zero. -/
theorem C165_refuted : ∃ ph : Fin 2 → Obj,
    (∀ i, Obj.newPhi (q1Of ![some demoPole, some demoOhm] 1 1) (q2Of ![some demoPole, some demoOhm] 1 1)
      (q3Of ![some demoPole, some demoOhm] 1) (fun _ => .num 0) (fun _ => 1) (fun _ => 1) i = .ok (ph i)) ∧
    Obj.term (q3Of ![some demoPole, some demoOhm] 1) ph 0 = .ok 0 ∧
    historyOf ![some demoPole, some demoOhm] 1 1 (fun _ _ => 1) (fun _ _ => 1) 1 0 ≠ 0 := by
  obtain ⟨ph, h1, h2⟩ := C165_fails_repeated ![some demoPole, some demoOhm] (M₀ := demoPole) (M₁ := demoOhm) rfl rfl rfl 1 1
    (fun _ => 1) (fun _ => 1)
  refine ⟨ph, h1, by rw [h2]; simp [demoOhm], ?_⟩
  rw [demoPole_history]
  have h : Real.exp (-1) < 1 := by rw [← Real.exp_zero]; exact Real.exp_lt_exp.2 (by norm_num)
  exact (mul_pos (Real.exp_pos (-1)) (by linarith)).ne'

end Mtln
