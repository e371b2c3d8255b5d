import Verif.Props.Dispersive
import Verif.Props.Bundle

/-! # Transfer impedances: C37, C38, C39, C40 -/

namespace Mtln

open Matrix

variable {n p : ℕ}

/-! ## What a successful call does -/

/-- The change a list of (row, column) pairs makes to the entries of all cells: every occurrence of a pair adds one
term; everything else is kept. -/
structure TransferChange (D D' : Disp n p) (pairs : List (ℕ × ℕ)) (d e : ℝ) (A B E : ℕ → ℂ) : Prop where
  dt : D'.dt = D.dt
  d : ∀ k x y, D'.d k x y = D.d k x y - pairs.count ((x : ℕ), (y : ℕ)) * d
  e : ∀ k x y, D'.e k x y = D.e k x y - pairs.count ((x : ℕ), (y : ℕ)) * e
  q1 : ∀ k x y s, (D'.q1 k x y).val s = (D.q1 k x y).val s + pairs.count ((x : ℕ), (y : ℕ)) * A k
  q2 : ∀ k x y s, (D'.q2 k x y).val s = (D.q2 k x y).val s - pairs.count ((x : ℕ), (y : ℕ)) * B k
  q3 : ∀ k x y s, (D'.q3 k x y).val s = (D.q3 k x y).val s - pairs.count ((x : ℕ), (y : ℕ)) * E k

theorem TransferChange.refl (D : Disp n p) (d e : ℝ) (A B E : ℕ → ℂ) : TransferChange D D [] d e A B E :=
  ⟨rfl, by simp, by simp, by simp, by simp, by simp⟩

/-- The coefficient of the pole of cell `k`, nothing if there are no poles. -/
noncomputable def cellCoef (nPoles : ℕ) (f : ℂ → ℂ → ℝ → ℂ) (pole res : ℕ → ℂ) (dt : ℝ) (k : ℕ) : ℂ :=
  if nPoles = 0 then 0 else f (pole (poleInCell nPoles k)) (res (poleInCell nPoles k)) dt

theorem addTransferPair_ok {D D' : Disp n p} {nx row col : ℕ} {d e : ℝ} {nPoles : ℕ} {pole res : ℕ → ℂ}
    (h : D.addTransferPair nx row col d e nPoles pole res = .ok D') :
    (row < n ∧ col < n) ∧ (nPoles = 0 ∨ ((nPoles = 1 ∨ nPoles = nx) ∧ p = 1)) ∧
    TransferChange D D' [(row, col)] d e (cellCoef nPoles coefA pole res D.dt)
      (cellCoef nPoles coefB pole res D.dt) (cellCoef nPoles (fun p _ dt => coefE p dt) pole res D.dt) := by
  unfold Disp.addTransferPair at h
  split at h
  case isFalse => exact absurd h (by simp)
  rename_i hrc
  have hmem : ∀ x y : Fin n, ([(row, col)].count ((x : ℕ), (y : ℕ)) : ℕ) =
      if x = ⟨row, hrc.1⟩ ∧ y = ⟨col, hrc.2⟩ then 1 else 0 := by
    intro x y
    rw [List.count_singleton]
    simp only [Fin.ext_iff, beq_iff_eq, Prod.mk.injEq]
    split_ifs with h1 h2 h2 <;> first | rfl | omega
  simp only at h
  refine ⟨hrc, ?_⟩
  split at h
  · rename_i hn
    injection h with h
    subst h
    refine ⟨Or.inl hn, rfl, ?_, ?_, ?_, ?_, ?_⟩
    · intro k x y
      rw [hmem]; simp only [Matrix.of_apply]; split_ifs <;> simp
    · intro k x y
      rw [hmem]; simp only [Matrix.of_apply]; split_ifs <;> simp
    · intro k x y s; simp [cellCoef, hn]
    · intro k x y s; simp [cellCoef, hn]
    · intro k x y s; simp [cellCoef, hn]
  · split at h
    · exact absurd h (by simp)
    · split at h
      · exact absurd h (by simp)
      · rename_i hn h1 h2
        injection h with h
        subst h
        refine ⟨Or.inr ⟨by tauto, by tauto⟩, rfl, ?_, ?_, ?_, ?_, ?_⟩
        · intro k x y
          rw [hmem]; simp only [Matrix.of_apply]; split_ifs <;> simp
        · intro k x y
          rw [hmem]; simp only [Matrix.of_apply]; split_ifs <;> simp
        · intro k x y s; rw [hmem]; simp only [cellCoef, if_neg hn]; split_ifs <;> simp [QEntry.val]
        · intro k x y s; rw [hmem]; simp only [cellCoef, if_neg hn]; split_ifs <;> simp [QEntry.val]
        · intro k x y s; rw [hmem]; simp only [cellCoef, if_neg hn]; split_ifs <;> simp [QEntry.val]

theorem TransferChange.trans {D D' D'' : Disp n p} {l l' : List (ℕ × ℕ)} {d e : ℝ} {A B E : ℕ → ℂ}
    (h : TransferChange D D' l d e A B E) (h' : TransferChange D' D'' l' d e A B E) :
    TransferChange D D'' (l ++ l') d e A B E := by
  refine ⟨h'.dt.trans h.dt, ?_, ?_, ?_, ?_, ?_⟩
  · intro k x y; rw [h'.d, h.d, List.count_append]; push_cast; ring
  · intro k x y; rw [h'.e, h.e, List.count_append]; push_cast; ring
  · intro k x y s; rw [h'.q1, h.q1, List.count_append]; push_cast; ring
  · intro k x y s; rw [h'.q2, h.q2, List.count_append]; push_cast; ring
  · intro k x y s; rw [h'.q3, h.q3, List.count_append]; push_cast; ring

/-- The (row, column) pairs a direction touches. -/
def touched (direction : String) (i j : ℕ) : List (ℕ × ℕ) :=
  if direction = "in" then [(j, i)] else if direction = "out" then [(i, j)] else []

theorem transferBody_ok {D D' : Disp n p} {nx i j : ℕ} {d e : ℝ} {nPoles : ℕ} {pole res : ℕ → ℂ} {dir : String}
    (h : D.transferBody nx i j d e nPoles pole res dir = .ok D') :
    TransferChange D D' (touched dir i j) d e (cellCoef nPoles coefA pole res D.dt)
      (cellCoef nPoles coefB pole res D.dt) (cellCoef nPoles (fun p _ dt => coefE p dt) pole res D.dt) := by
  unfold Disp.transferBody at h
  unfold touched
  split_ifs at h ⊢
  · exact (addTransferPair_ok h).2.2
  · exact (addTransferPair_ok h).2.2
  · injection h with h
    subst h
    exact TransferChange.refl _ _ _ _ _ _

theorem forPairs_ok {nx : ℕ} {d e : ℝ} {nPoles : ℕ} {pole res : ℕ → ℂ} {dir : String} :
    ∀ (l : List (ℕ × ℕ)) {D D' : Disp n p},
    l.foldlM (fun D ij => Disp.transferBody D nx ij.1 ij.2 d e nPoles pole res dir) D = .ok D' →
    TransferChange D D' (l.flatMap fun ij => touched dir ij.1 ij.2) d e (cellCoef nPoles coefA pole res D.dt)
      (cellCoef nPoles coefB pole res D.dt) (cellCoef nPoles (fun p _ dt => coefE p dt) pole res D.dt)
  | [], D, D', h => by
    simp only [List.foldlM_nil, pure, Except.pure, Except.ok.injEq] at h
    subst h
    exact TransferChange.refl _ _ _ _ _ _
  | ij :: l, D, D', h => by
    rw [List.foldlM_cons] at h
    obtain ⟨D1, h1, h2⟩ := bind_ok_iff.1 h
    have t1 := transferBody_ok h1
    have t2 := forPairs_ok l h2
    rw [t1.dt] at t2
    rw [List.flatMap_cons]
    exact t1.trans t2

/-- The list of pairs of rows of the two levels. -/
def allPairs (out inn : List ℕ) : List (ℕ × ℕ) := out.flatMap fun i => inn.map fun j => (i, j)

theorem count_allPairs (out inn : List ℕ) (i j : ℕ) : (allPairs out inn).count (i, j) = out.count i * inn.count j := by
  unfold allPairs
  induction out with
  | nil => simp
  | cons a out ih =>
    rw [List.flatMap_cons, List.count_append, ih, List.count_cons]
    have : (inn.map fun j => (a, j)).count (i, j) = if a = i then inn.count j else 0 := by
      by_cases h : a = i
      · subst h
        rw [if_pos rfl]
        exact List.count_map_of_injective inn (fun j => (a, j)) (fun x y hxy => (Prod.mk.inj hxy).2) j
      · rw [if_neg h, List.count_eq_zero]
        intro hm
        obtain ⟨_, _, h'⟩ := List.mem_map.1 hm
        exact h (Prod.mk.inj h').1
    rw [this]
    by_cases h : a = i
    · simp [h]; ring
    · simp [h]

theorem count_touched_in (l : List (ℕ × ℕ)) (x y : ℕ) :
    (l.flatMap fun ij => touched "in" ij.1 ij.2).count (x, y) = l.count (y, x) := by
  induction l with
  | nil => rfl
  | cons a l ih =>
    rw [List.flatMap_cons, List.count_append, ih, List.count_cons]
    simp only [touched, if_true, List.count_singleton, beq_iff_eq, Prod.mk.injEq, Prod.ext_iff]
    rw [add_comm]
    congr 1
    simp only [and_comm]

theorem count_touched_out (l : List (ℕ × ℕ)) (x y : ℕ) :
    (l.flatMap fun ij => touched "out" ij.1 ij.2).count (x, y) = l.count (x, y) := by
  have : (fun ij : ℕ × ℕ => touched "out" ij.1 ij.2) = fun ij => [ij] := by
    funext ij; simp [touched]
  rw [this]
  simp

theorem touched_other {dir : String} (h1 : dir ≠ "in") (h2 : dir ≠ "out") (l : List (ℕ × ℕ)) :
    (l.flatMap fun ij => touched dir ij.1 ij.2) = [] := by
  simp [touched, h1, h2]

/-- What a successful `add_transfer_impedance` means. -/
theorem addTransferImpedance_ok {D D' : Disp n p} {nx : ℕ} {levels : List ℕ} {ol il : ℕ} {oc ic : List ℕ}
    {Z : TransferModel} (h : D.addTransferImpedance nx levels ol oc il ic Z = .ok D') :
    adjacentLevels ol il ∧ Z.factor.getD 1 ≠ 0 ∧ Z.LengthsOk ∧
    (((Z.cte / Z.factor.getD 1 = 0 ∧ Z.prop / Z.factor.getD 1 = 0 ∧ Z.polesReal.length = 0) ∧ D' = D) ∨
      (¬ (Z.cte / Z.factor.getD 1 = 0 ∧ Z.prop / Z.factor.getD 1 = 0 ∧ Z.polesReal.length = 0) ∧
        D.dt ≠ 0 ∧ (∀ s < Z.polesReal.length, Z.pole s ≠ 0) ∧
        ∃ D1, (allPairs (oc.map (conductorsBefore levels ol + ·)) (ic.map (conductorsBefore levels il + ·))).foldlM
          (fun D ij => Disp.transferBody D nx ij.1 ij.2 (Z.cte / Z.factor.getD 1) (Z.prop / Z.factor.getD 1)
            Z.polesReal.length Z.pole (Z.residue (Z.factor.getD 1)) Z.direction) D = .ok D1 ∧
          D' = { D1 with q1sum := vSum D1.q1, q2sum := vSum D1.q2 })) := by
  unfold Disp.addTransferImpedance at h
  simp only [bind_ok_iff, pyAssert_ok_iff, raiseIf_ok_iff, checkLengths_ok_iff] at h
  obtain ⟨_, h1, _, h2, _, h3, h⟩ := h
  refine ⟨h1, h2, h3, ?_⟩
  split at h
  · rename_i hz
    injection h with h
    exact Or.inl ⟨hz, h.symm⟩
  · rename_i hz
    simp only [bind_ok_iff, raiseIf_ok_iff, not_or, not_exists, not_and] at h
    obtain ⟨_, ⟨h4, h5⟩, D1, h6, h7⟩ := h
    injection h7 with h7
    exact Or.inr ⟨hz, h4, h5, D1, h6, h7.symm⟩

/-! ## C37 -/

/-- **C37 (`in`)** With direction `"in"` the inner rows feel the outer currents and nothing else changes: row `x` and
column `y` of the resistive and inductive coupling of every cell change by the given values for every pair of an inner
conductor `x` and an outer conductor `y` (once per occurrence in the lists), with a minus sign, and no other entry
changes.  The same holds for the pole coefficients. -/
theorem C37_in_partial {D D' : Disp n p} {nx : ℕ} {levels : List ℕ} {ol il : ℕ} {oc ic : List ℕ} {Z : TransferModel}
    (hdir : Z.direction = "in") (h : D.addTransferImpedance nx levels ol oc il ic Z = .ok D') (k : ℕ) (x y : Fin n) :
    let f := Z.factor.getD 1
    let c : ℕ := (oc.map (conductorsBefore levels ol + ·)).count (y : ℕ) *
      (ic.map (conductorsBefore levels il + ·)).count (x : ℕ)
    D'.d k x y = D.d k x y - c * (Z.cte / f) ∧ D'.e k x y = D.e k x y - c * (Z.prop / f) ∧
    (c = 0 → (D'.q1 k x y).val = (D.q1 k x y).val ∧ (D'.q2 k x y).val = (D.q2 k x y).val ∧
      (D'.q3 k x y).val = (D.q3 k x y).val) := by
  intro f c
  obtain ⟨-, -, -, ⟨⟨h1, h2, h3⟩, rfl⟩ | ⟨-, -, -, D1, h4, rfl⟩⟩ := addTransferImpedance_ok h
  · exact ⟨by rw [h1]; ring, by rw [h2]; ring, fun _ => ⟨rfl, rfl, rfl⟩⟩
  · have t := forPairs_ok _ h4
    rw [hdir] at t
    have hc : ((allPairs (oc.map (conductorsBefore levels ol + ·))
        (ic.map (conductorsBefore levels il + ·))).flatMap fun ij => touched "in" ij.1 ij.2).count
          ((x : ℕ), (y : ℕ)) = c := by
      rw [count_touched_in, count_allPairs]
    refine ⟨?_, ?_, fun h0 => ⟨?_, ?_, ?_⟩⟩
    · have := t.d k x y; rw [hc] at this; exact this
    · have := t.e k x y; rw [hc] at this; exact this
    · funext s; have := t.q1 k x y s; rw [hc, h0] at this; simpa using this
    · funext s; have := t.q2 k x y s; rw [hc, h0] at this; simpa using this
    · funext s; have := t.q3 k x y s; rw [hc, h0] at this; simpa using this

/-- **C37 (`out`)** With direction `"out"` the outer rows feel the inner currents and nothing else changes. -/
theorem C37_out_partial {D D' : Disp n p} {nx : ℕ} {levels : List ℕ} {ol il : ℕ} {oc ic : List ℕ} {Z : TransferModel}
    (hdir : Z.direction = "out") (h : D.addTransferImpedance nx levels ol oc il ic Z = .ok D') (k : ℕ) (x y : Fin n) :
    let f := Z.factor.getD 1
    let c : ℕ := (oc.map (conductorsBefore levels ol + ·)).count (x : ℕ) *
      (ic.map (conductorsBefore levels il + ·)).count (y : ℕ)
    D'.d k x y = D.d k x y - c * (Z.cte / f) ∧ D'.e k x y = D.e k x y - c * (Z.prop / f) ∧
    (c = 0 → (D'.q1 k x y).val = (D.q1 k x y).val ∧ (D'.q2 k x y).val = (D.q2 k x y).val ∧
      (D'.q3 k x y).val = (D.q3 k x y).val) := by
  intro f c
  obtain ⟨-, -, -, ⟨⟨h1, h2, h3⟩, rfl⟩ | ⟨-, -, -, D1, h4, rfl⟩⟩ := addTransferImpedance_ok h
  · exact ⟨by rw [h1]; ring, by rw [h2]; ring, fun _ => ⟨rfl, rfl, rfl⟩⟩
  · have t := forPairs_ok _ h4
    rw [hdir] at t
    have hc : ((allPairs (oc.map (conductorsBefore levels ol + ·))
        (ic.map (conductorsBefore levels il + ·))).flatMap fun ij => touched "out" ij.1 ij.2).count
          ((x : ℕ), (y : ℕ)) = c := by
      rw [count_touched_out, count_allPairs]
    refine ⟨?_, ?_, fun h0 => ⟨?_, ?_, ?_⟩⟩
    · have := t.d k x y; rw [hc] at this; exact this
    · have := t.e k x y; rw [hc] at this; exact this
    · funext s; have := t.q1 k x y s; rw [hc, h0] at this; simpa using this
    · funext s; have := t.q2 k x y s; rw [hc, h0] at this; simpa using this
    · funext s; have := t.q3 k x y s; rw [hc, h0] at this; simpa using this

theorem foldlM_const {α β : Type} (l : List β) (a : α) :
    l.foldlM (fun (a : α) (_ : β) => (.ok a : Py α)) a = .ok a := by
  induction l with
  | nil => rfl
  | cons b l ih => rw [List.foldlM_cons]; exact ih

/-- **C37 is false of the code for `"both"`**: for every legal impedance with direction `"both"` the call succeeds and
changes no coefficient at all (only the cached sums are recomputed). -/
theorem C37_both_does_nothing (D : Disp n p) (nx : ℕ) (levels : List ℕ) {ol il : ℕ} (oc ic : List ℕ)
    {Z : TransferModel} (hdir : Z.direction = "both") (hl : adjacentLevels ol il) (hf : Z.factor.getD 1 ≠ 0)
    (hlen : Z.LengthsOk) (hdt : D.dt ≠ 0) (hp : ∀ s < Z.polesReal.length, Z.pole s ≠ 0) :
    ∃ D', D.addTransferImpedance nx levels ol oc il ic Z = .ok D' ∧ D'.d = D.d ∧ D'.e = D.e ∧ D'.q1 = D.q1 ∧
      D'.q2 = D.q2 ∧ D'.q3 = D.q3 := by
  unfold Disp.addTransferImpedance
  simp only
  rw [show pyAssert (adjacentLevels ol il) = .ok () from if_pos hl]
  have h2 : raiseIf (Z.factor.getD 1 = 0) PyErr.ZeroDivisionError = .ok () := if_neg hf
  rw [h2, show Z.checkLengths = .ok () from checkLengths_ok_iff.2 hlen]
  simp only [bind, Except.bind]
  split
  · exact ⟨D, rfl, rfl, rfl, rfl, rfl, rfl⟩
  · unfold raiseIf
    rw [if_neg (by rintro (h | ⟨s, h1, h2⟩); exacts [hdt h, hp s h1 h2])]
    simp only
    have hb : forPairs (fun D i j => Disp.transferBody D nx i j (Z.cte / Z.factor.getD 1) (Z.prop / Z.factor.getD 1)
        Z.polesReal.length Z.pole (Z.residue (Z.factor.getD 1)) Z.direction)
        (oc.map (conductorsBefore levels ol + ·)) (ic.map (conductorsBefore levels il + ·)) D = .ok D := by
      unfold forPairs
      have : ∀ (D : Disp n p) (i j : ℕ), Disp.transferBody D nx i j (Z.cte / Z.factor.getD 1)
          (Z.prop / Z.factor.getD 1) Z.polesReal.length Z.pole (Z.residue (Z.factor.getD 1)) Z.direction = .ok D := by
        intro D i j
        simp [Disp.transferBody, hdir]
      simp only [this]
      exact foldlM_const _ _
    rw [hb]
    exact ⟨_, rfl, rfl, rfl, rfl, rfl, rfl⟩

/-! ## C40 -/

/-- **C40** An impedance with zero `cte`, zero `prop` and no poles changes nothing. -/
theorem C40_trivial (D : Disp n p) (nx : ℕ) (levels : List ℕ) {ol il : ℕ} (oc ic : List ℕ) {Z : TransferModel}
    (hl : adjacentLevels ol il) (hf : Z.factor.getD 1 ≠ 0) (hlen : Z.LengthsOk) (h1 : Z.cte = 0) (h2 : Z.prop = 0)
    (h3 : Z.polesReal = []) : D.addTransferImpedance nx levels ol oc il ic Z = .ok D := by
  unfold Disp.addTransferImpedance
  simp only
  rw [show pyAssert (adjacentLevels ol il) = .ok () from if_pos hl]
  have h4 : raiseIf (Z.factor.getD 1 = 0) PyErr.ZeroDivisionError = .ok () := if_neg hf
  rw [h4, show Z.checkLengths = .ok () from checkLengths_ok_iff.2 hlen]
  simp only [bind, Except.bind]
  rw [if_pos]
  rw [h1, h2, h3]
  simp

/-- **C40** The same for one end of the bundle. -/
theorem C40_trivial_at (D : Disp n p) (levels : List ℕ) {ol il cell : ℕ} (oc ic : List ℕ) {Z : TransferModel}
    (hl : adjacentLevels ol il) (hf : Z.factor.getD 1 ≠ 0) (hlen : Z.LengthsOk) (h1 : Z.cte = 0) (h2 : Z.prop = 0)
    (h3 : Z.polesReal = []) : D.setTransferImpedanceAt levels ol oc il ic cell Z = .ok D := by
  unfold Disp.setTransferImpedanceAt
  simp only
  rw [show pyAssert (adjacentLevels ol il) = .ok () from if_pos hl]
  have h4 : raiseIf (Z.factor.getD 1 = 0) PyErr.ZeroDivisionError = .ok () := if_neg hf
  rw [h4, show Z.checkLengths = .ok () from checkLengths_ok_iff.2 hlen]
  simp only [bind, Except.bind]
  rw [if_pos]
  rw [h1, h2, h3]
  simp

/-- **C40** Levels whose numbers do not differ by one are rejected, for every impedance. -/
theorem C40_illegal (D : Disp n p) (nx : ℕ) (levels : List ℕ) {ol il : ℕ} (oc ic : List ℕ) (Z : TransferModel)
    (hl : ol ≠ il + 1 ∧ il ≠ ol + 1) : D.addTransferImpedance nx levels ol oc il ic Z = .error .AssertionError ∧
      ∀ cell, D.setTransferImpedanceAt levels ol oc il ic cell Z = .error .AssertionError := by
  have h : ¬ adjacentLevels ol il := by rintro (h | h); exacts [hl.1 h, hl.2 h]
  constructor
  · unfold Disp.addTransferImpedance
    rw [show pyAssert (adjacentLevels ol il) = .error .AssertionError from if_neg h]
    rfl
  · intro cell
    unfold Disp.setTransferImpedanceAt
    rw [show pyAssert (adjacentLevels ol il) = .error .AssertionError from if_neg h]
    rfl

/-- A trivial impedance exists. -/
example : ∃ Z : TransferModel, Z.factor.getD 1 ≠ 0 ∧ Z.LengthsOk ∧ Z.cte = 0 ∧ Z.prop = 0 ∧ Z.polesReal = [] :=
  ⟨⟨⟨0, 0, [], [], [], []⟩, none, "in"⟩, by simp, by simp [RationalModel.LengthsOk], rfl, rfl, rfl⟩

/-! ## C38 -/

/-- **C38 (partial)** One pole: its coefficients are stored in every cell (here for `"in"`; `x` inner, `y` outer,
`c` occurrences of the pair). -/
theorem C38_one_pole_partial {D D' : Disp n p} {nx : ℕ} {levels : List ℕ} {ol il : ℕ} {oc ic : List ℕ}
    {Z : TransferModel} (hdir : Z.direction = "in") (h1 : Z.polesReal.length = 1)
    (h : D.addTransferImpedance nx levels ol oc il ic Z = .ok D') (k : ℕ) (x y : Fin n) (s : Fin p) :
    let f := Z.factor.getD 1
    let c : ℕ := (oc.map (conductorsBefore levels ol + ·)).count (y : ℕ) *
      (ic.map (conductorsBefore levels il + ·)).count (x : ℕ)
    (D'.q1 k x y).val s = (D.q1 k x y).val s + c * coefA (Z.pole 0) (Z.residue f 0) D.dt ∧
    (D'.q2 k x y).val s = (D.q2 k x y).val s - c * coefB (Z.pole 0) (Z.residue f 0) D.dt ∧
    (D'.q3 k x y).val s = (D.q3 k x y).val s - c * coefE (Z.pole 0) D.dt := by
  intro f c
  obtain ⟨-, -, -, ⟨⟨-, -, h3⟩, rfl⟩ | ⟨-, -, -, D1, h4, rfl⟩⟩ := addTransferImpedance_ok h
  · omega
  · have t := forPairs_ok _ h4
    rw [hdir] at t
    have hc : ((allPairs (oc.map (conductorsBefore levels ol + ·))
        (ic.map (conductorsBefore levels il + ·))).flatMap fun ij => touched "in" ij.1 ij.2).count
          ((x : ℕ), (y : ℕ)) = c := by
      rw [count_touched_in, count_allPairs]
    refine ⟨?_, ?_, ?_⟩
    · have := t.q1 k x y s; rw [hc] at this; simpa [cellCoef, h1, poleInCell] using this
    · have := t.q2 k x y s; rw [hc] at this; simpa [cellCoef, h1, poleInCell] using this
    · have := t.q3 k x y s; rw [hc] at this; simpa [cellCoef, h1, poleInCell] using this

/-- **C38 is false of the code (1)** Every impedance whose number of poles is neither 0, nor 1, nor the number of
cells is refused with `ValueError`. -/
theorem C38_pole_count_refused (D : Disp n p) (nx : ℕ) (levels : List ℕ) {ol il : ℕ} {o i : ℕ} (oc ic : List ℕ)
    {Z : TransferModel} (hdir : Z.direction = "in") (hl : adjacentLevels ol il) (hf : Z.factor.getD 1 ≠ 0)
    (hlen : Z.LengthsOk) (hdt : D.dt ≠ 0) (hp : ∀ s < Z.polesReal.length, Z.pole s ≠ 0)
    (ho : conductorsBefore levels ol + o < n) (hi : conductorsBefore levels il + i < n)
    (h0 : Z.polesReal.length ≠ 0) (h1 : Z.polesReal.length ≠ 1) (hnx : Z.polesReal.length ≠ nx) :
    D.addTransferImpedance nx levels ol (o :: oc) il (i :: ic) Z = .error .ValueError := by
  unfold Disp.addTransferImpedance
  simp only
  rw [show pyAssert (adjacentLevels ol il) = .ok () from if_pos hl]
  have h2 : raiseIf (Z.factor.getD 1 = 0) PyErr.ZeroDivisionError = .ok () := if_neg hf
  rw [h2, show Z.checkLengths = .ok () from checkLengths_ok_iff.2 hlen]
  simp only [bind, Except.bind]
  rw [if_neg (fun h => h0 h.2.2)]
  unfold raiseIf
  rw [if_neg (by rintro (h | ⟨s, h1, h2⟩); exacts [hdt h, hp s h1 h2])]
  simp only
  have hb : forPairs (fun D i j => Disp.transferBody D nx i j (Z.cte / Z.factor.getD 1) (Z.prop / Z.factor.getD 1)
      Z.polesReal.length Z.pole (Z.residue (Z.factor.getD 1)) Z.direction)
      ((o :: oc).map (conductorsBefore levels ol + ·)) ((i :: ic).map (conductorsBefore levels il + ·)) D =
      .error .ValueError := by
    unfold forPairs
    rw [List.map_cons, List.map_cons, List.flatMap_cons, List.map_cons, List.cons_append, List.foldlM_cons]
    simp only
    have : Disp.transferBody D nx (conductorsBefore levels ol + o) (conductorsBefore levels il + i)
        (Z.cte / Z.factor.getD 1) (Z.prop / Z.factor.getD 1)
        Z.polesReal.length Z.pole (Z.residue (Z.factor.getD 1)) Z.direction = .error .ValueError := by
      unfold Disp.transferBody
      rw [if_pos hdir]
      unfold Disp.addTransferPair
      rw [dif_pos ⟨hi, ho⟩]
      simp only
      rw [if_neg h0, if_pos ⟨h1, hnx⟩]
    rw [this]
    rfl
  rw [hb]

/-- Two poles on a bundle of three cells. -/
example : ∃ Z : TransferModel, Z.direction = "in" ∧ Z.factor.getD 1 ≠ 0 ∧ Z.LengthsOk ∧
    (∀ s < Z.polesReal.length, Z.pole s ≠ 0) ∧ Z.polesReal.length = 2 :=
  ⟨⟨⟨0, 0, [-1, -2], [0, 0], [1, 1], [0, 0]⟩, none, "in"⟩, rfl, by simp, by simp [RationalModel.LengthsOk], by
    intro s hs
    have hs' : s < 2 := hs
    interval_cases s <;> simp [RationalModel.pole], rfl⟩

/-- **C38 is false of the code (2)** If there are as many poles as cells (at least two), cell `k` gets pole `k` only. -/
theorem C38_poles_spread_over_cells {D D' : Disp n p} {nx : ℕ} {levels : List ℕ} {ol il : ℕ} {oc ic : List ℕ}
    {Z : TransferModel} (hdir : Z.direction = "in") (hnx : Z.polesReal.length = nx) (h2 : 2 ≤ nx)
    (h : D.addTransferImpedance nx levels ol oc il ic Z = .ok D') (k : ℕ) (x y : Fin n) (s : Fin p) :
    let c : ℕ := (oc.map (conductorsBefore levels ol + ·)).count (y : ℕ) *
      (ic.map (conductorsBefore levels il + ·)).count (x : ℕ)
    (D'.q3 k x y).val s = (D.q3 k x y).val s - c * coefE (Z.pole k) D.dt := by
  intro c
  obtain ⟨-, -, -, ⟨⟨-, -, h3⟩, rfl⟩ | ⟨-, -, -, D1, h4, rfl⟩⟩ := addTransferImpedance_ok h
  · omega
  · have t := forPairs_ok _ h4
    rw [hdir] at t
    have hc : ((allPairs (oc.map (conductorsBefore levels ol + ·))
        (ic.map (conductorsBefore levels il + ·))).flatMap fun ij => touched "in" ij.1 ij.2).count
          ((x : ℕ), (y : ℕ)) = c := by
      rw [count_touched_in, count_allPairs]
    have := t.q3 k x y s
    rw [hc] at this
    simp only [cellCoef, hnx, poleInCell, if_neg (show nx ≠ 0 by omega), if_neg (show nx ≠ 1 by omega)] at this
    exact this

/-! ## C39 -/

/-- All dispersive coupling goes from the conductors of `O` into the other ones, as after calls of
`add_transfer_impedance` with direction `"in"`, `O` being the outer conductors. -/
structure OneWay (O : Fin n → Prop) (D : Disp n p) : Prop where
  row : ∀ k x y, O x → (D.q1 k x y).val = 0 ∧ (D.q2 k x y).val = 0 ∧ (D.q3 k x y).val = 0
  col : ∀ k x y, ¬ O y → (D.q3 k x y).val = 0
  sums : D.SumsCached

/-- Such coefficients are what a call with direction `"in"` makes, starting without dispersive elements. -/
theorem C39_oneWay {D D' : Disp n p} {nx : ℕ} {levels : List ℕ} {ol il : ℕ} {oc ic : List ℕ}
    {Z : TransferModel} (hdir : Z.direction = "in") (hq : ∀ k x y, D.q1 k x y = none ∧ D.q2 k x y = none ∧ D.q3 k x y = none)
    (hs : D.SumsCached)
    (hdisj : ∀ a ∈ oc.map (conductorsBefore levels ol + ·), a ∉ ic.map (conductorsBefore levels il + ·))
    (h : D.addTransferImpedance nx levels ol oc il ic Z = .ok D') :
    OneWay (fun x => (x : ℕ) ∈ oc.map (conductorsBefore levels ol + ·)) D' := by
  have key := fun k x y => (C37_in_partial hdir h k x y).2.2
  refine ⟨?_, ?_, ?_⟩
  · intro k x y hx
    obtain ⟨h1, h2, h3⟩ := key k x y (by
      rw [List.count_eq_zero.2 (hdisj _ hx), mul_zero])
    obtain ⟨e1, e2, e3⟩ := hq k x y
    refine ⟨?_, ?_, ?_⟩
    · rw [h1, e1]; rfl
    · rw [h2, e2]; rfl
    · rw [h3, e3]; rfl
  · intro k x y hy
    obtain ⟨h1, h2, h3⟩ := key k x y (by rw [List.count_eq_zero.2 hy, zero_mul])
    rw [h3, (hq k x y).2.2]; rfl
  · obtain ⟨-, -, -, ⟨-, rfl⟩ | ⟨-, -, -, D1, h4, rfl⟩⟩ := addTransferImpedance_ok h
    · exact hs
    · exact ⟨rfl, rfl⟩

theorem OneWay.phi {O : Fin n → Prop} {D : Disp n p} (H : OneWay O D) {phi : Memory n p} {i i' : Grid n}
    (h : ∀ k x, O x → phi k x = 0) : ∀ k x, O x → D.updatePhi phi i i' k x = 0 := by
  intro k x hx
  funext s
  have h1 := fun y => (H.row k x y hx).1
  have h2 := fun y => (H.row k x y hx).2.1
  have h3 := fun y => (H.row k x y hx).2.2
  simp [Disp.updatePhi, h1, h2, h3]

theorem OneWay.q3phi {O : Fin n → Prop} {D : Disp n p} (H : OneWay O D) {phi : Memory n p}
    (h : ∀ k x, O x → phi k x = 0) (k : ℕ) : D.q3phi phi k = 0 := by
  funext x
  show poleSum _ = 0
  have : (fun s => ∑ j, (D.q3 k x j).val s * phi k j s) = 0 := by
    funext s
    refine Finset.sum_eq_zero fun y _ => ?_
    by_cases hy : O y
    · rw [h k y hy]; simp
    · rw [H.col k x y hy]; simp
  rw [this]
  simp [poleSum]

theorem BundleStep.tz {b b' : MTLD n p} {time dt : ℝ} (h : BundleStep time dt b b') :
    b'.tz = b.tz ∧ ∃ i', b'.phi = b.tz.updatePhi b.phi i' i' := by
  obtain ⟨b1, b2, h1, ⟨⟨v, rfl⟩, -⟩, h3⟩ := h
  rw [MTLD.stepVoltage_ok_iff] at h1
  rw [MTLD.stepCurrent_ok_iff] at h3
  obtain ⟨cg, -, rfl⟩ := h1
  obtain ⟨lr, -, rfl⟩ := h3
  exact ⟨rfl, _, rfl⟩

/-- **C39 is false of the code**: a transfer impedance has no memory.  However many steps are made and whatever the
networks do at the ends, the term that should hold the past of the induced voltage is zero at every step. -/
theorem C39_no_memory {O : Fin n → Prop} {N : ℕ} {tr : ℕ → MTLD n p} {time dt : ℕ → ℝ}
    (hstep : ∀ j < N, BundleStep (time j) (dt j) (tr j) (tr (j + 1))) (H : OneWay O (tr 0).tz)
    (h0 : ∀ k x, O x → (tr 0).phi k x = 0) : ∀ j ≤ N, ∀ k, (tr j).tz.q3phi (tr j).phi k = 0 := by
  have key : ∀ j ≤ N, (tr j).tz = (tr 0).tz ∧ ∀ k x, O x → (tr j).phi k x = 0 := by
    intro j
    induction j with
    | zero => exact fun _ => ⟨rfl, h0⟩
    | succ j ih =>
      intro hj
      obtain ⟨h1, h2⟩ := ih (by omega)
      obtain ⟨h3, i', h4⟩ := (hstep j (by omega)).tz
      refine ⟨h3.trans h1, ?_⟩
      rw [h4, h1]
      exact H.phi h2
  intro j hj k
  obtain ⟨h1, h2⟩ := key j hj
  rw [h1]
  exact H.q3phi h2 k

/-- **C39 is false of the code**, the consequence: the next currents of the bundle are a function of its present
voltages and currents; two histories that agree now agree from now on. -/
theorem C39_history_ignored {O : Fin n → Prop} {b b' b1 b1' : MTLD n p} {time dt : ℝ} (H : OneWay O b.tz)
    (hphi : ∀ k x, O x → b.phi k x = 0) (hphi' : ∀ k x, O x → b'.phi k x = 0)
    (heq : ∃ φ, b' = { b with phi := φ }) (h : b.stepCurrent time dt = .ok b1)
    (h' : b'.stepCurrent time dt = .ok b1') : b1.i = b1'.i ∧ b1.v = b1'.v := by
  obtain ⟨φ, rfl⟩ := heq
  rw [MTLD.stepCurrent_ok_iff] at h h'
  obtain ⟨lr, h1, rfl⟩ := h
  obtain ⟨lr', h1', rfl⟩ := h'
  have e : lr' = lr := Option.some.inj (h1'.symm.trans h1)
  subst e
  refine ⟨?_, rfl⟩
  have e1 : b.tz.q3phi b.phi = fun _ => 0 := funext (H.q3phi hphi)
  have e2 : b.tz.q3phi φ = fun _ => 0 := funext (H.q3phi hphi')
  show advanceCurrent _ _ _ _ _ _ _ = advanceCurrent _ _ _ _ _ _ _
  rw [e1]
  show _ = advanceCurrent b.m lr' b.dun (b.tz.q3phi φ) _ b.v b.i
  rw [e2]
  rfl

/-- The convolution that should be computed does remember: after a current that rises to 1 in one step and falls back
to 0 in the next, the convolution of a pole is `residue / (pole² dt) (1 - exp(pole dt))²` although the current is
zero. -/
theorem C39_convolution_remembers (pole residue : ℂ) (dt : ℝ) (hp : pole ≠ 0) (hdt : dt ≠ 0) :
    Complex.exp (pole * dt) * (∫ τ in (0 : ℝ)..dt, residue * Complex.exp (pole * (dt - τ)) * (0 + (1 - 0) / dt * τ)) +
      (∫ τ in (0 : ℝ)..dt, residue * Complex.exp (pole * (dt - τ)) * (1 + (0 - 1) / dt * τ)) =
    residue / (pole ^ 2 * dt) * (1 - Complex.exp (pole * dt)) ^ 2 := by
  rw [kernel_integral _ _ _ _ _ hp, kernel_integral _ _ _ _ _ hp]
  have hdt' : (dt : ℂ) ≠ 0 := by exact_mod_cast hdt
  field_simp
  ring

/-- For example it is not zero for `pole = -1`, `residue = 1` and `dt = 1`. -/
theorem C39_convolution_example :
    (1 : ℂ) / ((-1) ^ 2 * (1 : ℝ)) * (1 - Complex.exp ((-1) * (1 : ℝ))) ^ 2 ≠ 0 := by
  have h : (1 : ℂ) - Complex.exp ((-1) * (1 : ℝ)) ≠ 0 := by
    rw [show ((-1 : ℂ) * (1 : ℝ)) = ((-1 : ℝ) : ℂ) by push_cast; ring, ← Complex.ofReal_exp,
      ← Complex.ofReal_one, ← Complex.ofReal_sub, Complex.ofReal_ne_zero]
    have := Real.exp_lt_one_iff.2 (show (-1 : ℝ) < 0 by norm_num)
    linarith
  simpa using h

/-- **C39 (partial)** What holds: the contribution of the present and the previous current stored in the coefficients
is the convolution over the last step with the current taken linear in it (with the sign of a transfer impedance), here
for one pole and direction `"in"`, starting without dispersive elements. -/
theorem C39_last_step_partial {D D' : Disp n p} {nx : ℕ} {levels : List ℕ} {ol il : ℕ} {oc ic : List ℕ}
    {Z : TransferModel} (hdir : Z.direction = "in") (h1 : Z.polesReal.length = 1)
    (h : D.addTransferImpedance nx levels ol oc il ic Z = .ok D') (k : ℕ) (x y : Fin n) (s : Fin p)
    (hq : D.q1 k x y = none ∧ D.q2 k x y = none)
    (hc : (oc.map (conductorsBefore levels ol + ·)).count (y : ℕ) *
      (ic.map (conductorsBefore levels il + ·)).count (x : ℕ) = 1) (i₀ i₁ : ℂ) :
    (D'.q1 k x y).val s * i₁ + (D'.q2 k x y).val s * i₀ =
      -∫ τ in (0 : ℝ)..D.dt, Z.residue (Z.factor.getD 1) 0 * Complex.exp (Z.pole 0 * (D.dt - τ)) *
        (i₀ + (i₁ - i₀) / D.dt * τ) := by
  obtain ⟨-, -, -, ⟨⟨-, -, h3⟩, -⟩ | ⟨-, hdt, hp, -⟩⟩ := addTransferImpedance_ok h
  · omega
  have hp0 := hp 0 (by omega)
  obtain ⟨e1, e2, -⟩ := C38_one_pole_partial hdir h1 h k x y s
  rw [hc, hq.1] at e1
  rw [hc, hq.2] at e2
  rw [e1, e2]
  have := C33_coefficients (Z.pole 0) (Z.residue (Z.factor.getD 1) 0) i₀ i₁ 0 D.dt hp0 hdt
  rw [mul_zero, mul_zero, zero_add, add_zero] at this
  rw [this]
  simp [QEntry.val]
  ring

/-- A coupling that satisfies the hypotheses of C37, C38 and C39: conductor 0 outside, conductor 1 inside, one pole. -/
theorem transfer_example (D : Disp 2 1) (hdt : D.dt ≠ 0) : ∃ D', D.addTransferImpedance 3 [1, 1] 0 [0] 1 [0]
    ⟨⟨5, 2, [-1], [0], [1], [0]⟩, none, "in"⟩ = .ok D' ∧ D'.d 0 1 0 = D.d 0 1 0 - 5 ∧ D'.d 0 0 1 = D.d 0 0 1 := by
  have hex : ∃ D', D.addTransferImpedance 3 [1, 1] 0 [0] 1 [0]
    ⟨⟨5, 2, [-1], [0], [1], [0]⟩, none, "in"⟩ = .ok D' := by
    unfold Disp.addTransferImpedance
    simp only
    rw [show pyAssert (adjacentLevels 0 1) = .ok () from if_pos (by decide)]
    unfold raiseIf
    rw [if_neg (by simp), show RationalModel.checkLengths ⟨5, 2, [-1], [0], [1], [0]⟩ = .ok () from
      checkLengths_ok_iff.2 (by simp [RationalModel.LengthsOk])]
    simp only [bind, Except.bind]
    rw [if_neg (by simp), if_neg (by
      rintro (h | ⟨s, h1, h2⟩)
      · exact hdt h
      · simp only [List.length_singleton, Nat.lt_one_iff] at h1
        subst h1
        simp [RationalModel.pole] at h2)]
    simp [forPairs, conductorsBefore, Disp.transferBody, Disp.addTransferPair]
  obtain ⟨D', h⟩ := hex
  refine ⟨D', h, ?_, ?_⟩
  · have := (C37_in_partial rfl h 0 1 0).1
    simpa [conductorsBefore] using this
  · have := (C37_in_partial rfl h 0 0 1).1
    simpa [conductorsBefore] using this

end Mtln
