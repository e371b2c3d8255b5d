import Verif.Props.Transfer
import Verif.Props.Localized

/-! # Transfer impedances of end connectors (C96), and localized plane waves (C45) -/

namespace Mtln

open Matrix

variable {n p : ℕ}

/-! ## C96 -/

/-- The pair (row, column) of a pair (outer conductor, inner conductor): the inner row feels the outer current for
`"in"`, the outer row the inner current for `"out"`. -/
def couples (direction : String) (out inn : List ℕ) (x y : ℕ) : Prop :=
  (direction = "in" ∧ y ∈ out ∧ x ∈ inn) ∨ (direction = "out" ∧ x ∈ out ∧ y ∈ inn)

/-- `D'` is `D` with the entries `S` of one cell replaced. -/
structure SetAt (D D' : Disp n p) (cell : ℕ) (S : ℕ → ℕ → Prop) (d e : ℝ) (nPoles : ℕ) (A B E : ℕ → ℂ) : Prop where
  dt : D'.dt = D.dt
  inside : ∀ x y : Fin n, S x y → D'.d cell x y = -d ∧ D'.e cell x y = -e
  poles : ∀ x y : Fin n, S x y → nPoles ≠ 0 → nPoles = p ∧ D'.q1 cell x y = some (fun s : Fin p => A s) ∧
    D'.q2 cell x y = some (fun s : Fin p => -B s) ∧ D'.q3 cell x y = some (fun s : Fin p => -E s)
  none : nPoles = 0 → D'.q1 = D.q1 ∧ D'.q2 = D.q2 ∧ D'.q3 = D.q3
  outside : ∀ k, ∀ x y : Fin n, ¬ (k = cell ∧ S x y) → D'.d k x y = D.d k x y ∧ D'.e k x y = D.e k x y ∧
    D'.q1 k x y = D.q1 k x y ∧ D'.q2 k x y = D.q2 k x y ∧ D'.q3 k x y = D.q3 k x y

theorem SetAt.refl (D : Disp n p) (cell : ℕ) {S : ℕ → ℕ → Prop} (hS : ∀ x y, ¬ S x y) (d e : ℝ) (nPoles : ℕ)
    (A B E : ℕ → ℂ) : SetAt D D cell S d e nPoles A B E :=
  ⟨rfl, fun x y h => absurd h (hS x y), fun x y h => absurd h (hS x y), fun _ => ⟨rfl, rfl, rfl⟩,
    fun _ _ _ _ => ⟨rfl, rfl, rfl, rfl, rfl⟩⟩

theorem SetAt.congr {D D' : Disp n p} {cell : ℕ} {S S' : ℕ → ℕ → Prop} {d e : ℝ} {nPoles : ℕ} {A B E : ℕ → ℂ}
    (h : SetAt D D' cell S d e nPoles A B E) (hS : ∀ x y, S x y ↔ S' x y) : SetAt D D' cell S' d e nPoles A B E := by
  have : S = S' := by funext x y; exact propext (hS x y)
  exact this ▸ h

theorem SetAt.trans {D D1 D' : Disp n p} {cell : ℕ} {S S' : ℕ → ℕ → Prop} {d e : ℝ} {nPoles : ℕ} {A B E : ℕ → ℂ}
    (h : SetAt D D1 cell S d e nPoles A B E) (h' : SetAt D1 D' cell S' d e nPoles A B E) :
    SetAt D D' cell (fun x y => S x y ∨ S' x y) d e nPoles A B E := by
  refine ⟨h'.dt.trans h.dt, ?_, ?_, ?_, ?_⟩
  · intro x y hxy
    by_cases hS' : S' x y
    · exact h'.inside x y hS'
    · obtain ⟨h1, h2, -⟩ := h'.outside cell x y (fun hh => hS' hh.2)
      rw [h1, h2]
      exact h.inside x y (hxy.resolve_right hS')
  · intro x y hxy hn
    by_cases hS' : S' x y
    · exact h'.poles x y hS' hn
    · obtain ⟨-, -, h1, h2, h3⟩ := h'.outside cell x y (fun hh => hS' hh.2)
      rw [h1, h2, h3]
      exact h.poles x y (hxy.resolve_right hS') hn
  · intro hn
    obtain ⟨a1, a2, a3⟩ := h.none hn
    obtain ⟨b1, b2, b3⟩ := h'.none hn
    exact ⟨b1.trans a1, b2.trans a2, b3.trans a3⟩
  · intro k x y hk
    obtain ⟨a1, a2, a3, a4, a5⟩ := h.outside k x y (fun hh => hk ⟨hh.1, Or.inl hh.2⟩)
    obtain ⟨b1, b2, b3, b4, b5⟩ := h'.outside k x y (fun hh => hk ⟨hh.1, Or.inr hh.2⟩)
    exact ⟨b1.trans a1, b2.trans a2, b3.trans a3, b4.trans a4, b5.trans a5⟩

theorem setTransferPair_ok {D D' : Disp n p} {row col cell : ℕ} {d e : ℝ} {nPoles : ℕ} {pole res : ℕ → ℂ}
    (h : D.setTransferPair row col cell d e nPoles pole res = .ok D') :
    (row < n ∧ col < n) ∧ SetAt D D' cell (fun x y => x = row ∧ y = col) d e nPoles
      (fun s => coefA (pole s) (res s) D.dt) (fun s => coefB (pole s) (res s) D.dt) (fun s => coefE (pole s) D.dt) := by
  unfold Disp.setTransferPair at h
  split at h
  case isFalse => exact absurd h (by simp)
  rename_i hrc
  refine ⟨hrc, ?_⟩
  simp only at h
  split at h
  · rename_i hn
    injection h with h
    subst h
    refine ⟨rfl, ?_, fun _ _ _ hn' => absurd hn hn', fun _ => ⟨rfl, rfl, rfl⟩, ?_⟩
    · rintro x y ⟨hx, hy⟩
      have hx' : x = ⟨row, hrc.1⟩ := Fin.ext hx
      have hy' : y = ⟨col, hrc.2⟩ := Fin.ext hy
      subst hx' hy'
      simp [setMat]
    · intro k x y hk
      have hk' : ¬ (k = cell ∧ x = ⟨row, hrc.1⟩ ∧ y = ⟨col, hrc.2⟩) := by
        rintro ⟨h1, h2, h3⟩; exact hk ⟨h1, by rw [h2], by rw [h3]⟩
      refine ⟨?_, ?_, rfl, rfl, rfl⟩
      · simp only [setMat, Matrix.of_apply]; rw [if_neg hk']
      · simp only [setMat, Matrix.of_apply]; rw [if_neg hk']
  · split at h
    · exact absurd h (by simp)
    · rename_i hn hp
      injection h with h
      subst h
      refine ⟨rfl, ?_, ?_, fun hn' => absurd hn' hn, ?_⟩
      · rintro x y ⟨hx, hy⟩
        have hx' : x = ⟨row, hrc.1⟩ := Fin.ext hx
        have hy' : y = ⟨col, hrc.2⟩ := Fin.ext hy
        subst hx' hy'
        simp [setMat]
      · rintro x y ⟨hx, hy⟩ -
        have hx' : x = ⟨row, hrc.1⟩ := Fin.ext hx
        have hy' : y = ⟨col, hrc.2⟩ := Fin.ext hy
        subst hx' hy'
        exact ⟨not_not.1 hp, by simp [setEntry], by simp [setEntry], by simp [setEntry]⟩
      · intro k x y hk
        have hk' : ¬ (k = cell ∧ x = ⟨row, hrc.1⟩ ∧ y = ⟨col, hrc.2⟩) := by
          rintro ⟨h1, h2, h3⟩; exact hk ⟨h1, by rw [h2], by rw [h3]⟩
        refine ⟨?_, ?_, ?_, ?_, ?_⟩
        · simp only [setMat, Matrix.of_apply]; rw [if_neg hk']
        · simp only [setMat, Matrix.of_apply]; rw [if_neg hk']
        · simp only [setEntry]; rw [if_neg hk']
        · simp only [setEntry]; rw [if_neg hk']
        · simp only [setEntry]; rw [if_neg hk']

theorem setTransferBody_ok {D D' : Disp n p} {cell i j : ℕ} {d e : ℝ} {nPoles : ℕ} {pole res : ℕ → ℂ} {dir : String}
    (h : D.setTransferBody cell i j d e nPoles pole res dir = .ok D') :
    SetAt D D' cell (couples dir [i] [j]) d e nPoles
      (fun s => coefA (pole s) (res s) D.dt) (fun s => coefB (pole s) (res s) D.dt) (fun s => coefE (pole s) D.dt) := by
  unfold Disp.setTransferBody at h
  split_ifs at h with h1 h2
  · exact (setTransferPair_ok h).2.congr fun x y => by simp [couples, h1]; tauto
  · exact (setTransferPair_ok h).2.congr fun x y => by simp [couples, h2]
  · injection h with h
    subst h
    exact SetAt.refl _ _ (fun x y => by simp [couples, h1, h2]) _ _ _ _ _ _

theorem foldSet_ok {cell : ℕ} {d e : ℝ} {nPoles : ℕ} {pole res : ℕ → ℂ} {dir : String} :
    ∀ (l : List (ℕ × ℕ)) {D D' : Disp n p},
    l.foldlM (fun D ij => Disp.setTransferBody D cell ij.1 ij.2 d e nPoles pole res dir) D = .ok D' →
    SetAt D D' cell (fun x y => ∃ ij ∈ l, couples dir [ij.1] [ij.2] x y) d e nPoles
      (fun s => coefA (pole s) (res s) D.dt) (fun s => coefB (pole s) (res s) D.dt) (fun s => coefE (pole s) D.dt)
  | [], D, D', h => by
    simp only [List.foldlM_nil, pure, Except.pure, Except.ok.injEq] at h
    subst h
    exact SetAt.refl _ _ (fun x y => by simp) _ _ _ _ _ _
  | ij :: l, D, D', h => by
    rw [List.foldlM_cons] at h
    obtain ⟨D1, h1, h2⟩ := bind_ok_iff.1 h
    have t1 := setTransferBody_ok h1
    have t2 := foldSet_ok l h2
    rw [t1.dt] at t2
    exact (t1.trans t2).congr fun x y => by simp

/-- **C96** A successful `set_connector_transfer_impedance` with a non-zero model *replaces* the coupling of the pairs
of the given conductors on one cell, the first one for `'initial'` and the last one for `'end'`, by the values of the
model: resistance and inductance with a minus sign, divided by the factor, and all poles.  All other cells, all other
pairs and everything else of the bundle are kept. -/
theorem C96_effect {b b' : MTLD n p} {side : String} {ol il : ℕ} {oc ic : List ℕ} {Z : TransferModel}
    (h : b.setConnectorTransferImpedance side ol oc il ic Z = .ok b')
    (hZ : ¬ (Z.cte = 0 ∧ Z.prop = 0 ∧ Z.polesReal = [])) :
    ∃ cell, ((side = "initial" ∧ cell = 0) ∨ (side = "end" ∧ cell = b.m - 1)) ∧ b' = { b with tz := b'.tz } ∧
      SetAt b.tz b'.tz cell (couples Z.direction (oc.map (conductorsBefore b.inLevel ol + ·))
          (ic.map (conductorsBefore b.inLevel il + ·))) (Z.cte / Z.factor.getD 1) (Z.prop / Z.factor.getD 1)
        Z.polesReal.length (fun s => coefA (Z.pole s) (Z.residue (Z.factor.getD 1) s) b.tz.dt)
        (fun s => coefB (Z.pole s) (Z.residue (Z.factor.getD 1) s) b.tz.dt) (fun s => coefE (Z.pole s) b.tz.dt) ∧
      b'.tz.q1sum = vSum b'.tz.q1 ∧ b'.tz.q2sum = vSum b'.tz.q2 := by
  unfold MTLD.setConnectorTransferImpedance at h
  obtain ⟨cell, hc, h⟩ := bind_ok_iff.1 h
  obtain ⟨tz, ht, h⟩ := bind_ok_iff.1 h
  injection h with h
  subst h
  refine ⟨cell, ?_, rfl, ?_⟩
  · split_ifs at hc with h1 h2
    · injection hc with hc; exact Or.inl ⟨h1, hc.symm⟩
    · injection hc with hc; exact Or.inr ⟨h2, hc.symm⟩
  · unfold Disp.setTransferImpedanceAt at ht
    simp only [bind_ok_iff, pyAssert_ok_iff, raiseIf_ok_iff, checkLengths_ok_iff] at ht
    obtain ⟨_, h1, _, h2, _, h3, ht⟩ := ht
    rw [if_neg (by
      rintro ⟨z1, z2, z3⟩
      exact hZ ⟨(div_eq_zero_iff.1 z1).resolve_right h2, (div_eq_zero_iff.1 z2).resolve_right h2,
        List.length_eq_zero_iff.1 z3⟩)] at ht
    simp only [bind_ok_iff, raiseIf_ok_iff] at ht
    obtain ⟨_, -, D1, h6, h7⟩ := ht
    injection h7 with h7
    subst h7
    refine ⟨?_, rfl, rfl⟩
    have := (foldSet_ok _ h6).congr (S' := couples Z.direction (oc.map (conductorsBefore b.inLevel ol + ·))
          (ic.map (conductorsBefore b.inLevel il + ·))) (fun x y => by
      constructor
      · rintro ⟨⟨i, j⟩, hij, hc⟩
        rw [List.mem_flatMap] at hij
        obtain ⟨i', hi', hj'⟩ := hij
        obtain ⟨j', hj'', he⟩ := List.mem_map.1 hj'
        obtain ⟨rfl, rfl⟩ := Prod.mk.inj he
        rcases hc with ⟨hd, hy, hx⟩ | ⟨hd, hx, hy⟩
        · rw [List.mem_singleton] at hx hy
          exact Or.inl ⟨hd, hy ▸ hi', hx ▸ hj''⟩
        · rw [List.mem_singleton] at hx hy
          exact Or.inr ⟨hd, hx ▸ hi', hy ▸ hj''⟩
      · rintro (⟨hd, hy, hx⟩ | ⟨hd, hx, hy⟩)
        · exact ⟨(y, x), List.mem_flatMap.2 ⟨y, hy, List.mem_map.2 ⟨x, hx, rfl⟩⟩, Or.inl ⟨hd, by simp, by simp⟩⟩
        · exact ⟨(x, y), List.mem_flatMap.2 ⟨x, hx, List.mem_map.2 ⟨y, hy, rfl⟩⟩, Or.inr ⟨hd, by simp, by simp⟩⟩)
    exact ⟨this.dt, this.inside, this.poles, this.none, this.outside⟩

/-- **C96** Every other side raises. -/
theorem C96_sides (b : MTLD n p) {side : String} (h1 : side ≠ "initial") (h2 : side ≠ "end") (ol il : ℕ)
    (oc ic : List ℕ) (Z : TransferModel) :
    b.setConnectorTransferImpedance side ol oc il ic Z = .error .Exception := by
  simp [MTLD.setConnectorTransferImpedance, h1, h2, bind, Except.bind]

/-- **C96, non-vacuity**: both connectors of a bundle of two conductors on two levels can be set. -/
theorem C96_example (b : MTLD 2 1) (hl : b.inLevel = [1, 1]) (hdt : b.tz.dt ≠ 0) (hm : 2 ≤ b.m) :
    (∃ b', b.setConnectorTransferImpedance "initial" 0 [0] 1 [0] ⟨⟨5, 2, [-1], [0], [1], [0]⟩, none, "in"⟩ = .ok b' ∧
      b'.tz.d 0 1 0 = -5 ∧ b'.tz.d (b.m - 1) 1 0 = b.tz.d (b.m - 1) 1 0) ∧
    ∃ b', b.setConnectorTransferImpedance "end" 0 [0] 1 [0] ⟨⟨5, 2, [-1], [0], [1], [0]⟩, none, "in"⟩ = .ok b' ∧
      b'.tz.d (b.m - 1) 1 0 = -5 ∧ b'.tz.d 0 1 0 = b.tz.d 0 1 0 := by
  have key : ∀ cell, ∃ D', b.tz.setTransferImpedanceAt b.inLevel 0 [0] 1 [0] cell
      ⟨⟨5, 2, [-1], [0], [1], [0]⟩, none, "in"⟩ = .ok D' := by
    intro cell
    unfold Disp.setTransferImpedanceAt
    simp only
    rw [show pyAssert (adjacentLevels 0 1) = .ok () from if_pos (by decide)]
    unfold raiseIf
    rw [if_neg (by simp), show RationalModel.checkLengths ⟨5, 2, [-1], [0], [1], [0]⟩ = .ok () from
      checkLengths_ok_iff.2 (by simp [RationalModel.LengthsOk])]
    simp only [bind, Except.bind]
    rw [if_neg (by simp), if_neg (by
      rintro (h | ⟨s, h1, h2⟩)
      · exact hdt h
      · simp only [List.length_singleton, Nat.lt_one_iff] at h1
        subst h1
        simp [RationalModel.pole] at h2)]
    simp [forPairs, conductorsBefore, Disp.setTransferBody, Disp.setTransferPair, hl]
  refine ⟨?_, ?_⟩
  · obtain ⟨D', hD⟩ := key 0
    have hb : b.setConnectorTransferImpedance "initial" 0 [0] 1 [0] ⟨⟨5, 2, [-1], [0], [1], [0]⟩, none, "in"⟩ =
        .ok { b with tz := D' } := by
      simp [MTLD.setConnectorTransferImpedance, hD, bind, Except.bind]
    refine ⟨_, hb, ?_⟩
    obtain ⟨cell, hc, -, hs, -⟩ := C96_effect hb (by simp)
    obtain rfl : cell = 0 := by rcases hc with h | h
                                · exact h.2
                                · exact absurd h.1 (by decide)
    refine ⟨?_, (hs.outside _ _ _ (by omega)).1⟩
    have := (hs.inside 1 0 (by simp [couples, hl, conductorsBefore])).1
    simpa using this
  · obtain ⟨D', hD⟩ := key (b.m - 1)
    have hb : b.setConnectorTransferImpedance "end" 0 [0] 1 [0] ⟨⟨5, 2, [-1], [0], [1], [0]⟩, none, "in"⟩ =
        .ok { b with tz := D' } := by
      simp [MTLD.setConnectorTransferImpedance, hD, bind, Except.bind]
    refine ⟨_, hb, ?_⟩
    obtain ⟨cell, hc, -, hs, -⟩ := C96_effect hb (by simp)
    obtain rfl : cell = b.m - 1 := by rcases hc with h | h
                                      · exact absurd h.1 (by decide)
                                      · exact h.2
    refine ⟨?_, (hs.outside _ _ _ (by omega)).1⟩
    have := (hs.inside 1 0 (by simp [couples, hl, conductorsBefore])).1
    simpa using this

/-! ## C97 -/

/-- **C97 is false of the code**: setting a zero transfer impedance on a connector does not remove the coupling that
the cable's transfer impedance put on that cell: nothing is changed. -/
theorem C97_refuted (b : MTLD n p) {side : String} (hs : side = "initial" ∨ side = "end") {ol il : ℕ}
    (hl : adjacentLevels ol il) (oc ic : List ℕ) (direction : String) :
    b.setConnectorTransferImpedance side ol oc il ic ⟨⟨0, 0, [], [], [], []⟩, none, direction⟩ = .ok b := by
  have := fun cell => C40_trivial_at b.tz b.inLevel (cell := cell) oc ic (Z := ⟨⟨0, 0, [], [], [], []⟩, none, direction⟩)
    (ol := ol) (il := il)
  rcases hs with rfl | rfl
  · simp [MTLD.setConnectorTransferImpedance, bind, Except.bind, Disp.setTransferImpedanceAt, pyAssert, hl, raiseIf,
      RationalModel.checkLengths]
  · simp [MTLD.setConnectorTransferImpedance, bind, Except.bind, Disp.setTransferImpedanceAt, pyAssert, hl, raiseIf,
      RationalModel.checkLengths]

/-- **C97, the part that holds**: any non-zero model, however small, does replace the resistive coupling of the cell by
its own value. -/
theorem C97_nonzero_partial {b b' : MTLD n p} {ol il : ℕ} {oc ic : List ℕ} {Z : TransferModel}
    (h : b.setConnectorTransferImpedance "initial" ol oc il ic Z = .ok b')
    (hZ : ¬ (Z.cte = 0 ∧ Z.prop = 0 ∧ Z.polesReal = [])) (x y : Fin n)
    (hxy : couples Z.direction (oc.map (conductorsBefore b.inLevel ol + ·))
          (ic.map (conductorsBefore b.inLevel il + ·)) x y) :
    b'.tz.d 0 x y = -(Z.cte / Z.factor.getD 1) ∧ b'.tz.e 0 x y = -(Z.prop / Z.factor.getD 1) := by
  obtain ⟨cell, hc, -, hs, -⟩ := C96_effect h hZ
  obtain rfl : cell = 0 := by rcases hc with h | h
                              · exact h.2
                              · exact absurd h.1 (by decide)
  exact hs.inside x y hxy

/-! ## C45 for plane waves -/

/-- **C45** For the source type `"Planewave"` the weights are divided by the number of nodes between the ends: they
cover the requested length divided by that number. -/
theorem C45_planewave_partial {b : MTLD n p} {a d : V3} {h : ℝ} (hU : Uniform b.u b.du b.m a d h)
    {start stop : Pos} {x y : ℝ} (hx : start.toV3 = a + x • d) (hy : stop.toV3 = a + y • d)
    (hb1 : ¬ outOfBox (b.u 0) (b.u b.m) start.toV3) (hb2 : ¬ outOfBox (b.u 0) (b.u b.m) stop.toV3)
    {si ei : ℕ} (hsi : nearest b.u b.m start.toV3 = si) (hei : nearest b.u b.m stop.toV3 = ei) (hm : ei ≤ b.m)
    (hs : x = si * h ∨ (1 ≤ si ∧ 1 / 10 ^ 10 < |x - si * h|))
    (he : y = ei * h ∨ (ei < b.m ∧ 1 / 10 ^ 10 < |y - ei * h|))
    (hgap : si + 2 ≤ ei ∨ (si < ei ∧ x = si * h ∧ y = ei * h))
    (c : Fin n) (mag : ℝ → ℝ) :
    ∃ w : ℕ → ℝ, b.addLocalizedField start stop c mag "Planewave" =
        .ok { b with eL := fun k j t => b.eL k j t + if j = c then w k * mag t else 0 } ∧
      (∑ k ∈ Finset.range b.m, w k) * h * ((ei : ℝ) - si) = y - x := by
  obtain ⟨D, hD, htot, hkeys⟩ := sourceFactors_straight hU hx hy hsi hei hm hs he
    (hgap.imp id fun h => ⟨h.1.le, h.2⟩)
  obtain ⟨w, hw, hsum⟩ := fold_addWeighted (m := b.m) (c := c) (mag := mag) (scale := (ei : ℝ) - si) D b.eL hkeys
  have hlt : si < ei := by omega
  have hne : ((ei : ℝ) - si) ≠ 0 := by
    have : (si : ℝ) < ei := by exact_mod_cast hlt
    linarith
  refine ⟨w, ?_, by rw [hsum, ← htot]; field_simp⟩
  unfold MTLD.addLocalizedField
  simp only [raiseIf]
  rw [if_neg hb1, if_neg hb2, hD]
  simp only [bind, Except.bind]
  rw [hsi, hei, if_neg (fun h => absurd h.2.2 (by omega))]
  simp only [if_true]
  rw [hw]

/-- **C45, non-vacuity**: a plane wave from node 0 to node 2 of the demo bundle. -/
theorem C45_planewave_example (p : ℕ) : ∃ w : ℕ → ℝ,
    (MTLD.assemble ⟨1, demoBare p⟩ (demoLevels p) "b").addLocalizedField (.float 0) (.float 2)
      ⟨0, by simp [demoLevels, totalConductors]⟩ (fun t => t) "Planewave" =
      .ok { MTLD.assemble ⟨1, demoBare p⟩ (demoLevels p) "b" with
        eL := fun k j t => (MTLD.assemble ⟨1, demoBare p⟩ (demoLevels p) "b").eL k j t +
          if j = ⟨0, by simp [demoLevels, totalConductors]⟩ then w k * t else 0 } ∧
    (∑ k ∈ Finset.range 2, w k) * 1 * (((2 : ℕ) : ℝ) - ((0 : ℕ) : ℝ)) = 2 - 0 := by
  have u0 : (MTLD.assemble ⟨1, demoBare p⟩ (demoLevels p) "b").u 0 = ![0, 0, 0] := rfl
  have u2 : (MTLD.assemble ⟨1, demoBare p⟩ (demoLevels p) "b").u 2 = ![0, 0, 2] := rfl
  have hU := demoBundle_uniform p
  have hinj : ∀ k : ℕ, k ≤ 2 → ∀ a ≤ 2, (MTLD.assemble ⟨1, demoBare p⟩ (demoLevels p) "b").u a =
      (MTLD.assemble ⟨1, demoBare p⟩ (demoLevels p) "b").u k → a = k := by
    intro k hk a ha h
    rw [hU.u a ha, hU.u k hk] at h
    have := congrFun h 2
    simp at this
    exact_mod_cast this
  refine C45_planewave_partial (b := MTLD.assemble ⟨1, demoBare p⟩ (demoLevels p) "b") (a := 0) (d := ![0, 0, 1])
    (h := 1) (x := 0) (y := 2) (si := 0) (ei := 2) (hU) ?_ ?_ ?_ ?_ ?_ ?_ le_rfl (Or.inl (by norm_num))
    (Or.inl (by norm_num)) (Or.inl le_rfl) _ _
  · funext j; fin_cases j <;> simp [Pos.toV3]
  · funext j; fin_cases j <;> simp [Pos.toV3]
  · rintro (⟨j, h⟩ | ⟨j, h⟩) <;> revert h <;> fin_cases j <;> simp [Pos.toV3, MTLD.assemble, demoBare]
  · rintro (⟨j, h⟩ | ⟨j, h⟩) <;> revert h <;> fin_cases j <;> simp [Pos.toV3, MTLD.assemble, demoBare]
  · rw [Pos.toV3, ← u0]; exact nearest_node _ _ 0 (by simp) (hinj 0 (by omega))
  · rw [Pos.toV3, ← u2]; exact nearest_node _ _ 2 le_rfl (hinj 2 le_rfl)

end Mtln
