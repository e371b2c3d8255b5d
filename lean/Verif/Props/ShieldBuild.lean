import Verif.Props.Shield
import Verif.Props.ConnectorTransfer

/-! # C169: bundles with transfer impedances that lead inward -/

namespace Mtln

open Matrix

variable {n p a : ℕ}

/-- What the proof keeps besides `MTLD.Shows`. -/
structure MTLD.Outside (L : ℕ) (h : a ≤ n) (b : MTLD n p) (s : MTLD a p) : Prop extends MTLD.Shows h b s where
  u : s.u = b.u
  du : s.du = b.du
  tdt : s.tz.dt = b.tz.dt
  s1 : s.tz.q1sum = vSum s.tz.q1
  s2 : s.tz.q2sum = vSum s.tz.q2
  levels : s.inLevel = b.inLevel.take L
  count : a = conductorsBefore b.inLevel L

theorem before_mono (levels : List ℕ) {i j : ℕ} (h : i ≤ j) : conductorsBefore levels i ≤ conductorsBefore levels j := by
  unfold conductorsBefore
  obtain ⟨k, rfl⟩ := Nat.exists_eq_add_of_le h
  rw [List.take_add, List.sum_append]
  exact Nat.le_add_right _ _

theorem before_take (levels : List ℕ) {i L : ℕ} (h : i ≤ L) : conductorsBefore (levels.take L) i = conductorsBefore levels i := by
  unfold conductorsBefore
  rw [List.take_take, Nat.min_eq_left h]

theorem vSum_shows {h : a ≤ n} {q : ℕ → Fin n → Fin n → QEntry p} {q' : ℕ → Fin a → Fin a → QEntry p} {k : ℕ} (H : ShowsPoles h (q k) (q' k)) :
    ShowsMat h (vSum q k) (vSum q' k) := by
  intro x
  refine ⟨fun y => ?_, fun y hy => ?_⟩
  · show poleSum _ = poleSum _
    rw [(H x).1 y]
  · show poleSum _ = 0
    rw [(H x).2 y hy]
    simp [poleSum]

/-! ## The constructor -/

theorem blockEntry_append {α : Type} (z : α) : ∀ (pre post : List (Σ n, Fin n → Fin n → α)) (i j : ℕ), i < (pre.map Sigma.fst).sum →
    blockEntry z (pre ++ post) i j = if j < (pre.map Sigma.fst).sum then blockEntry z pre i j else z
  | [], post, i, j, h => by simp at h
  | ⟨n, M⟩ :: pre, post, i, j, h => by
    simp only [List.map_cons, List.sum_cons] at h ⊢
    simp only [List.cons_append, blockEntry]
    by_cases hi : i < n
    · rw [dif_pos hi, dif_pos hi]
      by_cases hj : j < n
      · rw [dif_pos hj, if_pos (by omega)]
      · rw [dif_neg hj]
        simp
    · rw [dif_neg hi, dif_neg hi]
      by_cases hj : j < n
      · rw [if_pos hj, if_pos hj]
        simp
      · rw [if_neg hj, if_neg hj, blockEntry_append z pre post (i - n) (j - n) (by omega)]
        by_cases hk : j < n + (pre.map Sigma.fst).sum
        · rw [if_pos hk, if_pos (by omega)]
        · rw [if_neg hk, if_neg (by omega)]

theorem total_append (pre post : List (AnyLine p)) : totalConductors (pre ++ post) = totalConductors pre + totalConductors post := by
  simp [totalConductors]

theorem blockMat_shows {all pre post : List (AnyLine p)} (he : all = pre ++ post) (h : totalConductors pre ≤ totalConductors all)
    (f : ∀ {n}, MTL n p → ℕ → Mat n) (k : ℕ) :
    ShowsMat h (blockMat _ all f k) (blockMat _ pre f k) := by
  subst he
  have hl : ((pre.map fun L => (⟨L.1, fun i j => f L.2 k i j⟩ : Σ n, Fin n → Fin n → ℝ)).map Sigma.fst).sum = totalConductors pre := by
    simp [totalConductors, Function.comp_def]
  intro x
  have hx : (x : ℕ) < ((pre.map fun L => (⟨L.1, fun i j => f L.2 k i j⟩ : Σ n, Fin n → Fin n → ℝ)).map Sigma.fst).sum := by
    rw [hl]; exact x.2
  refine ⟨fun y => ?_, fun y hy => ?_⟩
  · simp only [blockMat, of_apply, List.map_append, Fin.val_castLE]
    rw [blockEntry_append _ _ _ _ _ hx, if_pos (by rw [hl]; exact y.2)]
  · simp only [blockMat, of_apply, List.map_append, Fin.val_castLE]
    rw [blockEntry_append _ _ _ _ _ hx, if_neg (by rw [hl]; omega)]

theorem blockQ_shows {all pre post : List (AnyLine p)} (he : all = pre ++ post) (h : totalConductors pre ≤ totalConductors all)
    (f : ∀ {n}, MTL n p → ℕ → Fin n → Fin n → QEntry p) (k : ℕ) :
    ShowsPoles h (blockQ _ all f k) (blockQ _ pre f k) := by
  subst he
  have hl : ((pre.map fun L => (⟨L.1, f L.2 k⟩ : Σ n, Fin n → Fin n → QEntry p)).map Sigma.fst).sum = totalConductors pre := by
    simp [totalConductors, Function.comp_def]
  intro x
  have hx : (x : ℕ) < ((pre.map fun L => (⟨L.1, f L.2 k⟩ : Σ n, Fin n → Fin n → QEntry p)).map Sigma.fst).sum := by
    rw [hl]; exact x.2
  refine ⟨fun y => ?_, fun y hy => ?_⟩
  · simp only [blockQ, List.map_append, Fin.val_castLE]
    rw [blockEntry_append _ _ _ _ _ hx, if_pos (by rw [hl]; exact y.2)]
  · simp only [blockQ, List.map_append, Fin.val_castLE]
    rw [blockEntry_append _ _ _ _ _ hx, if_neg (by rw [hl]; omega)]
    rfl

theorem assemble_outside (first : AnyLine p) (outer inner : List (List (AnyLine p))) (name : String)
    (h : totalConductors outer.flatten ≤ totalConductors (outer ++ inner).flatten)
    (hdt : minDt (outer ++ inner).flatten = minDt outer.flatten) :
    (MTLD.assemble first (outer ++ inner) name).Outside outer.length h (MTLD.assemble first outer name) := by
  have hM : ∀ (f : ∀ {n}, MTL n p → ℕ → Mat n) (k : ℕ), ShowsMat h (blockMat _ (outer ++ inner).flatten f k) (blockMat _ outer.flatten f k) := by
    intro f k
    exact blockMat_shows List.flatten_append h f k
  have hQ : ∀ (f : ∀ {n}, MTL n p → ℕ → Fin n → Fin n → QEntry p) (k : ℕ),
      ShowsPoles h (blockQ _ (outer ++ inner).flatten f k) (blockQ _ outer.flatten f k) := by
    intro f k
    exact blockQ_shows List.flatten_append h f k
  exact {
    name := rfl
    m := rfl
    dun := rfl
    dt := hdt.symm
    l := hM MTL.l
    c := hM MTL.c
    r := hM MTL.r
    g := hM MTL.g
    tz := ⟨hM fun L => L.conn.d, hM fun L => L.conn.e, fun k => vSum_shows (hQ (fun L => L.conn.q1) k),
      fun k => vSum_shows (hQ (fun L => L.conn.q2) k), hQ fun L => L.conn.q1, hQ fun L => L.conn.q2, hQ fun L => L.conn.q3⟩
    v := fun _ _ => rfl
    i := fun _ _ => rfl
    phi := fun _ _ => rfl
    eL := fun _ _ => rfl
    eT := fun _ _ => rfl
    probes := .nil
    u := rfl
    du := rfl
    tdt := hdt.symm
    s1 := rfl
    s2 := rfl
    levels := by simp [MTLD.assemble]
    count := by
      simp only [MTLD.assemble, conductorsBefore, List.map_append, totalConductors]
      rw [List.take_left' (by simp)]
      rw [List.map_flatten, List.sum_flatten, List.map_map]
      rfl }

/-- The bundle of the outer levels, seen in the bundle of all levels. -/
theorem new_outside {outer inner : List (List (AnyLine p))} {name : String} {B S : AnyBundle p}
    (hB : MTLD.new (outer ++ inner) name = .ok B) (hS : MTLD.new outer name = .ok S) (hdt : S.2.dt = B.2.dt) :
    ∃ h : S.1 ≤ B.1, B.2.Outside outer.length h S.2 := by
  match outer, hS with
  | [] , hS => simp [MTLD.new] at hS
  | [] :: o, hS => simp [MTLD.new] at hS
  | (x :: y :: z) :: o, hS => simp [MTLD.new] at hS
  | [first] :: o, hS =>
    simp only [MTLD.new, List.cons_append] at hS hB
    split_ifs at hS hB with h1 h2
    cases hS
    cases hB
    have hle : totalConductors ([first] :: o).flatten ≤ totalConductors (([first] :: o) ++ inner).flatten := by
      rw [List.flatten_append, total_append]
      exact Nat.le_add_right _ _
    exact ⟨hle, assemble_outside first ([first] :: o) inner name hle hdt.symm⟩

/-! ## Transfer impedances -/

theorem Disp.Shows.change {h : a ≤ n} {D D1 : Disp n p} {E E1 : Disp a p} {l : List (ℕ × ℕ)} {d e : ℝ} {A B C : ℕ → ℂ}
    (H : D.Shows h E) (hD : TransferChange D D1 l d e A B C) (hE : TransferChange E E1 l d e A B C) (hl : ∀ q ∈ l, q.2 < a) :
    Disp.Shows h { D1 with q1sum := vSum D1.q1, q2sum := vSum D1.q2 } { E1 with q1sum := vSum E1.q1, q2sum := vSum E1.q2 } := by
  have h0 : ∀ (x y : ℕ), a ≤ y → l.count (x, y) = 0 := by
    intro x y hy
    rw [List.count_eq_zero]
    intro hm
    have := hl _ hm
    simp only at this
    omega
  have hq1 : ∀ k, ShowsPoles h (D1.q1 k) (E1.q1 k) := by
    intro k x
    refine ⟨fun y => ?_, fun y hy => ?_⟩
    · funext s
      rw [hD.q1, hE.q1, (H.q1 k x).1 y]
      rfl
    · funext s
      rw [hD.q1, (H.q1 k x).2 y hy, h0 _ _ hy]
      simp
  have hq2 : ∀ k, ShowsPoles h (D1.q2 k) (E1.q2 k) := by
    intro k x
    refine ⟨fun y => ?_, fun y hy => ?_⟩
    · funext s
      rw [hD.q2, hE.q2, (H.q2 k x).1 y]
      rfl
    · funext s
      rw [hD.q2, (H.q2 k x).2 y hy, h0 _ _ hy]
      simp
  have hq3 : ∀ k, ShowsPoles h (D1.q3 k) (E1.q3 k) := by
    intro k x
    refine ⟨fun y => ?_, fun y hy => ?_⟩
    · funext s
      rw [hD.q3, hE.q3, (H.q3 k x).1 y]
      rfl
    · funext s
      rw [hD.q3, (H.q3 k x).2 y hy, h0 _ _ hy]
      simp
  refine ⟨fun k x => ⟨fun y => ?_, fun y hy => ?_⟩, fun k x => ⟨fun y => ?_, fun y hy => ?_⟩, fun k => vSum_shows (hq1 k),
    fun k => vSum_shows (hq2 k), hq1, hq2, hq3⟩
  · show D1.d k _ _ = E1.d k _ _
    rw [hD.d, hE.d, (H.d k x).1 y]
    rfl
  · show D1.d k _ _ = 0
    rw [hD.d, (H.d k x).2 y hy, h0 _ _ hy]
    simp
  · show D1.e k _ _ = E1.e k _ _
    rw [hD.e, hE.e, (H.e k x).1 y]
    rfl
  · show D1.e k _ _ = 0
    rw [hD.e, (H.e k x).2 y hy, h0 _ _ hy]
    simp

/-- Entries of rows of the outer conductors are kept. -/
theorem Disp.Shows.keep {h : a ≤ n} {D D1 : Disp n p} {E : Disp a p} (H : D.Shows h E) (s1 : E.q1sum = vSum E.q1) (s2 : E.q2sum = vSum E.q2)
    (hk : ∀ k (x y : Fin n), (x : ℕ) < a → D1.d k x y = D.d k x y ∧ D1.e k x y = D.e k x y ∧ (D1.q1 k x y).val = (D.q1 k x y).val ∧
      (D1.q2 k x y).val = (D.q2 k x y).val ∧ (D1.q3 k x y).val = (D.q3 k x y).val) :
    Disp.Shows h { D1 with q1sum := vSum D1.q1, q2sum := vSum D1.q2 } E := by
  have hk : ∀ k (x : Fin a) (y : Fin n), _ := fun k x y => hk k (Fin.castLE h x) y x.2
  have hq1 : ∀ k, ShowsPoles h (D1.q1 k) (E.q1 k) := fun k x =>
    ⟨fun y => (hk k x _).2.2.1.trans ((H.q1 k x).1 y), fun y hy => (hk k x y).2.2.1.trans ((H.q1 k x).2 y hy)⟩
  have hq2 : ∀ k, ShowsPoles h (D1.q2 k) (E.q2 k) := fun k x =>
    ⟨fun y => (hk k x _).2.2.2.1.trans ((H.q2 k x).1 y), fun y hy => (hk k x y).2.2.2.1.trans ((H.q2 k x).2 y hy)⟩
  have hq3 : ∀ k, ShowsPoles h (D1.q3 k) (E.q3 k) := fun k x =>
    ⟨fun y => (hk k x _).2.2.2.2.trans ((H.q3 k x).1 y), fun y hy => (hk k x y).2.2.2.2.trans ((H.q3 k x).2 y hy)⟩
  refine ⟨fun k x => ⟨fun y => (hk k x _).1.trans ((H.d k x).1 y), fun y hy => (hk k x y).1.trans ((H.d k x).2 y hy)⟩,
    fun k x => ⟨fun y => (hk k x _).2.1.trans ((H.e k x).1 y), fun y hy => (hk k x y).2.1.trans ((H.e k x).2 y hy)⟩,
    fun k => ?_, fun k => ?_, hq1, hq2, hq3⟩
  · rw [s1]; exact vSum_shows (hq1 k)
  · rw [s2]; exact vSum_shows (hq2 k)

theorem forPairs_in {nx : ℕ} {d e : ℝ} {nPoles : ℕ} {pole res : ℕ → ℂ} {dir : String} : ∀ (l : List (ℕ × ℕ)) {D D' : Disp n p},
    l.foldlM (fun D ij => Disp.transferBody D nx ij.1 ij.2 d e nPoles pole res dir) D = .ok D' →
    ∀ q ∈ l.flatMap fun ij => touched dir ij.1 ij.2, q.1 < n ∧ q.2 < n
  | [], D, D', h => by simp
  | ij :: l, D, D', h => by
    rw [List.foldlM_cons] at h
    obtain ⟨D1, h1, h2⟩ := bind_ok_iff.1 h
    intro q hq
    rw [List.flatMap_cons, List.mem_append] at hq
    rcases hq with hq | hq
    · unfold Disp.transferBody at h1
      unfold touched at hq
      split_ifs at h1 hq
      · rw [List.mem_singleton] at hq
        subst hq
        exact (addTransferPair_ok h1).1
      · rw [List.mem_singleton] at hq
        subst hq
        exact (addTransferPair_ok h1).1
      · simp at hq
    · exact forPairs_in l h2 q hq

theorem inner_transfer {h : a ≤ n} {D D' : Disp n p} {E : Disp a p} (H : D.Shows h E) (s1 : E.q1sum = vSum E.q1) (s2 : E.q2sum = vSum E.q2)
    {nx : ℕ} {levels : List ℕ} {ol il : ℕ} {oc ic : List ℕ} {Z : TransferModel} (hZ : Z.direction ≠ "out")
    (ha : a ≤ conductorsBefore levels il) (hD : D.addTransferImpedance nx levels ol oc il ic Z = .ok D') :
    D'.Shows h E ∧ D'.dt = D.dt := by
  obtain ⟨-, -, -, ⟨-, rfl⟩ | ⟨-, -, -, D1, h4, rfl⟩⟩ := addTransferImpedance_ok hD
  · exact ⟨H, rfl⟩
  · have t := forPairs_ok _ h4
    have h0 : ∀ (x y : ℕ), x < a → ((allPairs (oc.map (conductorsBefore levels ol + ·))
        (ic.map (conductorsBefore levels il + ·))).flatMap fun ij => touched Z.direction ij.1 ij.2).count (x, y) = 0 := by
      intro x y hx
      rw [List.count_eq_zero]
      intro hm
      obtain ⟨ij, hij, hq⟩ := List.mem_flatMap.1 hm
      unfold touched at hq
      rw [if_neg hZ] at hq
      split_ifs at hq
      · rw [List.mem_singleton] at hq
        obtain ⟨i, -, hj⟩ := List.mem_flatMap.1 hij
        obtain ⟨j, hj', hij'⟩ := List.mem_map.1 hj
        obtain ⟨c, -, hc⟩ := List.mem_map.1 hj'
        subst hij'
        simp only [Prod.mk.injEq] at hq
        omega
      · simp at hq
    refine ⟨H.keep s1 s2 fun k x y hx => ⟨?_, ?_, ?_, ?_, ?_⟩, t.dt⟩
    · rw [t.d, h0 _ _ hx]; simp
    · rw [t.e, h0 _ _ hx]; simp
    · funext s; rw [t.q1, h0 _ _ hx]; simp
    · funext s; rw [t.q2, h0 _ _ hx]; simp
    · funext s; rw [t.q3, h0 _ _ hx]; simp

theorem outer_transfer {h : a ≤ n} {D D' : Disp n p} {E E' : Disp a p} (H : D.Shows h E) (hdt : E.dt = D.dt) (s1 : E.q1sum = vSum E.q1)
    (s2 : E.q2sum = vSum E.q2)
    {nx : ℕ} {levels levels' : List ℕ} {ol il : ℕ} {oc ic : List ℕ} {Z : TransferModel}
    (ho : conductorsBefore levels' ol = conductorsBefore levels ol) (hi : conductorsBefore levels' il = conductorsBefore levels il)
    (hD : D.addTransferImpedance nx levels ol oc il ic Z = .ok D') (hE : E.addTransferImpedance nx levels' ol oc il ic Z = .ok E') :
    D'.Shows h E' ∧ E'.dt = D'.dt ∧ E'.q1sum = vSum E'.q1 ∧ E'.q2sum = vSum E'.q2 := by
  obtain ⟨-, -, -, ⟨z1, rfl⟩ | ⟨z1, -, -, D1, h4, rfl⟩⟩ := addTransferImpedance_ok hD
  · obtain ⟨-, -, -, ⟨-, rfl⟩ | ⟨z2, -⟩⟩ := addTransferImpedance_ok hE
    · exact ⟨H, hdt, s1, s2⟩
    · exact absurd z1 z2
  · obtain ⟨-, -, -, ⟨z2, -⟩ | ⟨-, -, -, E1, g4, rfl⟩⟩ := addTransferImpedance_ok hE
    · exact absurd z2 z1
    · rw [ho, hi] at g4
      have t := forPairs_ok _ h4
      have t' := forPairs_ok _ g4
      rw [hdt] at t'
      exact ⟨H.change t t' fun q hq => (forPairs_in _ g4 q hq).2, (t'.dt.trans hdt).trans t.dt.symm, rfl, rfl⟩

theorem inner_connector {h : a ≤ n} {b b' : MTLD n p} {E : Disp a p} (H : b.tz.Shows h E) (s1 : E.q1sum = vSum E.q1)
    (s2 : E.q2sum = vSum E.q2) {side : String} {ol il : ℕ} {oc ic : List ℕ} {Z : TransferModel} (hZ : Z.direction ≠ "out")
    (ha : a ≤ conductorsBefore b.inLevel il) (hb : b.setConnectorTransferImpedance side ol oc il ic Z = .ok b') :
    b' = { b with tz := b'.tz } ∧ b'.tz.Shows h E ∧ b'.tz.dt = b.tz.dt := by
  by_cases hz : Z.cte = 0 ∧ Z.prop = 0 ∧ Z.polesReal = []
  · unfold MTLD.setConnectorTransferImpedance at hb
    obtain ⟨cell, -, hb⟩ := bind_ok_iff.1 hb
    obtain ⟨tz, ht, hb⟩ := bind_ok_iff.1 hb
    cases hb
    unfold Disp.setTransferImpedanceAt at ht
    simp only [bind_ok_iff, pyAssert_ok_iff, raiseIf_ok_iff, checkLengths_ok_iff] at ht
    obtain ⟨_, -, _, -, _, -, ht⟩ := ht
    rw [if_pos (by simp [hz])] at ht
    cases ht
    exact ⟨rfl, H, rfl⟩
  · obtain ⟨cell, -, e1, hs, t1, t2⟩ := C96_effect hb hz
    refine ⟨e1, ?_, hs.dt⟩
    have := H.keep (D1 := b'.tz) s1 s2 fun k x y hx => by
      obtain ⟨g1, g2, g3, g4, g5⟩ := hs.outside k x y (by
        rintro ⟨-, (⟨-, -, hx'⟩ | ⟨hd, -⟩)⟩
        · obtain ⟨c, -, hc⟩ := List.mem_map.1 hx'
          omega
        · exact hZ hd)
      exact ⟨g1, g2, by rw [g3], by rw [g4], by rw [g5]⟩
    rwa [← t1, ← t2] at this

/-! ## Localized fields -/

theorem addWeighted_inner {h : a ≤ n} {m : ℕ} {x : Fin n} (hx : a ≤ (x : ℕ)) {f : ℝ → ℝ} {E E' : Src n} {S : Src a}
    (H : ∀ k, ShowsCol h (E k) (S k)) {index : ℤ} {w : ℝ} (he : addWeighted m x f E index w = .ok E') : ∀ k, ShowsCol h (E' k) (S k) := by
  unfold addWeighted at he
  obtain ⟨cell, -, he⟩ := bind_ok_iff.1 he
  cases he
  intro k y
  funext t
  show (if _ then _ else _) = _
  rw [if_neg]
  · rw [H k y]
  · rintro ⟨-, rfl⟩
    have := y.2
    simp only [Fin.val_castLE] at hx
    omega

theorem addWeighted_outer {h : a ≤ n} {m : ℕ} {x : Fin n} {y : Fin a} (hx : (x : ℕ) = y) {f : ℝ → ℝ} {E E' : Src n} {S S' : Src a}
    (H : ∀ k, ShowsCol h (E k) (S k)) {index : ℤ} {w : ℝ} (he : addWeighted m x f E index w = .ok E')
    (hs : addWeighted m y f S index w = .ok S') : ∀ k, ShowsCol h (E' k) (S' k) := by
  unfold addWeighted at he hs
  obtain ⟨cell, hc, he⟩ := bind_ok_iff.1 he
  obtain ⟨cell', hc', hs⟩ := bind_ok_iff.1 hs
  rw [hc] at hc'
  cases hc'
  cases he
  cases hs
  obtain rfl : x = Fin.castLE h y := Fin.ext hx
  intro k z
  funext t
  show (if _ then _ else _) = if _ then _ else _
  rw [H k z]
  have : (Fin.castLE h z = Fin.castLE h y) ↔ z = y := (Fin.castLE_injective h).eq_iff
  simp only [this]

theorem foldWeighted_inner {h : a ≤ n} {m : ℕ} {x : Fin n} (hx : a ≤ (x : ℕ)) {f : ℝ → ℝ} {S : Src a} {c : ℝ} : ∀ (d : Factors) {E E' : Src n},
    (∀ k, ShowsCol h (E k) (S k)) → d.foldlM (fun eL (e : ℤ × ℝ) => addWeighted m x f eL e.1 (e.2 / c)) E = .ok E' → ∀ k, ShowsCol h (E' k) (S k)
  | [], E, E', H, he => by
    simp only [List.foldlM_nil, pure, Except.pure, Except.ok.injEq] at he
    subst he
    exact H
  | e :: d, E, E', H, he => by
    rw [List.foldlM_cons] at he
    obtain ⟨E1, h1, h2⟩ := bind_ok_iff.1 he
    exact foldWeighted_inner hx d (addWeighted_inner hx H h1) h2

theorem foldWeighted_outer {h : a ≤ n} {m : ℕ} {x : Fin n} {y : Fin a} (hx : (x : ℕ) = y) {f : ℝ → ℝ} {c : ℝ} : ∀ (d : Factors)
    {E E' : Src n} {S S' : Src a},
    (∀ k, ShowsCol h (E k) (S k)) → d.foldlM (fun eL (e : ℤ × ℝ) => addWeighted m x f eL e.1 (e.2 / c)) E = .ok E' →
    d.foldlM (fun eL (e : ℤ × ℝ) => addWeighted m y f eL e.1 (e.2 / c)) S = .ok S' → ∀ k, ShowsCol h (E' k) (S' k)
  | [], E, E', S, S', H, he, hs => by
    simp only [List.foldlM_nil, pure, Except.pure, Except.ok.injEq] at he hs
    subst he hs
    exact H
  | e :: d, E, E', S, S', H, he, hs => by
    rw [List.foldlM_cons] at he hs
    obtain ⟨E1, h1, h2⟩ := bind_ok_iff.1 he
    obtain ⟨S1, g1, g2⟩ := bind_ok_iff.1 hs
    exact foldWeighted_outer hx d (addWeighted_outer hx H h1 g1) h2 g2

theorem addLocalizedField_fold {b b' : MTLD n p} {start stop : Pos} {x : Fin n} {f : ℝ → ℝ} {type : String}
    (hb : b.addLocalizedField start stop x f type = .ok b') :
    ∃ d, sourceFactors b.u b.du b.m start.toV3 stop.toV3 = .ok d ∧
      d.foldlM (fun eL (e : ℤ × ℝ) => addWeighted b.m x f eL e.1 (e.2 / if type = "Planewave" then
        ((nearest b.u b.m stop.toV3 : ℕ) : ℝ) - (nearest b.u b.m start.toV3 : ℕ) else 1)) b.eL = .ok b'.eL ∧ b' = { b with eL := b'.eL } := by
  unfold MTLD.addLocalizedField at hb
  obtain ⟨_, -, hb⟩ := bind_ok_iff.1 hb
  obtain ⟨_, -, hb⟩ := bind_ok_iff.1 hb
  obtain ⟨d, hd, hb⟩ := bind_ok_iff.1 hb
  obtain ⟨_, -, hb⟩ := bind_ok_iff.1 hb
  obtain ⟨eL, he, hb⟩ := bind_ok_iff.1 hb
  cases hb
  exact ⟨d, hd, he, rfl⟩

/-! ## All calls -/

theorem OuterCalls.outside {L : ℕ} {h : a ≤ n} {b b' : MTLD n p} {s s' : MTLD a p} (H : b.Outside L h s) (hc : OuterCalls L b s b' s') :
    b'.Outside L h s' := by
  induction hc with
  | done => exact H
  | @innerTransfer b1 b2 s1 ol il oc ic Z _ hil hZ hb ih =>
    unfold MTLD.addTransferImpedance at hb
    obtain ⟨tz, ht, hb⟩ := bind_ok_iff.1 hb
    cases hb
    obtain ⟨g1, g2⟩ := inner_transfer ih.tz ih.s1 ih.s2 hZ (ih.count ▸ before_mono _ hil) ht
    exact { ih with tz := g1, tdt := ih.tdt.trans g2.symm }
  | @innerConnector b1 b2 s1 side ol il oc ic Z _ hil hZ hb ih =>
    obtain ⟨e, g1, g2⟩ := inner_connector ih.tz ih.s1 ih.s2 hZ (ih.count ▸ before_mono _ hil) hb
    rw [e]
    exact { ih with tz := g1, tdt := ih.tdt.trans g2.symm }
  | @outerTransfer b1 b2 s1 s2 ol il oc ic Z _ hol hil hb hs ih =>
    unfold MTLD.addTransferImpedance at hb hs
    obtain ⟨tz, ht, hb⟩ := bind_ok_iff.1 hb
    cases hb
    obtain ⟨tz', ht', hs⟩ := bind_ok_iff.1 hs
    cases hs
    rw [ih.m] at ht'
    obtain ⟨g1, g2, g3, g4⟩ := outer_transfer ih.tz ih.tdt ih.s1 ih.s2 (by rw [ih.levels, before_take _ hol.le])
      (by rw [ih.levels, before_take _ hil.le]) ht ht'
    exact { ih with tz := g1, tdt := g2, s1 := g3, s2 := g4 }
  | @innerField b1 b2 s1 start stop x f type _ hx hb ih =>
    obtain ⟨d, -, h1, e⟩ := addLocalizedField_fold hb
    have := foldWeighted_inner hx d ih.eL h1
    rw [e]
    exact { ih with eL := this }
  | @outerField b1 b2 s1 s2 start stop x y f type _ hx hb hs ih =>
    obtain ⟨d, hd, h1, e⟩ := addLocalizedField_fold hb
    obtain ⟨d', hd', h1', e'⟩ := addLocalizedField_fold hs
    rw [ih.u, ih.du, ih.m, hd] at hd'
    cases hd'
    rw [ih.u, ih.m] at h1'
    have := foldWeighted_outer hx d ih.eL h1 h1'
    rw [e, e']
    exact { ih with eL := this }
  | @probe b1 b2 s1 s2 position type _ hb hs ih =>
    unfold MTLD.addProbe at hb hs
    simp only [bind_ok_iff, Except.ok.injEq] at hb hs
    obtain ⟨_, -, _, -, rfl⟩ := hb
    obtain ⟨_, -, _, -, rfl⟩ := hs
    have : List.Forall₂ (Probe.Shows h) (b1.probes ++ [Probe.new position.toV3 type b1.dt b1.u b1.m])
        (s1.probes ++ [Probe.new position.toV3 type s1.dt s1.u s1.m]) := by
      refine List.rel_append ih.probes (.cons ⟨rfl, rfl, trivial, ?_, ih.dt, rfl⟩ .nil)
      show nearest s1.u s1.m _ = nearest b1.u b1.m _
      rw [ih.u, ih.m]
    exact { ih with probes := this }

/-- **C169** Bundles of several levels whose transfer impedances lead inward satisfy the hypothesis of `C169_outside`, the part that is shown
being the bundle of the outer levels alone. -/
theorem C169_built {outer inner : List (List (AnyLine p))} {name : String} {B S : AnyBundle p}
    (hB : MTLD.new (outer ++ inner) name = .ok B) (hS : MTLD.new outer name = .ok S) (hdt : S.2.dt = B.2.dt)
    {b' : MTLD B.1 p} {s' : MTLD S.1 p} (hc : OuterCalls outer.length B.2 S.2 b' s') :
    ∃ h : S.1 ≤ B.1, b'.Shows h s' := by
  obtain ⟨h, H⟩ := new_outside hB hS hdt
  exact ⟨h, (hc.outside H).toShows⟩

/-! ## The hypotheses can be met, and the direction matters -/

/-- A resistive transfer impedance of the given direction. -/
def resistiveTransfer (direction : String) : TransferModel := ⟨⟨5, 0, [], [], [], []⟩, none, direction⟩

theorem resistive_added (b : MTLD n p) (hl : b.inLevel = [1, 1]) (hn : n = 2) (hdt : b.tz.dt ≠ 0) {direction : String} :
    ∃ b', b.addTransferImpedance 0 [0] 1 [0] (resistiveTransfer direction) = .ok b' := by
  subst hn
  have hex : ∃ D', b.tz.addTransferImpedance b.m b.inLevel 0 [0] 1 [0] (resistiveTransfer direction) = .ok D' := by
    unfold Disp.addTransferImpedance resistiveTransfer
    simp only
    rw [show pyAssert (adjacentLevels 0 1) = .ok () from if_pos (by decide)]
    unfold raiseIf
    rw [if_neg (by simp), show RationalModel.checkLengths ⟨5, 0, [], [], [], []⟩ = .ok () from
      checkLengths_ok_iff.2 (by simp [RationalModel.LengthsOk])]
    simp only [bind, Except.bind]
    rw [if_neg (by simp), if_neg (by
      rintro (h | ⟨s, h1, h2⟩)
      · exact hdt h
      · simp at h1)]
    by_cases h1 : direction = "in"
    · simp [forPairs, conductorsBefore, Disp.transferBody, Disp.addTransferPair, hl, h1]
    · by_cases h2 : direction = "out"
      · simp [forPairs, conductorsBefore, Disp.transferBody, Disp.addTransferPair, hl, h2]
      · simp [forPairs, conductorsBefore, Disp.transferBody, hl, h1, h2, pure, Except.pure]
        exact ⟨_, rfl⟩
  obtain ⟨D', hD⟩ := hex
  exact ⟨{ b with tz := D' }, by simp [MTLD.addTransferImpedance, hD, bind, Except.bind]⟩

theorem demo_minDt (l : List (AnyLine p)) (h : l = [⟨1, demoBare p⟩] ∨ l = [⟨1, demoBare p⟩, ⟨1, demoBare p⟩]) : minDt l = 1 := by
  rcases h with rfl | rfl <;> norm_num [minDt, demoBare]

theorem demoOuter_new : MTLD.new ([[⟨1, demoBare p⟩]] : List (List (AnyLine p))) "b" =
    .ok ⟨_, MTLD.assemble ⟨1, demoBare p⟩ [[⟨1, demoBare p⟩]] "b"⟩ := by
  unfold MTLD.new
  simp only
  rw [if_pos]
  intro L hL
  simp only [List.flatten_cons, List.flatten_nil, List.append_nil, List.mem_cons, List.not_mem_nil, or_false] at hL
  subst hL
  exact ⟨rfl, fun _ _ => rfl⟩

/-- **C169, non-vacuity**: two demo lines, one inside of the other, with a transfer impedance of direction `in` that does act on the inner
one. -/
example : ∃ B S : AnyBundle p, MTLD.new ([[⟨1, demoBare p⟩]] ++ [[⟨1, demoBare p⟩]]) "b" = .ok B ∧
    MTLD.new [[⟨1, demoBare p⟩]] "b" = .ok S ∧ S.2.dt = B.2.dt ∧ ∃ b', OuterCalls 1 B.2 S.2 b' S.2 ∧ ∃ x y, b'.tz.d 0 x y ≠ B.2.tz.d 0 x y := by
  have hd : (MTLD.assemble ⟨1, demoBare p⟩ (demoLevels p) "b").dt = 1 := demo_minDt _ (.inr rfl)
  refine ⟨_, _, demoBundle_new p, demoOuter_new, (demo_minDt _ (.inl rfl)).trans hd.symm, ?_⟩
  obtain ⟨b', hb⟩ := resistive_added (MTLD.assemble ⟨1, demoBare p⟩ (demoLevels p) "b") rfl rfl
    (by rw [show (MTLD.assemble ⟨1, demoBare p⟩ (demoLevels p) "b").tz.dt = 1 from hd]; exact one_ne_zero) (direction := "in")
  refine ⟨b', .innerTransfer .done le_rfl (by decide) hb, (1 : Fin 2), (0 : Fin 2), ?_⟩
  unfold MTLD.addTransferImpedance at hb
  obtain ⟨tz, ht, hb⟩ := bind_ok_iff.1 hb
  cases hb
  have := (C37_in_partial rfl ht 0 (1 : Fin 2) (0 : Fin 2)).1
  rw [this]
  norm_num [resistiveTransfer, MTLD.assemble, demoLevels, conductorsBefore]

/-- **C169** With direction `out` there is nothing outside that the inner conductors do not act on: the bundle does not show any bundle of
its outer conductor. -/
theorem C169_out {b b' : MTLD n p} {ol il : ℕ} {oc ic : List ℕ} {Z : TransferModel} (hZ : Z.direction = "out")
    (hb : b.addTransferImpedance ol oc il ic Z = .ok b') (h : a ≤ n) {x : Fin a} {y : Fin n} (hy : a ≤ (y : ℕ))
    (ho : (x : ℕ) ∈ oc.map (conductorsBefore b.inLevel ol + ·)) (hi : (y : ℕ) ∈ ic.map (conductorsBefore b.inLevel il + ·))
    (h0 : b.tz.d 0 (Fin.castLE h x) y = 0) (hc : Z.cte / Z.factor.getD 1 ≠ 0) (s : MTLD a p) : ¬ b'.Shows h s := by
  intro H
  unfold MTLD.addTransferImpedance at hb
  obtain ⟨tz, ht, hb⟩ := bind_ok_iff.1 hb
  cases hb
  have h1 := (C37_out_partial hZ ht 0 (Fin.castLE h x) y).1
  have h2 : tz.d 0 (Fin.castLE h x) y = 0 := (H.tz.d 0 x).2 y hy
  rw [h2, h0] at h1
  have c1 : 0 < (oc.map (conductorsBefore b.inLevel ol + ·)).count (x : ℕ) := List.count_pos_iff.2 ho
  have c2 : 0 < (ic.map (conductorsBefore b.inLevel il + ·)).count (y : ℕ) := List.count_pos_iff.2 hi
  simp only [Fin.val_castLE] at h1
  have : ((((oc.map (conductorsBefore b.inLevel ol + ·)).count (x : ℕ) * (ic.map (conductorsBefore b.inLevel il + ·)).count (y : ℕ) : ℕ) : ℝ)) *
      (Z.cte / Z.factor.getD 1) = 0 := by linarith
  rcases mul_eq_zero.1 this with e | e
  · have := Nat.mul_pos c1 c2
    have e' : (oc.map (conductorsBefore b.inLevel ol + ·)).count (x : ℕ) * (ic.map (conductorsBefore b.inLevel il + ·)).count (y : ℕ) = 0 := by
      exact_mod_cast e
    omega
  · exact hc e

/-- A charged conductor. -/
noncomputable def demoSheath (n : ℕ) (d : Mat n) : MTLD n 0 where
  name := "b"
  m := 1
  u := fun k => ![k, 0, 0]
  du := fun _ => ![1, 0, 0]
  dun := fun _ => 1
  l := fun _ => 1
  c := fun _ => 1
  r := fun _ => 0
  g := fun _ => 0
  dt := 1
  v := fun k _ => k
  i := fun _ => 0
  phi := fun _ _ => 0
  probes := []
  tz := { (Disp.new 1 : Disp n 0) with d := fun _ => d }
  eL := fun _ _ _ => 0
  eT := fun _ _ _ => 0
  inLevel := []
  lr := none
  cg := none

/-- **C169, non-vacuity**: a run with a conductor inside of another one. -/
example (T : ℝ) : ∃ M M' R : MTLN 0, ShieldedNets (fun _ => 1) M.networks ∧ M.Shows (fun _ => 1) R ∧ M.runUntil T 1 = .ok M' := by
  have hs : (demoSheath 2 !![0, 0; -5, 0]).Shows (by omega : 1 ≤ 2) (demoSheath 1 0) := by
    have h1 : ShowsMat (by omega : 1 ≤ 2) (1 : Mat 2) (1 : Mat 1) := by
      intro x
      fin_cases x
      refine ⟨fun y => ?_, fun y hy => ?_⟩
      · fin_cases y; simp
      · fin_cases y
        · simp at hy
        · simp
    have h0 : ShowsMat (by omega : 1 ≤ 2) (0 : Mat 2) (0 : Mat 1) := fun x => ⟨fun y => rfl, fun y _ => rfl⟩
    refine ⟨rfl, rfl, rfl, rfl, fun _ => h1, fun _ => h1, fun _ => h0, fun _ => h0,
      ⟨fun _ => ?_, fun _ => h0, fun _ => h0, fun _ => h0, ?_, ?_, ?_⟩, fun _ _ => rfl, fun _ _ => rfl, fun _ _ => rfl, fun _ _ => rfl,
      fun _ _ => rfl, .nil⟩
    · intro x
      fin_cases x
      refine ⟨fun y => ?_, fun y hy => ?_⟩
      · fin_cases y; simp [demoSheath]
      · fin_cases y
        · simp at hy
        · simp [demoSheath]
    · exact fun k x => ⟨fun y => rfl, fun y _ => rfl⟩
    · exact fun k x => ⟨fun y => rfl, fun y _ => rfl⟩
    · exact fun k x => ⟨fun y => rfl, fun y _ => rfl⟩
  have hst : ({ bundles := [⟨2, demoSheath 2 !![0, 0; -5, 0]⟩] } : MTLN 0).Startable 1 := by
    have hdt : ({ bundles := [⟨2, demoSheath 2 !![0, 0; -5, 0]⟩] } : MTLN 0).runDt 1 = 1 := by rw [MTLN.runDt_eq, if_pos one_ne_zero]
    refine ⟨by rw [hdt]; exact one_ne_zero, ?_, by simp, by simp [allNodes]⟩
    intro b hb
    have hb : b = ⟨2, (demoSheath 2 !![0, 0; -5, 0]).withDt 1⟩ := by simpa [MTLN.overrideDt] using hb
    subst hb
    refine ⟨⟨_, updateLr_ok_iff.2 ⟨one_ne_zero, fun k _ => ?_, rfl⟩⟩, ⟨_, updateCg_ok_iff.2 ⟨one_ne_zero, fun k hk => ?_, rfl⟩⟩, by
      simp [demoSheath, MTLD.withDt]⟩
    · simp [lrF1, demoSheath, MTLD.withDt, Disp.new, Matrix.det_fin_two]
    · have hk : k ≤ 1 := hk
      have : nodalLength 1 (fun _ => (1 : ℝ)) k ≠ 0 := by
        interval_cases k <;> norm_num [nodalLength]
      simp [cgF1, demoSheath, MTLD.withDt, this]
  obtain ⟨M', hM⟩ := hst.run T
  exact ⟨{ bundles := [⟨2, demoSheath 2 !![0, 0; -5, 0]⟩] }, M', { bundles := [⟨1, demoSheath 1 0⟩] }, by simp [ShieldedNets], ⟨rfl, rfl, .cons (.mk (by omega) rfl hs) .nil, rfl⟩, hM⟩

end Mtln
