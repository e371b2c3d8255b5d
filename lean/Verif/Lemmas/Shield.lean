import Verif.Spec.Shield
import Verif.Props.Separate
import Verif.Lemmas.ManagerComb

/-! # Steps of what is outside of shields -/

namespace Mtln

open Matrix

variable {n p a : ℕ} {h : a ≤ n}

/-! ## Matrices -/

theorem sum_outer {α : Type} [AddCommMonoid α] (h : a ≤ n) (f : Fin n → α) (hf : ∀ y : Fin n, a ≤ (y : ℕ) → f y = 0) :
    ∑ y, f y = ∑ y : Fin a, f (Fin.castLE h y) := by
  refine Eq.trans ?_ (Finset.sum_map Finset.univ (Fin.castLEEmb h) f)
  symm
  refine Finset.sum_subset (Finset.subset_univ _) fun y _ hy => hf y ?_
  by_contra hlt
  exact hy (Finset.mem_map.2 ⟨⟨y, not_le.1 hlt⟩, Finset.mem_univ _, rfl⟩)

theorem ShowsMat.add {A A' : Mat n} {B B' : Mat a} (h1 : ShowsMat h A B) (h2 : ShowsMat h A' B') : ShowsMat h (A + A') (B + B') :=
  fun x => ⟨fun y => by simp [(h1 x).1 y, (h2 x).1 y], fun y hy => by simp [(h1 x).2 y hy, (h2 x).2 y hy]⟩

theorem ShowsMat.sub {A A' : Mat n} {B B' : Mat a} (h1 : ShowsMat h A B) (h2 : ShowsMat h A' B') : ShowsMat h (A - A') (B - B') :=
  fun x => ⟨fun y => by simp [(h1 x).1 y, (h2 x).1 y], fun y hy => by simp [(h1 x).2 y hy, (h2 x).2 y hy]⟩

theorem ShowsMat.smul {A : Mat n} {B : Mat a} (c : ℝ) (h1 : ShowsMat h A B) : ShowsMat h (c • A) (c • B) :=
  fun x => ⟨fun y => by simp [(h1 x).1 y], fun y hy => by simp [(h1 x).2 y hy]⟩

theorem ShowsMat.mul {A A' : Mat n} {B B' : Mat a} (h1 : ShowsMat h A B) (h2 : ShowsMat h A' B') : ShowsMat h (A * A') (B * B') := by
  intro x
  refine ⟨fun y => ?_, fun y hy => ?_⟩
  · rw [mul_apply, mul_apply, sum_outer h _ fun z hz => by rw [(h1 x).2 z hz, zero_mul]]
    exact Finset.sum_congr rfl fun z _ => by rw [(h1 x).1, (h2 z).1]
  · rw [mul_apply, sum_outer h _ fun z hz => by rw [(h1 x).2 z hz, zero_mul]]
    exact Finset.sum_eq_zero fun z _ => by rw [(h2 z).2 y hy, mul_zero]

theorem ShowsMat.inv {A : Mat n} {B : Mat a} (h1 : ShowsMat h A B) (hd : A.det ≠ 0) : B.det ≠ 0 ∧ ShowsMat h A⁻¹ B⁻¹ := by
  have hA : A * A⁻¹ = 1 := mul_nonsing_inv A (isUnit_iff_ne_zero.2 hd)
  have key : ∀ (x : Fin a) (y : Fin n), ∑ z, B x z * A⁻¹ (Fin.castLE h z) y = (1 : Mat n) (Fin.castLE h x) y := by
    intro x y
    rw [← hA, mul_apply, sum_outer h _ fun z hz => by rw [(h1 x).2 z hz, zero_mul]]
    exact Finset.sum_congr rfl fun z _ => by rw [(h1 x).1]
  have hB : B * Matrix.of (fun x y => A⁻¹ (Fin.castLE h x) (Fin.castLE h y)) = 1 := by
    ext x y
    rw [mul_apply]
    refine (key x (Fin.castLE h y)).trans ?_
    rw [one_apply, one_apply]
    simp only [(Fin.castLE_injective h).eq_iff]
  have hu : IsUnit B.det := isUnit_det_of_right_inverse hB
  refine ⟨hu.ne_zero, fun x => ⟨fun y => ?_, fun y hy => ?_⟩⟩
  · rw [inv_eq_right_inv hB]
    rfl
  · have hz : B.mulVec (fun z => A⁻¹ (Fin.castLE h z) y) = 0 := by
      funext x
      refine (key x y).trans ?_
      rw [one_apply, if_neg]
      · rfl
      · intro e
        rw [← e] at hy
        exact absurd x.2 (not_lt.2 hy)
    have := congrFun ((mulVec_injective_of_isUnit ((isUnit_iff_isUnit_det B).2 hu)) (hz.trans (mulVec_zero B).symm)) x
    exact this

theorem ShowsMat.mulVec {A : Mat n} {B : Mat a} {v : Fin n → ℝ} {w : Fin a → ℝ} (h1 : ShowsMat h A B) (h2 : ShowsCol h v w) :
    ShowsCol h (A.mulVec v) (B.mulVec w) := by
  intro x
  show ∑ y, A _ y * v y = ∑ y, B x y * w y
  rw [sum_outer h _ fun z hz => by rw [(h1 x).2 z hz, zero_mul]]
  exact Finset.sum_congr rfl fun z _ => by rw [(h1 x).1, h2 z]

theorem ShowsPoles.sum {A : Fin n → Fin n → QEntry p} {B : Fin a → Fin a → QEntry p} (h1 : ShowsPoles h A B) {v : Fin n → ℂ}
    {w : Fin a → ℂ} (h2 : ShowsCol h v w) (x : Fin a) (s : Fin p) :
    ∑ y, (A (Fin.castLE h x) y).val s * v y = ∑ y, (B x y).val s * w y := by
  rw [sum_outer h _ fun z hz => by rw [(h1 x).2 z hz, Pi.zero_apply, zero_mul]]
  exact Finset.sum_congr rfl fun z _ => by rw [(h1 x).1, h2 z]

theorem ShowsCol.comp {α β : Type} {v : Fin n → α} {w : Fin a → α} (f : α → β) (H : ShowsCol h v w) :
    ShowsCol h (fun j => f (v j)) fun j => f (w j) := fun x => congrArg f (H x)

section
variable {v v' : Fin n → ℝ} {w w' : Fin a → ℝ}

theorem ShowsCol.add (h1 : ShowsCol h v w) (h2 : ShowsCol h v' w') : ShowsCol h (v + v') (w + w') := fun x => by
  simp [h1 x, h2 x]

theorem ShowsCol.sub (h1 : ShowsCol h v w) (h2 : ShowsCol h v' w') : ShowsCol h (v - v') (w - w') := fun x => by
  simp [h1 x, h2 x]

theorem ShowsCol.smul (c : ℝ) (h1 : ShowsCol h v w) : ShowsCol h (c • v) (c • w) := fun x => by
  simp [h1 x]

end

/-! ## Coefficients -/

/-- Coefficients of the current update in the cells of a line. -/
structure LR.Shows (h : a ≤ n) (m : ℕ) (lr : LR n) (lr' : LR a) : Prop where
  iTerm : ∀ k < m, ShowsMat h (lr.iTerm k) (lr'.iTerm k)
  vDiff : ∀ k < m, ShowsMat h (lr.vDiff k) (lr'.vDiff k)

/-- Coefficients of the voltage update at the nodes of a line. -/
structure CG.Shows (h : a ≤ n) (m : ℕ) (cg : CG n) (cg' : CG a) : Prop where
  vTerm : ∀ k ≤ m, ShowsMat h (cg.vTerm k) (cg'.vTerm k)
  iDiff : ∀ k ≤ m, ShowsMat h (cg.iDiff k) (cg'.iDiff k)

theorem updateLr_shows {m : ℕ} {dt : ℝ} {dun : ℕ → ℝ} {l r : ℕ → Mat n} {l' r' : ℕ → Mat a} {D : Disp n p} {E : Disp a p}
    (hl : ∀ k, ShowsMat h (l k) (l' k)) (hr : ∀ k, ShowsMat h (r k) (r' k)) (hD : D.Shows h E) {lr : LR n}
    (H : updateLr m dt dun l r D = .ok lr) : ∃ lr', updateLr m dt dun l' r' E = .ok lr' ∧ lr.Shows h m lr' := by
  obtain ⟨h0, h1, rfl⟩ := updateLr_ok_iff.1 H
  have F1 : ∀ k, ShowsMat h (lrF1 dt dun l r D k) (lrF1 dt dun l' r' E k) := fun k =>
    ((((((hl k).smul _).add ((hD.d k).smul _)).add ((hD.e k).smul _)).add ((hr k).smul _)).add (hD.q1sum k)).smul _
  have F2 : ∀ k, ShowsMat h (lrF2 dt dun l r D k) (lrF2 dt dun l' r' E k) := fun k =>
    ((((((hl k).smul _).sub ((hD.d k).smul _)).add ((hD.e k).smul _)).sub ((hr k).smul _)).sub (hD.q2sum k)).smul _
  exact ⟨_, updateLr_ok_iff.2 ⟨h0, fun k hk => ((F1 k).inv (h1 k hk)).1, rfl⟩,
    fun k hk => (((F1 k).inv (h1 k hk)).2).mul (F2 k), fun k hk => ((F1 k).inv (h1 k hk)).2⟩

theorem updateCg_shows {m : ℕ} {dt : ℝ} {dun : ℕ → ℝ} {c g : ℕ → Mat n} {c' g' : ℕ → Mat a}
    (hc : ∀ k, ShowsMat h (c k) (c' k)) (hg : ∀ k, ShowsMat h (g k) (g' k)) {cg : CG n}
    (H : updateCg m dt dun c g = .ok cg) : ∃ cg', updateCg m dt dun c' g' = .ok cg' ∧ cg.Shows h m cg' := by
  obtain ⟨h0, h1, rfl⟩ := updateCg_ok_iff.1 H
  have F1 : ∀ k, ShowsMat h (cgF1 m dt dun c g k) (cgF1 m dt dun c' g' k) := fun k =>
    (((hc k).smul _).add ((hg k).smul _)).smul _
  have F2 : ∀ k, ShowsMat h (cgF2 m dt dun c g k) (cgF2 m dt dun c' g' k) := fun k =>
    (((hc k).smul _).sub ((hg k).smul _)).smul _
  exact ⟨_, updateCg_ok_iff.2 ⟨h0, fun k hk => ((F1 k).inv (h1 k hk)).1, rfl⟩,
    fun k hk => (((F1 k).inv (h1 k hk)).2).mul (F2 k), fun k hk => ((F1 k).inv (h1 k hk)).2⟩

/-! ## Probes -/

theorem ShowsVal.cases {q : ProbeVal n} {q' : ProbeVal a} (H : ShowsVal h q q') :
    (q = .empty ∧ q' = .empty) ∨ (q = .view ∧ q' = .view) ∨ ∃ r s, q = .rows r ∧ q' = .rows s ∧ List.Forall₂ (ShowsCol h) r s := by
  cases q <;> cases q' <;> simp_all [ShowsVal]

theorem shows_set {α β : Type} {R : α → β → Prop} {l : List α} {l' : List β} (H : List.Forall₂ R l l') {x : α} {y : β}
    (hxy : R x y) : ∀ k, List.Forall₂ R (l.set k x) (l'.set k y) := by
  induction H with
  | nil => intro k; simp
  | cons h1 h2 ih =>
    intro k
    cases k with
    | zero => exact .cons hxy h2
    | succ k => exact .cons h1 (ih k)

theorem Probe.Shows.saveFrame {q : Probe n} {q' : Probe a} (H : q.Shows h q') (t : ℝ) {x : Col n} {y : Col a}
    (hxy : ShowsCol h x y) : (q.saveFrame t x).Shows h (q'.saveFrame t y) := by
  unfold Probe.saveFrame
  rw [H.t, H.currentFrame]
  rcases H.val.cases with ⟨e1, e2⟩ | ⟨e1, e2⟩ | ⟨r, s, e1, e2, hrs⟩
  · by_cases hc : q.currentFrame < q.t.length
    · rw [if_pos hc, if_pos hc]
      exact ⟨H.type, rfl, by rw [e1, e2]; trivial, H.index, H.dt, rfl⟩
    · rw [if_neg hc, if_neg hc]
      exact ⟨H.type, rfl, by rw [e1, e2]; trivial, H.index, H.dt, rfl⟩
  · by_cases hc : q.currentFrame < q.t.length
    · rw [if_pos hc, if_pos hc]
      exact ⟨H.type, rfl, by rw [e1, e2]; trivial, H.index, H.dt, rfl⟩
    · rw [if_neg hc, if_neg hc]
      exact ⟨H.type, rfl, by rw [e1, e2]; exact .cons hxy (.cons hxy .nil), H.index, H.dt, rfl⟩
  · by_cases hc : q.currentFrame < q.t.length
    · rw [if_pos hc, if_pos hc]
      exact ⟨H.type, rfl, by rw [e1, e2]; exact shows_set hrs hxy _, H.index, H.dt, rfl⟩
    · rw [if_neg hc, if_neg hc]
      exact ⟨H.type, rfl, by rw [e1, e2]; exact List.rel_append hrs (.cons hxy .nil), H.index, H.dt, rfl⟩

theorem Probe.Shows.resize {q : Probe n} {q' : Probe a} (H : q.Shows h q') (k : ℕ) :
    (q.resizeFrames k).Shows h (q'.resizeFrames k) := by
  refine ⟨H.type, rfl, ?_, H.index, H.dt, rfl⟩
  show List.Forall₂ (ShowsCol h) (List.replicate k 0) (List.replicate k 0)
  induction k with
  | zero => exact .nil
  | succ k ih => exact .cons (fun _ => rfl) ih

theorem Probe.Shows.column {q : Probe n} {q' : Probe a} (H : q.Shows h q') (m : ℕ) {v i : Grid n} {v' i' : Grid a}
    (hv : ∀ k, ShowsCol h (v k) (v' k)) (hi : ∀ k, ShowsCol h (i k) (i' k)) : ShowsCol h (q.column m v i) (q'.column m v' i') := by
  unfold Probe.column
  rw [H.type, H.index]
  split
  · exact hv _
  · split <;> exact hi _

/-! ## One bundle -/

/-- With coefficients computed. -/
structure MTLD.ShowsReady (h : a ≤ n) (b : MTLD n p) (s : MTLD a p) : Prop extends MTLD.Shows h b s where
  lr : ∃ lr lr', b.lr = some lr ∧ s.lr = some lr' ∧ lr.Shows h b.m lr'
  cg : ∃ cg cg', b.cg = some cg ∧ s.cg = some cg' ∧ cg.Shows h b.m cg'

theorem hit_shows {A : String → ℕ} : ∀ {ws : List Write} {b : MTLD n p} {s : MTLD a p}, a = A b.name → s.name = b.name → s.m = b.m →
    (∀ k, ShowsCol h (b.v k) (s.v k)) →
    ∀ k, ShowsCol h ((b.hit ws).v k) ((s.hit (ws.filter fun w => w.row < A w.bundle)).v k)
  | [], _, _, _, _, _, hv => hv
  | w :: ws, b, s, ha, hn, hm, hv => by
    by_cases hw : w.row < A w.bundle
    · rw [List.filter_cons_of_pos (by simpa using hw), MTLD.hit_cons, MTLD.hit_cons]
      refine hit_shows (by rw [w.on_name]; exact ha) (by rw [w.on_name, w.on_name, hn]) (by rw [w.on_m, w.on_m, hm]) fun k x => ?_
      unfold Write.on
      rw [hn, hm]
      by_cases hb : b.name = w.bundle
      · rw [if_pos hb, if_pos hb]
        show (if k = w.side.node b.m ∧ ((Fin.castLE h x : Fin n) : ℕ) = w.row then w.value else b.v k _) =
          if k = w.side.node b.m ∧ (x : ℕ) = w.row then w.value else s.v k x
        rw [hv k x]
        rfl
      · rw [if_neg hb, if_neg hb]
        exact hv k x
    · rw [List.filter_cons_of_neg (by simpa using hw), MTLD.hit_cons]
      refine hit_shows (by rw [w.on_name]; exact ha) (by rw [w.on_name]; exact hn) (by rw [w.on_m]; exact hm) fun k x => ?_
      unfold Write.on
      by_cases hb : b.name = w.bundle
      · rw [if_pos hb]
        show (if k = w.side.node b.m ∧ ((Fin.castLE h x : Fin n) : ℕ) = w.row then w.value else b.v k _) = s.v k x
        rw [if_neg, hv k x]
        rintro ⟨-, e⟩
        apply hw
        rw [← e, ← hb, ← ha]
        exact x.2
      · rw [if_neg hb]
        exact hv k x

theorem advanceVoltage_shows {m : ℕ} {cg : CG n} {cg' : CG a} (H : cg.Shows h m cg') {S : Sampled n} {S' : Sampled a}
    (hT : ∀ k, ShowsCol h (S.eTNow k) (S'.eTNow k)) (hP : ∀ k, ShowsCol h (S.eTPrev k) (S'.eTPrev k)) {v i : Grid n} {v' i' : Grid a}
    (hv : ∀ k, ShowsCol h (v k) (v' k)) (hi : ∀ k, ShowsCol h (i k) (i' k)) (k : ℕ) :
    ShowsCol h (advanceVoltage m cg S v i k) (advanceVoltage m cg' S' v' i' k) := by
  unfold advanceVoltage
  by_cases hk : 0 < k ∧ k < m
  · rw [if_pos hk, if_pos hk]
    exact (((H.vTerm k hk.2.le).mulVec (hv k)).sub ((H.iDiff k hk.2.le).mulVec ((hi k).sub (hi (k - 1))))).sub ((hT k).sub (hP k))
  · rw [if_neg hk, if_neg hk]
    exact hv k

theorem advanceCurrent_shows {m : ℕ} {lr : LR n} {lr' : LR a} (H : lr.Shows h m lr') {dun : ℕ → ℝ} {q : Grid n} {q' : Grid a}
    (hq : ∀ k, ShowsCol h (q k) (q' k)) {S : Sampled n} {S' : Sampled a}
    (hT : ∀ k, ShowsCol h (S.eTNow k) (S'.eTNow k)) (hL : ∀ k, ShowsCol h (S.eLNow k) (S'.eLNow k))
    (hP : ∀ k, ShowsCol h (S.eLPrev k) (S'.eLPrev k)) {v i : Grid n} {v' i' : Grid a}
    (hv : ∀ k, ShowsCol h (v k) (v' k)) (hi : ∀ k, ShowsCol h (i k) (i' k)) (k : ℕ) :
    ShowsCol h (advanceCurrent m lr dun q S v i k) (advanceCurrent m lr' dun q' S' v' i' k) := by
  unfold advanceCurrent
  by_cases hk : k < m
  · rw [if_pos hk, if_pos hk]
    exact (((H.iTerm k hk).mulVec (hi k)).sub ((H.vDiff k hk).mulVec ((((hv (k + 1)).sub (hv k)).add
      ((hT (k + 1)).sub (hT k))).sub (((hL k).add (hP k)).smul _)))).sub ((H.vDiff k hk).mulVec ((hq k).smul _))
  · rw [if_neg hk, if_neg hk]
    exact hi k

theorem Disp.Shows.q3phi {D : Disp n p} {E : Disp a p} (H : D.Shows h E) {x : Memory n p} {y : Memory a p}
    (hxy : ∀ k, ShowsCol h (x k) (y k)) (k : ℕ) : ShowsCol h (D.q3phi x k) (E.q3phi y k) := by
  intro i
  show poleSum _ = poleSum _
  congr 1
  funext s
  exact (H.q3 k).sum (v := fun j => x k j s) (w := fun j => y k j s) ((hxy k).comp fun z => z s) i s

theorem Disp.Shows.updatePhi {D : Disp n p} {E : Disp a p} (H : D.Shows h E) {x : Memory n p} {y : Memory a p}
    (hxy : ∀ k, ShowsCol h (x k) (y k)) {i : Grid n} {j : Grid a} (hij : ∀ k, ShowsCol h (i k) (j k)) (k : ℕ) :
    ShowsCol h (D.updatePhi x i i k) (E.updatePhi y j j k) := by
  intro c
  funext s
  show _ + _ + _ = _ + _ + _
  rw [(H.q1 k).sum (v := fun z => (i k z : ℂ)) (w := fun z => (j k z : ℂ)) ((hij k).comp Complex.ofReal) c s,
    (H.q2 k).sum (v := fun z => (i k z : ℂ)) (w := fun z => (j k z : ℂ)) ((hij k).comp Complex.ofReal) c s,
    (H.q3 k).sum (v := fun z => x k z s) (w := fun z => y k z s) ((hxy k).comp fun z => z s) c s]

theorem forall₂_map_both {α β γ δ : Type} {R : α → β → Prop} {Q : γ → δ → Prop} {f : α → γ} {g : β → δ} {l : List α} {l' : List β}
    (H : List.Forall₂ R l l') (hfg : ∀ x y, R x y → Q (f x) (g y)) : List.Forall₂ Q (l.map f) (l'.map g) := by
  induction H with
  | nil => exact .nil
  | cons h1 _ ih => exact .cons (hfg _ _ h1) ih

theorem Probe.Shows.valid {q : Probe n} {q' : Probe a} (H : q.Shows h q') (hv : q.Valid) : q'.Valid := by
  unfold Probe.Valid at *
  rw [H.type]
  exact hv

theorem probes_valid {qs : List (Probe n)} {qs' : List (Probe a)} (H : List.Forall₂ (Probe.Shows h) qs qs')
    (hv : ∀ q ∈ qs, q.Valid) : ∀ q ∈ qs', q.Valid := by
  induction H with
  | nil => simp
  | cons h1 _ ih =>
    intro q hq
    rcases List.mem_cons.1 hq with rfl | hq
    · exact h1.valid (hv _ (List.mem_cons_self ..))
    · exact ih (fun q hq => hv q (List.mem_cons_of_mem _ hq)) q hq

/-- A step of a bundle shows a step of its outer conductors. -/
theorem MTLD.ShowsReady.stepWith {A : String → ℕ} {time dt : ℝ} {ws : List Write} {b b' : MTLD n p} {s : MTLD a p}
    (H : b.ShowsReady h s) (ha : a = A b.name) (hs : b.stepWith time dt ws = .ok b') :
    ∃ s', s.stepWith time dt (ws.filter fun w => w.row < A w.bundle) = .ok s' ∧ b'.ShowsReady h s' ∧ b'.name = b.name := by
  obtain ⟨lr, cg, hlr, hcg, hq, rfl⟩ := MTLD.stepWith_ok_iff.1 hs
  obtain ⟨lr0, lr', e1, e2, LR⟩ := H.lr
  obtain ⟨cg0, cg', e3, e4, CG⟩ := H.cg
  obtain rfl : lr0 = lr := Option.some.inj (e1.symm.trans hlr)
  obtain rfl : cg0 = cg := Option.some.inj (e3.symm.trans hcg)
  refine ⟨_, MTLD.stepWith_ok_iff.2 ⟨lr', cg', e2, e4, probes_valid H.probes hq, rfl⟩, ?_, rfl⟩
  have eT : ∀ t k, ShowsCol h (fun j => b.eT k j t) (fun j => s.eT k j t) := fun t k => (H.eT k).comp fun f => f t
  have eL : ∀ t k, ShowsCol h (fun j => b.eL k j t) (fun j => s.eL k j t) := fun t k => (H.eL k).comp fun f => f t
  have hv : ∀ k, ShowsCol h ((b.fieldsWith lr0 cg0 time dt ws).v k)
      ((s.fieldsWith lr' cg' time dt (ws.filter fun w => w.row < A w.bundle)).v k) := by
    simp only [MTLD.fieldsWith_v]
    refine hit_shows (b := { b with v := _ }) (s := { s with v := _ }) ha H.name H.m fun k => ?_
    show ShowsCol h (advanceVoltage b.m _ _ _ _ k) (advanceVoltage s.m _ _ _ _ k)
    rw [H.m]
    exact advanceVoltage_shows CG (eT _) (eT _) H.v H.i k
  have hi : ∀ k, ShowsCol h ((b.fieldsWith lr0 cg0 time dt ws).i k)
      ((s.fieldsWith lr' cg' time dt (ws.filter fun w => w.row < A w.bundle)).i k) := by
    intro k
    rw [MTLD.fieldsWith_i, MTLD.fieldsWith_i, H.m, H.dun]
    exact advanceCurrent_shows LR (H.tz.q3phi H.phi) (eT _) (eL _) (eL _) hv H.i k
  have hphi : ∀ k, ShowsCol h ((b.fieldsWith lr0 cg0 time dt ws).phi k)
      ((s.fieldsWith lr' cg' time dt (ws.filter fun w => w.row < A w.bundle)).phi k) := by
    intro k
    rw [MTLD.fieldsWith_phi, MTLD.fieldsWith_phi]
    exact H.tz.updatePhi H.phi hi k
  refine ⟨⟨H.name, H.m, H.dun, H.dt, H.l, H.c, H.r, H.g, H.tz, hv, hi, hphi, H.eL, H.eT, ?_⟩, ⟨_, _, e1, e2, LR⟩, ⟨_, _, e3, e4, CG⟩⟩
  refine forall₂_map_both H.probes fun q q' hqq => ?_
  have hst : q'.stamp (time + dt) = q.stamp (time + dt) := by
    unfold Probe.stamp
    rw [hqq.type, hqq.dt]
  rw [hst, H.m]
  exact hqq.saveFrame _ (hqq.column _ hv hi)

theorem MTLD.Shows.start {b b' : MTLD n p} {s : MTLD a p} (H : b.Shows h s) {k : ℕ} (hs : b.start k = .ok b') :
    ∃ s', s.start k = .ok s' ∧ b'.ShowsReady h s' ∧ b'.name = b.name := by
  obtain ⟨lr, cg, h1, h2, rfl⟩ := MTLD.start_ok_iff.1 hs
  obtain ⟨lr', e1, LR⟩ := updateLr_shows H.l H.r H.tz h1
  obtain ⟨cg', e2, CG⟩ := updateCg_shows H.c H.g h2
  refine ⟨_, MTLD.start_ok_iff.2 ⟨lr', cg', by rw [H.m, H.dt, H.dun]; exact e1, by rw [H.m, H.dt, H.dun]; exact e2, rfl⟩,
    ⟨⟨H.name, H.m, H.dun, H.dt, H.l, H.c, H.r, H.g, H.tz, H.v, H.i, H.phi, H.eL, H.eT, ?_⟩, ⟨_, _, rfl, rfl, LR⟩, ⟨_, _, rfl, rfl, CG⟩⟩, rfl⟩
  exact forall₂_map_both H.probes fun q q' hqq => hqq.resize k

end Mtln
