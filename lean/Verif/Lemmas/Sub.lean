import Verif.Lemmas.Fields
import Verif.Spec.Symmetry

/-! # A group of conductors that does not feel the others -/

namespace Mtln

open Matrix

variable {n p n₁ : ℕ} {e : Fin n₁ → Fin n}

/-- A sum over all conductors of something that vanishes outside the group. -/
theorem sum_sub (he : Function.Injective e) {M : Type*} [AddCommMonoid M] (f : Fin n → M)
    (h : ∀ x, x ∉ Set.range e → f x = 0) : ∑ x, f x = ∑ a, f (e a) := by
  classical
  rw [← Finset.sum_image (s := Finset.univ) (g := e) (f := f) (fun a _ b _ hab => he hab)]
  symm
  apply Finset.sum_subset (Finset.subset_univ _)
  intro x _ hx
  apply h
  rintro ⟨a, rfl⟩
  exact hx (Finset.mem_image_of_mem _ (Finset.mem_univ _))

namespace SubMat

variable {A A' : Mat n} {B B' : Mat n₁}

theorem mulVec (he : Function.Injective e) (h : SubMat e A B) {x : Col n} {y : Col n₁}
    (hxy : ∀ a, y a = x (e a)) (a : Fin n₁) : (B *ᵥ y) a = (A *ᵥ x) (e a) := by
  simp only [Matrix.mulVec, dotProduct]
  rw [sum_sub he]
  · exact Finset.sum_congr rfl fun b _ => by rw [h.inside, hxy]
  · intro z hz; rw [h.outside a z hz, zero_mul]

theorem add (h : SubMat e A B) (h' : SubMat e A' B') : SubMat e (A + A') (B + B') :=
  ⟨fun a b => by simp [h.inside, h'.inside], fun a x hx => by simp [h.outside a x hx, h'.outside a x hx]⟩

theorem sub (h : SubMat e A B) (h' : SubMat e A' B') : SubMat e (A - A') (B - B') :=
  ⟨fun a b => by simp [h.inside, h'.inside], fun a x hx => by simp [h.outside a x hx, h'.outside a x hx]⟩

theorem smul (c : ℝ) (h : SubMat e A B) : SubMat e (c • A) (c • B) :=
  ⟨fun a b => by simp [h.inside], fun a x hx => by simp [h.outside a x hx]⟩

theorem one (he : Function.Injective e) : SubMat e 1 1 := by
  refine ⟨fun a b => ?_, fun a x hx => ?_⟩
  · by_cases hab : a = b
    · subst hab; rw [Matrix.one_apply_eq, Matrix.one_apply_eq]
    · rw [Matrix.one_apply_ne hab, Matrix.one_apply_ne (fun h => hab (he h))]
  · exact Matrix.one_apply_ne fun h => hx ⟨a, h⟩

theorem zero : SubMat e 0 0 := ⟨fun _ _ => rfl, fun _ _ _ => rfl⟩

theorem mul (he : Function.Injective e) (h : SubMat e A B) (h' : SubMat e A' B') :
    SubMat e (A * A') (B * B') := by
  refine ⟨fun a b => ?_, fun a x hx => ?_⟩
  · simp only [Matrix.mul_apply]
    rw [sum_sub he]
    · exact Finset.sum_congr rfl fun c _ => by rw [h.inside, h'.inside]
    · intro z hz; rw [h.outside a z hz, zero_mul]
  · simp only [Matrix.mul_apply]
    rw [sum_sub he]
    · exact Finset.sum_eq_zero fun c _ => by rw [h'.outside c x hx, mul_zero]
    · intro z hz; rw [h.outside a z hz, zero_mul]

/-- The sub-matrix of an invertible matrix is invertible … -/
theorem inside_mul (he : Function.Injective e) (h : SubMat e A B) (hA : A.det ≠ 0) :
    B * A⁻¹.submatrix e e = 1 := by
  ext a b
  have h1 := congrFun (congrFun (Matrix.mul_nonsing_inv A (isUnit_iff_ne_zero.2 hA)) (e a)) (e b)
  rw [Matrix.mul_apply, sum_sub he _ (fun z hz => by rw [h.outside a z hz, zero_mul])] at h1
  rw [Matrix.mul_apply, ← (SubMat.one (n := n) he).inside a b, ← h1]
  exact Finset.sum_congr rfl fun c _ => by rw [h.inside]; rfl

theorem det_ne_zero (he : Function.Injective e) (h : SubMat e A B) (hA : A.det ≠ 0) : B.det ≠ 0 := by
  intro h0
  have := congrArg Matrix.det (inside_mul he h hA)
  rw [Matrix.det_mul, h0, zero_mul, Matrix.det_one] at this
  exact zero_ne_one this

/-- … and its inverse is the sub-matrix of the inverse. -/
theorem inv (he : Function.Injective e) (h : SubMat e A B) (hA : A.det ≠ 0) : SubMat e A⁻¹ B⁻¹ := by
  have h1 := inside_mul he h hA
  have hB := det_ne_zero he h hA
  have h2 : B⁻¹ = A⁻¹.submatrix e e := Matrix.inv_eq_right_inv h1
  refine ⟨fun a b => by rw [h2]; rfl, fun a x hx => ?_⟩
  -- the column `x` of the inverse, restricted to the group, is in the kernel of `B`
  have h3 : B *ᵥ (fun b => A⁻¹ (e b) x) = 0 := by
    funext b
    have h1 := congrFun (congrFun (Matrix.mul_nonsing_inv A (isUnit_iff_ne_zero.2 hA)) (e b)) x
    rw [Matrix.mul_apply, sum_sub he _ (fun z hz => by rw [h.outside b z hz, zero_mul]),
      Matrix.one_apply_ne (fun h => hx ⟨b, h⟩)] at h1
    show ∑ c, B b c * A⁻¹ (e c) x = 0
    rw [← h1]
    exact Finset.sum_congr rfl fun c _ => by rw [h.inside]
  have h4 := congrArg (B⁻¹ *ᵥ ·) h3
  simp only [mulVec_mulVec, Matrix.nonsing_inv_mul B (isUnit_iff_ne_zero.2 hB), one_mulVec, mulVec_zero] at h4
  exact congrFun h4 a

end SubMat

/-- `lr`, `cg` of the sub-line. -/
structure SubCoeffs (e : Fin n₁ → Fin n) (m : ℕ) (lr : LR n) (cg : CG n) (lr' : LR n₁) (cg' : CG n₁) : Prop where
  iTerm : ∀ k < m, SubMat e (lr.iTerm k) (lr'.iTerm k)
  vDiff : ∀ k < m, SubMat e (lr.vDiff k) (lr'.vDiff k)
  vTerm : ∀ k ≤ m, SubMat e (cg.vTerm k) (cg'.vTerm k)
  iDiff : ∀ k ≤ m, SubMat e (cg.iDiff k) (cg'.iDiff k)

section

variable {s : MTL n p} {t : MTL n₁ p}

theorem sub_lrF1 (h : SubMedium e s t) (k : ℕ) :
    SubMat e (lrF1 s.dt s.dun s.l s.r s.conn k) (lrF1 t.dt t.dun t.l t.r t.conn k) := by
  unfold lrF1
  rw [h.dt, h.dun]
  exact (((((h.l k).smul _).add ((h.d k).smul _)).add ((h.de k).smul _)).add ((h.r k).smul _)).add
    (h.q1sum k) |>.smul _

theorem sub_lrF2 (h : SubMedium e s t) (k : ℕ) :
    SubMat e (lrF2 s.dt s.dun s.l s.r s.conn k) (lrF2 t.dt t.dun t.l t.r t.conn k) := by
  unfold lrF2
  rw [h.dt, h.dun]
  exact (((((h.l k).smul _).sub ((h.d k).smul _)).add ((h.de k).smul _)).sub ((h.r k).smul _)).sub
    (h.q2sum k) |>.smul _

theorem sub_cgF1 (h : SubMedium e s t) (k : ℕ) :
    SubMat e (cgF1 s.m s.dt s.dun s.c s.g k) (cgF1 t.m t.dt t.dun t.c t.g k) := by
  unfold cgF1
  rw [h.dt, h.dun, h.m]
  exact (((h.c k).smul _).add ((h.g k).smul _)).smul _

theorem sub_cgF2 (h : SubMedium e s t) (k : ℕ) :
    SubMat e (cgF2 s.m s.dt s.dun s.c s.g k) (cgF2 t.m t.dt t.dun t.c t.g k) := by
  unfold cgF2
  rw [h.dt, h.dun, h.m]
  exact (((h.c k).smul _).sub ((h.g k).smul _)).smul _

/-- If the coefficients of the whole line can be computed, so can those of the sub-line. -/
theorem sub_updateLr (he : Function.Injective e) (h : SubMedium e s t) {lr : LR n}
    (hlr : updateLr s.m s.dt s.dun s.l s.r s.conn = .ok lr) :
    ∃ lr', updateLr t.m t.dt t.dun t.l t.r t.conn = .ok lr' ∧
      (∀ k < s.m, SubMat e (lr.iTerm k) (lr'.iTerm k)) ∧ ∀ k < s.m, SubMat e (lr.vDiff k) (lr'.vDiff k) := by
  obtain ⟨hdt, hdet, rfl⟩ := updateLr_ok_iff.1 hlr
  refine ⟨_, updateLr_ok_iff.2 ⟨by rw [h.dt]; exact hdt, ?_, rfl⟩, ?_, ?_⟩
  · intro k hk
    exact (sub_lrF1 h k).det_ne_zero he (hdet k (by rw [← h.m]; exact hk))
  · intro k hk
    exact ((sub_lrF1 h k).inv he (hdet k hk)).mul he (sub_lrF2 h k)
  · intro k hk
    exact (sub_lrF1 h k).inv he (hdet k hk)

theorem sub_updateCg (he : Function.Injective e) (h : SubMedium e s t) {cg : CG n}
    (hcg : updateCg s.m s.dt s.dun s.c s.g = .ok cg) :
    ∃ cg', updateCg t.m t.dt t.dun t.c t.g = .ok cg' ∧
      (∀ k ≤ s.m, SubMat e (cg.vTerm k) (cg'.vTerm k)) ∧ ∀ k ≤ s.m, SubMat e (cg.iDiff k) (cg'.iDiff k) := by
  obtain ⟨hdt, hdet, rfl⟩ := updateCg_ok_iff.1 hcg
  refine ⟨_, updateCg_ok_iff.2 ⟨by rw [h.dt]; exact hdt, ?_, rfl⟩, ?_, ?_⟩
  · intro k hk
    exact (sub_cgF1 h k).det_ne_zero he (hdet k (by rw [← h.m]; exact hk))
  · intro k hk
    exact ((sub_cgF1 h k).inv he (hdet k hk)).mul he (sub_cgF2 h k)
  · intro k hk
    exact (sub_cgF1 h k).inv he (hdet k hk)

theorem sub_q3phi (he : Function.Injective e) (h : SubMedium e s t) {k : ℕ}
    (hphi : ∀ a, t.phi k a = s.phi k (e a)) (a : Fin n₁) :
    t.conn.q3phi t.phi k a = s.conn.q3phi s.phi k (e a) := by
  unfold Disp.q3phi
  congr 1
  funext σ
  rw [sum_sub he]
  · exact Finset.sum_congr rfl fun b _ => by rw [(h.q3 k).inside, hphi]
  · intro z hz; rw [(h.q3 k).outside a z hz]; simp

theorem sub_advance (he : Function.Injective e) (h : SubMedium e s t) (hm : 0 < s.m) {lr : LR n} {cg : CG n}
    {lr' : LR n₁} {cg' : CG n₁} (hc : SubCoeffs e s.m lr cg lr' cg') (ht : t.time = s.time)
    (hS : SubSources e s t) (hst : SubState e s t) :
    SubState e (s.advanceFields lr cg) (t.advanceFields lr' cg') := by
  have e1 : ∀ k a, t.sample.vNow k a = s.sample.vNow k (e a) := fun k a => by
    simp [MTL.sample, sampleSources, hS.vS, ht]
  have e2 : ∀ k a, t.sample.vPrev k a = s.sample.vPrev k (e a) := fun k a => by
    simp [MTL.sample, sampleSources, hS.vS, ht, h.dt]
  have e3 : ∀ k a, t.sample.eTNow k a = s.sample.eTNow k (e a) := fun k a => by
    simp [MTL.sample, sampleSources, hS.eT, ht]
  have e4 : ∀ k a, t.sample.eTPrev k a = s.sample.eTPrev k (e a) := fun k a => by
    simp [MTL.sample, sampleSources, hS.eT, ht, h.dt]
  have e5 : ∀ k a, t.sample.eLNow k a = s.sample.eLNow k (e a) := fun k a => by
    simp [MTL.sample, sampleSources, hS.eL, ht, h.dt]
  have e6 : ∀ k a, t.sample.eLPrev k a = s.sample.eLPrev k (e a) := fun k a => by
    simp [MTL.sample, sampleSources, hS.eL, ht, h.dt]
  have hv : ∀ k a, (t.advanceFields lr' cg').v k a = (s.advanceFields lr cg).v k (e a) := by
    intro k a
    rcases Nat.eq_zero_or_pos k with rfl | hk0
    · rw [advanceFields_v_left _ _ _ hm, advanceFields_v_left _ _ _ (by rw [h.m]; exact hm), h.dun, h.dt]
      simp only [Pi.add_apply]
      rw [h.left1.mulVec he (hst.v 0) a]
      congr 1
      refine h.left2.mulVec he ?_ a
      intro b
      simp only [Pi.add_apply, Pi.sub_apply, Pi.neg_apply, Pi.smul_apply, e1, e2]
      rw [h.zs.mulVec he (hst.i 0) b, (h.zs.mul he (h.c 0)).mulVec he (fun x => ?_) b]
      simp [e3, e4]
    · rcases lt_trichotomy k s.m with hlt | rfl | hgt
      · rw [advanceFields_v_interior _ _ _ _ hk0 hlt,
          advanceFields_v_interior _ _ _ _ hk0 (by rw [h.m]; exact hlt)]
        simp only [Pi.sub_apply, e3, e4]
        rw [(hc.vTerm k hlt.le).mulVec he (hst.v k) a, (hc.iDiff k hlt.le).mulVec he (fun x => ?_) a]
        simp [hst.i]
      · have := advanceFields_v_right lr' cg' t (by rw [h.m]; exact hm)
        rw [h.m] at this
        rw [this, advanceFields_v_right _ _ _ hm, h.dun, h.dt]
        simp only [Pi.add_apply]
        rw [h.right1.mulVec he (hst.v _) a]
        congr 1
        refine h.right2.mulVec he ?_ a
        intro b
        simp only [Pi.add_apply, Pi.sub_apply, Pi.smul_apply, e1, e2]
        rw [h.zl.mulVec he (hst.i _) b, (h.zl.mul he (h.c _)).mulVec he (fun x => ?_) b]
        simp [e3, e4]
      · rw [advanceFields_v_beyond _ _ _ _ hm hgt, advanceFields_v_beyond _ _ _ _ (by rw [h.m]; exact hm)
          (by rw [h.m]; exact hgt), hst.v]
  have hi : ∀ k a, (t.advanceFields lr' cg').i k a = (s.advanceFields lr cg).i k (e a) := by
    intro k a
    by_cases hk : k < s.m
    · rw [advanceFields_i _ _ _ _ hk, advanceFields_i _ _ _ _ (by rw [h.m]; exact hk), h.dun]
      simp only [Pi.sub_apply]
      rw [(hc.iTerm k hk).mulVec he (hst.i k) a]
      congr 1
      · congr 1
        refine (hc.vDiff k hk).mulVec he ?_ a
        intro b
        simp [hv, e3, e5, e6]
      · refine (hc.vDiff k hk).mulVec he ?_ a
        intro b
        simp [sub_q3phi he h (hst.phi k)]
    · rw [advanceFields_i_beyond _ _ s _ (by omega), advanceFields_i_beyond _ _ t _ (by rw [h.m]; omega), hst.i]
  refine ⟨hv, hi, ?_⟩
  intro k a
  rw [advanceFields_phi, advanceFields_phi]
  funext σ
  unfold Disp.updatePhi
  simp only [hi, hst.phi]
  congr 1
  · congr 1
    · symm
      rw [sum_sub he]
      · exact Finset.sum_congr rfl fun b _ => by rw [(h.q1 k).inside]
      · intro z hz; rw [(h.q1 k).outside a z hz]; simp
    · symm
      rw [sum_sub he]
      · exact Finset.sum_congr rfl fun b _ => by rw [(h.q2 k).inside]
      · intro z hz; rw [(h.q2 k).outside a z hz]; simp
  · symm
    rw [sum_sub he]
    · exact Finset.sum_congr rfl fun b _ => by rw [(h.q3 k).inside]
    · intro z hz; rw [(h.q3 k).outside a z hz]; simp

theorem sub_iterate (he : Function.Injective e) {lr : LR n} {cg : CG n}
    {lr' : LR n₁} {cg' : CG n₁} (j : ℕ) {s : MTL n p} {t : MTL n₁ p} (h : SubMedium e s t) (hm : 0 < s.m)
    (hc : SubCoeffs e s.m lr cg lr' cg') (ht : t.time = s.time)
    (hS : SubSources e s t) (hst : SubState e s t) :
    SubState e ((MTL.advanceFields lr cg)^[j] s) ((MTL.advanceFields lr' cg')^[j] t) := by
  induction j generalizing s t with
  | zero => exact hst
  | succ j ih =>
    rw [Function.iterate_succ_apply, Function.iterate_succ_apply]
    refine ih (s := s.advanceFields lr cg) (t := t.advanceFields lr' cg') ?_ hm hc ?_ ?_
      (sub_advance he h hm hc ht hS hst)
    · exact ⟨h.m, h.dt, h.dun, h.l, h.c, h.r, h.g, h.zs, h.zl, h.left1, h.left2, h.right1, h.right2, h.q1, h.q2,
        h.q3, h.d, h.de, h.q1sum, h.q2sum⟩
    · show t.time + t.dt = s.time + s.dt
      rw [ht, h.dt]
    · exact ⟨hS.vS, hS.eL, hS.eT⟩

/-- The terminal coefficients of a sub-line follow from the terminations. -/
theorem sub_terminal (he : Function.Injective e) {dt du : ℝ} {z c g : Mat n} {z' c' g' : Mat n₁}
    (hz : SubMat e z z') (hc : SubMat e c c') (hg : SubMat e g g') (hdet : (termF1 dt du z c g).det ≠ 0) :
    SubMat e (termF1 dt du z c g)⁻¹ (termF1 dt du z' c' g')⁻¹ ∧
    SubMat e ((termF1 dt du z c g)⁻¹ * termF2 dt du z c g)
      ((termF1 dt du z' c' g')⁻¹ * termF2 dt du z' c' g') := by
  have h1 : SubMat e (termF1 dt du z c g) (termF1 dt du z' c' g') :=
    (((hz.mul he hc).smul _).add ((hz.mul he hg).smul _)).add (SubMat.one he)
  have h2 : SubMat e (termF2 dt du z c g) (termF2 dt du z' c' g') :=
    (((hz.mul he hc).smul _).sub ((hz.mul he hg).smul _)).sub (SubMat.one he)
  exact ⟨h1.inv he hdet, (h1.inv he hdet).mul he h2⟩

end

end Mtln
