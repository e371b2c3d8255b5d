import Verif.Spec.ManagerPower
import Verif.Props.ManagerAC
import Verif.Props.ManagerReciprocity
import Verif.Props.FrequencyPower

/-! # Power and reciprocity of managers for alternating current: C183 -/

namespace Mtln

open Matrix

variable {n p N S : ℕ}

/-! ## Sums over ends -/

theorem sum_same_ends {A : Type} [AddCommMonoid A] {l l' : List End} (hl : l.Nodup) (hl' : l'.Nodup) {f : End → A}
    (h : ∀ x ∉ l, f x = 0) (h' : ∀ x ∉ l', f x = 0) : (l.map f).sum = (l'.map f).sum := by
  rw [← List.sum_toFinset f hl, ← List.sum_toFinset f hl']
  have e1 : ∑ x ∈ l.toFinset, f x = ∑ x ∈ l.toFinset ∪ l'.toFinset, f x :=
    Finset.sum_subset Finset.subset_union_left fun x _ hx => h x fun hc => hx (List.mem_toFinset.2 hc)
  have e2 : ∑ x ∈ l'.toFinset, f x = ∑ x ∈ l.toFinset ∪ l'.toFinset, f x :=
    Finset.sum_subset Finset.subset_union_right fun x _ hx => h' x fun hc => hx (List.mem_toFinset.2 hc)
  rw [e1, e2]

theorem sum_over_ends {A : Type} [AddCommMonoid A] (bs : List (AnyBundle p)) (f : End → A) : ((allEnds bs).map f).sum =
    (bs.map fun b => ∑ j : Fin b.1, f ⟨b.2.name, j, .S⟩ + ∑ j : Fin b.1, f ⟨b.2.name, j, .L⟩).sum := by
  induction bs with
  | nil => simp [allEnds]
  | cons b bs ih =>
    have e : allEnds (b :: bs) = ((List.ofFn fun j : Fin b.1 => (⟨b.2.name, j, .S⟩ : End)) ++
      List.ofFn fun j : Fin b.1 => (⟨b.2.name, j, .L⟩ : End)) ++ allEnds bs := rfl
    rw [e]
    simp only [List.map_append, List.sum_append, ih, List.map_cons, List.sum_cons, List.map_ofFn, List.sum_ofFn,
      Function.comp_def]

theorem sum_over_nodes {A : Type} [AddCommMonoid A] (nws : List NetworkD) (f : End → A) : (((allNodes nws).map Node.end').map f).sum =
    (nws.map fun nwd => (nwd.map fun e => ∑ a, f (e.2.2.2.nodes a).end').sum).sum := by
  induction nws with
  | nil => simp [allNodes]
  | cons nwd nws ih =>
    have e : allNodes (nwd :: nws) = (nwd.flatMap fun e => List.ofFn e.2.2.2.nodes) ++ allNodes nws := rfl
    rw [e]
    simp only [List.map_append, List.sum_append, ih, List.map_cons, List.sum_cons]
    congr 1
    clear ih e
    induction nwd with
    | nil => simp
    | cons e nwd ih =>
      simp only [List.flatMap_cons, List.map_append, List.sum_append, ih, List.map_cons, List.sum_cons, List.map_ofFn,
        List.sum_ofFn, Function.comp_def]

/-- What the networks give to the ends of the bundles the bundles take. -/
theorem sum_nodes_ends {A : Type} [AddCommMonoid A] {M : MTLN p} (hn : (M.bundles.map fun b => b.2.name).Nodup)
    (he : ((allNodes M.networks).map Node.end').Nodup) {f : End → A} (h : ∀ x ∉ (allNodes M.networks).map Node.end', f x = 0)
    (h' : ∀ x ∉ allEnds M.bundles, f x = 0) :
    (M.networks.map fun nwd => (nwd.map fun e => ∑ a, f (e.2.2.2.nodes a).end').sum).sum =
      (M.bundles.map fun b => ∑ j : Fin b.1, f ⟨b.2.name, j, .S⟩ + ∑ j : Fin b.1, f ⟨b.2.name, j, .L⟩).sum := by
  rw [← sum_over_nodes, ← sum_over_ends, sum_same_ends he (nodup_allEnds hn) h h']

theorem acEndV_none {bs : List (AnyBundle p)} (V : String → ℕ → ℕ → ℂ) {x : End} (h : x ∉ allEnds bs) : acEndV bs V x = 0 := by
  unfold acEndV
  cases hf : findBundle bs x.bundle with
  | none => rfl
  | some b =>
    obtain ⟨hb, hname⟩ := findBundle_some hf
    simp only
    rw [if_neg fun hr => h (mem_allEnds.2 ⟨b, hb, hname, hr⟩)]

theorem acEnd_eq {bs : List (AnyBundle p)} (hn : (bs.map fun b => b.2.name).Nodup) {b : AnyBundle p} (hb : b ∈ bs)
    (V : String → ℕ → ℕ → ℂ) (j : Fin b.1) (side : Side) : acEndV bs V ⟨b.2.name, j, side⟩ = V b.2.name (side.node b.2.m) j ∧
    acEndI bs V ⟨b.2.name, j, side⟩ = side.factor * V b.2.name (side.cell b.2.m) j := by
  unfold acEndV acEndI
  simp only [findBundle_mem hn b hb, j.2, if_true, and_self]

theorem forall₂_sum_sub_complex {α β : Type} {R : α → β → Prop} {f h : α → ℂ} {g : β → ℂ} {l : List α} {l' : List β}
    (hl : List.Forall₂ R l l') (H : ∀ a ∈ l, ∀ b ∈ l', R a b → f a - g b = h a) :
    (l.map f).sum - (l'.map g).sum = (l.map h).sum := by
  induction hl with
  | nil => simp
  | @cons a b l l' hr _ ih =>
    simp only [List.map_cons, List.sum_cons]
    rw [← ih fun a ha b hb => H a (List.mem_cons_of_mem _ ha) b (List.mem_cons_of_mem _ hb),
      ← H a List.mem_cons_self b List.mem_cons_self hr]
    ring

/-! ## Bundles -/

section

variable {b : MTLD n p} {θ : ℝ} {F H V I F' H' V' I' : ℕ → Fin n → ℂ}

/-- The equations of the cells and nodes with the sources on one side. -/
theorem MTLD.AC.node_eq (h : b.AC θ F H V I) {k : ℕ} (h0 : 0 < k) (hk : k < b.m) :
    ((b.dun (k - 1) + b.dun k) / 2) • ((1 / b.dt) • (cx (b.c k) *ᵥ (turn θ • V k)) + Real.cos (θ / 2) • (cx (b.g k) *ᵥ V k)) =
      -(I k - I (k - 1)) + b.acInjected θ F k := by
  rw [h.node k h0 hk]
  rfl

theorem MTLD.AC.cell_eq (h : b.AC θ F H V I) {k : ℕ} (hk : k < b.m) :
    b.dun k • ((1 / b.dt) • (cx (b.l k + b.tz.e k) *ᵥ (turn θ • I k)) + Real.cos (θ / 2) • (cx (b.r k + b.tz.d k) *ᵥ I k)) =
      -(V (k + 1) - V k) + b.acInduced θ F H k := by
  rw [h.cell k hk]
  unfold MTLD.acInduced
  module

/-- Tellegen's identity of a bundle. -/
theorem tellegen_ends (V I : ℕ → Fin n → ℂ) {m : ℕ} (hm : 0 < m) : ∑ k ∈ Finset.range m, I k ⬝ᵥ (V (k + 1) - V k) +
    ∑ k ∈ Finset.Ico 1 m, (I k - I (k - 1)) ⬝ᵥ V k = I (m - 1) ⬝ᵥ V m - I 0 ⬝ᵥ V 0 := by
  obtain ⟨m, rfl⟩ := Nat.exists_eq_succ_of_ne_zero hm.ne'
  have := tellegen V I m
  rw [Finset.sum_Ico_eq_sum_range]
  simp only [Nat.succ_eq_add_one, Nat.add_sub_cancel]
  rw [← this]
  congr 1
  refine Finset.sum_congr rfl fun k _ => ?_
  rw [show 1 + k = k + 1 by omega, Nat.add_sub_cancel]

theorem branch_symm {L R : Mat n} (hL : Lᵀ = L) (hR : Rᵀ = R) (a γ θ : ℝ) (X Y : Fin n → ℂ) :
    X ⬝ᵥ (a • (cx L *ᵥ (turn θ • Y)) + γ • (cx R *ᵥ Y)) = Y ⬝ᵥ (a • (cx L *ᵥ (turn θ • X)) + γ • (cx R *ᵥ X)) := by
  simp only [dotProduct_add, dotProduct_smul, mulVec_smul]
  rw [cx_dot_comm hL, cx_dot_comm hR]

/-- Reciprocity of a bundle between its sources and its ends. -/
theorem MTLD.AC.flow (hm : 0 < b.m) (hl : ∀ k < b.m, (b.l k + b.tz.e k)ᵀ = b.l k + b.tz.e k) (hc : ∀ k ≤ b.m, (b.c k)ᵀ = b.c k)
    (hr : ∀ k < b.m, (b.r k + b.tz.d k)ᵀ = b.r k + b.tz.d k) (hg : ∀ k ≤ b.m, (b.g k)ᵀ = b.g k)
    (h : b.AC θ F H V I) (h' : b.AC θ F' H' V' I') :
    (∑ k ∈ Finset.Ico 1 b.m, b.acInjected θ F k ⬝ᵥ V' k - ∑ k ∈ Finset.range b.m, b.acInduced θ F H k ⬝ᵥ I' k) -
      (∑ k ∈ Finset.Ico 1 b.m, b.acInjected θ F' k ⬝ᵥ V k - ∑ k ∈ Finset.range b.m, b.acInduced θ F' H' k ⬝ᵥ I k) =
      -((I 0 ⬝ᵥ V' 0 - I' 0 ⬝ᵥ V 0) - (I (b.m - 1) ⬝ᵥ V' b.m - I' (b.m - 1) ⬝ᵥ V b.m)) := by
  have t1 := tellegen_ends V' I hm
  have t2 := tellegen_ends V I' hm
  have cells : ∑ k ∈ Finset.range b.m, I k ⬝ᵥ (V' (k + 1) - V' k) - ∑ k ∈ Finset.range b.m, b.acInduced θ F' H' k ⬝ᵥ I k =
      ∑ k ∈ Finset.range b.m, I' k ⬝ᵥ (V (k + 1) - V k) - ∑ k ∈ Finset.range b.m, b.acInduced θ F H k ⬝ᵥ I' k := by
    rw [← Finset.sum_sub_distrib, ← Finset.sum_sub_distrib]
    refine Finset.sum_congr rfl fun k hk => ?_
    have hk := Finset.mem_range.1 hk
    have e1 := congrArg (I' k ⬝ᵥ ·) (h.cell_eq hk)
    have e2 := congrArg (I k ⬝ᵥ ·) (h'.cell_eq hk)
    simp only [dotProduct_add, dotProduct_neg, dotProduct_smul] at e1 e2
    have s := branch_symm (hl k hk) (hr k hk) (1 / b.dt) (Real.cos (θ / 2)) θ (I k) (I' k)
    simp only [dotProduct_add, dotProduct_smul] at s
    rw [s] at e2
    rw [dotProduct_comm (b.acInduced θ F' H' k), dotProduct_comm (b.acInduced θ F H k)]
    linear_combination e2 - e1
  have nodes : ∑ k ∈ Finset.Ico 1 b.m, (I k - I (k - 1)) ⬝ᵥ V' k - ∑ k ∈ Finset.Ico 1 b.m, b.acInjected θ F k ⬝ᵥ V' k =
      ∑ k ∈ Finset.Ico 1 b.m, (I' k - I' (k - 1)) ⬝ᵥ V k - ∑ k ∈ Finset.Ico 1 b.m, b.acInjected θ F' k ⬝ᵥ V k := by
    rw [← Finset.sum_sub_distrib, ← Finset.sum_sub_distrib]
    refine Finset.sum_congr rfl fun k hk => ?_
    obtain ⟨h0, hk⟩ := Finset.mem_Ico.1 hk
    have e1 := congrArg (V' k ⬝ᵥ ·) (h.node_eq h0 hk)
    have e2 := congrArg (V k ⬝ᵥ ·) (h'.node_eq h0 hk)
    simp only [dotProduct_add, dotProduct_neg, dotProduct_smul] at e1 e2
    have s := branch_symm (hc k hk.le) (hg k hk.le) (1 / b.dt) (Real.cos (θ / 2)) θ (V k) (V' k)
    simp only [dotProduct_add, dotProduct_smul] at s
    rw [s] at e2
    rw [dotProduct_comm _ (V' k), dotProduct_comm _ (V k), dotProduct_comm _ (V' k), dotProduct_comm _ (V k)]
    linear_combination e1 - e2
  linear_combination t1 - t2 - cells - nodes

theorem re_star_comm (X Y : Fin n → ℂ) : (star X ⬝ᵥ Y).re = (star Y ⬝ᵥ X).re := by
  simp only [dotProduct, Complex.re_sum, Pi.star_apply]
  refine Finset.sum_congr rfl fun a _ => ?_
  simp [mul_comm]

/-- The power of a bundle between its sources and its ends. -/
theorem MTLD.AC.power (hm : 0 < b.m) (hl : ∀ k < b.m, (b.l k + b.tz.e k)ᵀ = b.l k + b.tz.e k) (hc : ∀ k ≤ b.m, (b.c k)ᵀ = b.c k)
    (h : b.AC θ F H V I) :
    ∑ k ∈ Finset.Ico 1 b.m, (star (V k) ⬝ᵥ b.acInjected θ F k).re + ∑ k ∈ Finset.range b.m, (star (I k) ⬝ᵥ b.acInduced θ F H k).re =
      Real.cos (θ / 2) * (∑ k ∈ Finset.Ico 1 b.m, (b.dun (k - 1) + b.dun k) / 2 * acMean (b.g k) (V k) +
        ∑ k ∈ Finset.range b.m, b.dun k * acMean (b.r k + b.tz.d k) (I k)) -
      ((star (V 0) ⬝ᵥ I 0).re - (star (V b.m) ⬝ᵥ I (b.m - 1)).re) := by
  have t := congrArg Complex.re (tellegen_ends V (fun k => star (I k)) hm)
  simp only [Complex.add_re, Complex.sub_re, Complex.re_sum] at t
  have cells : ∑ k ∈ Finset.range b.m, (star (I k) ⬝ᵥ (V (k + 1) - V k)).re =
      ∑ k ∈ Finset.range b.m, (star (I k) ⬝ᵥ b.acInduced θ F H k).re -
        Real.cos (θ / 2) * ∑ k ∈ Finset.range b.m, b.dun k * acMean (b.r k + b.tz.d k) (I k) := by
    rw [Finset.mul_sum, ← Finset.sum_sub_distrib]
    refine Finset.sum_congr rfl fun k hk => ?_
    have hk := Finset.mem_range.1 hk
    have e := congrArg (fun X => (star (I k) ⬝ᵥ X).re) (h.cell_eq hk)
    simp only [dotProduct_add (star (I k)) (-(V (k + 1) - V k)), dotProduct_neg, dotProduct_smul (b.dun k), Complex.add_re, Complex.neg_re,
      Complex.real_smul, Complex.re_ofReal_mul] at e
    rw [impedance_power (hl k hk)] at e
    have : meanPower (b.r k + b.tz.d k) (I k) = acMean (b.r k + b.tz.d k) (I k) := rfl
    rw [this] at e
    linear_combination e
  have nodes : ∑ k ∈ Finset.Ico 1 b.m, ((star (I k) - star (I (k - 1))) ⬝ᵥ V k).re =
      ∑ k ∈ Finset.Ico 1 b.m, (star (V k) ⬝ᵥ b.acInjected θ F k).re -
        Real.cos (θ / 2) * ∑ k ∈ Finset.Ico 1 b.m, (b.dun (k - 1) + b.dun k) / 2 * acMean (b.g k) (V k) := by
    rw [Finset.mul_sum, ← Finset.sum_sub_distrib]
    refine Finset.sum_congr rfl fun k hk => ?_
    obtain ⟨h0, hk⟩ := Finset.mem_Ico.1 hk
    have e := congrArg (fun X => (star (V k) ⬝ᵥ X).re) (h.node_eq h0 hk)
    simp only [dotProduct_add (star (V k)) (-(I k - I (k - 1))), dotProduct_neg, dotProduct_smul ((b.dun (k - 1) + b.dun k) / 2),
      Complex.add_re, Complex.neg_re, Complex.real_smul, Complex.re_ofReal_mul] at e
    rw [impedance_power (hc k hk.le)] at e
    have : meanPower (b.g k) (V k) = acMean (b.g k) (V k) := rfl
    rw [this] at e
    rw [← star_sub, re_star_comm]
    linear_combination e
  rw [cells, nodes] at t
  rw [re_star_comm (V 0), re_star_comm (V b.m)]
  linear_combination t

end

/-! ## Networks -/

section

variable {nw : Network N S} {dt θ : ℝ} {E F V I E' F' V' I' : Fin N → ℂ}

theorem Network.AC.node_eq (h : nw.AC dt θ E F V I) : I + (1 / (2 * dt)) • (cx nw.dxc *ᵥ (turn θ • V)) =
    Real.cos (θ / 2) • (cx nw.P1 *ᵥ V) + (1 / (2 * dt)) • (cx nw.Q1 *ᵥ (lag θ • V)) + nw.acNorton dt θ E F := by
  unfold Network.AC at h
  unfold Network.acNorton
  simp only [smul_add, mulVec_add] at h ⊢
  linear_combination (norm := module) h

theorem Network.AC.flow (hD : nw.dxcᵀ = nw.dxc) (hP : nw.P1ᵀ = nw.P1) (hQ : nw.Q1ᵀ = nw.Q1) (h : nw.AC dt θ E F V I)
    (h' : nw.AC dt θ E' F' V' I') :
    nw.acNorton dt θ E F ⬝ᵥ V' - nw.acNorton dt θ E' F' ⬝ᵥ V = I ⬝ᵥ V' - I' ⬝ᵥ V := by
  have e1 := congrArg (V' ⬝ᵥ ·) h.node_eq
  have e2 := congrArg (V ⬝ᵥ ·) h'.node_eq
  simp only [dotProduct_add, dotProduct_smul, mulVec_smul] at e1 e2
  rw [cx_dot_comm hD V V', cx_dot_comm hP V V', cx_dot_comm hQ V V'] at e2
  rw [dotProduct_comm _ V', dotProduct_comm _ V, dotProduct_comm I, dotProduct_comm I']
  linear_combination e2 - e1

theorem lag_re (θ : ℝ) : (lag θ).re = 2 * (Real.sin θ * Real.sin (θ / 2)) := by
  unfold lag turn
  rw [show -(θ / 2 : ℂ) * Complex.I = ((-(θ / 2) : ℝ) : ℂ) * Complex.I by push_cast; ring, mul_assoc, Complex.re_ofReal_mul,
    Complex.I_mul_re, Complex.exp_ofReal_mul_I_im, Real.sin_neg, show 2 * θ / 2 = θ by ring]
  ring

theorem acMean_neg (A : Mat n) (X : Fin n → ℂ) : acMean (-A) X = -acMean A X := by
  have : cx (-A) = -cx A := by
    ext i j
    simp [cx]
  unfold acMean
  rw [this, neg_mulVec, dotProduct_neg, Complex.neg_re]

theorem Network.AC.power (hD : nw.dxcᵀ = nw.dxc) (hQ : nw.Q1ᵀ = nw.Q1) (h : nw.AC dt θ E F V I) :
    (star V ⬝ᵥ nw.acNorton dt θ E F).re = (star V ⬝ᵥ I).re + (Real.cos (θ / 2) * acMean (-nw.P1) V +
      Real.sin θ * Real.sin (θ / 2) / dt * acMean (-nw.Q1) V) := by
  have e := congrArg (fun X => (star V ⬝ᵥ X).re) h.node_eq
  have hd : (star V ⬝ᵥ ((1 / (2 * dt)) • (cx nw.dxc *ᵥ (turn θ • V)))).re = 0 := by
    have := impedance_power hD (1 / (2 * dt)) 0 θ (R := 0) V
    rwa [zero_smul, add_zero, zero_mul] at this
  simp only [dotProduct_add, Complex.add_re, hd] at e
  rw [dotProduct_smul, dotProduct_smul, mulVec_smul, dotProduct_smul, Complex.real_smul, Complex.real_smul, Complex.re_ofReal_mul,
    Complex.re_ofReal_mul, smul_eq_mul, Complex.mul_re, form_im hQ, lag_re] at e
  rw [acMean_neg, acMean_neg]
  unfold acMean
  have hdt : (1 / (2 * dt)) * (2 * (Real.sin θ * Real.sin (θ / 2)) * (star V ⬝ᵥ (cx nw.Q1 *ᵥ V)).re - (lag θ).im * 0) =
      Real.sin θ * Real.sin (θ / 2) / dt * (star V ⬝ᵥ (cx nw.Q1 *ᵥ V)).re := by
    rw [mul_zero, sub_zero, one_div, mul_inv]
    ring
  rw [hdt] at e
  linear_combination -e

end

/-! ## Managers -/

section

variable {M M' : MTLN p} {θ : ℝ} {amp amp' : (ℝ → ℝ) → ℂ} {V I V' I' : String → ℕ → ℕ → ℂ}

theorem acEnd_remade {bs bs' : List (AnyBundle p)} (h : List.Forall₂ RemadeBundle bs bs')
    (V : String → ℕ → ℕ → ℂ) (x : End) : acEndV bs' V x = acEndV bs V x ∧ acEndI bs' V x = acEndI bs V x := by
  unfold acEndV acEndI
  rcases find_remade h x.bundle with ⟨e, e'⟩ | ⟨b, b', e, e', v, i, phi, eL, eT, rfl⟩
  · rw [e, e']; exact ⟨rfl, rfl⟩
  · rw [e, e']; exact ⟨rfl, rfl⟩

/-- What the ends of a bundle take of a product of currents and voltages. -/
theorem ends_dot (hn : (M.bundles.map fun b => b.2.name).Nodup) {b : AnyBundle p} (hb : b ∈ M.bundles)
    (V I : String → ℕ → ℕ → ℂ) : ∑ j : Fin b.1, acEndI M.bundles I ⟨b.2.name, j, .S⟩ * acEndV M.bundles V ⟨b.2.name, j, .S⟩ +
      ∑ j : Fin b.1, acEndI M.bundles I ⟨b.2.name, j, .L⟩ * acEndV M.bundles V ⟨b.2.name, j, .L⟩ =
      (fun a : Fin b.1 => I b.2.name 0 a) ⬝ᵥ (fun a : Fin b.1 => V b.2.name 0 a) -
      (fun a : Fin b.1 => I b.2.name (b.2.m - 1) a) ⬝ᵥ (fun a : Fin b.1 => V b.2.name b.2.m a) := by
  simp only [(acEnd_eq hn hb V _ _).1, (acEnd_eq hn hb I _ _).2, dotProduct]
  rw [sub_eq_add_neg, ← Finset.sum_neg_distrib]
  congr 1
  · refine Finset.sum_congr rfl fun j _ => ?_
    simp [Side.factor, Side.node, Side.cell]
  · refine Finset.sum_congr rfl fun j _ => ?_
    simp [Side.factor, Side.node, Side.cell]

/-- **C183, reciprocity.** What the sources of one manager do to the voltages and currents of another, that differs in state, sources
and fields only, is what the sources of the other do to those of the one. -/
theorem C183_reciprocity (hr : M.Remade M') (hp : M.Passive) (hs : M.Symmetric) (h : M.AC θ amp V I) (h' : M'.AC θ amp' V' I') :
    M.acReaction θ amp V' I' = M'.acReaction θ amp' V I := by
  obtain ⟨f, hf⟩ : ∃ f : End → ℂ, f = fun x => acEndI M.bundles I x * acEndV M.bundles V' x - acEndI M.bundles I' x * acEndV M.bundles V x :=
    ⟨_, rfl⟩
  have hnet : (M.networks.map fun nwd => (nwd.map fun e =>
      e.2.2.2.acNorton M.dt θ (fun a => amp (e.2.2.2.vSources a)) (fun a => amp (e.2.2.2.nodes a).eT) ⬝ᵥ
        fun a => acEndV M.bundles V' (e.2.2.2.nodes a).end').sum).sum - (M'.networks.map fun nwd => (nwd.map fun e =>
      e.2.2.2.acNorton M'.dt θ (fun a => amp' (e.2.2.2.vSources a)) (fun a => amp' (e.2.2.2.nodes a).eT) ⬝ᵥ
        fun a => acEndV M'.bundles V (e.2.2.2.nodes a).end').sum).sum =
      (M.networks.map fun nwd => (nwd.map fun e => ∑ a, f (e.2.2.2.nodes a).end').sum).sum := by
    refine forall₂_sum_sub_complex hr.networks fun nwd hn nwd' hn' hl => ?_
    refine forall₂_sum_sub_complex hl fun e he e' he' hl' => ?_
    have q := h.networks nwd hn e he
    have q' := h'.networks nwd' hn' e' he'
    obtain ⟨v, vPrev, i, X, vS, eT, rfl⟩ := hl'
    have hrc := hp.networks nwd hn e he
    simp only [hr.dt, (acEnd_remade hr.bundles _ _).1, (acEnd_remade hr.bundles _ _).2] at q' ⊢
    have q'' : e.2.2.2.AC M.dt θ (fun a => amp' (vS a)) (fun a => amp' (eT a))
        (fun a => acEndV M.bundles V' (e.2.2.2.nodes a).end') (fun a => acEndI M.bundles I' (e.2.2.2.nodes a).end') := q'
    have := Network.AC.flow hrc.dxc (hs.P1 nwd hn e he) hrc.Q1_symm q q''
    simp only [hf, Finset.sum_sub_distrib]
    exact this
  have hbun : (M.bundles.map fun b =>
      ∑ k ∈ Finset.Ico 1 b.2.m, b.2.acInjected θ (fun k a => amp (b.2.eT k a)) k ⬝ᵥ (fun a : Fin b.1 => V' b.2.name k a) -
      ∑ k ∈ Finset.range b.2.m, b.2.acInduced θ (fun k a => amp (b.2.eT k a)) (fun k a => amp (b.2.eL k a)) k ⬝ᵥ
        fun a : Fin b.1 => I' b.2.name k a).sum - (M'.bundles.map fun b =>
      ∑ k ∈ Finset.Ico 1 b.2.m, b.2.acInjected θ (fun k a => amp' (b.2.eT k a)) k ⬝ᵥ (fun a : Fin b.1 => V b.2.name k a) -
      ∑ k ∈ Finset.range b.2.m, b.2.acInduced θ (fun k a => amp' (b.2.eT k a)) (fun k a => amp' (b.2.eL k a)) k ⬝ᵥ
        fun a : Fin b.1 => I b.2.name k a).sum =
      (M.bundles.map fun b => -(∑ j : Fin b.1, f ⟨b.2.name, j, .S⟩ + ∑ j : Fin b.1, f ⟨b.2.name, j, .L⟩)).sum := by
    refine forall₂_sum_sub_complex hr.bundles fun b hb b' hb' hl => ?_
    have q := h.bundles b hb
    have q' := h'.bundles b' hb'
    obtain ⟨v, i, phi, eL, eT, rfl⟩ := hl
    have hpb := (hp.bundles b hb).1
    have q'' : b.2.AC θ (fun k a => amp' (eT k a)) (fun k a => amp' (eL k a)) (fun k a => V' b.2.name k a)
      (fun k a => I' b.2.name k a) := ⟨q'.cell, q'.node⟩
    have := MTLD.AC.flow hpb.cells hpb.l hpb.c (hs.r b hb) (hs.g b hb) q q''
    refine this.trans ?_
    have d1 := ends_dot hp.names hb V' I
    have d2 := ends_dot hp.names hb V I'
    simp only [hf, Finset.sum_sub_distrib]
    linear_combination d1 - d2
  have hsum : (M.bundles.map fun b => -(∑ j : Fin b.1, f ⟨b.2.name, j, .S⟩ + ∑ j : Fin b.1, f ⟨b.2.name, j, .L⟩)).sum =
      -(M.bundles.map fun b => ∑ j : Fin b.1, f ⟨b.2.name, j, .S⟩ + ∑ j : Fin b.1, f ⟨b.2.name, j, .L⟩).sum := by
    generalize M.bundles = bs
    induction bs with
    | nil => simp
    | cons b bs ih => simp only [List.map_cons, List.sum_cons, ih]; ring
  have hends := sum_nodes_ends hp.names hp.ends (f := f) (fun x hx => by
    have e1 := h.free x hx
    have e2 := h'.free x (by rw [hr.ends]; exact hx)
    rw [(acEnd_remade hr.bundles _ _).1] at e2
    rw [hf]
    simp only [e1, e2, mul_zero, sub_zero]) (fun x hx => by
    rw [hf]
    simp only [acEndV_none _ hx, mul_zero, sub_zero])
  unfold MTLN.acReaction
  linear_combination hnet + hbun + hsum + hends

/-- **C183, power.** What the sources and fields deliver is what the resistances and conductances and the capacitors of the networks
take. -/
theorem C183_power (hp : M.Passive) (h : M.AC θ amp V I) : M.acSupply θ amp V I = M.acLoss θ V I := by
  obtain ⟨f, hf⟩ : ∃ f : End → ℝ, f = fun x => (star (acEndV M.bundles V x) * acEndI M.bundles I x).re := ⟨_, rfl⟩
  have hnet : ∀ nwd ∈ M.networks, ∀ e ∈ nwd, ((star fun a => acEndV M.bundles V (e.2.2.2.nodes a).end') ⬝ᵥ
      e.2.2.2.acNorton M.dt θ (fun a => amp (e.2.2.2.vSources a)) (fun a => amp (e.2.2.2.nodes a).eT)).re =
      (∑ a, f (e.2.2.2.nodes a).end') + (Real.cos (θ / 2) * acMean (-e.2.2.2.P1) (fun a => acEndV M.bundles V (e.2.2.2.nodes a).end') +
      Real.sin θ * Real.sin (θ / 2) / M.dt * acMean (-e.2.2.2.Q1) (fun a => acEndV M.bundles V (e.2.2.2.nodes a).end')) := by
    intro nwd hn e he
    have hrc := hp.networks nwd hn e he
    rw [Network.AC.power hrc.dxc hrc.Q1_symm (h.networks nwd hn e he)]
    congr 1
    rw [hf]
    simp only [dotProduct, Complex.re_sum, Pi.star_apply]
  have hbun : ∀ b ∈ M.bundles,
      ∑ k ∈ Finset.Ico 1 b.2.m, ((star fun a : Fin b.1 => V b.2.name k a) ⬝ᵥ b.2.acInjected θ (fun k a => amp (b.2.eT k a)) k).re +
      ∑ k ∈ Finset.range b.2.m, ((star fun a : Fin b.1 => I b.2.name k a) ⬝ᵥ
        b.2.acInduced θ (fun k a => amp (b.2.eT k a)) (fun k a => amp (b.2.eL k a)) k).re =
      -(∑ j : Fin b.1, f ⟨b.2.name, j, .S⟩ + ∑ j : Fin b.1, f ⟨b.2.name, j, .L⟩) +
      Real.cos (θ / 2) * (∑ k ∈ Finset.Ico 1 b.2.m, (b.2.dun (k - 1) + b.2.dun k) / 2 *
        acMean (b.2.g k) (fun a : Fin b.1 => V b.2.name k a) +
      ∑ k ∈ Finset.range b.2.m, b.2.dun k * acMean (b.2.r k + b.2.tz.d k) (fun a : Fin b.1 => I b.2.name k a)) := by
    intro b hb
    have hpb := (hp.bundles b hb).1
    rw [MTLD.AC.power hpb.cells hpb.l hpb.c (h.bundles b hb), sub_eq_neg_add]
    congr 2
    rw [hf]
    simp only [(acEnd_eq hp.names hb V _ _).1, (acEnd_eq hp.names hb I _ _).2, dotProduct, Complex.re_sum, Pi.star_apply]
    rw [sub_eq_add_neg, ← Finset.sum_neg_distrib]
    congr 1
    · refine Finset.sum_congr rfl fun j _ => ?_
      simp [Side.factor, Side.node, Side.cell]
    · refine Finset.sum_congr rfl fun j _ => ?_
      simp [Side.factor, Side.node, Side.cell]
      try ring
  have hends := sum_nodes_ends hp.names hp.ends (f := f) (fun x hx => by
    rw [hf]
    simp only [h.free x hx, star_zero, zero_mul, Complex.zero_re]) (fun x hx => by
    rw [hf]
    simp only [acEndV_none _ hx, star_zero, zero_mul, Complex.zero_re])
  unfold MTLN.acSupply MTLN.acLoss
  have e1 : ∀ nwd ∈ M.networks, (nwd.map fun e => ((star fun a => acEndV M.bundles V (e.2.2.2.nodes a).end') ⬝ᵥ
      e.2.2.2.acNorton M.dt θ (fun a => amp (e.2.2.2.vSources a)) (fun a => amp (e.2.2.2.nodes a).eT)).re).sum =
      (nwd.map fun e => ∑ a, f (e.2.2.2.nodes a).end').sum + (nwd.map fun e =>
      Real.cos (θ / 2) * acMean (-e.2.2.2.P1) (fun a => acEndV M.bundles V (e.2.2.2.nodes a).end') +
      Real.sin θ * Real.sin (θ / 2) / M.dt * acMean (-e.2.2.2.Q1) (fun a => acEndV M.bundles V (e.2.2.2.nodes a).end')).sum := by
    intro nwd hn
    rw [← List.sum_map_add, List.map_congr_left (hnet nwd hn)]
  rw [List.map_congr_left e1, List.sum_map_add, List.map_congr_left hbun, List.sum_map_add, hends]
  have hsum : (M.bundles.map fun b => -(∑ j : Fin b.1, f ⟨b.2.name, j, .S⟩ + ∑ j : Fin b.1, f ⟨b.2.name, j, .L⟩)).sum =
      -(M.bundles.map fun b => ∑ j : Fin b.1, f ⟨b.2.name, j, .S⟩ + ∑ j : Fin b.1, f ⟨b.2.name, j, .L⟩).sum := by
    generalize M.bundles = bs
    induction bs with
    | nil => simp
    | cons b bs ih => simp only [List.map_cons, List.sum_cons, ih]; ring
  rw [hsum]
  ring

theorem list_sum_nonneg {α : Type} {l : List α} {f : α → ℝ} (h : ∀ x ∈ l, 0 ≤ f x) : 0 ≤ (l.map f).sum := by
  refine List.sum_nonneg fun y hy => ?_
  obtain ⟨x, hx, rfl⟩ := List.mem_map.1 hy
  exact h x hx

theorem dissipative_neg {A : Mat n} (h : ∀ v, v ⬝ᵥ (A *ᵥ v) ≤ 0) : Dissipative (-A) := fun v => by
  rw [neg_mulVec, dotProduct_neg]
  exact neg_nonneg.2 (h v)

/-- **C183, passivity.** Nothing but sources and fields delivers power in a manager of passive bundles and networks. -/
theorem C183_passive (hp : M.Passive) (hdt : 0 < M.dt) (h : M.AC θ amp V I) (h0 : 0 ≤ θ) (h1 : θ ≤ Real.pi) :
    0 ≤ M.acSupply θ amp V I := by
  rw [C183_power hp h]
  have hc : 0 ≤ Real.cos (θ / 2) := Real.cos_nonneg_of_mem_Icc ⟨by linarith [Real.pi_pos], by linarith⟩
  have hs : 0 ≤ Real.sin θ * Real.sin (θ / 2) / M.dt := div_nonneg (mul_nonneg (Real.sin_nonneg_of_nonneg_of_le_pi h0 h1)
    (Real.sin_nonneg_of_nonneg_of_le_pi (by linarith) (by linarith [Real.pi_pos]))) hdt.le
  refine add_nonneg (list_sum_nonneg fun nwd hn => list_sum_nonneg fun e he => ?_) (list_sum_nonneg fun b hb => ?_)
  · have hrc := hp.networks nwd hn e he
    exact add_nonneg (mul_nonneg hc (meanPower_nonneg (dissipative_neg hrc.P1) _))
      (mul_nonneg hs (meanPower_nonneg (dissipative_neg hrc.Q1) _))
  · have hpb := (hp.bundles b hb).1
    refine mul_nonneg hc (add_nonneg (Finset.sum_nonneg fun k hk => ?_) (Finset.sum_nonneg fun k hk => ?_))
    · obtain ⟨k0, k1⟩ := Finset.mem_Ico.1 hk
      have d1 : 0 ≤ b.2.dun (k - 1) := hpb.dun _ (by show k - 1 < b.2.m; omega)
      have d2 : 0 ≤ b.2.dun k := hpb.dun _ k1
      exact mul_nonneg (by linarith) (meanPower_nonneg (hpb.g k (le_of_lt k1)) _)
    · have k1 := Finset.mem_range.1 hk
      exact mul_nonneg (hpb.dun k k1) (meanPower_nonneg (hpb.r k k1) _)

/-- What a single source does. -/
theorem MTLN.OneDrive.reaction {x : End} {J : ℂ} (h : M.OneDrive θ amp x J) (hn : ((allNodes M.networks).map Node.end').Nodup)
    (V I : String → ℕ → ℕ → ℂ) : M.acReaction θ amp V I = J * acEndV M.bundles V x := by
  have e1 : (M.bundles.map fun b =>
      ∑ k ∈ Finset.Ico 1 b.2.m, b.2.acInjected θ (fun k a => amp (b.2.eT k a)) k ⬝ᵥ (fun a : Fin b.1 => V b.2.name k a) -
      ∑ k ∈ Finset.range b.2.m, b.2.acInduced θ (fun k a => amp (b.2.eT k a)) (fun k a => amp (b.2.eL k a)) k ⬝ᵥ
        fun a : Fin b.1 => I b.2.name k a).sum = 0 := by
    refine List.sum_eq_zero fun y hy => ?_
    obtain ⟨b, hb, rfl⟩ := List.mem_map.1 hy
    have f1 : (fun (k : ℕ) (a : Fin b.1) => amp (b.2.eT k a)) = 0 := by
      funext k a; exact (h.fields b hb).2 k a
    have f2 : (fun (k : ℕ) (a : Fin b.1) => amp (b.2.eL k a)) = 0 := by
      funext k a; exact (h.fields b hb).1 k a
    simp only [f1, f2]
    have g1 : ∀ k, b.2.acInjected θ 0 k = 0 := fun k => by simp [MTLD.acInjected]
    have g2 : ∀ k, b.2.acInduced θ 0 0 k = 0 := fun k => by simp [MTLD.acInduced]
    simp only [g1, g2, zero_dotProduct, Finset.sum_const_zero, sub_zero]
  have e2 : (M.networks.map fun nwd => (nwd.map fun e =>
      e.2.2.2.acNorton M.dt θ (fun a => amp (e.2.2.2.vSources a)) (fun a => amp (e.2.2.2.nodes a).eT) ⬝ᵥ
        fun a => acEndV M.bundles V (e.2.2.2.nodes a).end').sum).sum =
      (M.networks.map fun nwd => (nwd.map fun e => ∑ a, (fun y => if y = x then J * acEndV M.bundles V x else 0)
        (e.2.2.2.nodes a).end').sum).sum := by
    congr 1
    refine List.map_congr_left fun nwd hnwd => ?_
    congr 1
    refine List.map_congr_left fun e he => ?_
    rw [h.source nwd hnwd e he]
    refine Finset.sum_congr rfl fun a _ => ?_
    simp only
    split_ifs with hx
    · rw [hx]
    · rw [zero_mul]
  unfold MTLN.acReaction
  rw [e1, add_zero, e2, ← sum_over_nodes M.networks fun y => if y = x then J * acEndV M.bundles V x else 0]
  rw [← List.sum_toFinset _ hn, Finset.sum_ite_eq' _ x, if_pos (List.mem_toFinset.2 h.node)]

/-- **C183, ports.** A current into one end causes the same voltage at another end as the same current there causes here. -/
theorem C183_ports {x y : End} {J J' : ℂ} (hr : M.Remade M') (hp : M.Passive) (hs : M.Symmetric) (h : M.AC θ amp V I)
    (h' : M'.AC θ amp' V' I') (hx : M.OneDrive θ amp x J) (hy : M'.OneDrive θ amp' y J') :
    J * acEndV M.bundles V' x = J' * acEndV M.bundles V y := by
  have := C183_reciprocity hr hp hs h h'
  rwa [hx.reaction hp.ends, hy.reaction (by rw [hr.ends]; exact hp.ends), (acEnd_remade hr.bundles _ _).1] at this

end

/-- **C183, programs.** From the program alone: the power balance holds, and nothing but sources and fields delivers power. -/
theorem C183_program {Pr : Program p} {M : MTLN p} (h : Pr.make = .ok M) (hw : Pr.WellFormed) {dt θ : ℝ} (h0 : 0 < dt)
    {amp : (ℝ → ℝ) → ℂ} {V I : String → ℕ → ℕ → ℂ} (hac : (M.overrideDt dt).AC θ amp V I) :
    (M.overrideDt dt).acSupply θ amp V I = (M.overrideDt dt).acLoss θ V I ∧
      (0 ≤ θ → θ ≤ Real.pi → 0 ≤ (M.overrideDt dt).acSupply θ amp V I) := by
  obtain ⟨hd, -, -, hp, -⟩ := C159_program h hw h0
  exact ⟨C183_power hp hac, C183_passive hp (by show 0 < M.runDt dt; rw [hd]; exact h0) hac⟩

/-! ## A line with a source at each end -/

/-- The amplitude of the unit source; everything else is silent. -/
noncomputable def unitAmp (E : ℂ) (f : ℝ → ℝ) : ℂ := by
  classical exact if f = fun _ => 1 then E else 0

theorem unitAmp_one (E : ℂ) : unitAmp E (fun _ => 1) = E := by
  unfold unitAmp
  rw [if_pos rfl]

theorem unitAmp_zero (E : ℂ) : unitAmp E (fun _ => 0) = 0 := by
  unfold unitAmp
  rw [if_neg fun h => by simpa using congrFun h 0]

theorem cx_one_apply (A : Mat 1) (X : Fin 1 → ℂ) (a : Fin 1) : (cx A *ᵥ X) a = (A 0 0 : ℂ) * X 0 := by
  fin_cases a
  simp [cx, mulVec, dotProduct]

theorem demoTerm_P1 : demoTerm.P1 0 0 = -1 := by simp [demoTerm, putEntry]

theorem demoTerm_Ps : demoTerm.Ps 0 0 = 1 := by simp [demoTerm, putEntry]

/-- The circuit of the demo line in numbers. -/
theorem demoBoth_circuit {θ : ℝ} {f g : ℝ → ℝ} {amp : (ℝ → ℝ) → ℂ} (h0 : amp (fun _ => 0) = 0) (V I : ℕ → ℂ)
    (c0 : 2 * turn θ * I 0 = -(V 1 - V 0)) (c1 : 2 * turn θ * I 1 = -(V 2 - V 1)) (n1 : 2 * turn θ * V 1 = -(I 1 - I 0))
    (s : I 0 + demoTerm.dxc 0 0 * (turn θ * V 0) = (Real.cos (θ / 2) : ℂ) * (-V 0 + amp f))
    (l : -I 1 + demoTermL.dxc 0 0 * (turn θ * V 2) = (Real.cos (θ / 2) : ℂ) * (-V 2 + amp g)) :
    ((demoBoth f g).overrideDt (1 / 2)).AC θ amp (fun _ k _ => V k) (fun _ k _ => I k) := by
  have hnodes := demoBoth_nodes f g
  have hfind : findBundle ((demoBoth f g).overrideDt (1 / 2)).bundles "demo" = some ⟨1, { demoOne with dt := 1 / 2 }⟩ := by
    rw [demoBoth_override]
    simp [findBundle, demoOne, MTLD.single]
  have eS : ∀ X : ℕ → ℂ, acEndV ((demoBoth f g).overrideDt (1 / 2)).bundles (fun _ k _ => X k) ⟨"demo", 0, .S⟩ = X 0 ∧
      acEndI ((demoBoth f g).overrideDt (1 / 2)).bundles (fun _ k _ => X k) ⟨"demo", 0, .S⟩ = X 0 := by
    intro X
    unfold acEndV acEndI
    simp only [hfind]
    constructor <;> simp [Side.node, Side.cell, Side.factor]
  have eL : ∀ X : ℕ → ℂ, acEndV ((demoBoth f g).overrideDt (1 / 2)).bundles (fun _ k _ => X k) ⟨"demo", 0, .L⟩ = X 2 ∧
      acEndI ((demoBoth f g).overrideDt (1 / 2)).bundles (fun _ k _ => X k) ⟨"demo", 0, .L⟩ = -X 1 := by
    intro X
    unfold acEndV acEndI
    simp only [hfind]
    constructor <;> simp [Side.node, Side.cell, Side.factor, demoOne, MTLD.single, demoBare]
  refine ⟨?_, ?_, ?_⟩
  · rw [demoBoth_override]
    intro b hb
    obtain rfl := List.mem_singleton.1 hb
    have z : ∀ (k : ℕ) (a : Fin 1), amp (demoOne.eT k a) = 0 ∧ amp (demoOne.eL k a) = 0 := fun k a => ⟨h0, h0⟩
    have t : ∀ k, demoOne.tz.e k = 0 ∧ demoOne.tz.d k = 0 := fun k => ⟨rfl, rfl⟩
    have q : (∀ k, demoOne.l k = 1) ∧ (∀ k, demoOne.c k = 1) ∧ (∀ k, demoOne.r k = 0) ∧ (∀ k, demoOne.g k = 0) ∧
      ∀ k, demoOne.dun k = if k < 2 then 1 else 0 := ⟨fun _ => rfl, fun _ => rfl, fun _ => rfl, fun _ => rfl, fun _ => rfl⟩
    refine ⟨fun k hk => ?_, fun k hk0 hk => ?_⟩
    · change k < 2 at hk
      funext a
      simp only [z, t, q]
      interval_cases k
      · simp [cx_one_apply]
        linear_combination c0
      · simp [cx_one_apply]
        linear_combination c1
    · change k < 2 at hk
      obtain rfl : k = 1 := by omega
      funext a
      simp only [z, q]
      simp [cx_one_apply]
      linear_combination n1
  · have hdt : ((demoBoth f g).overrideDt (1 / 2)).dt = 1 / 2 := by rw [demoBoth_override]
    have hnet : ((demoBoth f g).overrideDt (1 / 2)).networks = (demoBoth f g).networks := by rw [demoBoth_override]; rfl
    rw [hnet, hdt]
    generalize ((demoBoth f g).overrideDt (1 / 2)).bundles = B at eS eL
    refine demoBoth_level (P := fun _ e => e.2.2.2.AC (1 / 2) θ (fun a => amp (e.2.2.2.vSources a)) (fun a => amp (e.2.2.2.nodes a).eT)
      (fun a => acEndV B (fun _ k _ => V k) (e.2.2.2.nodes a).end') (fun a => acEndI B (fun _ k _ => I k) (e.2.2.2.nodes a).end'))
      (fun _ => ?_) fun _ => ?_
    · have hn : ∀ a, (demoTerm.nodes a).end' = ⟨"demo", 0, .S⟩ ∧ amp (demoTerm.nodes a).eT = 0 := fun a => by
        fin_cases a
        exact ⟨rfl, h0⟩
      unfold Network.AC
      show (fun a => acEndI B (fun _ k _ => I k) (demoTerm.nodes a).end') + (1 / (2 * (1 / 2 : ℝ))) • (cx demoTerm.dxc *ᵥ
        (turn θ • ((fun a => acEndV B (fun _ k _ => V k) (demoTerm.nodes a).end') + fun a => amp (demoTerm.nodes a).eT))) =
        Real.cos (θ / 2) • (cx demoTerm.P1 *ᵥ (fun a => acEndV B (fun _ k _ => V k) (demoTerm.nodes a).end') +
          cx demoTerm.Ps *ᵥ fun _ => amp f) + (1 / (2 * (1 / 2 : ℝ))) • (cx 0 *ᵥ (lag θ • _) + cx 0 *ᵥ (lag θ • _))
      simp only [hn, eS]
      funext a
      simp [cx_one_apply, demoTerm_P1, demoTerm_Ps, -Complex.ofReal_cos]
      linear_combination s
    · have hn : ∀ a, (demoTermL.nodes a).end' = ⟨"demo", 0, .L⟩ ∧ amp (demoTermL.nodes a).eT = 0 := fun a => ⟨rfl, h0⟩
      unfold Network.AC
      show (fun a => acEndI B (fun _ k _ => I k) (demoTermL.nodes a).end') + (1 / (2 * (1 / 2 : ℝ))) • (cx demoTermL.dxc *ᵥ
        (turn θ • ((fun a => acEndV B (fun _ k _ => V k) (demoTermL.nodes a).end') + fun a => amp (demoTermL.nodes a).eT))) =
        Real.cos (θ / 2) • (cx demoTerm.P1 *ᵥ (fun a => acEndV B (fun _ k _ => V k) (demoTermL.nodes a).end') +
          cx demoTerm.Ps *ᵥ fun _ => amp g) + (1 / (2 * (1 / 2 : ℝ))) • (cx 0 *ᵥ (lag θ • _) + cx 0 *ᵥ (lag θ • _))
      simp only [hn, eL]
      funext a
      simp [cx_one_apply, demoTerm_P1, demoTerm_Ps, -Complex.ofReal_cos]
      linear_combination l
  · intro x hx
    refine acEndV_none _ fun hm => hx ?_
    have hnet : ((demoBoth f g).overrideDt (1 / 2)).networks = (demoBoth f g).networks := by rw [demoBoth_override]; rfl
    rw [hnet, hnodes]
    rw [demoBoth_override, mem_allEnds] at hm
    obtain ⟨b, hb, hn, hr⟩ := hm
    obtain rfl := List.mem_singleton.1 hb
    obtain ⟨nm, row, side⟩ := x
    change "demo" = nm at hn
    change row < 1 at hr
    obtain rfl : row = 0 := by omega
    subst hn
    cases side <;> simp

/-- The source at one end alone. -/
theorem demoBoth_alone (θ : ℝ) {amp : (ℝ → ℝ) → ℂ} (h0 : amp (fun _ => 0) = 0) :
    ((demoBoth (fun _ => 1) fun _ => 0).overrideDt (1 / 2)).OneDrive θ amp ⟨"demo", 0, .S⟩ (Real.cos (θ / 2) * amp fun _ => 1) ∧
    ((demoBoth (fun _ => 0) fun _ => 1).overrideDt (1 / 2)).OneDrive θ amp ⟨"demo", 0, .L⟩ (Real.cos (θ / 2) * amp fun _ => 1) := by
  have hnet : ∀ f g, ((demoBoth f g).overrideDt (1 / 2)).networks = (demoBoth f g).networks := fun f g => by rw [demoBoth_override]; rfl
  have hdt : ∀ f g, ((demoBoth f g).overrideDt (1 / 2)).dt = 1 / 2 := fun f g => by rw [demoBoth_override]
  have hfields : ∀ f g, ∀ b ∈ ((demoBoth f g).overrideDt (1 / 2)).bundles, (∀ k a, amp (b.2.eL k a) = 0) ∧ ∀ k a, amp (b.2.eT k a) = 0 := by
    intro f g b hb
    rw [demoBoth_override] at hb
    obtain rfl := List.mem_singleton.1 hb
    exact ⟨fun _ _ => h0, fun _ _ => h0⟩
  have hT : ∀ a, (demoTerm.nodes a).end' = ⟨"demo", 0, .S⟩ ∧ amp (demoTerm.nodes a).eT = 0 := fun a => by
    fin_cases a
    exact ⟨rfl, h0⟩
  have hL : ∀ a, (demoTermL.nodes a).end' = ⟨"demo", 0, .L⟩ ∧ amp (demoTermL.nodes a).eT = 0 := fun a => ⟨rfl, h0⟩
  have nS : ∀ f x J, Real.cos (θ / 2) * amp f = (if (⟨"demo", 0, .S⟩ : End) = x then J else 0) →
      Network.acNorton { demoTerm with vSources := fun _ => f } (1 / 2) θ (fun _ => amp f) (fun a => amp (demoTerm.nodes a).eT) =
      fun a => if (demoTerm.nodes a).end' = x then J else 0 := by
    intro f x J hJ
    show Real.cos (θ / 2) • (cx demoTerm.Ps *ᵥ fun _ => amp f) + (1 / (2 * (1 / 2 : ℝ))) • (cx 0 *ᵥ (lag θ • _)) -
      (1 / (2 * (1 / 2 : ℝ))) • (cx demoTerm.dxc *ᵥ (turn θ • fun a => amp (demoTerm.nodes a).eT)) = _
    simp only [hT, ← hJ]
    funext a
    simp [cx_one_apply, demoTerm_Ps, -Complex.ofReal_cos]
  have nL : ∀ f x J, Real.cos (θ / 2) * amp f = (if (⟨"demo", 0, .L⟩ : End) = x then J else 0) →
      Network.acNorton { demoTermL with vSources := fun _ => f } (1 / 2) θ (fun _ => amp f) (fun a => amp (demoTermL.nodes a).eT) =
      fun a => if (demoTermL.nodes a).end' = x then J else 0 := by
    intro f x J hJ
    show Real.cos (θ / 2) • (cx demoTerm.Ps *ᵥ fun _ => amp f) + (1 / (2 * (1 / 2 : ℝ))) • (cx 0 *ᵥ (lag θ • _)) -
      (1 / (2 * (1 / 2 : ℝ))) • (cx demoTermL.dxc *ᵥ (turn θ • fun a => amp (demoTermL.nodes a).eT)) = _
    simp only [hL, ← hJ]
    funext a
    simp [cx_one_apply, demoTerm_Ps, -Complex.ofReal_cos]
  constructor
  · refine ⟨by rw [hnet, demoBoth_nodes]; simp, ?_, hfields _ _⟩
    rw [hnet, hdt]
    exact demoBoth_level (P := fun _ e => e.2.2.2.acNorton (1 / 2) θ (fun a => amp (e.2.2.2.vSources a))
      (fun a => amp (e.2.2.2.nodes a).eT) = fun a => if (e.2.2.2.nodes a).end' = ⟨"demo", 0, .S⟩ then
        Real.cos (θ / 2) * amp (fun _ => 1) else 0) (fun _ => nS _ _ _ (by simp)) fun _ => nL _ _ _ (by simp [h0])
  · refine ⟨by rw [hnet, demoBoth_nodes]; simp, ?_, hfields _ _⟩
    rw [hnet, hdt]
    exact demoBoth_level (P := fun _ e => e.2.2.2.acNorton (1 / 2) θ (fun a => amp (e.2.2.2.vSources a))
      (fun a => amp (e.2.2.2.nodes a).eT) = fun a => if (e.2.2.2.nodes a).end' = ⟨"demo", 0, .L⟩ then
        Real.cos (θ / 2) * amp (fun _ => 1) else 0) (fun _ => nS _ _ _ (by simp [h0])) fun _ => nL _ _ _ (by simp)

/-- Non-vacuity of C183: the source at the left end that makes the voltage at the right end 1, and the source at the right end that
makes the voltage at the left end 1, are the same; and they deliver no negative power. -/
theorem demoBoth_reciprocal {θ : ℝ} (h0 : 0 ≤ θ) (h1 : θ < Real.pi) : ∃ E V I E' V' I',
    ((demoBoth (fun _ => 1) fun _ => 0).overrideDt (1 / 2)).AC θ (unitAmp E) V I ∧
    ((demoBoth (fun _ => 0) fun _ => 1).overrideDt (1 / 2)).AC θ (unitAmp E') V' I' ∧ V "demo" 2 0 = 1 ∧ V' "demo" 0 0 = 1 ∧ E = E' ∧
    0 ≤ ((demoBoth (fun _ => 1) fun _ => 0).overrideDt (1 / 2)).acSupply θ (unitAmp E) V I := by
  have hθ : Real.cos (θ / 2) ≠ 0 := (Real.cos_pos_of_mem_Ioo ⟨by linarith [Real.pi_pos], by linarith⟩).ne'
  obtain ⟨c, hc⟩ : ∃ c : ℂ, c = (Real.cos (θ / 2) : ℂ) := ⟨_, rfl⟩
  have hc0 : c ≠ 0 := by rw [hc]; exact_mod_cast hθ
  obtain ⟨τ, hτ⟩ : ∃ τ, τ = turn θ := ⟨_, rfl⟩
  obtain ⟨D, hD⟩ : ∃ D : ℂ, D = demoTermL.dxc 0 0 := ⟨_, rfl⟩
  obtain ⟨D', hD'⟩ : ∃ D : ℂ, D = demoTerm.dxc 0 0 := ⟨_, rfl⟩
  obtain ⟨I1, hI1⟩ : ∃ z : ℂ, z = D * τ + c := ⟨_, rfl⟩
  obtain ⟨V1, hV1⟩ : ∃ z : ℂ, z = 1 + 2 * τ * I1 := ⟨_, rfl⟩
  obtain ⟨I0, hI0⟩ : ∃ z : ℂ, z = I1 + 2 * τ * V1 := ⟨_, rfl⟩
  obtain ⟨V0, hV0⟩ : ∃ z : ℂ, z = V1 + 2 * τ * I0 := ⟨_, rfl⟩
  obtain ⟨E, hE⟩ : ∃ z : ℂ, z = V0 + (I0 + D' * (τ * V0)) / c := ⟨_, rfl⟩
  obtain ⟨J0, hJ0⟩ : ∃ z : ℂ, z = -(D' * τ + c) := ⟨_, rfl⟩
  obtain ⟨W1, hW1⟩ : ∃ z : ℂ, z = 1 - 2 * τ * J0 := ⟨_, rfl⟩
  obtain ⟨J1, hJ1⟩ : ∃ z : ℂ, z = J0 - 2 * τ * W1 := ⟨_, rfl⟩
  obtain ⟨W2, hW2⟩ : ∃ z : ℂ, z = W1 - 2 * τ * J1 := ⟨_, rfl⟩
  obtain ⟨E', hE'⟩ : ∃ z : ℂ, z = W2 + (-J1 + D * (τ * W2)) / c := ⟨_, rfl⟩
  have a := demoBoth_circuit (f := fun _ => 1) (g := fun _ => 0) (unitAmp_zero E) (θ := θ)
    (fun k => if k = 0 then V0 else if k = 1 then V1 else 1) (fun k => if k = 0 then I0 else I1)
    (by simp [← hτ]; linear_combination -hV0) (by simp [← hτ]; linear_combination -hV1) (by simp [← hτ]; linear_combination -hI0)
    (by
      simp only [← hτ, ← hD', ← hc, unitAmp_one, if_true, hE]
      field_simp
      ring)
    (by
      simp only [← hτ, ← hD, ← hc, unitAmp_zero]
      norm_num
      linear_combination -hI1)
  have b := demoBoth_circuit (f := fun _ => 0) (g := fun _ => 1) (unitAmp_zero E') (θ := θ)
    (fun k => if k = 0 then 1 else if k = 1 then W1 else W2) (fun k => if k = 0 then J0 else J1)
    (by simp [← hτ]; linear_combination hW1) (by simp [← hτ]; linear_combination hW2) (by simp [← hτ]; linear_combination hJ1)
    (by
      simp only [← hτ, ← hD', ← hc, unitAmp_zero]
      norm_num
      linear_combination hJ0)
    (by
      simp only [← hτ, ← hD, ← hc, unitAmp_one, hE']
      norm_num
      field_simp)
  refine ⟨E, _, _, E', _, _, a, b, rfl, rfl, ?_, C183_passive (demoBoth_passive _ _) (by rw [demoBoth_override]; norm_num) a h0 h1.le⟩
  have := C183_ports (demoBoth_remade _ _ _ _) (demoBoth_passive _ _) (demoBoth_symmetric _ _) a b (demoBoth_alone θ (unitAmp_zero E)).1
    (demoBoth_alone θ (unitAmp_zero E')).2
  have hb : (⟨1, { demoOne with dt := 1 / 2 }⟩ : AnyBundle 0) ∈ ((demoBoth (fun _ => 1) fun _ => 0).overrideDt (1 / 2)).bundles := by
    rw [demoBoth_override]; exact List.mem_cons_self
  have s1 := (acEnd_eq (demoBoth_passive (fun _ => 1) fun _ => 0).names hb
    (fun _ k _ => if k = 0 then 1 else if k = 1 then W1 else W2) (0 : Fin 1) .S).1
  have s2 := (acEnd_eq (demoBoth_passive (fun _ => 1) fun _ => 0).names hb
    (fun _ k _ => if k = 0 then V0 else if k = 1 then V1 else 1) (0 : Fin 1) .L).1
  have s1' : acEndV ((demoBoth (fun _ => 1) fun _ => 0).overrideDt (1 / 2)).bundles
    (fun _ k _ => if k = 0 then 1 else if k = 1 then W1 else W2) ⟨"demo", 0, .S⟩ = 1 := s1
  have s2' : acEndV ((demoBoth (fun _ => 1) fun _ => 0).overrideDt (1 / 2)).bundles
    (fun _ k _ => if k = 0 then V0 else if k = 1 then V1 else 1) ⟨"demo", 0, .L⟩ = 1 := s2
  rw [s1', s2', unitAmp_one, unitAmp_one, ← hc, mul_one, mul_one] at this
  exact mul_left_cancel₀ hc0 this

end Mtln
