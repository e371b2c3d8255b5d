import Verif.Spec.ManagerRelax
import Verif.Props.ManagerReciprocity
import Verif.Lemmas.Dieout

/-! # Managers without sources along a trace -/

namespace Mtln

open Matrix Filter Topology

variable {n p N S : ℕ}

/-- Where a symmetric negative semidefinite form vanishes, so does its matrix. -/
theorem semidefinite_vanish {A : Mat N} (hs : Aᵀ = A) (hn : ∀ v, v ⬝ᵥ (A *ᵥ v) ≤ 0) {w : ℕ → Col N}
    (h : Tendsto (fun j => w j ⬝ᵥ (A *ᵥ w j)) atTop (𝓝 0)) : Tendsto (fun j => A *ᵥ w j) atTop (𝓝 0) := by
  classical
  rw [tendsto_pi_nhds]
  intro a
  have key : ∀ x : Col N, (A *ᵥ x) a ^ 2 ≤ (-A a a + 1) * -(x ⬝ᵥ (A *ᵥ x)) := by
    intro x
    have hdiag : ∀ t : ℝ, (x + t • Pi.single a (1 : ℝ)) ⬝ᵥ (A *ᵥ (x + t • Pi.single a (1 : ℝ))) =
        x ⬝ᵥ (A *ᵥ x) + 2 * t * (A *ᵥ x) a + t ^ 2 * A a a := by
      intro t
      have e1 : x ⬝ᵥ (A *ᵥ Pi.single a (1 : ℝ)) = (A *ᵥ x) a := by
        have : (A *ᵥ Pi.single a (1 : ℝ)) ⬝ᵥ x = Pi.single a (1 : ℝ) ⬝ᵥ (Aᵀ *ᵥ x) := move_dot _ _ _
        rw [dotProduct_comm, this, hs, single_dotProduct, one_mul]
      have e2 : Pi.single a (1 : ℝ) ⬝ᵥ (A *ᵥ x) = (A *ᵥ x) a := by rw [single_dotProduct, one_mul]
      have e3 : Pi.single a (1 : ℝ) ⬝ᵥ (A *ᵥ Pi.single a (1 : ℝ)) = A a a := by
        rw [single_dotProduct, one_mul, mulVec_single_one]
        rfl
      simp only [mulVec_add, mulVec_smul, dotProduct_add, add_dotProduct, smul_dotProduct, dotProduct_smul, smul_eq_mul, e1, e2, e3]
      ring
    have h0 : A a a ≤ 0 := by
      have h1 := hn (Pi.single a (1 : ℝ))
      rw [single_dotProduct, one_mul, mulVec_single_one] at h1
      exact h1
    obtain ⟨D, hD⟩ : ∃ D, D = -A a a + 1 := ⟨_, rfl⟩
    have hD0 : 0 < D := by rw [hD]; linarith
    have h2 := hn (x + ((A *ᵥ x) a / D) • Pi.single a (1 : ℝ))
    rw [hdiag] at h2
    have h3 : A a a = 1 - D := by rw [hD]; ring
    rw [h3] at h2
    rw [← hD]
    obtain ⟨y, hy⟩ : ∃ y, y = (A *ᵥ x) a / D := ⟨_, rfl⟩
    have hy' : (A *ᵥ x) a = y * D := by rw [hy]; field_simp
    rw [← hy, hy'] at h2
    rw [hy']
    nlinarith [sq_nonneg y, mul_nonneg hD0.le (sq_nonneg y)]
  have h1 : Tendsto (fun j => √((-A a a + 1) * -(w j ⬝ᵥ (A *ᵥ w j)))) atTop (𝓝 0) := by
    have h2 := (h.neg.const_mul (-A a a + 1))
    rw [neg_zero, mul_zero] at h2
    have := (Real.continuous_sqrt.tendsto 0).comp h2
    rwa [Real.sqrt_zero] at this
  refine squeeze_zero_norm (fun j => ?_) h1
  rw [Real.norm_eq_abs]
  exact Real.abs_le_sqrt (key (w j))

/-- A component that the matrix and some other components determine. -/
theorem determined_vanish {A : Mat N} {T : Finset (Fin N)} {a : Fin N}
    (h : ∀ v, A *ᵥ v = 0 → (∀ b ∈ T, v b = 0) → v a = 0) {w : ℕ → Col N}
    (hA : Tendsto (fun j => A *ᵥ w j) atTop (𝓝 0)) (hT : ∀ b ∈ T, Tendsto (fun j => w j b) atTop (𝓝 0)) :
    Tendsto (fun j => w j a) atTop (𝓝 0) := by
  classical
  obtain ⟨D, hD⟩ : ∃ D : Mat N, D = Matrix.diagonal fun b => if b ∈ T then (1 : ℝ) else 0 := ⟨_, rfl⟩
  obtain ⟨Z, hZ⟩ : ∃ Z : Mat N, Z = Aᵀ * A + D := ⟨_, rfl⟩
  have hDv : ∀ v : Col N, D *ᵥ v = fun b => if b ∈ T then v b else 0 := by
    intro v
    funext b
    rw [hD, mulVec_diagonal]
    split_ifs <;> simp
  have hker : ∀ v, Z *ᵥ v = 0 → v a = 0 := by
    intro v hv
    have e : v ⬝ᵥ (Z *ᵥ v) = (A *ᵥ v) ⬝ᵥ (A *ᵥ v) + ∑ b, if b ∈ T then v b * v b else 0 := by
      rw [hZ, add_mulVec, dotProduct_add, ← mulVec_mulVec, hDv]
      congr 1
      · rw [move_dot]
      · unfold dotProduct
        refine Finset.sum_congr rfl fun b _ => ?_
        simp only [mul_ite, mul_zero]
    rw [hv, dotProduct_zero] at e
    have n1 : 0 ≤ (A *ᵥ v) ⬝ᵥ (A *ᵥ v) := Finset.sum_nonneg fun b _ => mul_self_nonneg _
    have n2 : ∀ b ∈ Finset.univ, 0 ≤ if b ∈ T then v b * v b else 0 := fun b _ => by
      split_ifs
      · exact mul_self_nonneg _
      · exact le_rfl
    have z1 : (A *ᵥ v) ⬝ᵥ (A *ᵥ v) = 0 := by linarith [Finset.sum_nonneg n2]
    have z2 : (∑ b, if b ∈ T then v b * v b else 0) = 0 := by linarith [Finset.sum_nonneg n2]
    refine h v (dotProduct_self_eq_zero.1 z1) fun b hb => ?_
    have := (Finset.sum_eq_zero_iff_of_nonneg n2).1 z2 b (Finset.mem_univ b)
    rw [if_pos hb] at this
    exact mul_self_eq_zero.1 this
  obtain ⟨P, hP⟩ := exists_ginv Z
  have hw : ∀ v : Col N, v a = (P *ᵥ (Z *ᵥ v)) a := by
    intro v
    have := hker (v - P *ᵥ (Z *ᵥ v)) (by rw [mulVec_sub, hP, sub_self])
    rw [Pi.sub_apply, sub_eq_zero] at this
    exact this
  have hZw : Tendsto (fun j => Z *ᵥ w j) atTop (𝓝 0) := by
    have h1 := tendsto_mulVec Aᵀ hA
    have h2 : Tendsto (fun j => D *ᵥ w j) atTop (𝓝 0) := by
      rw [tendsto_pi_nhds]
      intro b
      simp only [hDv]
      by_cases hb : b ∈ T
      · simp only [if_pos hb]; exact hT b hb
      · simp only [if_neg hb]; exact tendsto_const_nhds
    refine (tendsto_add_zero h1 h2).congr fun j => ?_
    rw [hZ, add_mulVec, mulVec_mulVec]
  have := (tendsto_pi_nhds.1 (tendsto_mulVec P hZw)) a
  exact this.congr fun j => (hw _).symm

section Trace

variable {M : MTLN p} {tr : ℕ → MTLN p} {K : ℝ}

/-- The trace from a later step on. -/
theorem Endless.shift (h : Endless M tr) (q : ℕ) : Endless { M with time := M.time + q * M.dt } fun j => tr (j + q) :=
  ⟨fun j => by rw [show j + 1 + q = j + q + 1 by omega]; exact h.step _, fun j => h.sound _,
    fun j => by rw [h.time]; push_cast; ring, fun j => h.dt _, fun j => h.bundles _, fun j => h.networks _⟩

theorem Endless.silent (h : Endless M tr) {t₀ : ℝ} (hx : M.SilentFrom t₀) (j : ℕ) : (tr j).SilentFrom t₀ := by
  refine ⟨fun b hb => ?_, fun nwd hn e he => ?_⟩
  · obtain ⟨b0, hb0, _, _, _, _, _, _, rfl⟩ := forall₂_right_mem (h.bundles j) b hb
    exact hx.bundles b0 hb0
  · obtain ⟨n0, hn0, hr⟩ := forall₂_right_mem (h.networks j) nwd hn
    obtain ⟨e0, he0, _, _, _, _, _, rfl⟩ := forall₂_right_mem hr e he
    exact hx.networks n0 hn0 e0 he0

/-- In every step the manager loses what the resistors of each network dissipate. -/
theorem Endless.loss (h : Endless M tr) (hx : M.SilentFrom (M.time - 2 * M.dt)) {nwd : NetworkD} (hn : nwd ∈ M.networks)
    {e : ℕ × AnyNetwork} (he : e ∈ nwd) (j : ℕ) : (tr (j + 1)).energy ≤ (tr j).energy + M.dt / 2 *
      (((fun a => endV (tr (j + 1)).bundles (e.2.2.2.nodes a).end') + fun a => endV (tr j).bundles (e.2.2.2.nodes a).end') ⬝ᵥ
        (e.2.2.2.P1 *ᵥ ((fun a => endV (tr (j + 1)).bundles (e.2.2.2.nodes a).end') +
          fun a => endV (tr j).bundles (e.2.2.2.nodes a).end'))) := by
  have hs := h.sound j
  have hdt := hs.dt
  have h1 := hs.step_loss (h.step j) ((h.silent hx j).mono (by
    rw [h.time, h.dt]
    have : (0 : ℝ) ≤ j := Nat.cast_nonneg j
    rw [h.dt] at hdt
    nlinarith))
  have hneg : ∀ nwd ∈ (tr j).networks, ∀ e ∈ nwd, lossIn (tr j).dt (tr (j + 1)).bundles e ≤ 0 := fun nwd hn e he => by
    unfold lossIn
    exact mul_nonpos_of_nonneg_of_nonpos (by linarith) ((hs.passive.networks nwd hn e he).P1 _)
  obtain ⟨nwd', hn', nw, he', ⟨v, vP, i, X, terms, hnw⟩, -⟩ := h.level hn he j
  have single : ∀ {α : Type} (f : α → ℝ) (l : List α), (∀ a ∈ l, f a ≤ 0) → ∀ a ∈ l, (l.map f).sum ≤ f a := by
    intro α f l hl a ha
    have := List.single_le_sum (l := l.map fun a => -f a) (fun x hx => by
      obtain ⟨b, hb, rfl⟩ := List.mem_map.1 hx
      have := hl b hb
      linarith) _ (List.mem_map.2 ⟨a, ha, rfl⟩)
    have e : (l.map fun a => -f a).sum = -(l.map f).sum := by
      clear ha hl this
      induction l with
      | nil => simp
      | cons x l ih => simp only [List.map_cons, List.sum_cons, ih]; ring
    rw [e] at this
    linarith
  have h2 := single (fun nwd => (nwd.map (lossIn (tr j).dt (tr (j + 1)).bundles)).sum) (tr j).networks (fun nwd hn => by
    have : ∀ x ∈ nwd.map (lossIn (tr j).dt (tr (j + 1)).bundles), x ≤ 0 := fun x hx => by
      obtain ⟨e, he, rfl⟩ := List.mem_map.1 hx
      exact hneg nwd hn e he
    have h5 : ∀ l : List ℝ, (∀ x ∈ l, x ≤ 0) → l.sum ≤ 0 := by
      intro l
      induction l with
      | nil => intro _; simp
      | cons x l ih =>
        intro hl
        rw [List.sum_cons]
        linarith [hl x List.mem_cons_self, ih fun y hy => hl y (List.mem_cons_of_mem _ hy)]
    exact h5 _ this) nwd' hn'
  have h3 := single _ nwd' (hneg nwd' hn') _ he'
  have h4 : lossIn (tr j).dt (tr (j + 1)).bundles (e.1, ⟨e.2.1, e.2.2.1, nw⟩) = M.dt / 2 *
      (((fun a => endV (tr (j + 1)).bundles (e.2.2.2.nodes a).end') + fun a => endV (tr j).bundles (e.2.2.2.nodes a).end') ⬝ᵥ
        (e.2.2.2.P1 *ᵥ ((fun a => endV (tr (j + 1)).bundles (e.2.2.2.nodes a).end') +
          fun a => endV (tr j).bundles (e.2.2.2.nodes a).end'))) := by
    have a1 := hs.linked.v _ hn' _ he'
    have hnodes : nw.nodes = e.2.2.2.nodes := by rw [hnw]
    have hP : nw.P1 = e.2.2.2.P1 := by rw [hnw]
    unfold lossIn
    simp only at a1 ⊢
    rw [show nw.v = _ from funext a1, hnodes, hP, h.dt]
  linarith

/-- The currents in the resistors of every network vanish. -/
theorem Endless.resistors (h : Endless M tr) (hx : M.SilentFrom (M.time - 2 * M.dt)) (hE : ∀ j, 0 ≤ (tr j).energy)
    (hp : M.Passive) (hd : M.Dissipates) {nwd : NetworkD} (hn : nwd ∈ M.networks) {e : ℕ × AnyNetwork} (he : e ∈ nwd) :
    Tendsto (fun j => e.2.2.2.P1 *ᵥ ((fun a => endV (tr (j + 1)).bundles (e.2.2.2.nodes a).end') +
      fun a => endV (tr j).bundles (e.2.2.2.nodes a).end')) atTop (𝓝 0) := by
  have hrc := hp.networks nwd hn e he
  have hdt : 0 < M.dt := by rw [← h.dt 0]; exact (h.sound 0).dt
  refine semidefinite_vanish (hd.P1 nwd hn e he) hrc.P1 ?_
  have h1 := losses_vanish (E := fun j => (tr j).energy) hE (fun j => ?_) fun j => by
    have := h.loss hx hn he j
    exact le_of_eq_of_le (sub_eq_add_neg _ _).symm (sub_le_iff_le_add.2 this)
  · have h2 := h1.const_mul (-(2 / M.dt))
    rw [mul_zero] at h2
    refine h2.congr fun j => ?_
    field_simp
  · have := hrc.P1 ((fun a => endV (tr (j + 1)).bundles (e.2.2.2.nodes a).end') +
      fun a => endV (tr j).bundles (e.2.2.2.nodes a).end')
    have := mul_nonpos_of_nonneg_of_nonpos (by linarith : 0 ≤ M.dt / 2) this
    linarith

/-- The voltage of the end changes its sign in every step, up to something that vanishes. -/
def EndAlt (tr : ℕ → MTLN p) (x : End) : Prop :=
  Tendsto (fun j => endV (tr (j + 1)).bundles x + endV (tr j).bundles x) atTop (𝓝 0)

theorem EndAlt.two {x : End} (h : EndAlt tr x) :
    Tendsto (fun j => endV (tr (j + 2)).bundles x - endV (tr j).bundles x) atTop (𝓝 0) := by
  have := (h.comp (tendsto_add_atTop_nat 1)).sub h
  rw [sub_zero] at this
  refine this.congr fun j => ?_
  simp only [Function.comp, show j + 1 + 1 = j + 2 from rfl]
  ring

theorem Endless.cols (h : Endless M tr) {b : AnyBundle p} (hb : b ∈ M.bundles) (side : Side) :
    Alternates (fun j => seqV tr b j (side.node b.2.m)) ↔ ∀ c : Fin b.1, EndAlt tr ⟨b.2.name, c, side⟩ := by
  unfold Alternates EndAlt
  rw [tendsto_pi_nhds]
  refine forall_congr' fun c => ?_
  simp only [(h.endV_seq hb side c _).1]
  rfl

/-- A row of the capacitances of a network is a row of the capacitances of the bundle. -/
theorem MTLN.Matched.row (hm : M.Matched) (hp : M.Passive) {nwd : NetworkD} (hn : nwd ∈ M.networks)
    {e : ℕ × AnyNetwork} (he : e ∈ nwd) {b : AnyBundle p} (hb : b ∈ M.bundles) {side : Side} {c : Fin b.1} {a : Fin e.2.1}
    (ha : (e.2.2.2.nodes a).end' = ⟨b.2.name, c, side⟩) {D : End → ℝ}
    (hD : ∀ x, x ∉ (allNodes M.networks).map Node.end' → D x = 0) :
    ∑ a', e.2.2.2.dxc a a' * D (e.2.2.2.nodes a').end' =
      ∑ c', b.2.dun (side.cell b.2.m) * b.2.c (side.node b.2.m) c c' * D ⟨b.2.name, c', side⟩ := by
  classical
  have hinj : Function.Injective fun b => (e.2.2.2.nodes b).end' := by
    have h1 : (List.ofFn e.2.2.2.nodes).Sublist (allNodes M.networks) := by
      have a1 : (List.ofFn e.2.2.2.nodes).Sublist (nwd.flatMap fun e => List.ofFn e.2.2.2.nodes) := by
        rw [List.flatMap_def]
        exact List.sublist_flatten_of_mem (List.mem_map.2 ⟨e, he, rfl⟩)
      refine a1.trans ?_
      unfold allNodes
      rw [List.flatMap_def]
      exact List.sublist_flatten_of_mem (List.mem_map.2 ⟨nwd, hn, rfl⟩)
    have h2 := (h1.map Node.end').nodup hp.ends
    rw [List.map_ofFn, List.nodup_ofFn] at h2
    exact h2
  obtain ⟨f, hf⟩ : ∃ f : End → ℝ, f = fun y => endCap M.bundles ⟨b.2.name, c, side⟩ y * D y := ⟨_, rfl⟩
  have e1 : ∑ a', e.2.2.2.dxc a a' * D (e.2.2.2.nodes a').end' =
      ∑ y ∈ Finset.univ.image (fun a' => (e.2.2.2.nodes a').end'), f y := by
    rw [Finset.sum_image fun x _ y _ h => hinj h]
    refine Finset.sum_congr rfl fun a' _ => ?_
    rw [hm.dxc nwd hn e he, ha, hf]
  have e2 : ∑ c', b.2.dun (side.cell b.2.m) * b.2.c (side.node b.2.m) c c' * D ⟨b.2.name, c', side⟩ =
      ∑ y ∈ Finset.univ.image (fun c' : Fin b.1 => (⟨b.2.name, c', side⟩ : End)), f y := by
    rw [Finset.sum_image fun x _ y _ h => Fin.ext (by simpa using h)]
    refine Finset.sum_congr rfl fun c' _ => ?_
    rw [hf]
    simp only
    rw [endCap_eq hp.names hb]
  rw [e1, e2]
  refine (Finset.sum_subset (Finset.subset_union_left (s₂ := Finset.univ.image (fun c' : Fin b.1 =>
    (⟨b.2.name, c', side⟩ : End)))) ?_).trans (Finset.sum_subset (Finset.subset_union_right
      (s₁ := Finset.univ.image (fun a' => (e.2.2.2.nodes a').end'))) ?_).symm
  · intro y _ hy
    rw [hf]
    simp only
    by_cases hy' : y ∈ (allNodes M.networks).map Node.end'
    · rw [← ha, hm.apart nwd hn e he a y hy', zero_mul]
      intro b' hb'
      exact hy (Finset.mem_image.2 ⟨b', Finset.mem_univ _, hb'⟩)
    · rw [hD y hy', mul_zero]
  · intro y _ hy
    rw [hf]
    simp only
    have : endCap M.bundles ⟨b.2.name, c, side⟩ y = 0 := by
      unfold endCap
      split_ifs with hh
      · simp only [findBundle_mem hp.names b hb]
        rw [dif_neg]
        rintro ⟨-, hrow⟩
        refine hy (Finset.mem_image.2 ⟨⟨y.row, hrow⟩, Finset.mem_univ _, ?_⟩)
        obtain ⟨nm, row, sd⟩ := y
        simp only at hh
        simp only [hh.1, hh.2]
      · rfl
    rw [this, zero_mul]

/-- Twice the current out of the network into the end of a bundle, with the current into the half cell, averaged over a step. -/
noncomputable def sideCurrent (tr : ℕ → MTLN p) (dt : ℝ) (b : AnyBundle p) (side : Side) (j : ℕ) : Col b.1 :=
  (2 * side.factor) • seqI tr b j (side.cell b.2.m) +
    (b.2.dun (side.cell b.2.m) / dt) • (b.2.c (side.node b.2.m) *ᵥ (seqV tr b (j + 1) (side.node b.2.m) - seqV tr b j (side.node b.2.m)))

theorem norton_silent (hdt : 0 < M.dt) (hx : M.SilentFrom (M.time - 2 * M.dt)) {nwd : NetworkD} (hn : nwd ∈ M.networks)
    {e : ℕ × AnyNetwork} (he : e ∈ nwd) (j : ℕ) : e.2.2.2.norton M.dt (M.time + j * M.dt) = 0 := by
  have hj : (0 : ℝ) ≤ j * M.dt := mul_nonneg (Nat.cast_nonneg j) hdt.le
  have hs := fun t ht => hx.networks nwd hn e he t ht
  have s1 : (fun a => e.2.2.2.vSources a (M.time + j * M.dt)) = 0 := funext fun a => (hs _ (by linarith)).1 a
  have s2 : (fun a => e.2.2.2.vSources a (M.time + j * M.dt - M.dt)) = 0 := funext fun a => (hs _ (by linarith)).1 a
  have s3 : (fun a => e.2.2.2.vSources a (M.time + j * M.dt - 2 * M.dt)) = 0 := funext fun a => (hs _ (by linarith)).1 a
  have s4 : (fun a => (e.2.2.2.nodes a).eT (M.time + j * M.dt)) = 0 := funext fun a => (hs _ (by linarith)).2 a
  have s5 : (fun a => (e.2.2.2.nodes a).eT (M.time + j * M.dt - M.dt)) = 0 := funext fun a => (hs _ (by linarith)).2 a
  unfold Network.norton
  simp only [s1, s2, s3, s4, s5, add_zero, sub_zero, mulVec_zero, smul_zero]

/-- The current at a node is the one in its resistors and capacitors. -/
theorem Endless.side_row (h : Endless M tr) (hx : M.SilentFrom (M.time - 2 * M.dt)) (hp : M.Passive) (hm : M.Matched)
    {nwd : NetworkD} (hn : nwd ∈ M.networks) {e : ℕ × AnyNetwork} (he : e ∈ nwd) {b : AnyBundle p} (hb : b ∈ M.bundles)
    {side : Side} {c : Fin b.1} {a : Fin e.2.1} (ha : (e.2.2.2.nodes a).end' = ⟨b.2.name, c, side⟩) (j : ℕ) :
    sideCurrent tr M.dt b side (j + 1) c =
      (e.2.2.2.P1 *ᵥ ((fun a => endV (tr (j + 2)).bundles (e.2.2.2.nodes a).end') +
        fun a => endV (tr (j + 1)).bundles (e.2.2.2.nodes a).end')) a +
      1 / M.dt * ∑ a', e.2.2.2.Q1 a a' * (endV (tr (j + 2)).bundles (e.2.2.2.nodes a').end' -
        endV (tr j).bundles (e.2.2.2.nodes a').end') := by
  have hdt : 0 < M.dt := by rw [← h.dt 0]; exact (h.sound 0).dt
  have h1 := congrFun (h.network_step hn he (hp.networks nwd hn e he).O (j + 1) (.inl (Nat.succ_ne_zero j))) a
  rw [norton_silent hdt hx hn he, smul_zero, add_zero] at h1
  have hrow := hm.row hp hn he hb ha (D := fun x => endV (tr (j + 2)).bundles x - endV (tr (j + 1)).bundles x) (fun x hx => by
    rw [(h.sound (j + 2)).linked.free x (by rw [h.nodeEnds]; exact hx),
      (h.sound (j + 1)).linked.free x (by rw [h.nodeEnds]; exact hx), sub_zero])
  have hI := (h.endV_seq hb side c (j + 1)).2
  simp only [(h.endV_seq hb side _ _).1] at hrow
  rw [show j + 1 + 1 = j + 2 from rfl, show j + 1 - 1 = j from rfl] at h1
  simp only [smul_mulVec, Pi.add_apply, Pi.sub_apply, Pi.smul_apply, smul_eq_mul, ha, hI] at h1
  have e1 : (e.2.2.2.dxc *ᵥ ((fun a => endV (tr (j + 2)).bundles (e.2.2.2.nodes a).end') -
      fun a => endV (tr (j + 1)).bundles (e.2.2.2.nodes a).end')) a =
      b.2.dun (side.cell b.2.m) * (b.2.c (side.node b.2.m) *ᵥ
        (seqV tr b (j + 2) (side.node b.2.m) - seqV tr b (j + 1) (side.node b.2.m))) c := by
    refine Eq.trans hrow ?_
    simp only [mulVec, dotProduct, Pi.sub_apply, Finset.mul_sum]
    exact Finset.sum_congr rfl fun c' _ => by ring
  have e2 : (e.2.2.2.Q1 *ᵥ ((fun a => endV (tr (j + 2)).bundles (e.2.2.2.nodes a).end') -
      fun a => endV (tr j).bundles (e.2.2.2.nodes a).end')) a = ∑ a', e.2.2.2.Q1 a a' *
        (endV (tr (j + 2)).bundles (e.2.2.2.nodes a').end' - endV (tr j).bundles (e.2.2.2.nodes a').end') := rfl
  rw [e1, e2] at h1
  unfold sideCurrent
  simp only [Pi.add_apply, Pi.smul_apply, smul_eq_mul, show j + 1 + 1 = j + 2 from rfl]
  linear_combination h1

/-- Where a node and those its capacitors lead to alternate, the current at the node vanishes. -/
theorem Endless.side_vanish (h : Endless M tr) (hx : M.SilentFrom (M.time - 2 * M.dt)) (hE : ∀ j, 0 ≤ (tr j).energy)
    (hp : M.Passive) (hm : M.Matched) (hd : M.Dissipates) {nwd : NetworkD} (hn : nwd ∈ M.networks) {e : ℕ × AnyNetwork}
    (he : e ∈ nwd) {b : AnyBundle p} (hb : b ∈ M.bundles) {side : Side} {c : Fin b.1} {a : Fin e.2.1}
    (ha : (e.2.2.2.nodes a).end' = ⟨b.2.name, c, side⟩)
    (hQ : ∀ a', e.2.2.2.Q1 a a' ≠ 0 → EndAlt tr (e.2.2.2.nodes a').end') :
    Tendsto (fun j => sideCurrent tr M.dt b side j c) atTop (𝓝 0) := by
  refine (tendsto_add_atTop_iff_nat 1).1 ?_
  have h1 := (tendsto_pi_nhds.1 ((h.resistors hx hE hp hd hn he).comp (tendsto_add_atTop_nat 1))) a
  have h2 : Tendsto (fun j => 1 / M.dt * ∑ a', e.2.2.2.Q1 a a' * (endV (tr (j + 2)).bundles (e.2.2.2.nodes a').end' -
        endV (tr j).bundles (e.2.2.2.nodes a').end')) atTop (𝓝 (1 / M.dt * ∑ _a' : Fin e.2.1, (0 : ℝ))) := by
    refine (tendsto_finsetSum _ fun a' _ => ?_).const_mul _
    by_cases hq : e.2.2.2.Q1 a a' = 0
    · simp only [hq, zero_mul]; exact tendsto_const_nhds
    · have := ((hQ a' hq).two).const_mul (e.2.2.2.Q1 a a')
      rwa [mul_zero] at this
  have h3 := h1.add h2
  rw [Finset.sum_const_zero, mul_zero, add_zero] at h3
  refine h3.congr fun j => ?_
  exact (h.side_row hx hp hm hn he hb ha j).symm

theorem Endless.inner (h : Endless M tr) (hx : M.SilentFrom (M.time - 2 * M.dt)) (hp : M.Passive) {b : AnyBundle p}
    (hb : b ∈ M.bundles) (j : ℕ) :
    b.2.asLine.FreeInner (seqV tr b j) (seqI tr b j) (seqV tr b (j + 1)) (seqI tr b (j + 1)) := by
  have hdt : 0 < M.dt := by rw [← h.dt 0]; exact (h.sound 0).dt
  obtain ⟨hpass, hbd⟩ := hp.bundles b hb
  have hj : (0 : ℝ) ≤ j * M.dt := mul_nonneg (Nat.cast_nonneg j) hdt.le
  have hs := fun t ht => hx.bundles b hb t ht
  have hl : M.Lumped := fun b hb k hk =>
    ⟨(hp.bundles b hb).1.q1 k hk, (hp.bundles b hb).1.q2 k hk, fun a c => (hp.bundles b hb).1.q3 k hk a c⟩
  constructor
  · intro k hk
    have h1 := h.cell_step hl hb hbd j hk
    have e1 : b.2.induced M.dt (M.time + j * M.dt) k = 0 := by
      unfold MTLD.induced
      have s1 : (fun a => b.2.eT (k + 1) a (M.time + j * M.dt) - b.2.eT k a (M.time + j * M.dt)) = 0 := funext fun a => by
        rw [(hs _ (by linarith)).2, (hs _ (by linarith)).2, sub_zero]; rfl
      have s2 : (fun a => b.2.eL k a (M.time + j * M.dt + M.dt / 2)) = 0 := funext fun a => (hs _ (by linarith)).1 k a
      have s3 : (fun a => b.2.eL k a (M.time + j * M.dt - M.dt / 2)) = 0 := funext fun a => (hs _ (by linarith)).1 k a
      rw [s1, s2, s3]
      simp
    rw [e1, add_zero] at h1
    show b.2.dun k • ((1 / b.2.dt) • _ + _) = _
    rw [hbd]
    exact h1
  · intro k hk0 hk
    have h1 := h.node_step hb hbd j hk0 hk
    have e1 : b.2.injected M.dt (M.time + j * M.dt) k = 0 := by
      unfold MTLD.injected
      have s1 : (fun a => b.2.eT k a (M.time + j * M.dt) - b.2.eT k a (M.time + j * M.dt - M.dt)) = 0 := funext fun a => by
        rw [(hs _ (by linarith)).2, (hs _ (by linarith)).2, sub_zero]; rfl
      rw [s1]
      simp
    rw [e1, zero_sub] at h1
    show ((b.2.dun (k - 1) + b.2.dun k) / 2) • ((1 / b.2.dt) • _ + _) = _
    rw [hbd]
    exact h1

theorem first_side {dt : ℝ} (b : AnyBundle p) (j : ℕ) :
    b.2.asLine.firstCurrent dt (seqV tr b j) (seqI tr b j) (seqV tr b (j + 1)) = sideCurrent tr dt b .S j +
      (b.2.dun 0 / 2) • (b.2.g 0 *ᵥ (seqV tr b (j + 1) 0 + seqV tr b j 0)) := by
  unfold MTL.firstCurrent sideCurrent
  simp only [Side.factor, Side.cell, Side.node, MTLD.asLine]
  module

theorem last_side {dt : ℝ} (b : AnyBundle p) (j : ℕ) :
    b.2.asLine.lastCurrent dt (seqV tr b j) (seqI tr b j) (seqV tr b (j + 1)) = sideCurrent tr dt b .L j +
      (b.2.dun (b.2.m - 1) / 2) • (b.2.g b.2.m *ᵥ (seqV tr b (j + 1) b.2.m + seqV tr b j b.2.m)) := by
  unfold MTL.lastCurrent sideCurrent
  simp only [Side.factor, Side.cell, Side.node, MTLD.asLine]
  module

/-- A bundle alternates if one of its ends does and there is no current at that end. -/
theorem Endless.bundle_alt (h : Endless M tr) (hx : M.SilentFrom (M.time - 2 * M.dt)) (hp : M.Passive) {b : AnyBundle p}
    (hb : b ∈ M.bundles) (side : Side) (hv : ∀ c : Fin b.1, EndAlt tr ⟨b.2.name, c, side⟩)
    (hi : ∀ c, Tendsto (fun j => sideCurrent tr M.dt b side j c) atTop (𝓝 0)) :
    (∀ k ≤ b.2.m, Alternates fun j => seqV tr b j k) ∧ ∀ k < b.2.m, Alternates fun j => seqI tr b j k := by
  have hI : Tendsto (sideCurrent tr M.dt b side) atTop (𝓝 0) := tendsto_pi_nhds.2 hi
  have hV := (h.cols hb side).2 hv
  refine alternates_all (s := b.2.asLine) (fun j => h.inner hx hp hb j) (hp.bundles b hb).1.cells ?_
  cases side with
  | S =>
    left
    have hV : Alternates fun j => seqV tr b j 0 := hV
    refine ⟨hV, current_first (s := b.2.asLine) (τ := M.dt) hV ?_⟩
    refine (tendsto_add_zero hI (tendsto_smul_zero (b.2.dun 0 / 2) (tendsto_mulVec (b.2.g 0) hV))).congr fun j => ?_
    exact (first_side b j).symm
  | L =>
    right
    have hV : Alternates fun j => seqV tr b j b.2.m := hV
    refine ⟨hV, current_last (s := b.2.asLine) (τ := M.dt) hV ?_⟩
    refine (tendsto_add_zero hI (tendsto_smul_zero (b.2.dun (b.2.m - 1) / 2) (tendsto_mulVec (b.2.g b.2.m) hV))).congr fun j => ?_
    exact (last_side b j).symm

theorem node_end {x : End} (h : x ∈ (allNodes M.networks).map Node.end') : ∃ nwd ∈ M.networks, ∃ e ∈ nwd, ∃ a,
    (e.2.2.2.nodes a).end' = x := by
  obtain ⟨d, hd, rfl⟩ := List.mem_map.1 h
  simp only [allNodes, List.mem_flatMap, List.mem_ofFn] at hd
  obtain ⟨nwd, hn, e, he, a, rfl⟩ := hd
  exact ⟨nwd, hn, e, he, a, rfl⟩

/-- The voltages of ends the resistors determine alternate. -/
theorem Endless.quiet (h : Endless M tr) (hx : M.SilentFrom (M.time - 2 * M.dt)) (hE : ∀ j, 0 ≤ (tr j).energy)
    (hp : M.Passive) (hm : M.Matched) (hd : M.Dissipates) {x : End} (hq : M.Quiet x) : EndAlt tr x := by
  induction hq with
  | @free x hf =>
    unfold EndAlt
    have e : ∀ j, endV (tr j).bundles x = 0 := fun j => (h.sound j).linked.free x (by rw [h.nodeEnds]; exact hf)
    simp only [e, add_zero]
    exact tendsto_const_nhds
  | @resistors nwd hn e he T a _ hdet ih =>
    exact determined_vanish hdet (w := fun j => (fun a => endV (tr (j + 1)).bundles (e.2.2.2.nodes a).end') +
      fun a => endV (tr j).bundles (e.2.2.2.nodes a).end') (h.resistors hx hE hp hd hn he) fun b hb => ih b hb
  | @along b hb side side' c _ hc _ ihq ihQ =>
    refine (h.cols hb side').1 ((h.bundle_alt hx hp hb side ihq fun c => ?_).1 _ ?_) c
    · obtain ⟨nwd, hn, e, he, a, ha⟩ := node_end (hc c)
      exact h.side_vanish hx hE hp hm hd hn he hb ha fun a' hq => ihQ c nwd hn e he a ha a' hq
    · cases side' <;> simp [Side.node]

/-- Everything alternates. -/
theorem Endless.all_alt (h : Endless M tr) (hx : M.SilentFrom (M.time - 2 * M.dt)) (hE : ∀ j, 0 ≤ (tr j).energy)
    (hp : M.Passive) (hm : M.Matched) (hd : M.Dissipates) {b : AnyBundle p} (hb : b ∈ M.bundles) :
    (∀ k ≤ b.2.m, Alternates fun j => seqV tr b j k) ∧ ∀ k < b.2.m, Alternates fun j => seqI tr b j k := by
  obtain ⟨side, hs⟩ := hd.bundles b hb
  refine h.bundle_alt hx hp hb side (fun c => h.quiet hx hE hp hm hd (hs c).1) fun c => ?_
  obtain ⟨-, hc, hQ⟩ := hs c
  obtain ⟨nwd, hn, e, he, a, ha⟩ := node_end hc
  exact h.side_vanish hx hE hp hm hd hn he hb ha fun a' hq => h.quiet hx hE hp hm hd (hQ nwd hn e he a ha a' hq)

/-- Voltage and current at an end have no product in the limit. -/
theorem Endless.side_power (h : Endless M tr) (hx : M.SilentFrom (M.time - 2 * M.dt)) (hE : ∀ j, 0 ≤ (tr j).energy)
    (hp : M.Passive) (hm : M.Matched) (hd : M.Dissipates) (hK : Endless.Below tr K) {b : AnyBundle p} (hb : b ∈ M.bundles)
    (side : Side) (g : Mat b.1) :
    Tendsto (fun j => seqV tr b (j + 1) (side.node b.2.m) ⬝ᵥ (sideCurrent tr M.dt b side j +
      g *ᵥ (seqV tr b (j + 1) (side.node b.2.m) + seqV tr b j (side.node b.2.m)))) atTop (𝓝 0) := by
  have hk : side.node b.2.m ≤ b.2.m := by cases side <;> simp [Side.node]
  have hV : ∀ j a, |seqV tr b j (side.node b.2.m) a| ≤ K := fun j a => h.boundV hK hb hk a j
  have halt : ∀ x ∈ (allNodes M.networks).map Node.end', EndAlt tr x := by
    intro x hx'
    have hall : x ∈ allEnds M.bundles := by
      obtain ⟨d, hd', rfl⟩ := List.mem_map.1 hx'
      exact hm.nodes d hd'
    obtain ⟨b', hb', hn', hrow⟩ := mem_allEnds.1 hall
    obtain ⟨nm, row, sd⟩ := x
    subst hn'
    exact (h.cols hb' sd).1 ((h.all_alt hx hE hp hm hd hb').1 _ (by cases sd <;> simp [Side.node])) ⟨row, hrow⟩
  have h1 := tendsto_dot_zero (u := fun j => seqV tr b (j + 1) (side.node b.2.m)) (fun j a => hV (j + 1) a)
    (tendsto_mulVec g ((h.all_alt hx hE hp hm hd hb).1 _ hk))
  have h2 : Tendsto (fun j => seqV tr b (j + 1) (side.node b.2.m) ⬝ᵥ sideCurrent tr M.dt b side j) atTop
      (𝓝 (∑ _c : Fin b.1, (0 : ℝ))) := by
    unfold dotProduct
    refine tendsto_finsetSum _ fun c _ => ?_
    by_cases hc : (⟨b.2.name, c, side⟩ : End) ∈ (allNodes M.networks).map Node.end'
    · obtain ⟨nwd, hn, e, he, a, ha⟩ := node_end hc
      exact bdd_le_mul_tendsto_zero' K (Eventually.of_forall fun j => hV (j + 1) c)
        (h.side_vanish hx hE hp hm hd hn he hb ha fun a' _ => halt _ (List.mem_map.2 ⟨_, mem_allNodes hn he a', rfl⟩))
    · have e : ∀ j, seqV tr b j (side.node b.2.m) c = 0 := fun j => by
        rw [← (h.endV_seq hb side c j).1]
        exact (h.sound j).linked.free _ (by rw [h.nodeEnds]; exact hc)
      simp only [e, zero_mul]
      exact tendsto_const_nhds
  rw [Finset.sum_const_zero] at h2
  have h3 := h2.add h1
  rw [add_zero] at h3
  refine h3.congr fun j => ?_
  rw [dotProduct_add]

/-- A bundle comes to rest. -/
theorem Endless.bundle_rest (h : Endless M tr) (hx : M.SilentFrom (M.time - 2 * M.dt)) (hE : ∀ j, 0 ≤ (tr j).energy)
    (hp : M.Passive) (hm : M.Matched) (hd : M.Dissipates) (hK : Endless.Below tr K) {b : AnyBundle p} (hb : b ∈ M.bundles)
    (hst : b.2.Stable) : ∀ ε > 0, ∃ J, ∀ j ≥ J, (∀ k ≤ b.2.m, ∀ a, |seqV tr b j k a| ≤ ε) ∧
      ∀ k < b.2.m, ∀ a, |seqI tr b j k a| ≤ ε := by
  have hdt : 0 < M.dt := by rw [← h.dt 0]; exact (h.sound 0).dt
  have hbd := (hp.bundles b hb).2
  have hdb : 0 < b.2.dt := by rw [hbd]; exact hdt
  have hmb : 0 < b.2.m := (hp.bundles b hb).1.cells
  obtain ⟨av, ai⟩ := h.all_alt hx hE hp hm hd hb
  have van := energy_vanishes (s := b.2.asLine) (τ := b.2.dt) (fun j => h.inner hx hp hb j) hmb hdb.ne' hdb.ne' av ai
    (fun k hk j a => h.boundV hK hb hk a j) (fun k hk j a => h.boundI hK hb hk a j) (by
      refine (h.side_power hx hE hp hm hd hK hb .S ((b.2.dun 0 / 2) • b.2.g 0)).congr fun j => ?_
      rw [hbd, first_side, smul_mulVec]
      rfl) (by
      refine (h.side_power hx hE hp hm hd hK hb .L ((b.2.dun (b.2.m - 1) / 2) • b.2.g b.2.m)).congr fun j => ?_
      rw [hbd, last_side, smul_mulVec]
      rfl)
  rw [show b.2.dt = b.2.asLine.dt from rfl, endWeight_self (s := b.2.asLine) hdb.ne'] at van
  obtain ⟨κ, hκ, hcomp⟩ := hst.components hdb hmb
  intro ε hε
  obtain ⟨δ, hδ, hδε⟩ : ∃ δ > 0, κ * δ ≤ ε := by
    refine ⟨ε / (κ + 1), by positivity, ?_⟩
    rw [mul_div_assoc', div_le_iff₀ (by positivity)]
    nlinarith
  obtain ⟨J, hJ⟩ := eventually_atTop.1 (van.eventually (gt_mem_nhds (show 0 < δ ^ 2 by positivity)))
  refine ⟨J + 1, fun j hj => ?_⟩
  obtain ⟨j, rfl⟩ : ∃ q, j = q + 1 := ⟨j - 1, by omega⟩
  obtain ⟨a1, a2⟩ := hcomp { b.2.asLine with v := seqV tr b (j + 1), i := seqI tr b (j + 1) }
    ⟨rfl, rfl, rfl, rfl, rfl, rfl, rfl, rfl, rfl, rfl, rfl, rfl, rfl, rfl, rfl, rfl, rfl, rfl, rfl⟩ (δ ^ 2) (by positivity)
    (hJ j (by omega)).le
  rw [Real.sqrt_sq hδ.le] at a1 a2
  exact ⟨fun k hk c => (a1 k hk c).trans hδε, fun k hk c => (a2 k hk c).trans hδε⟩

theorem SameParts.at {M M' : MTLN p} (h : SameParts M M') (t : ℝ) : SameParts { M with time := t } M' :=
  ⟨h.bundles, h.networks, h.ends, h.cap, h.nodes⟩

/-- All bundles come to rest. -/
theorem Endless.rest (h : Endless M tr) {t₀ : ℝ} (hx : M.SilentFrom t₀) (hp : M.Passive) (hm : M.Matched)
    (hd : M.Dissipates) (hst : ∀ b ∈ M.bundles, b.2.Stable) (hpar : ∀ j, SameParts M (tr j)) :
    ∀ ε > 0, ∃ J, ∀ j ≥ J, ∀ b ∈ M.bundles, (∀ k ≤ b.2.m, ∀ a, |seqV tr b j k a| ≤ ε) ∧
      ∀ k < b.2.m, ∀ a, |seqI tr b j k a| ≤ ε := by
  have hdt : 0 < M.dt := by rw [← h.dt 0]; exact (h.sound 0).dt
  obtain ⟨q, hq⟩ := exists_nat_gt ((t₀ - M.time + 2 * M.dt) / M.dt)
  rw [div_lt_iff₀ hdt] at hq
  obtain ⟨A, hA⟩ : ∃ A : MTLN p, A = { M with time := M.time + q * M.dt } := ⟨_, rfl⟩
  obtain ⟨tr', htr'⟩ : ∃ tr' : ℕ → MTLN p, tr' = fun j => tr (j + q) := ⟨_, rfl⟩
  have h' : Endless A tr' := by rw [hA, htr']; exact h.shift q
  have hAb : A.bundles = M.bundles := by rw [hA]
  have hp' : A.Passive := by rw [hA]; exact ⟨hp.names, hp.bundles, hp.networks, hp.ends⟩
  have hm' : A.Matched := by rw [hA]; exact ⟨hm.nodes, hm.dxc, hm.apart⟩
  have hQ : ∀ x, M.Quiet x → A.Quiet x := by
    intro x hx
    rw [hA]
    induction hx with
    | free h => exact .free h
    | resistors hn he T a _ hdet ih => exact .resistors (M := { M with time := M.time + q * M.dt }) hn he T a ih hdet
    | along hb side side' c _ hc _ ihq ihQ => exact .along (M := { M with time := M.time + q * M.dt }) hb side side' c ihq hc ihQ
  have hd' : A.Dissipates := by
    refine ⟨by rw [hA]; exact hd.P1, fun b hb => ?_⟩
    obtain ⟨side, hs⟩ := hd.bundles b (by rwa [hAb] at hb)
    refine ⟨side, fun c => ⟨hQ _ (hs c).1, by rw [hA]; exact (hs c).2.1, fun nwd hn e he a ha a' hq => hQ _ ?_⟩⟩
    rw [hA] at hn
    exact (hs c).2.2 nwd hn e he a ha a' hq
  have hx' : A.SilentFrom (A.time - 2 * A.dt) := by
    rw [hA]
    have := hx.mono (t₁ := M.time + q * M.dt - 2 * M.dt) (by linarith)
    exact ⟨this.bundles, this.networks⟩
  have hpar' : ∀ j, SameParts A (tr' j) := fun j => by rw [hA, htr']; exact (hpar _).at _
  have hE : ∀ j, 0 ≤ (tr' j).energy := fun j => (MTLN.bundle_energy (M := A) (by rw [hA]; exact hdt) hp' hm'
    (by rw [hAb]; exact hst) (hpar' j) (h'.sound j)).1
  obtain ⟨κ, -, hκ⟩ := MTLN.below_sqrt A (by rw [hA]; exact hdt) hp' hm' (by rw [hAb]; exact hst)
  have hmono : ∀ j, (tr' j).energy ≤ (tr' 0).energy := by
    intro j
    induction j with
    | zero => exact le_rfl
    | succ j ih =>
      refine ((h'.sound j).step (h'.step j)).2 ?_ |>.trans ih
      refine (h'.silent hx' j).mono ?_
      rw [h'.time, h'.dt]
      have : (0 : ℝ) ≤ j * A.dt := mul_nonneg (Nat.cast_nonneg j) (by rw [hA]; exact hdt.le)
      linarith
  have hK : Endless.Below tr' (κ * √(|(tr' 0).energy| + 1)) := fun j b hb =>
    hκ (tr' j) (hpar' j) (h'.sound j) _ (by positivity) (by linarith [hmono j, le_abs_self (tr' 0).energy]) b hb
  intro ε hε
  have key : ∀ l : List (AnyBundle p), (∀ b ∈ l, b ∈ M.bundles) → ∃ J, ∀ j ≥ J, ∀ b ∈ l,
      (∀ k ≤ b.2.m, ∀ a, |seqV tr' b j k a| ≤ ε) ∧ ∀ k < b.2.m, ∀ a, |seqI tr' b j k a| ≤ ε := by
    intro l
    induction l with
    | nil => intro _; exact ⟨0, fun _ _ b hb => by cases hb⟩
    | cons b l ih =>
      intro hl
      obtain ⟨J1, h1⟩ := ih fun b hb => hl b (List.mem_cons_of_mem _ hb)
      have hb := hl b List.mem_cons_self
      obtain ⟨J2, h2⟩ := h'.bundle_rest hx' hE hp' hm' hd' hK (b := b) (by rw [hAb]; exact hb) (hst b hb) ε hε
      refine ⟨max J1 J2, fun j hj b' hb' => ?_⟩
      rcases List.mem_cons.1 hb' with rfl | hb'
      · exact h2 j (le_trans (le_max_right _ _) hj)
      · exact h1 j (le_trans (le_max_left _ _) hj) b' hb'
  obtain ⟨J, hJ⟩ := key M.bundles fun b hb => hb
  refine ⟨J + q, fun j hj b hb => ?_⟩
  have := hJ (j - q) (by omega) b hb
  rw [htr'] at this
  unfold seqV seqI at this ⊢
  simp only [show j - q + q = j by omega] at this
  exact this

end Trace

end Mtln
