import Verif.Spec.ManagerReciprocity
import Verif.Lemmas.ManagerRemade
import Verif.Lemmas.Reciprocity

/-! # Power series of the states of managers -/

namespace Mtln

open Matrix PowerSeries

variable {n p N S : ℕ}

theorem gen_back {x : ℕ → Col n} (h : x 0 = 0) : gen (fun j => x (j - 1)) = (X : ℝ⟦X⟧) • gen x := by
  funext a
  ext j
  simp only [gen, Pi.smul_apply, smul_eq_mul]
  cases j with
  | zero => simp [h]
  | succ j => rw [PowerSeries.coeff_succ_X_mul]; simp

/-- Reciprocity of a network. -/
theorem net_reciprocal {D P Q : Mat N} (hD : Dᵀ = D) (hP : Pᵀ = P) (hQ : Qᵀ = Q) {V I ν W K μ : ℕ → Col N}
    (hV : V 0 = 0) (hW : W 0 = 0)
    (h1 : ∀ j, D *ᵥ (V (j + 1) - V j) = P *ᵥ (V (j + 1) + V j) + Q *ᵥ (V (j + 1) - V (j - 1)) + (2 : ℝ) • ν j - (2 : ℝ) • I j)
    (h2 : ∀ j, D *ᵥ (W (j + 1) - W j) = P *ᵥ (W (j + 1) + W j) + Q *ᵥ (W (j + 1) - W (j - 1)) + (2 : ℝ) • μ j - (2 : ℝ) • K j) :
    gen W ⬝ᵥ gen I - gen V ⬝ᵥ gen K = gen W ⬝ᵥ gen ν - gen V ⬝ᵥ gen μ := by
  have key : ∀ {V I ν : ℕ → Col N} (_ : V 0 = 0) (_ : ∀ j, D *ᵥ (V (j + 1) - V j) = P *ᵥ (V (j + 1) + V j) +
      Q *ᵥ (V (j + 1) - V (j - 1)) + (2 : ℝ) • ν j - (2 : ℝ) • I j), lift D *ᵥ (gen V - (X : ℝ⟦X⟧) • gen V) =
      lift P *ᵥ (gen V + (X : ℝ⟦X⟧) • gen V) + lift Q *ᵥ (gen V - (X * X : ℝ⟦X⟧) • gen V) +
        (X * PowerSeries.C (2 : ℝ) : ℝ⟦X⟧) • gen ν - (X * PowerSeries.C (2 : ℝ) : ℝ⟦X⟧) • gen I := by
    intro V I ν hV h
    have e := gen_ext h
    rw [gen_sub, gen_add, gen_add, gen_mulVec, gen_mulVec, gen_mulVec, gen_sub, gen_add, gen_sub, gen_smul, gen_smul,
      gen_back hV] at e
    have e' := congrArg (fun y => (X : ℝ⟦X⟧) • y) e
    simp only [smul_sub, smul_add, ← mulVec_smul, gen_shift hV, smul_smul] at e'
    exact e'
  have k1 := congrArg (fun y => gen W ⬝ᵥ y) (key hV h1)
  have k2 := congrArg (fun y => gen V ⬝ᵥ y) (key hW h2)
  simp only [mulVec_sub, mulVec_add, mulVec_smul, dotProduct_sub, dotProduct_add, dotProduct_smul, smul_eq_mul] at k1 k2
  have d1 := dot_symm (lift_symm hD) (gen V) (gen W)
  have d2 := dot_symm (lift_symm hP) (gen V) (gen W)
  have d3 := dot_symm (lift_symm hQ) (gen V) (gen W)
  have hX : (X : ℝ⟦X⟧) * PowerSeries.C (2 : ℝ) ≠ 0 := by
    refine mul_ne_zero X_ne_zero ?_
    rw [Ne, map_eq_zero_iff _ PowerSeries.C_injective]
    norm_num
  refine mul_left_cancel₀ hX ?_
  linear_combination k1 - k2 + (1 - X) * d1 - (1 + X) * d2 - (1 - X * X) * d3

/-! ## The equations along a trace -/

section Trace

variable {M : MTLN p} {tr : ℕ → MTLN p}

/-- The trace starts at rest. -/
structure Rest (tr : ℕ → MTLN p) : Prop where
  bundles : ∀ b ∈ (tr 0).bundles, (∀ k x, b.2.v k x = 0) ∧ ∀ k x, b.2.i k x = 0
  networks : ∀ nwd ∈ (tr 0).networks, ∀ e ∈ nwd, ∀ x, e.2.2.2.vPrev x = 0

theorem Rest.nodeV (h : Rest tr) (name : String) (k a : ℕ) : Mtln.nodeV (tr 0).bundles name k a = 0 := by
  unfold Mtln.nodeV
  cases hf : findBundle (tr 0).bundles name with
  | none => rfl
  | some b =>
    simp only
    split_ifs
    · exact (h.bundles b (findBundle_some hf).1).1 _ _
    · rfl

theorem Rest.cellI (h : Rest tr) (name : String) (k a : ℕ) : Mtln.cellI (tr 0).bundles name k a = 0 := by
  unfold Mtln.cellI
  cases hf : findBundle (tr 0).bundles name with
  | none => rfl
  | some b =>
    simp only
    split_ifs
    · exact (h.bundles b (findBundle_some hf).1).2 _ _
    · rfl

theorem Rest.endV (h : Rest tr) (x : End) : Mtln.endV (tr 0).bundles x = 0 := by
  unfold Mtln.endV
  cases hf : findBundle (tr 0).bundles x.bundle with
  | none => rfl
  | some b =>
    simp only
    split_ifs
    · exact (h.bundles b (findBundle_some hf).1).1 _ _
    · rfl

/-- The nodes of a network in a step of the trace. -/
theorem Endless.network_step (h : Endless M tr) {nwd : NetworkD} (hn : nwd ∈ M.networks)
    {e : ℕ × AnyNetwork} (he : e ∈ nwd) (hO : e.2.2.2.O = 0) (j : ℕ) (h0 : j ≠ 0 ∨ Rest tr) :
    ((1 / M.dt) • e.2.2.2.dxc) *ᵥ ((fun a => endV (tr (j + 1)).bundles (e.2.2.2.nodes a).end') -
        fun a => endV (tr j).bundles (e.2.2.2.nodes a).end') =
      e.2.2.2.P1 *ᵥ ((fun a => endV (tr (j + 1)).bundles (e.2.2.2.nodes a).end') +
        fun a => endV (tr j).bundles (e.2.2.2.nodes a).end') +
      ((1 / M.dt) • e.2.2.2.Q1) *ᵥ ((fun a => endV (tr (j + 1)).bundles (e.2.2.2.nodes a).end') -
        fun a => endV (tr (j - 1)).bundles (e.2.2.2.nodes a).end') +
      (2 : ℝ) • e.2.2.2.norton M.dt (M.time + j * M.dt) - (2 : ℝ) • fun a => endI (tr j).bundles (e.2.2.2.nodes a).end' := by
  have hlev : ∃ nwd' ∈ (tr j).networks, ∃ nw : Network e.2.1 e.2.2.1, ((e.1, ⟨e.2.1, e.2.2.1, nw⟩) : ℕ × AnyNetwork) ∈ nwd' ∧
      (∃ v vPrev i X terms, nw = { e.2.2.2 with v := v, vPrev := vPrev, i := i, X := X, terms := terms }) ∧
      ∀ a, nw.vPrev a = endV (tr (j - 1)).bundles (e.2.2.2.nodes a).end' := by
    cases j with
    | zero =>
      replace h0 := h0.resolve_left fun h => h rfl
      obtain ⟨nwd', hn', nw, he', hw, -⟩ := h.level hn he 0
      exact ⟨nwd', hn', nw, he', hw, fun a => (h0.networks nwd' hn' _ he' a).trans (h0.endV _).symm⟩
    | succ j =>
      obtain ⟨nwd', hn', nw, he', hw, hp⟩ := h.level hn he (j + 1)
      exact ⟨nwd', hn', nw, he', hw, hp j rfl⟩
  obtain ⟨nw, hnw⟩ : ∃ nw, nw = e.2.2.2 := ⟨_, rfl⟩
  obtain ⟨nwd1, hn1, nw1, he1, ⟨v, vP, i, X, terms, hnw1⟩, a4⟩ := hlev
  obtain ⟨nwd2, hn2, hr⟩ := forall₂_mem_left (MTLN.step_moved (h.step j) (h.sound j).ready).2 _ hn1
  obtain ⟨e2, he2, v', X', i', heq, rfl⟩ := forall₂_mem_left hr _ he1
  have a1 := (h.sound j).linked.v _ hn1 _ he1
  have a2 := (h.sound j).linked.i _ hn1 _ he1
  have a3 := (h.sound (j + 1)).linked.v _ hn2 _ he2
  rw [h.dt, h.time] at heq
  simp only at a1 a2 a3
  have hnodes : nw1.nodes = e.2.2.2.nodes := by rw [hnw1]
  have hsrc : nw1.vSources = e.2.2.2.vSources := by rw [hnw1]
  rw [hnodes] at a1 a2 a3
  unfold Network.NodeEquations at heq
  simp only [hnodes, hsrc] at heq
  have c1 : nw1.dxc = e.2.2.2.dxc := by rw [hnw1]; rfl
  have c2 : nw1.P1 = e.2.2.2.P1 ∧ nw1.O = e.2.2.2.O ∧ nw1.Ps = e.2.2.2.Ps ∧ nw1.Q1 = e.2.2.2.Q1 ∧ nw1.Qs = e.2.2.2.Qs := by
    rw [hnw1]; exact ⟨rfl, rfl, rfl, rfl, rfl⟩
  obtain ⟨c2, c3, c4, c5, c6⟩ := c2
  rw [c1, c2, c3, c4, c5, c6, hO, show nw1.v = _ from funext a1, show nw1.i = _ from funext a2,
    show nw1.vPrev = _ from funext a4, show v' = _ from funext a3, zero_mulVec] at heq
  rw [smul_mulVec, smul_mulVec]
  unfold Network.norton
  have hd : (1 / (2 * M.dt)) = (1 / 2 : ℝ) * (1 / M.dt) := by rw [one_div_mul_one_div]
  rw [hd, heq]
  module

/-- The power series of the voltages of a node along the trace. -/
noncomputable def seqV (tr : ℕ → MTLN p) (b : AnyBundle p) (j k : ℕ) : Col b.1 := fun a => nodeV (tr j).bundles b.2.name k a

/-- The currents of a cell along the trace. -/
noncomputable def seqI (tr : ℕ → MTLN p) (b : AnyBundle p) (j k : ℕ) : Col b.1 := fun a => cellI (tr j).bundles b.2.name k a

theorem Endless.bundle_step (h : Endless M tr) {b : AnyBundle p} (hb : b ∈ M.bundles) (j : ℕ) :
    ∃ c c' : MTLD b.1 p, (⟨b.1, c⟩ : AnyBundle p) ∈ (tr j).bundles ∧
      (⟨b.1, c'⟩ : AnyBundle p) ∈ (tr (j + 1)).bundles ∧ FreeBundle b ⟨b.1, c⟩ ∧ c.name = b.2.name ∧
      c'.name = b.2.name ∧ ∃ ws, c.stepWith (M.time + j * M.dt) M.dt ws = .ok c' := by
  obtain ⟨c, hcm, hf, hn⟩ := h.at hb j
  obtain ⟨b', hb', ws, c', hs, rfl⟩ := forall₂_mem_left (MTLN.step_moved (h.step j) (h.sound j).ready).1 _ hcm
  rw [h.dt, h.time] at hs
  exact ⟨c, c', hcm, hb', hf, hn, (stepWith_name hs).trans hn, ws, hs⟩

/-- The voltage equation of an inner node in a step of the trace. -/
theorem Endless.node_step (h : Endless M tr) {b : AnyBundle p} (hb : b ∈ M.bundles) (hdt : b.2.dt = M.dt) (j : ℕ) {k : ℕ}
    (hk0 : 0 < k) (hk : k < b.2.m) :
    ((b.2.dun (k - 1) + b.2.dun k) / 2) • ((1 / M.dt) • (b.2.c k *ᵥ (seqV tr b (j + 1) k - seqV tr b j k)) +
      (1 / 2 : ℝ) • (b.2.g k *ᵥ (seqV tr b (j + 1) k + seqV tr b j k))) =
      b.2.injected M.dt (M.time + j * M.dt) k - (seqI tr b j k - seqI tr b j (k - 1)) := by
  obtain ⟨c, c', hcm, hcm', ⟨v, i, phi, probes, lr, cg, hf⟩, hn, hn', ws, hs⟩ := h.bundle_step hb j
  have hready := (h.sound j).ready.bundles _ hcm
  simp only [Sigma.mk.injEq, heq_eq_eq, true_and] at hf
  have := ((MTLD.stepWith_equations hready hs).1 k hk0 (by rw [hf]; exact hk) (c'.v k)).2 rfl
  obtain ⟨e1, e2⟩ := h.col hcm hn k
  obtain ⟨e3, e4⟩ := h.col hcm' hn' k
  obtain ⟨e5, e6⟩ := h.col hcm hn (k - 1)
  have f1 : c.dun = b.2.dun ∧ c.dt = b.2.dt ∧ c.c = b.2.c ∧ c.g = b.2.g ∧ c.eT = b.2.eT := by
    rw [hf]; exact ⟨rfl, rfl, rfl, rfl, rfl⟩
  obtain ⟨f1, f2, f3, f4, f5⟩ := f1
  unfold VoltageEq at this
  rw [f1, f2, f3, f4, f5, e1, e3, e2, e6, hdt] at this
  unfold MTLD.injected seqV seqI
  linear_combination (norm := module) this

/-- The current equation of a cell in a step of the trace. -/
theorem Endless.cell_step (h : Endless M tr) (hl : M.Lumped) {b : AnyBundle p} (hb : b ∈ M.bundles) (hdt : b.2.dt = M.dt)
    (j : ℕ) {k : ℕ} (hk : k < b.2.m) :
    b.2.dun k • ((1 / M.dt) • ((b.2.l k + b.2.tz.e k) *ᵥ (seqI tr b (j + 1) k - seqI tr b j k)) +
      (1 / 2 : ℝ) • ((b.2.r k + b.2.tz.d k) *ᵥ (seqI tr b (j + 1) k + seqI tr b j k))) =
      -(seqV tr b (j + 1) (k + 1) - seqV tr b (j + 1) k) + b.2.induced M.dt (M.time + j * M.dt) k := by
  obtain ⟨c, c', hcm, hcm', ⟨v, i, phi, probes, lr, cg, hf⟩, hn, hn', ws, hs⟩ := h.bundle_step hb j
  have hready := (h.sound j).ready.bundles _ hcm
  have := ((MTLD.stepWith_equations hready hs).2 k (by
    simp only [Sigma.mk.injEq, heq_eq_eq, true_and] at hf
    rw [hf]; exact hk) (c'.i k)).2 rfl
  obtain ⟨e1, e2⟩ := h.col hcm hn k
  obtain ⟨e3, e4⟩ := h.col hcm' hn' k
  obtain ⟨e5, e6⟩ := h.col hcm' hn' (k + 1)
  obtain ⟨l1, l2, l3⟩ := hl b hb k hk
  simp only [Sigma.mk.injEq, heq_eq_eq, true_and] at hf
  have f1 : c.dun = b.2.dun ∧ c.dt = b.2.dt ∧ c.l = b.2.l ∧ c.r = b.2.r ∧ c.tz = b.2.tz ∧ c.eL = b.2.eL ∧ c.eT = b.2.eT := by
    rw [hf]; exact ⟨rfl, rfl, rfl, rfl, rfl, rfl, rfl⟩
  obtain ⟨f1, f2, f3, f4, f5, f6, f7⟩ := f1
  have hist : b.2.tz.q3phi c.phi k = 0 := by
    funext x
    simp [Disp.q3phi, l3, QEntry.val, poleSum]
  unfold CurrentEq at this
  rw [f1, f2, f3, f4, f5, f6, f7, l1, l2, hist, e2, e4, e3, e5, hdt] at this
  simp only [zero_mulVec, add_zero] at this
  unfold MTLD.induced seqV seqI
  linear_combination (norm := module) this

/-- A bundle of the trace is a ladder; its end nodes take the currents of the end cells. -/
theorem Endless.ladder (h : Endless M tr) (h0 : Rest tr) (hl : M.Lumped) {b : AnyBundle p} (hb : b ∈ M.bundles)
    (hm : 0 < b.2.m) (hdt : b.2.dt = M.dt) :
    Ladder b.2.m (fun k => if k = 0 ∨ k = b.2.m then 0 else ((b.2.dun (k - 1) + b.2.dun k) / 2 * (1 / M.dt)) • b.2.c k)
      (fun k => if k = 0 ∨ k = b.2.m then 0 else ((b.2.dun (k - 1) + b.2.dun k) / 4) • b.2.g k)
      (fun k => (b.2.dun k * (1 / M.dt)) • (b.2.l k + b.2.tz.e k)) (fun k => (b.2.dun k / 2) • (b.2.r k + b.2.tz.d k))
      (seqV tr b) (seqI tr b)
      (fun j k => if k = 0 then seqI tr b j 0 else if k = b.2.m then -seqI tr b j (b.2.m - 1)
        else b.2.injected M.dt (M.time + j * M.dt) k) (fun j k => b.2.induced M.dt (M.time + j * M.dt) k) := by
  refine ⟨fun k => funext fun a => h0.nodeV _ _ _, fun k => funext fun a => h0.cellI _ _ _, fun j k hk => ?_, fun j k hk => ?_⟩
  · rcases Nat.eq_zero_or_pos k with rfl | hk0
    · simp [hm]
    · rcases Nat.lt_or_ge k b.2.m with hk | hk'
      · have := h.node_step hb hdt j hk0 hk
        simp only [if_neg hk0.ne', if_neg hk.ne, hk0.ne', hk.ne, or_self, if_false, if_pos hk, if_pos hk0, smul_mulVec]
        linear_combination (norm := module) this
      · obtain rfl : k = b.2.m := by omega
        simp [hk0.ne', hk0]
  · have := h.cell_step hl hb hdt j hk
    simp only [smul_mulVec]
    linear_combination (norm := module) this

end Trace

end Mtln
