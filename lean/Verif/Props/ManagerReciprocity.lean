import Verif.Lemmas.ManagerReciprocity
import Verif.Props.LightCone

/-! # Managers are reciprocal: C156 -/

namespace Mtln

open Matrix PowerSeries

variable {n p N S : ℕ}

theorem sum_list {α : Type} (s : Finset ℕ) (l : List α) (f : ℕ → α → ℝ) :
    ∑ j ∈ s, (l.map (f j)).sum = (l.map fun x => ∑ j ∈ s, f j x).sum := by
  induction l with
  | nil => simp
  | cons x l ih => simp only [List.map_cons, List.sum_cons, Finset.sum_add_distrib, ih]

theorem forall₂_sum_sub {α β : Type} {R : α → β → Prop} {f h : α → ℝ} {g : β → ℝ} {l : List α} {l' : List β}
    (hl : List.Forall₂ R l l') (H : ∀ a ∈ l, ∀ b ∈ l', R a b → f a - g b = h a) :
    (l.map f).sum - (l'.map g).sum = (l.map h).sum := by
  induction hl with
  | nil => simp
  | @cons a b l l' hr _ ih =>
    simp only [List.map_cons, List.sum_cons]
    rw [← ih fun a ha b hb => H a (List.mem_cons_of_mem _ ha) b (List.mem_cons_of_mem _ hb),
      ← H a List.mem_cons_self b List.mem_cons_self hr]
    ring

section Trace

variable {M M' : MTLN p} {tr tr' : ℕ → MTLN p}

theorem coeff_X_gen (x y : ℕ → Col n) (q : ℕ) :
    PowerSeries.coeff q ((X : ℝ⟦X⟧) * (gen x ⬝ᵥ gen y)) = ∑ j ∈ Finset.range q, x j ⬝ᵥ y (q - 1 - j) := by
  cases q with
  | zero => simp
  | succ q => rw [PowerSeries.coeff_succ_X_mul, coeff_gen_dot, Nat.add_sub_cancel]

/-- The reaction as coefficients of power series. -/
theorem reaction_eq (M : MTLN p) (tr : ℕ → MTLN p) (q : ℕ) : M.reaction tr q =
    (M.networks.map fun nwd => (nwd.map fun e => PowerSeries.coeff q
      ((gen fun j a => endV (tr j).bundles (e.2.2.2.nodes a).end') ⬝ᵥ
        gen fun j => e.2.2.2.norton M.dt (M.time + j * M.dt))).sum).sum +
    (M.bundles.map fun b => PowerSeries.coeff q
      (∑ k ∈ Finset.Ico 1 b.2.m, (gen fun j => seqV tr b j k) ⬝ᵥ (gen fun j => b.2.injected M.dt (M.time + j * M.dt) k) -
        X * ∑ k ∈ Finset.range b.2.m, (gen fun j => seqI tr b j k) ⬝ᵥ
          gen fun j => b.2.induced M.dt (M.time + j * M.dt) k)).sum := by
  unfold MTLN.reaction MTLN.shunt MTLN.series
  simp only [Finset.sum_add_distrib, sum_list, map_sub, map_sum, Finset.mul_sum, coeff_X_gen, coeff_gen_dot]
  rw [add_sub_assoc]
  congr 1
  · simp only [dotProduct, mul_comm]
  · rw [← one_mul (List.sum _), ← one_mul (List.sum _)]
    simp only [one_mul]
    have : ∀ (l : List (AnyBundle p)) (f g : AnyBundle p → ℝ), (l.map f).sum - (l.map g).sum = (l.map fun b => f b - g b).sum := by
      intro l f g
      induction l with
      | nil => simp
      | cons b l ih => simp only [List.map_cons, List.sum_cons, ← ih]; ring
    rw [this]
    congr 1
    refine List.map_congr_left fun b _ => ?_
    congr 1
    · rw [Finset.sum_comm]
      simp only [dotProduct, seqV, mul_comm]
    · rw [Finset.sum_comm]
      simp only [dotProduct, seqI, mul_comm]

/-- What passes through an end of a conductor. -/
noncomputable def endFlow (tr tr' : ℕ → MTLN p) (q : ℕ) (x : End) : ℝ := PowerSeries.coeff q
  ((PowerSeries.mk fun j => endV (tr' j).bundles x) * (PowerSeries.mk fun j => endI (tr j).bundles x) -
    (PowerSeries.mk fun j => endV (tr j).bundles x) * (PowerSeries.mk fun j => endI (tr' j).bundles x))

theorem network_flow (h : Endless M tr) (h' : Endless M' tr') (h0 : Rest tr) (h0' : Rest tr') (hr : M.Remade M')
    (hp : M.Passive) (hs : M.Symmetric) {nwd nwd' : NetworkD} (hn : nwd ∈ M.networks) (hn' : nwd' ∈ M'.networks)
    {e e' : ℕ × AnyNetwork} (he : e ∈ nwd) (he' : e' ∈ nwd') (hrl : RemadeLevel e e') (q : ℕ) :
    PowerSeries.coeff q ((gen fun j a => endV (tr' j).bundles (e.2.2.2.nodes a).end') ⬝ᵥ
        gen fun j => e.2.2.2.norton M.dt (M.time + j * M.dt)) -
      PowerSeries.coeff q ((gen fun j a => endV (tr j).bundles (e'.2.2.2.nodes a).end') ⬝ᵥ
        gen fun j => e'.2.2.2.norton M'.dt (M'.time + j * M'.dt)) =
    ∑ a, endFlow tr tr' q (e.2.2.2.nodes a).end' := by
  have hrc := hp.networks nwd hn e he
  have s1 := fun j => h.network_step hn he hrc.O j (.inr h0)
  obtain ⟨v, vP, i, X, vS, eT, rfl⟩ := hrl
  have s2 := fun j => h'.network_step hn' he' hrc.O j (.inr h0')
  rw [hr.dt, hr.time] at s2
  rw [hr.dt, hr.time]
  have key := net_reciprocal (D := (1 / M.dt) • e.2.2.2.dxc) (P := e.2.2.2.P1) (Q := (1 / M.dt) • e.2.2.2.Q1)
    (by rw [transpose_smul, hrc.dxc]) (hs.P1 nwd hn e he) (by rw [transpose_smul, hrc.Q1_symm])
    (V := fun j a => endV (tr j).bundles (e.2.2.2.nodes a).end') (W := fun j a => endV (tr' j).bundles (e.2.2.2.nodes a).end')
    (funext fun a => h0.endV _) (funext fun a => h0'.endV _) s1 s2
  have key := congrArg (PowerSeries.coeff q) key
  rw [map_sub, map_sub] at key
  refine key.symm.trans ?_
  unfold endFlow
  simp only [map_sub, Finset.sum_sub_distrib, dotProduct, map_sum]
  rfl

theorem Endless.endV_seq (h : Endless M tr) {b : AnyBundle p} (hb : b ∈ M.bundles) (side : Side) (a : Fin b.1) (j : ℕ) :
    endV (tr j).bundles ⟨b.2.name, a, side⟩ = seqV tr b j (side.node b.2.m) a ∧
    endI (tr j).bundles ⟨b.2.name, a, side⟩ = side.factor * seqI tr b j (side.cell b.2.m) a := by
  obtain ⟨c, hc, hf, hn⟩ := h.at hb j
  have hm : c.m = b.2.m := by
    obtain ⟨_, _, _, _, _, _, e⟩ := hf
    simp only [Sigma.mk.injEq, heq_eq_eq, true_and] at e
    rw [e]
  have e1 := endV_eq (h.sound j).passive.names hc a side
  have e2 := endI_eq (h.sound j).passive.names hc a side
  simp only [hn, hm] at e1 e2
  rw [e1, e2, (h.col hc hn _).1, (h.col hc hn _).2]
  exact ⟨rfl, rfl⟩

theorem ladder_ends {m : ℕ} (hm : 0 < m) (W : ℕ → Fin n → ℝ⟦X⟧) (I J : ℕ → ℕ → Col n) :
    ∑ k ∈ Finset.range (m + 1), W k ⬝ᵥ (gen fun j => if k = 0 then I j 0 else if k = m then -I j (m - 1) else J j k) =
      W 0 ⬝ᵥ (gen fun j => I j 0) - W m ⬝ᵥ (gen fun j => I j (m - 1)) +
        ∑ k ∈ Finset.Ico 1 m, W k ⬝ᵥ (gen fun j => J j k) := by
  rw [Finset.sum_range_succ, Finset.range_eq_Ico, Finset.sum_eq_sum_Ico_succ_bot hm]
  simp only [if_true, if_neg hm.ne']
  rw [gen_neg, dotProduct_neg, Finset.sum_congr rfl (g := fun k => W k ⬝ᵥ (gen fun j => J j k))]
  · ring
  · intro k hk
    have := Finset.mem_Ico.1 hk
    simp only [if_neg (show k ≠ 0 by omega), if_neg this.2.ne]

theorem flow_sum (h : Endless M tr) (h' : Endless M' tr') {b b' : AnyBundle p} (hb : b ∈ M.bundles) (hb' : b' ∈ M'.bundles)
    (hrl : RemadeBundle b b') (side : Side) (q : ℕ) : ∑ a : Fin b.1, endFlow tr tr' q ⟨b.2.name, a, side⟩ =
      side.factor * PowerSeries.coeff q ((gen fun j => seqV tr' b j (side.node b.2.m)) ⬝ᵥ (gen fun j => seqI tr b j (side.cell b.2.m)) -
        (gen fun j => seqV tr b j (side.node b.2.m)) ⬝ᵥ (gen fun j => seqI tr' b j (side.cell b.2.m))) := by
  have eV := h.endV_seq hb side
  have eW := h'.endV_seq hb' side
  obtain ⟨v, i, phi, eL, eT, rfl⟩ := hrl
  have eW : ∀ (a : Fin b.1) (j : ℕ), endV (tr' j).bundles ⟨b.2.name, a, side⟩ = seqV tr' b j (side.node b.2.m) a ∧
    endI (tr' j).bundles ⟨b.2.name, a, side⟩ = side.factor * seqI tr' b j (side.cell b.2.m) a := eW
  have hc : ∀ (c : ℝ) (x : ℕ → ℝ), (PowerSeries.mk fun j => c * x j) = PowerSeries.C c * PowerSeries.mk x := by
    intro c x
    ext j
    simp
  unfold endFlow
  simp only [eV, eW, hc]
  rw [← PowerSeries.coeff_C_mul, ← map_sum]
  congr 1
  simp only [dotProduct, mul_sub, Finset.mul_sum, Finset.sum_sub_distrib, gen]
  congr 1
  · exact Finset.sum_congr rfl fun a _ => by ring
  · exact Finset.sum_congr rfl fun a _ => by ring

theorem bundle_flow (h : Endless M tr) (h' : Endless M' tr') (h0 : Rest tr) (h0' : Rest tr') (hr : M.Remade M')
    (hp : M.Passive) (hs : M.Symmetric) {b b' : AnyBundle p} (hb : b ∈ M.bundles) (hb' : b' ∈ M'.bundles)
    (hrl : RemadeBundle b b') (q : ℕ) :
    PowerSeries.coeff q (∑ k ∈ Finset.Ico 1 b.2.m, (gen fun j => seqV tr' b j k) ⬝ᵥ
          (gen fun j => b.2.injected M.dt (M.time + j * M.dt) k) -
        X * ∑ k ∈ Finset.range b.2.m, (gen fun j => seqI tr' b j k) ⬝ᵥ gen fun j => b.2.induced M.dt (M.time + j * M.dt) k) -
      PowerSeries.coeff q (∑ k ∈ Finset.Ico 1 b'.2.m, (gen fun j => seqV tr b' j k) ⬝ᵥ
          (gen fun j => b'.2.injected M'.dt (M'.time + j * M'.dt) k) -
        X * ∑ k ∈ Finset.range b'.2.m, (gen fun j => seqI tr b' j k) ⬝ᵥ
          gen fun j => b'.2.induced M'.dt (M'.time + j * M'.dt) k) =
    -(∑ a : Fin b.1, endFlow tr tr' q ⟨b.2.name, a, .S⟩ + ∑ a : Fin b.1, endFlow tr tr' q ⟨b.2.name, a, .L⟩) := by
  obtain ⟨hb1, hb2⟩ := hp.bundles b hb
  have hm : 0 < b.2.m := hb1.cells
  have hl : M.Lumped := fun b hb k hk =>
    ⟨(hp.bundles b hb).1.q1 k hk, (hp.bundles b hb).1.q2 k hk, (hp.bundles b hb).1.q3 k hk⟩
  have hp' := hr.passive hp
  have hl' : M'.Lumped := fun b hb k hk =>
    ⟨(hp'.bundles b hb).1.q1 k hk, (hp'.bundles b hb).1.q2 k hk, (hp'.bundles b hb).1.q3 k hk⟩
  have L1 := h.ladder h0 hl hb hm hb2
  have f1 := flow_sum h h' hb hb' hrl .S q
  have f2 := flow_sum h h' hb hb' hrl .L q
  obtain ⟨v, i, phi, eL, eT, hbb⟩ := hrl
  have hm' : 0 < b'.2.m := (hp'.bundles b' hb').1.cells
  have L2 := h'.ladder h0' hl' hb' hm' (hp'.bundles b' hb').2
  subst hbb
  rw [hr.dt, hr.time] at L2 ⊢
  have key := L1.reciprocal L2 (by
      intro k hk
      split_ifs
      · exact transpose_zero
      · rw [transpose_smul]; exact congrArg _ (hb1.c k hk)) (by
      intro k hk
      split_ifs
      · exact transpose_zero
      · rw [transpose_smul, hs.g b hb k hk]) (by
      intro k hk
      rw [transpose_smul]; exact congrArg _ (hb1.l k hk)) (by
      intro k hk
      rw [transpose_smul, hs.r b hb k hk])
  have key := congrArg (PowerSeries.coeff q) key
  rw [ladder_ends hm, ladder_ends hm] at key
  simp only [Side.node, Side.cell, Side.factor] at f1 f2
  rw [f1, f2]
  simp only [map_add, map_sub] at key ⊢
  have this : ∀ x1 x2 x3 x4 y1 y2 y3 y4 : ℝ, x1 - x2 + x3 + x4 = y1 - y2 + y3 + y4 → x3 - y4 - (y3 - x4) =
    -(1 * (x1 - y1) + -1 * (x2 - y2)) := by intros; linarith
  exact this _ _ _ _ _ _ _ _ key

theorem Endless.nodeEnds (h : Endless M tr) (j : ℕ) :
    (allNodes (tr j).networks).map Node.end' = (allNodes M.networks).map Node.end' := by
  refine (flatMap_map₂ (fun a b r => flatMap_map₂ (R := FreeLevel) (fun e e' q => ?_) r) (h.networks j)).symm
  obtain ⟨_, _, _, _, _, rfl⟩ := q
  rfl

/-- Reciprocity of two traces. -/
theorem trace_reciprocal (h : Endless M tr) (h' : Endless M' tr') (h0 : Rest tr) (h0' : Rest tr') (hr : M.Remade M')
    (hp : M.Passive) (hs : M.Symmetric) (hn : ∀ x ∈ (allNodes M.networks).map Node.end', x ∈ allEnds M.bundles) (q : ℕ) :
    M.reaction tr' q = M'.reaction tr q := by
  have e1 : (M.networks.map fun nwd => (nwd.map fun e => PowerSeries.coeff q
      ((gen fun j a => endV (tr' j).bundles (e.2.2.2.nodes a).end') ⬝ᵥ
        gen fun j => e.2.2.2.norton M.dt (M.time + j * M.dt))).sum).sum -
    (M'.networks.map fun nwd => (nwd.map fun e => PowerSeries.coeff q
      ((gen fun j a => endV (tr j).bundles (e.2.2.2.nodes a).end') ⬝ᵥ
        gen fun j => e.2.2.2.norton M'.dt (M'.time + j * M'.dt))).sum).sum =
    (M.networks.map fun nwd => (nwd.map fun e => ∑ a, endFlow tr tr' q (e.2.2.2.nodes a).end').sum).sum :=
    forall₂_sum_sub hr.networks fun nwd hn nwd' hn' hrn => forall₂_sum_sub hrn fun e he e' he' hre =>
      network_flow h h' h0 h0' hr hp hs hn hn' he he' hre q
  have e2 := forall₂_sum_sub hr.bundles fun b hb b' hb' hrb => bundle_flow h h' h0 h0' hr hp hs hb hb' hrb q
  have e3 := sum_ends hp.names hp.ends hn (f := endFlow tr tr' q) (by
    intro x _ hx
    have hfree : ∀ {M : MTLN p} {tr : ℕ → MTLN p} (_ : Endless M tr) (_ : x ∉ (allNodes M.networks).map Node.end') (j : ℕ),
        endV (tr j).bundles x = 0 := by
      intro M tr h hx j
      exact (h.sound j).linked.free x fun hmem => hx (by rwa [h.nodeEnds] at hmem)
    have z : (PowerSeries.mk fun _ => (0 : ℝ)) = 0 := by ext; simp
    unfold endFlow
    simp only [hfree h hx, hfree h' (by rw [hr.ends]; exact hx), z, zero_mul, sub_zero, map_zero])
  rw [sum_allEnds, sum_allNodes] at e3
  have e4 : (M.bundles.map fun b => -(∑ a : Fin b.1, endFlow tr tr' q ⟨b.2.name, a, .S⟩ +
      ∑ a : Fin b.1, endFlow tr tr' q ⟨b.2.name, a, .L⟩)).sum =
      -(M.bundles.map fun b => ∑ a : Fin b.1, endFlow tr tr' q ⟨b.2.name, a, .S⟩ +
      ∑ a : Fin b.1, endFlow tr tr' q ⟨b.2.name, a, .L⟩).sum := by
    rw [← neg_one_mul, ← List.sum_map_mul_left]
    simp only [neg_one_mul]
  rw [e4] at e2
  rw [reaction_eq, reaction_eq]
  linarith

end Trace

/-! ## Runs -/

/-- Managers at rest know the voltages and currents of their ends. -/
theorem MTLN.AtRest.linked {M : MTLN p} (h : M.AtRest) : M.Linked := by
  have hV : ∀ x, endV M.bundles x = 0 := by
    intro x
    unfold endV
    cases hf : findBundle M.bundles x.bundle with
    | none => rfl
    | some b =>
      simp only
      split_ifs
      · exact (h.bundles b (findBundle_some hf).1).1 _ _
      · rfl
  have hI : ∀ x, endI M.bundles x = 0 := by
    intro x
    unfold endI
    cases hf : findBundle M.bundles x.bundle with
    | none => rfl
    | some b =>
      simp only
      split_ifs
      · rw [(h.bundles b (findBundle_some hf).1).2.1, mul_zero]
      · rfl
  refine ⟨fun nwd hn e he a => ?_, fun nwd hn e he a => ?_, fun x _ => hV x⟩
  · rw [hV]; exact (h.networks nwd hn e he).1 a
  · rw [hI]; exact (h.networks nwd hn e he).2.2.1 a

theorem MTLN.AtRest.override {M : MTLN p} (h : M.AtRest) (dt : ℝ) : (M.overrideDt dt).AtRest := by
  unfold MTLN.overrideDt
  split_ifs
  · refine ⟨fun b hb => ?_, h.networks⟩
    obtain ⟨b0, hb0, rfl⟩ := List.mem_map.1 hb
    exact h.bundles b0 hb0
  · exact h

/-- Preparing a run keeps the state. -/
theorem MTLN.AtRest.start {M M0 : MTLN p} (h : M.AtRest) {T dt : ℝ} {k : ℕ} (h0 : M.start T dt = .ok (k, M0)) :
    (∀ b ∈ M0.bundles, (∀ k x, b.2.v k x = 0) ∧ ∀ k x, b.2.i k x = 0) ∧
    ∀ nwd ∈ M0.networks, ∀ e ∈ nwd, ∀ x, e.2.2.2.vPrev x = 0 := by
  have hr := h.override dt
  have hnet0 : M.networks = (M.overrideDt dt).networks := by unfold MTLN.overrideDt; split <;> rfl
  obtain ⟨nws, bs, h1, -, -, h4, rfl⟩ := MTLN.start_ok_iff.1 h0
  constructor
  · intro b hb
    obtain ⟨b0, hb0, hs⟩ := mapPy_mem h4 b hb
    obtain ⟨c, hc, rfl⟩ := onBundle_ok_iff.1 hs
    obtain ⟨_, _, -, -, rfl⟩ := MTLD.start_ok_iff.1 hc
    exact ⟨(hr.bundles b0 hb0).1, (hr.bundles b0 hb0).2.1⟩
  · intro nwd hn e he
    rw [hnet0] at h1
    obtain ⟨nwd0, hn0, hf⟩ := mapPy_mem h1 nwd hn
    obtain ⟨e0, he0, hg⟩ := mapPy_mem hf e he
    simp only [bind_ok_iff, onAny_ok_iff, Except.ok.injEq] at hg
    obtain ⟨_, ⟨c, hc, rfl⟩, rfl⟩ := hg
    obtain ⟨-, -, rfl⟩ := computeVTerms_ok_iff.1 hc
    exact (hr.networks nwd0 hn0 e0 he0).2.1

/-- The trace of a startable manager, and where its runs are on it. -/
theorem MTLN.Startable.traced {M : MTLN p} {dt : ℝ} (h : M.Startable dt) (hdt : 0 < M.runDt dt)
    (hp : (M.overrideDt dt).Passive) (hl : (M.overrideDt dt).Linked) :
    ∃ tr, Endless (M.overrideDt dt) tr ∧ (∃ k, M.start 0 dt = .ok (k, tr 0)) ∧
      ∀ T M', M.runUntil T dt = .ok M' → (tr ⌊T / M.runDt dt⌋.toNat).Twin M' := by
  obtain ⟨tr, htr, ⟨k, h0⟩, -⟩ := h.endless hdt hp hl
  refine ⟨tr, htr, ⟨k, h0⟩, fun T M' hT => ?_⟩
  obtain ⟨M0, e1, e2⟩ := runUntil_iter.1 hT
  obtain ⟨M0', e3, e4⟩ := MTLN.start_twin h0 T
  rw [e1] at e3
  simp only [Except.ok.injEq, Prod.mk.injEq, true_and] at e3
  subst e3
  have hit : ∀ j i, iterPy MTLN.step j (tr i) = .ok (tr (i + j)) := by
    intro j
    induction j with
    | zero => intro i; rfl
    | succ j ih =>
      intro i
      simp only [iterPy, bind_ok_iff]
      refine ⟨_, htr.step i, ?_⟩
      rw [ih, Nat.add_assoc, Nat.add_comm 1 j]
  obtain ⟨M'', f1, f2⟩ := e4.iter (hit ⌊T / M.runDt dt⌋.toNat 0)
  rw [e2, Except.ok.injEq] at f1
  subst f1
  simpa using f2

/-- The same for a manager at rest. -/
theorem MTLN.Startable.trace {M : MTLN p} {dt : ℝ} (h : M.Startable dt) (hdt : 0 < M.runDt dt)
    (hp : (M.overrideDt dt).Passive) (hr : M.AtRest) :
    ∃ tr, Endless (M.overrideDt dt) tr ∧ Rest tr ∧
      ∀ T M', M.runUntil T dt = .ok M' → (tr ⌊T / M.runDt dt⌋.toNat).Twin M' := by
  obtain ⟨tr, htr, ⟨k, h0⟩, hrun⟩ := h.traced hdt hp (hr.override dt).linked
  obtain ⟨r1, r2⟩ := hr.start h0
  exact ⟨tr, htr, ⟨r1, r2⟩, hrun⟩

theorem MTLN.Twin.endV {M M' : MTLN p} (h : M.Twin M') (x : End) : Mtln.endV M'.bundles x = Mtln.endV M.bundles x := by
  unfold Mtln.endV
  rcases find_twin h.bundles x.bundle with ⟨e1, e2⟩ | ⟨b, _, e1, e2, probes, -, rfl⟩ <;> rw [e1, e2]

theorem MTLN.Twin.nodeV {M M' : MTLN p} (h : M.Twin M') (name : String) (k a : ℕ) :
    Mtln.nodeV M'.bundles name k a = Mtln.nodeV M.bundles name k a := by
  unfold Mtln.nodeV
  rcases find_twin h.bundles name with ⟨e1, e2⟩ | ⟨b, _, e1, e2, probes, -, rfl⟩ <;> rw [e1, e2]

theorem MTLN.Twin.cellI {M M' : MTLN p} (h : M.Twin M') (name : String) (k a : ℕ) :
    Mtln.cellI M'.bundles name k a = Mtln.cellI M.bundles name k a := by
  unfold Mtln.cellI
  rcases find_twin h.bundles name with ⟨e1, e2⟩ | ⟨b, _, e1, e2, probes, -, rfl⟩ <;> rw [e1, e2]

theorem reaction_congr (M : MTLN p) {A B : ℕ → MTLN p} (h : ∀ j, (A j).Twin (B j)) (q : ℕ) :
    M.reaction B q = M.reaction A q := by
  unfold MTLN.reaction MTLN.shunt MTLN.series
  simp only [(h _).endV, (h _).nodeV, (h _).cellI]

/-- Nodes of startable managers are attached to ends. -/
theorem MTLN.Startable.ends {M : MTLN p} {dt : ℝ} (h : M.Startable dt) :
    ∀ x ∈ (allNodes M.networks).map Node.end', x ∈ allEnds M.bundles := by
  intro x hx
  obtain ⟨d, hd, rfl⟩ := List.mem_map.1 hx
  obtain ⟨b, hb, hrow, -⟩ := h.nodes d hd
  exact mem_allEnds.2 ⟨b, (findBundle_some hb).1, (findBundle_some hb).2, hrow⟩

/-- Two managers that differ in their sources, and their traces. -/
theorem two_traces {M₁ M₂ : MTLN p} {dt : ℝ} (hdt : 0 < M₁.runDt dt) (hr : (M₁.overrideDt dt).Remade (M₂.overrideDt dt))
    (hp : (M₁.overrideDt dt).Passive) (hs : (M₁.overrideDt dt).Symmetric) (h₁ : M₁.AtRest) (h₂ : M₂.AtRest)
    (hst : M₁.Startable dt) : ∃ tr₁ tr₂, Endless (M₁.overrideDt dt) tr₁ ∧ Endless (M₂.overrideDt dt) tr₂ ∧
      (∀ q, (M₁.overrideDt dt).reaction tr₂ q = (M₂.overrideDt dt).reaction tr₁ q) ∧
      ∀ T M', (M₁.runUntil T dt = .ok M' → (tr₁ ⌊T / M₁.runDt dt⌋.toNat).Twin M') ∧
        (M₂.runUntil T dt = .ok M' → (tr₂ ⌊T / M₁.runDt dt⌋.toNat).Twin M') := by
  have ho₁ := M₁.override_twice dt
  have ho₂ := M₂.override_twice dt
  have hst₁ : (M₁.overrideDt dt).Startable dt := hst.override
  have hst₂ := hr.startable ho₁ hst₁
  have d₁ : (M₁.overrideDt dt).runDt dt = M₁.runDt dt := by unfold MTLN.runDt; rw [ho₁]
  have d₂ : (M₂.overrideDt dt).runDt dt = M₁.runDt dt := by unfold MTLN.runDt; rw [ho₂, hr.dt]
  obtain ⟨tr₁, t1, r1, w1⟩ := hst₁.trace (by rw [d₁]; exact hdt) (by rw [ho₁]; exact hp) (h₁.override dt)
  obtain ⟨tr₂, t2, r2, w2⟩ := hst₂.trace (by rw [d₂]; exact hdt) (by rw [ho₂]; exact hr.passive hp) (h₂.override dt)
  rw [ho₁] at t1
  rw [ho₂] at t2
  rw [d₁] at w1
  rw [d₂] at w2
  refine ⟨tr₁, tr₂, t1, t2, trace_reciprocal t1 t2 r1 r2 hr hp hs hst₁.ends, fun T M' => ⟨fun hT => ?_, fun hT => ?_⟩⟩
  · exact w1 T M' (by rw [M₁.run_override]; exact hT)
  · exact w2 T M' (by rw [M₂.run_override]; exact hT)

/-- **C156** Managers are reciprocal: of two managers that differ in sources and fields only, started at rest, the sources of
the first react with the states of the second as the sources of the second with the states of the first. -/
theorem C156_reciprocity (M₁ M₂ : MTLN p) (dt : ℝ) (hdt : 0 < M₁.runDt dt)
    (hr : (M₁.overrideDt dt).Remade (M₂.overrideDt dt)) (hp : (M₁.overrideDt dt).Passive)
    (hs : (M₁.overrideDt dt).Symmetric) (h₁ : M₁.AtRest) (h₂ : M₂.AtRest) (hst : M₁.Startable dt) (A B : ℕ → MTLN p)
    (hA : ∀ j : ℕ, M₁.runUntil (j * M₁.runDt dt) dt = .ok (A j))
    (hB : ∀ j : ℕ, M₂.runUntil (j * M₁.runDt dt) dt = .ok (B j)) (q : ℕ) :
    (M₁.overrideDt dt).reaction B q = (M₂.overrideDt dt).reaction A q := by
  obtain ⟨tr₁, tr₂, -, -, h, w⟩ := two_traces hdt hr hp hs h₁ h₂ hst
  have hfl : ∀ j : ℕ, ⌊((j : ℝ) * M₁.runDt dt) / M₁.runDt dt⌋.toNat = j := by
    intro j
    rw [mul_div_cancel_right₀ _ hdt.ne']
    simp
  rw [reaction_congr (A := tr₁) (B := A) _ fun j => ?_, reaction_congr (A := tr₂) (B := B) _ fun j => ?_]
  · exact h q
  · have := (w _ _).2 (hB j)
    rwa [hfl] at this
  · have := (w _ _).1 (hA j)
    rwa [hfl] at this

/-! ## Single sources -/

/-- The samples of a waveform in the steps, as a power series. -/
noncomputable def stepSamples (w : ℝ → ℝ) (time dt : ℝ) : ℝ⟦X⟧ :=
  PowerSeries.mk fun j => (w (time + j * dt) + w (time + j * dt - dt)) / 2

/-- The reaction of a single source. -/
theorem MTLN.OneSource.reaction {M : MTLN p} {x : End} {g : ℝ} {w : ℝ → ℝ} (h : M.OneSource x g w)
    (hn : ((allNodes M.networks).map Node.end').Nodup) (A : ℕ → MTLN p) (q : ℕ) : M.reaction A q =
      PowerSeries.coeff q (PowerSeries.C g * stepSamples w M.time M.dt * PowerSeries.mk fun j => endV (A j).bundles x) := by
  have hshunt : ∀ bs t, M.shunt bs t = g * ((w t + w (t - M.dt)) / 2) * endV bs x := by
    intro bs t
    unfold MTLN.shunt
    have e1 : (M.bundles.map fun b => ∑ k ∈ Finset.Ico 1 b.2.m, ∑ a : Fin b.1,
        b.2.injected M.dt t k a * nodeV bs b.2.name k a).sum = 0 := by
      refine List.sum_eq_zero fun y hy => ?_
      obtain ⟨b, hb, rfl⟩ := List.mem_map.1 hy
      refine Finset.sum_eq_zero fun k _ => Finset.sum_eq_zero fun a _ => ?_
      have : b.2.injected M.dt t k = 0 := by
        unfold MTLD.injected
        rw [show (fun a => b.2.eT k a t - b.2.eT k a (t - M.dt)) = 0 from funext fun a => by
          rw [(h.fields b hb t).2, (h.fields b hb _).2, sub_zero]; rfl]
        simp
      rw [this, Pi.zero_apply, zero_mul]
    have e2 : (M.networks.map fun nwd => (nwd.map fun e =>
        ∑ a, e.2.2.2.norton M.dt t a * endV bs (e.2.2.2.nodes a).end').sum).sum =
        (M.networks.map fun nwd => (nwd.map fun e => ∑ a, (fun y => if y = x then g * ((w t + w (t - M.dt)) / 2) * endV bs x else 0)
          (e.2.2.2.nodes a).end').sum).sum := by
      congr 1
      refine List.map_congr_left fun nwd hnwd => ?_
      congr 1
      refine List.map_congr_left fun e he => ?_
      refine Finset.sum_congr rfl fun a _ => ?_
      have hs := h.source nwd hnwd e he
      have hnort : e.2.2.2.norton M.dt t a = if (e.2.2.2.nodes a).end' = x then g * ((w t + w (t - M.dt)) / 2) else 0 := by
        unfold Network.norton
        rw [mulVec_add, mulVec_sub, (hs t).1, (hs t).2, (hs _).1, (hs _).2]
        rw [show (fun a => (e.2.2.2.nodes a).eT t) = 0 from funext fun a => h.ends nwd hnwd e he a t,
          show (fun a => (e.2.2.2.nodes a).eT (t - M.dt)) = 0 from funext fun a => h.ends nwd hnwd e he a _]
        simp only [sub_self, mulVec_zero, smul_zero, add_zero, sub_zero, Pi.smul_apply, Pi.add_apply, smul_eq_mul]
        split_ifs
        · ring
        · ring
      rw [hnort]
      simp only
      split_ifs with hx
      · rw [hx]
      · rw [zero_mul]
    rw [e1, add_zero, e2]
    refine (sum_allNodes M.networks fun y => if y = x then g * ((w t + w (t - M.dt)) / 2) * endV bs x else 0).symm.trans ?_
    rw [← List.sum_toFinset _ hn]
    rw [Finset.sum_ite_eq' _ x, if_pos (List.mem_toFinset.2 h.node)]
  have hseries : ∀ bs t, M.series bs t = 0 := by
    intro bs t
    unfold MTLN.series
    refine List.sum_eq_zero fun y hy => ?_
    obtain ⟨b, hb, rfl⟩ := List.mem_map.1 hy
    refine Finset.sum_eq_zero fun k _ => Finset.sum_eq_zero fun a _ => ?_
    simp [MTLD.induced, (h.fields b hb _).1, (h.fields b hb _).2]
  unfold MTLN.reaction stepSamples
  simp only [hshunt, hseries, Finset.sum_const_zero, sub_zero]
  rw [mul_assoc, PowerSeries.coeff_C_mul, mul_comm (PowerSeries.mk _), PowerSeries.coeff_mul,
    Finset.Nat.sum_antidiagonal_eq_sum_range_succ (fun i j => PowerSeries.coeff i (PowerSeries.mk fun j => endV (A j).bundles x) *
      PowerSeries.coeff j (PowerSeries.mk fun j : ℕ => (w (M.time + j * M.dt) + w (M.time + j * M.dt - M.dt)) / 2)), Finset.mul_sum]
  refine Finset.sum_congr rfl fun j _ => ?_
  simp only [PowerSeries.coeff_mk]
  ring

theorem samples_ne {w : ℝ → ℝ} {time dt : ℝ} (h : ∃ j : ℕ, w (time + j * dt) + w (time + j * dt - dt) ≠ 0) :
    stepSamples w time dt ≠ 0 := by
  obtain ⟨j, hj⟩ := h
  intro h0
  have := congrArg (PowerSeries.coeff j) h0
  simp only [stepSamples, PowerSeries.coeff_mk, map_zero] at this
  exact hj (by linarith)

/-- **C156** A source at one end causes the same voltage at another end as the same source there causes here (each times the
conductance the source there is in series with).  The ends may belong to different bundles. -/
theorem C156_ports (M₁ M₂ M₁' M₂' : MTLN p) (T dt : ℝ) (x y : End) (g₁ g₂ : ℝ) (w : ℝ → ℝ) (hdt : 0 < M₁.runDt dt)
    (hr : (M₁.overrideDt dt).Remade (M₂.overrideDt dt)) (hp : (M₁.overrideDt dt).Passive)
    (hs : (M₁.overrideDt dt).Symmetric) (h₁ : M₁.AtRest) (h₂ : M₂.AtRest) (hst : M₁.Startable dt)
    (hx : (M₁.overrideDt dt).OneSource x g₁ w) (hy : (M₂.overrideDt dt).OneSource y g₂ w)
    (hw : ∃ j : ℕ, w (M₁.time + j * M₁.runDt dt) + w (M₁.time + j * M₁.runDt dt - M₁.runDt dt) ≠ 0)
    (hA : M₁.runUntil T dt = .ok M₁') (hB : M₂.runUntil T dt = .ok M₂') :
    g₂ * endV M₁'.bundles y = g₁ * endV M₂'.bundles x := by
  obtain ⟨tr₁, tr₂, -, -, h, hrun⟩ := two_traces hdt hr hp hs h₁ h₂ hst
  have htime : (M₁.overrideDt dt).time = M₁.time := by unfold MTLN.overrideDt; split <;> rfl
  have hd : (M₁.overrideDt dt).dt = M₁.runDt dt := rfl
  have hn := hp.ends
  have hn₂ := hp.ends
  rw [← hr.ends] at hn₂
  have key : PowerSeries.C g₁ * stepSamples w M₁.time (M₁.runDt dt) * (PowerSeries.mk fun j => endV (tr₂ j).bundles x) =
      PowerSeries.C g₂ * stepSamples w M₁.time (M₁.runDt dt) * PowerSeries.mk fun j => endV (tr₁ j).bundles y := by
    ext q
    have := h q
    rw [hx.reaction hn, hy.reaction hn₂, hr.dt, hr.time, htime, hd] at this
    exact this
  rw [mul_comm (PowerSeries.C g₁), mul_comm (PowerSeries.C g₂), mul_assoc, mul_assoc] at key
  have key := mul_left_cancel₀ (samples_ne hw) key
  have := congrArg (PowerSeries.coeff ⌊T / M₁.runDt dt⌋.toNat) key
  simp only [PowerSeries.coeff_C_mul, PowerSeries.coeff_mk] at this
  rw [((hrun T M₁').1 hA).endV, ((hrun T M₂').2 hB).endV]
  exact this.symm

/-! ## A line with a source at each end -/

/-- The demo line with 1 Ω and a source at each end. -/
noncomputable def demoBoth (f g : ℝ → ℝ) : MTLN 0 :=
  { demoManager with
    networks := [[(0, ⟨1, 0, { demoTerm with vSources := fun _ => f }⟩)], [(0, ⟨1, 0, { demoTermL with vSources := fun _ => g }⟩)]] }

theorem demoBoth_override (f g : ℝ → ℝ) : (demoBoth f g).overrideDt (1 / 2) =
    { bundles := [⟨1, { demoOne with dt := 1 / 2 }⟩], dt := 1 / 2, networks :=
      [[(0, ⟨1, 0, { demoTerm with vSources := fun _ => f }⟩)], [(0, ⟨1, 0, { demoTermL with vSources := fun _ => g }⟩)]] } := by
  unfold MTLN.overrideDt
  rw [if_pos (by norm_num)]
  rfl

theorem demoBoth_runDt (f g : ℝ → ℝ) : (demoBoth f g).runDt (1 / 2) = 1 / 2 := by
  rw [MTLN.runDt_eq, if_pos (by norm_num)]

theorem demoBoth_level {f g : ℝ → ℝ} {P : NetworkD → ℕ × AnyNetwork → Prop}
    (h1 : ∀ nwd, P nwd (0, ⟨1, 0, { demoTerm with vSources := fun _ => f }⟩))
    (h2 : ∀ nwd, P nwd (0, ⟨1, 0, { demoTermL with vSources := fun _ => g }⟩)) :
    ∀ nwd ∈ (demoBoth f g).networks, ∀ e ∈ nwd, P nwd e := by
  intro nwd hn e he
  have : nwd = [(0, ⟨1, 0, { demoTerm with vSources := fun _ => f }⟩)] ∨
      nwd = [(0, ⟨1, 0, { demoTermL with vSources := fun _ => g }⟩)] := by simpa [demoBoth] using hn
  rcases this with rfl | rfl <;> obtain rfl := List.mem_singleton.1 he
  · exact h1 _
  · exact h2 _

theorem demoBoth_nodes (f g : ℝ → ℝ) : (allNodes (demoBoth f g).networks).map Node.end' =
    [⟨"demo", 0, .S⟩, ⟨"demo", 0, .L⟩] := by
  simp [allNodes, demoBoth, demoTerm, demoTermL, demoNet, NetBuild.finish, demoNode, Node.end']

theorem demoBoth_remade (f g f' g' : ℝ → ℝ) :
    ((demoBoth f g).overrideDt (1 / 2)).Remade ((demoBoth f' g').overrideDt (1 / 2)) := by
  rw [demoBoth_override, demoBoth_override]
  refine ⟨rfl, rfl, .cons ⟨_, _, _, _, _, rfl⟩ .nil, .cons (.cons ⟨_, _, _, _, _, _, rfl⟩ .nil)
    (.cons (.cons ⟨_, _, _, _, _, _, rfl⟩ .nil) .nil)⟩

theorem demoBoth_passive (f g : ℝ → ℝ) : ((demoBoth f g).overrideDt (1 / 2)).Passive := by
  obtain ⟨-, hp, -⟩ := demoCharged_hyps (dt := 1 / 2) (by norm_num) (by norm_num)
  have hn := demoBoth_nodes f g
  have hc : demoCharged.overrideDt (1 / 2) = { bundles := [⟨1, { demoOne with v := fun k _ => if k = 2 then 0 else 1, dt := 1 / 2 }⟩], networks := [[(0, ⟨1, 0, { demoTerm with vSources := fun _ _ => 0, v := fun _ => 1 }⟩)]], dt := 1 / 2 } := by
    unfold MTLN.overrideDt
    rw [if_pos (by norm_num)]
    rfl
  rw [hc] at hp
  rw [demoBoth_override]
  refine ⟨by simp, ?_, ?_, ?_⟩
  · intro b hb
    obtain rfl := List.mem_singleton.1 hb
    obtain ⟨hp, -⟩ := hp.bundles _ List.mem_cons_self
    exact ⟨⟨hp.1, hp.2, hp.3, hp.4, hp.5, hp.6, hp.7, hp.8, hp.9, hp.10, hp.11, hp.12⟩, rfl⟩
  · have hr := hp.networks _ List.mem_cons_self _ List.mem_cons_self
    exact demoBoth_level (f := f) (g := g) (P := fun _ e => e.2.2.2.RC) (fun _ => ⟨hr.1, hr.2, hr.3, hr.4, hr.5⟩)
      fun _ => ⟨hr.1, hr.2, hr.3, by ext a b; rw [Subsingleton.elim a b]; rfl, hr.5⟩
  · show ((allNodes (demoBoth f g).networks).map Node.end').Nodup
    rw [hn]
    simp

theorem demoBoth_symmetric (f g : ℝ → ℝ) : ((demoBoth f g).overrideDt (1 / 2)).Symmetric := by
  rw [demoBoth_override]
  have h1 : ∀ A : Mat 1, Aᵀ = A := fun A => by ext a b; rw [Subsingleton.elim a b]; rfl
  exact ⟨fun b hb => by obtain rfl := List.mem_singleton.1 hb; exact fun _ _ => h1 _,
    fun b hb => by obtain rfl := List.mem_singleton.1 hb; exact fun _ _ => h1 _,
    demoBoth_level (f := f) (g := g) (P := fun _ e => (e.2.2.2.P1)ᵀ = e.2.2.2.P1) (fun _ => h1 _) fun _ => h1 _⟩

theorem demoBoth_rest (f g : ℝ → ℝ) : (demoBoth f g).AtRest := by
  refine ⟨fun b hb => ?_, demoBoth_level (P := fun _ e => (∀ x, e.2.2.2.v x = 0) ∧ (∀ x, e.2.2.2.vPrev x = 0) ∧
    (∀ x, e.2.2.2.i x = 0) ∧ ∀ x, e.2.2.2.X x = 0) (fun _ => ⟨fun _ => rfl, fun _ => rfl, fun _ => rfl, fun x => x.elim0⟩)
    fun _ => ⟨fun _ => rfl, fun _ => rfl, fun _ => rfl, fun x => x.elim0⟩⟩
  obtain rfl := List.mem_singleton.1 hb
  exact ⟨fun _ _ => rfl, fun _ _ => rfl, fun _ _ _ => rfl⟩

theorem demoBoth_startable (f g : ℝ → ℝ) : (demoBoth f g).Startable (1 / 2) := by
  have hr := demoBoth_runDt f g
  refine ⟨by rw [hr]; norm_num, ?_, ?_, ?_⟩
  · rw [demoBoth_override]
    intro b hb
    obtain rfl := List.mem_singleton.1 hb
    obtain ⟨a1, a2⟩ := demo_single_terms (demoBare 0) (d := 1) (dt := 1 / 2) one_ne_zero (by norm_num) rfl
      (fun k hk => if_pos hk) rfl rfl rfl rfl rfl rfl
    refine ⟨a1, a2, ?_⟩
    intro q hq
    have : q ∈ demoOne.probes := hq
    simp only [demoOne, List.mem_singleton] at this
    subst this
    exact Or.inl rfl
  · rw [hr]
    refine demoBoth_level (P := fun _ e => e.2.2.2.cSize = e.2.1 ∧ (e.2.2.2.system (1 / 2)).det ≠ 0) (fun _ => ⟨rfl, ?_⟩)
      fun _ => ⟨rfl, ?_⟩
    · simp only [fed_system]; exact demoTerm_det (by norm_num)
    · simp only [fed_system]; exact demoTermL_det (by norm_num)
  · intro d hd
    have hd' : d = demoNode [] ∨ d = { demoNode [] with side := .L } := by
      simpa [allNodes, demoBoth, demoTerm, demoTermL, demoNet, NetBuild.finish, demoNode] using hd
    rcases hd' with rfl | rfl <;>
      exact ⟨⟨1, demoOne⟩, by simp [findBundle, demoBoth, demoManager, demoOne, MTLD.single, demoNode], by simp [demoNode], by
        show (2 : ℕ) ≠ 0; norm_num⟩

theorem demoBoth_left (w : ℝ → ℝ) : ((demoBoth w fun _ => 0).overrideDt (1 / 2)).OneSource ⟨"demo", 0, .S⟩ 1 w := by
  have hn := demoBoth_nodes w fun _ => 0
  rw [demoBoth_override]
  refine ⟨by change _ ∈ (allNodes (demoBoth w fun _ => 0).networks).map Node.end'; rw [hn]; simp, ?_, ?_, ?_⟩
  · refine demoBoth_level (f := w) (g := fun _ => 0) (P := fun _ e => ∀ t, e.2.2.2.Ps *ᵥ (fun a => e.2.2.2.vSources a t) =
      (fun a => if (e.2.2.2.nodes a).end' = ⟨"demo", 0, .S⟩ then 1 * w t else 0) ∧ e.2.2.2.Qs *ᵥ (fun a => e.2.2.2.vSources a t) = 0)
      (fun _ t => ⟨?_, ?_⟩) fun _ t => ⟨?_, ?_⟩
    · funext a
      fin_cases a
      simp [demoTerm, demoNet, NetBuild.finish, demoNode, Node.end', putEntry, mulVec, dotProduct]
    · exact zero_mulVec _
    · funext a
      fin_cases a
      simp [demoTermL, demoTerm, demoNet, NetBuild.finish, demoNode, Node.end', putEntry, mulVec, dotProduct]
    · exact zero_mulVec _
  · intro b hb t
    obtain rfl := List.mem_singleton.1 hb
    exact ⟨fun _ _ => rfl, fun _ _ => rfl⟩
  · exact demoBoth_level (f := w) (g := fun _ => 0) (P := fun _ e => ∀ a t, (e.2.2.2.nodes a).eT t = 0)
      (fun _ a t => demoTerm_eT a t) fun _ a t => rfl

theorem demoBoth_right (w : ℝ → ℝ) : ((demoBoth (fun _ => 0) w).overrideDt (1 / 2)).OneSource ⟨"demo", 0, .L⟩ 1 w := by
  have hn := demoBoth_nodes (fun _ => 0) w
  rw [demoBoth_override]
  refine ⟨by change _ ∈ (allNodes (demoBoth (fun _ => 0) w).networks).map Node.end'; rw [hn]; simp, ?_, ?_, ?_⟩
  · refine demoBoth_level (f := fun _ => 0) (g := w) (P := fun _ e => ∀ t, e.2.2.2.Ps *ᵥ (fun a => e.2.2.2.vSources a t) =
      (fun a => if (e.2.2.2.nodes a).end' = ⟨"demo", 0, .L⟩ then 1 * w t else 0) ∧ e.2.2.2.Qs *ᵥ (fun a => e.2.2.2.vSources a t) = 0)
      (fun _ t => ⟨?_, ?_⟩) fun _ t => ⟨?_, ?_⟩
    · funext a
      fin_cases a
      simp [demoTerm, demoNet, NetBuild.finish, demoNode, Node.end', putEntry, mulVec, dotProduct]
    · exact zero_mulVec _
    · funext a
      fin_cases a
      simp [demoTermL, demoTerm, demoNet, NetBuild.finish, demoNode, Node.end', putEntry, mulVec, dotProduct]
    · exact zero_mulVec _
  · intro b hb t
    obtain rfl := List.mem_singleton.1 hb
    exact ⟨fun _ _ => rfl, fun _ _ => rfl⟩
  · exact demoBoth_level (f := fun _ => 0) (g := w) (P := fun _ e => ∀ a t, (e.2.2.2.nodes a).eT t = 0)
      (fun _ a t => demoTerm_eT a t) fun _ a t => rfl

/-- Non-vacuity of C156: a constant source at the left end and its voltage at the right end, and the other way round. -/
example (T : ℝ) : ∃ A B, (demoBoth (fun _ => 1) fun _ => 0).runUntil T (1 / 2) = .ok A ∧
    (demoBoth (fun _ => 0) fun _ => 1).runUntil T (1 / 2) = .ok B ∧
    endV A.bundles ⟨"demo", 0, .L⟩ = endV B.bundles ⟨"demo", 0, .S⟩ := by
  obtain ⟨A, hA⟩ := (demoBoth_startable (fun _ => 1) fun _ => 0).run T
  obtain ⟨B, hB⟩ := (demoBoth_startable (fun _ => 0) fun _ => 1).run T
  have := C156_ports _ _ A B T (1 / 2) _ _ 1 1 (fun _ => 1) (by rw [demoBoth_runDt]; norm_num) (demoBoth_remade _ _ _ _)
    (demoBoth_passive _ _) (demoBoth_symmetric _ _) (demoBoth_rest _ _) (demoBoth_rest _ _) (demoBoth_startable _ _)
    (demoBoth_left _) (demoBoth_right _) ⟨0, by norm_num⟩ hA hB
  rw [one_mul, one_mul] at this
  exact ⟨A, B, hA, hB, this⟩

end Mtln
