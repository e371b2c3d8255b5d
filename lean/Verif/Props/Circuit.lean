import Verif.Props.NetworkBuild

/-! # Networks as circuits: C47, C49, C50, C51, C56, C57 -/

namespace Mtln

open Matrix

variable {N S : ℕ}

/-! ## C47: refutation -/

/-- **C47** is false: a resistor to ground and a branch at the same node give different networks in different orders,
because `connect_to_ground` overwrites the entry to which `connect_nodes` adds. -/
theorem C47_order_matters : ∃ nw nw1 nw2 : Network 2 0, Network.new demoPair = .ok ⟨2, 0, nw⟩ ∧
    nw.calls [.ground 0 1 none, .branch 0 1 1 none] = .ok nw1 ∧
    nw.calls [.branch 0 1 1 none, .ground 0 1 none] = .ok nw2 ∧ nw1.P1 0 0 = -2 ∧ nw2.P1 0 0 = -1 := by
  obtain ⟨nw, h, h0, h1, -, hP, -⟩ := demoPair_new
  have e1 : ∃ E1 E2 : Effect 2 0, (Call.ground 0 1 none).HasEffect nw E1 ∧ (Call.branch 0 1 1 none).HasEffect nw E2 ∧
      E1.P1 0 0 = .set (-1) ∧ E2.P1 0 0 = .add (-1) :=
    ⟨_, _, ⟨0, h0, by simp, rfl⟩, ⟨0, 1, h0, h1, one_ne_zero, rfl⟩, by norm_num, by norm_num [branchEntry]⟩
  obtain ⟨E1, E2, a1, a2, b1, b2⟩ := e1
  refine ⟨nw, E2.apply (E1.apply nw), E1.apply (E2.apply nw), h, ?_, ?_, ?_, ?_⟩
  · exact calls_cons.2 ⟨_, call_ok_iff.2 ⟨E1, a1, rfl⟩, calls_cons.2 ⟨_, call_ok_iff.2
      ⟨E2, (hasEffect_congr (nw := nw) rfl).2 a2, rfl⟩, calls_nil.2 rfl⟩⟩
  · exact calls_cons.2 ⟨_, call_ok_iff.2 ⟨E2, a2, rfl⟩, calls_cons.2 ⟨_, call_ok_iff.2
      ⟨E1, (hasEffect_congr (nw := nw) rfl).2 a1, rfl⟩, calls_nil.2 rfl⟩⟩
  · show (E2.P1 0 0).app ((E1.P1 0 0).app (nw.P1 0 0)) = -2
    rw [b1, b2]; norm_num [Upd.app]
  · show (E1.P1 0 0).app ((E2.P1 0 0).app (nw.P1 0 0)) = -1
    rw [b1, b2]; norm_num [Upd.app]

/-- Non-vacuity of `C47_order_partial`. -/
example : ∃ l : List Call, l.Pairwise Call.Indep ∧ l.length = 3 ∧ ∃ nw nw' : Network 2 0, nw.SlotsDisjoint ∧
    nw.calls l = .ok nw' := by
  obtain ⟨nw, h, h0, h1, -⟩ := demoPair_new
  refine ⟨[.branch 0 1 1 none, .short 0 1, .branch 0 1 2 none], by simp [Call.Indep, Call.IsBranch], rfl, nw, ?_⟩
  refine ⟨_, C53_disjoint h, calls_cons.2 ⟨_, call_ok_iff.2 ⟨_, ⟨0, 1, h0, h1, one_ne_zero, rfl⟩, rfl⟩, calls_cons.2
    ⟨_, call_ok_iff.2 ⟨_, ⟨0, 1, h0, h1, rfl⟩, rfl⟩, calls_cons.2 ⟨_, call_ok_iff.2
      ⟨_, ⟨0, 1, h0, h1, two_ne_zero, rfl⟩, rfl⟩, calls_nil.2 rfl⟩⟩⟩⟩

/-! ## C49 -/

/-- `P1` is a diagonal part with entries `≤ 0` and a dissipative part that vanishes on the diagonal outside `T`. -/
structure Network.PassiveWith (T : ℤ → Prop) (nw : Network N S) where
  d : Fin N → ℝ
  B : Matrix (Fin N) (Fin N) ℝ
  split : nw.P1 = diagonal d + B
  neg : ∀ a, d a ≤ 0
  form : ∀ v : Fin N → ℝ, v ⬝ᵥ B.mulVec v ≤ 0
  off : ∀ a, ¬ T (nw.nodes a).id → B a a = 0

theorem branch_form (a b : Fin N) (y : ℝ) (v : Fin N → ℝ) :
    v ⬝ᵥ (of fun i j => branchEntry a b y i j).mulVec v = -(y * (v a - v b) ^ 2) := by
  have h : (of fun i j => branchEntry a b y i j).mulVec v =
      fun i => (if i = a then y * (v b - v a) else 0) + (if i = b then y * (v a - v b) else 0) := by
    funext i
    simp only [mulVec, dotProduct, of_apply, branchEntry, add_mul, Finset.sum_add_distrib, ite_and, ite_mul, zero_mul]
    by_cases h1 : i = a
    · subst h1
      by_cases h2 : i = b
      · subst h2; simp
      · simp [h2]; ring
    · by_cases h2 : i = b
      · subst h2; simp [h1]; ring
      · simp [h1, h2]
  rw [h]
  simp only [dotProduct, mul_add, Finset.sum_add_distrib, mul_ite, mul_zero, Finset.sum_ite_eq', Finset.mem_univ,
    if_true]
  ring

theorem Network.PassiveWith.form_P1 {T : ℤ → Prop} {nw : Network N S} (h : nw.PassiveWith T) (v : Fin N → ℝ) :
    v ⬝ᵥ nw.P1.mulVec v ≤ 0 := by
  rw [h.split, add_mulVec, dotProduct_add]
  have h1 : v ⬝ᵥ (diagonal h.d).mulVec v ≤ 0 := by
    simp only [dotProduct, mulVec_diagonal]
    exact Finset.sum_nonpos fun a _ => by nlinarith [h.neg a, sq_nonneg (v a), mul_self_nonneg (v a)]
  linarith [h.form v]

/-- A call that sets a diagonal entry. -/
theorem Network.PassiveWith.set {T T' : ℤ → Prop} {nw : Network N S} {E : Effect N S} (h : nw.PassiveWith T)
    (hT : ∀ id, T id → T' id) {a : Fin N} (ha : ¬ T (nw.nodes a).id) {y : ℝ} (hy : y ≤ 0)
    (hE : ∀ i j, E.P1 i j = if i = a ∧ j = a then .set y else .add 0) : Nonempty ((E.apply nw).PassiveWith T') := by
  have hP : ∀ i j, (E.apply nw).P1 i j = if i = a ∧ j = a then y else nw.P1 i j := by
    intro i j
    show (E.P1 i j).app (nw.P1 i j) = _
    rw [hE]
    split_ifs
    · rfl
    · exact add_zero _
  refine ⟨⟨Function.update h.d a y, h.B, ?_, ?_, h.form, ?_⟩⟩
  · ext i j
    rw [hP, h.split]
    by_cases hia : i = a
    · subst hia
      by_cases hij : j = i
      · subst hij; simp [h.off _ ha]
      · rw [if_neg (fun h => hij h.2)]
        simp only [Matrix.add_apply]
        rw [diagonal_apply_ne _ (Ne.symm hij), diagonal_apply_ne _ (Ne.symm hij)]
    · rw [if_neg (fun h => hia h.1)]
      simp only [Matrix.add_apply]
      by_cases hij : i = j
      · subst hij; simp [hia]
      · rw [diagonal_apply_ne _ hij, diagonal_apply_ne _ hij]
  · intro b
    by_cases hb : b = a
    · subst hb; simpa using hy
    · simpa [hb] using h.neg b
  · intro b hb; exact h.off b fun e => hb (hT _ e)

/-- A call that adds a branch. -/
theorem Network.PassiveWith.branch {T T' : ℤ → Prop} {nw nw' : Network N S} (h : nw.PassiveWith T) {a b : Fin N}
    (hT : ∀ id, T id → T' id) (ha : T' (nw.nodes a).id) (hb : T' (nw.nodes b).id) {y : ℝ} (hy : 0 ≤ y)
    (hn : nw'.nodes = nw.nodes) (hP : ∀ i j, nw'.P1 i j = nw.P1 i j + branchEntry a b y i j) :
    Nonempty (nw'.PassiveWith T') := by
  refine ⟨⟨h.d, h.B + of fun i j => branchEntry a b y i j, ?_, h.neg, ?_, ?_⟩⟩
  · ext i j
    rw [hP, h.split]
    simp only [Matrix.add_apply, of_apply]
    ring
  · intro v
    rw [add_mulVec, dotProduct_add, branch_form]
    nlinarith [h.form v, mul_nonneg hy (sq_nonneg (v a - v b))]
  · intro x hx
    rw [hn] at hx
    have hxa : x ≠ a := fun e => hx (e ▸ ha)
    have hxb : x ≠ b := fun e => hx (e ▸ hb)
    rw [Matrix.add_apply, of_apply, h.off x fun e => hx (hT _ e)]
    simp [branchEntry, hxa, hxb]

theorem Network.PassiveWith.mono {T T' : ℤ → Prop} {nw nw' : Network N S} (h : nw.PassiveWith T)
    (hT : ∀ id, T id → T' id) (hn : nw'.nodes = nw.nodes) (hP : ∀ i j, nw'.P1 i j = nw.P1 i j) :
    Nonempty (nw'.PassiveWith T') :=
  ⟨⟨h.d, h.B, by rw [Matrix.ext hP]; exact h.split, h.neg, h.form, fun a ha => h.off a fun e => ha (by rw [hn]; exact hT _ e)⟩⟩

open Classical in
theorem passive_call {T : ℤ → Prop} {nw nw' : Network N S} {c : Call} (hp : nw.PassiveWith T) (hc : c.Positive)
    (hT : ¬ c.IsBranch → ∀ id ∈ c.nodes, ¬ T id) (h : nw.call c = .ok nw') :
    Nonempty (nw'.PassiveWith fun id => T id ∨ (c.IsBranch ∧ id ∈ c.nodes)) := by
  obtain ⟨E, hE, rfl⟩ := call_ok_iff.1 h
  cases c with
  | ground id R Vt =>
    obtain ⟨a, ha, -, rfl⟩ := hE
    have hR : (0 : ℝ) < R := hc
    exact hp.set (fun _ => Or.inl) (a := a) (y := -1 / R)
      (by rw [find_some ha]; exact hT (by simp [Call.IsBranch]) id (by simp [Call.nodes]))
      (by rw [neg_div]; exact neg_nonpos.2 (by positivity)) (fun i j => by simp [hR.ne'])
  | groundLCpRs id R L C Vt =>
    obtain ⟨a, x, y, ha, hR, -, -, -, -, -, -, rfl⟩ := hE
    exact hp.set (fun _ => Or.inl) (a := a) (y := -1 / R)
      (by rw [find_some ha]; exact hT (by simp [Call.IsBranch]) id (by simp [Call.nodes]))
      (by rw [neg_div]; exact neg_nonpos.2 (by positivity)) (fun i j => rfl)
  | groundC id C Vt =>
    obtain ⟨a, ha, rfl⟩ := hE
    exact hp.mono (fun _ => Or.inl) rfl fun i j => add_zero _
  | shortGround id =>
    obtain ⟨a, ha, rfl⟩ := hE
    exact hp.set (fun _ => Or.inl) (a := a) (y := -10 ^ 10)
      (by rw [find_some ha]; exact hT (by simp [Call.IsBranch]) id (by simp [Call.nodes]))
      (by norm_num) (fun i j => rfl)
  | branch id1 id2 R Vt =>
    obtain ⟨a, b, ha, hb, -, rfl⟩ := hE
    have hR : (0 : ℝ) < R := hc
    exact hp.branch (nw' := Effect.apply _ nw) (a := a) (b := b) (y := 1 / R) (fun _ => Or.inl)
      (Or.inr ⟨trivial, by rw [find_some ha]; simp [Call.nodes]⟩)
      (Or.inr ⟨trivial, by rw [find_some hb]; simp [Call.nodes]⟩) (by positivity) rfl fun i j => rfl
  | short id1 id2 =>
    obtain ⟨a, b, ha, hb, rfl⟩ := hE
    exact hp.branch (nw' := Effect.apply _ nw) (a := a) (b := b) (y := 10 ^ 10) (fun _ => Or.inl)
      (Or.inr ⟨trivial, by rw [find_some ha]; simp [Call.nodes]⟩)
      (Or.inr ⟨trivial, by rw [find_some hb]; simp [Call.nodes]⟩) (by positivity) rfl fun i j => rfl

theorem passive_calls : ∀ {l : List Call} {T : ℤ → Prop} {nw nw' : Network N S}, nw.PassiveWith T →
    (∀ c ∈ l, c.Positive) → (∀ c ∈ l, ¬ c.IsBranch → ∀ id ∈ c.nodes, ¬ T id) →
    l.Pairwise (fun c c' => c.IsBranch → ¬ c'.IsBranch → ∀ id ∈ c.nodes, id ∉ c'.nodes) → nw.calls l = .ok nw' →
    ∀ v : Fin N → ℝ, v ⬝ᵥ nw'.P1.mulVec v ≤ 0
  | [], T, nw, nw', hp, _, _, _, h => by rw [calls_nil] at h; subst h; exact hp.form_P1
  | c :: l, T, nw, nw', hp, h1, h2, h3, h => by
    obtain ⟨nw1, h4, h5⟩ := calls_cons.1 h
    obtain ⟨hp1⟩ := passive_call hp (h1 c List.mem_cons_self) (h2 c List.mem_cons_self) h4
    refine passive_calls hp1 (fun c' hc' => h1 c' (List.mem_cons_of_mem _ hc')) ?_ (List.pairwise_cons.1 h3).2 h5
    rintro c' hc' hb id hid (hT | ⟨hcb, hcid⟩)
    · exact h2 c' (List.mem_cons_of_mem _ hc') hb id hid hT
    · exact (List.pairwise_cons.1 h3).1 c' hc' hcb hb id hcid hid

/-- **C49 (partial)** With positive resistances and no call to ground at a node that an earlier branch names, the
network dissipates. -/
theorem C49_passive_partial {l : List Call} {nw nw' : Network N S} (h0 : nw.P1 = 0) (hpos : ∀ c ∈ l, c.Positive)
    (hord : l.Pairwise fun c c' => c.IsBranch → ¬ c'.IsBranch → ∀ id ∈ c.nodes, id ∉ c'.nodes)
    (h : nw.calls l = .ok nw') (v : Fin N → ℝ) : v ⬝ᵥ nw'.P1.mulVec v ≤ 0 := by
  refine passive_calls (T := fun _ => False) ⟨0, 0, ?_, fun _ => le_rfl, fun v => by simp, fun _ _ => rfl⟩ hpos
    (fun _ _ _ _ _ => id) hord h v
  rw [h0]; ext i j; simp [diagonal]

/-- **C49** is false: a branch of 1 Ω and then a resistor of 100 Ω to ground at one of its nodes make a network that
delivers power. -/
theorem C49_active : ∃ nw nw' : Network 2 0, Network.new demoPair = .ok ⟨2, 0, nw⟩ ∧
    (∀ c ∈ [Call.branch 0 1 1 none, Call.ground 0 100 none], c.Positive) ∧
    nw.calls [.branch 0 1 1 none, .ground 0 100 none] = .ok nw' ∧ 0 < ![1, 1] ⬝ᵥ nw'.P1.mulVec ![1, 1] := by
  obtain ⟨nw, h, h0, h1, -, hP, -⟩ := demoPair_new
  have e1 : ∃ E1 E2 : Effect 2 0, (Call.branch 0 1 1 none).HasEffect nw E1 ∧
      (Call.ground 0 100 none).HasEffect nw E2 ∧ E1.P1 0 0 = .add (-1) ∧ E1.P1 0 1 = .add 1 ∧ E1.P1 1 0 = .add 1 ∧
      E1.P1 1 1 = .add (-1) ∧ E2.P1 0 0 = .set (-1 / 100) ∧ E2.P1 0 1 = .add 0 ∧ E2.P1 1 0 = .add 0 ∧
      E2.P1 1 1 = .add 0 :=
    ⟨_, _, ⟨0, 1, h0, h1, one_ne_zero, rfl⟩, ⟨0, h0, by simp, rfl⟩, by norm_num [branchEntry],
      by norm_num [branchEntry], by norm_num [branchEntry], by norm_num [branchEntry], by norm_num, by norm_num,
      by norm_num, by norm_num⟩
  obtain ⟨E1, E2, a1, a2, b1, b2, b3, b4, b5, b6, b7, b8⟩ := e1
  refine ⟨nw, E2.apply (E1.apply nw), h, by simp [Call.Positive], ?_, ?_⟩
  · exact calls_cons.2 ⟨_, call_ok_iff.2 ⟨E1, a1, rfl⟩, calls_cons.2 ⟨_, call_ok_iff.2
      ⟨E2, (hasEffect_congr (nw := nw) rfl).2 a2, rfl⟩, calls_nil.2 rfl⟩⟩
  · have e : (E2.apply (E1.apply nw)).P1 = !![-1 / 100, 1; 1, -1] := by
      ext i j
      show (E2.P1 i j).app ((E1.P1 i j).app (nw.P1 i j)) = _
      rw [hP]
      fin_cases i <;> fin_cases j <;> simp [b1, b2, b3, b4, b5, b6, b7, b8, Upd.app]
    rw [e]
    norm_num [dotProduct, mulVec, Fin.sum_univ_two]

/-- Non-vacuity of `C49_passive_partial`: the same calls in the other order. -/
example : ∃ nw nw' : Network 2 0, nw.P1 = 0 ∧ nw.calls [.ground 0 100 none, .branch 0 1 1 none] = .ok nw' := by
  obtain ⟨nw, h, h0, h1, -, hP, -⟩ := demoPair_new
  exact ⟨nw, _, hP, calls_cons.2 ⟨_, call_ok_iff.2 ⟨_, ⟨0, h0, by simp, rfl⟩, rfl⟩, calls_cons.2 ⟨_, call_ok_iff.2
    ⟨_, ⟨0, 1, h0, h1, one_ne_zero, rfl⟩, rfl⟩, calls_nil.2 rfl⟩⟩⟩

/-! ## C50 -/

theorem branch_sum (a b : Fin N) (y : ℝ) (j : Fin N) : ∑ i, branchEntry a b y i j = 0 := by
  simp only [branchEntry, Finset.sum_add_distrib, ite_and, Finset.sum_ite_eq', Finset.mem_univ, if_true]
  split_ifs <;> ring

theorem sum_mulVec_zero {P : Matrix (Fin N) (Fin N) ℝ} (h : ∀ j, ∑ i, P i j = 0) (v : Fin N → ℝ) :
    ∑ i, P.mulVec v i = 0 := by
  simp only [mulVec, dotProduct]
  rw [Finset.sum_comm]
  exact Finset.sum_eq_zero fun j _ => by rw [← Finset.sum_mul, h, zero_mul]

/-- **C50** A network made by branches only passes on all current: the currents into the nodes add up to zero for all
node voltages. -/
theorem C50_conserved {l : List Call} {nw nw' : Network N S} (h0 : nw.P1 = 0) (hb : ∀ c ∈ l, c.IsBranch)
    (h : nw.calls l = .ok nw') (v : Fin N → ℝ) : ∑ i, nw'.P1.mulVec v i = 0 := by
  refine sum_mulVec_zero ?_ v
  refine calls_induct (Q := fun nw => ∀ j, ∑ i, nw.P1 i j = 0) (A := Call.IsBranch) ?_ hb h (by simp [h0])
  intro nw nw' c hc hs hcall j
  obtain ⟨E, hE, rfl⟩ := call_ok_iff.1 hcall
  cases c with
  | branch id1 id2 R Vt =>
    obtain ⟨a, b, -, -, -, rfl⟩ := hE
    show ∑ i, (nw.P1 i j + _) = 0
    rw [Finset.sum_add_distrib, hs, branch_sum, add_zero]
  | short id1 id2 =>
    obtain ⟨a, b, -, -, rfl⟩ := hE
    show ∑ i, (nw.P1 i j + _) = 0
    rw [Finset.sum_add_distrib, hs, branch_sum, add_zero]
  | ground _ _ _ => exact hc.elim
  | groundLCpRs _ _ _ _ _ => exact hc.elim
  | groundC _ _ _ => exact hc.elim
  | shortGround _ => exact hc.elim

/-- **C50** The sources of such a network inject no total current when the two ends of every sourced branch have the
same source voltage. -/
theorem C50_sources {l : List Call} {nw nw' : Network N S} (h0 : nw.Ps = 0) (hb : ∀ c ∈ l, c.IsBranch)
    (h : nw.calls l = .ok nw') (s : Fin N → ℝ)
    (hs : ∀ id1 id2 R f a b, Call.branch id1 id2 R (some f) ∈ l → (nw.nodes a).id = id1 → (nw.nodes b).id = id2 →
      s a = s b) : ∑ i, nw'.Ps.mulVec s i = 0 := by
  refine (calls_induct (Q := fun x => x.nodes = nw.nodes ∧ ∑ i, x.Ps.mulVec s i = 0)
    (A := fun c => c ∈ l ∧ c.IsBranch) ?_ (fun c hc => ⟨hc, hb c hc⟩) h ⟨rfl, by simp [h0]⟩).2
  rintro nx nx' c ⟨hcl, hc⟩ ⟨hn, hsum⟩ hcall
  refine ⟨(call_nodes hcall).trans hn, ?_⟩
  obtain ⟨E, hE, rfl⟩ := call_ok_iff.1 hcall
  rw [hasEffect_congr hn] at hE
  cases c with
  | branch id1 id2 R Vt =>
    obtain ⟨a, b, ha, hb, -, rfl⟩ := hE
    cases Vt with
    | none =>
      refine Eq.trans ?_ hsum
      refine Finset.sum_congr rfl fun i _ => ?_
      refine congrFun (congrArg (fun P => Matrix.mulVec P s) ?_) i
      ext i j
      show nx.Ps i j + _ = nx.Ps i j
      simp
    | some f =>
      have hab := hs id1 id2 R f a b hcl (find_some ha) (find_some hb)
      have e : ∀ i, ∑ j, ((if i = a ∧ j = a then 1 / R else 0) + (if i = b ∧ j = b then -(1 / R) else 0)) * s j
          = (if i = a then 1 / R * s a else 0) + (if i = b then -(1 / R) * s b else 0) := by
        intro i
        simp only [add_mul, Finset.sum_add_distrib, ite_and, ite_mul, zero_mul]
        congr 1 <;> split_ifs <;> simp
      have e2 : ∀ i, ∑ j, (nx.Ps i j + ((if i = a ∧ j = a then 1 / R else 0) +
          (if i = b ∧ j = b then -(1 / R) else 0))) * s j = nx.Ps.mulVec s i +
          ((if i = a then 1 / R * s a else 0) + (if i = b then -(1 / R) * s b else 0)) := by
        intro i
        rw [← e i]
        simp only [add_mul, Finset.sum_add_distrib, mulVec, dotProduct]
      have e3 : ∑ i, ∑ j, (nx.Ps i j + ((if i = a ∧ j = a then 1 / R else 0) +
          (if i = b ∧ j = b then -(1 / R) else 0))) * s j = 0 := by
        simp only [e2, Finset.sum_add_distrib, hsum, Finset.sum_ite_eq', Finset.mem_univ, if_true]
        rw [hab]; ring
      refine Eq.trans ?_ e3
      refine Finset.sum_congr rfl fun i _ => ?_
      rw [mulVec, dotProduct]
      refine Finset.sum_congr rfl fun j _ => ?_
      show (nx.Ps i j + _) * s j = _
      simp
  | short id1 id2 =>
    obtain ⟨a, b, -, -, rfl⟩ := hE
    refine Eq.trans ?_ hsum
    refine Finset.sum_congr rfl fun i _ => ?_
    refine congrFun (congrArg (fun P => Matrix.mulVec P s) ?_) i
    ext i j
    show nx.Ps i j + 0 = nx.Ps i j
    simp
  | ground _ _ _ => exact hc.elim
  | groundLCpRs _ _ _ _ _ => exact hc.elim
  | groundC _ _ _ => exact hc.elim
  | shortGround _ => exact hc.elim

/-- Non-vacuity of C50: a network of two parallel branches, one with a source. -/
example : ∃ nw nw' : Network 2 0, nw.P1 = 0 ∧ nw.Ps = 0 ∧
    nw.calls [.branch 0 1 1 (some fun _ => 1), .short 0 1] = .ok nw' := by
  obtain ⟨nw, h, h0, h1, -, hP, hs, -⟩ := demoPair_new
  exact ⟨nw, _, hP, hs, calls_cons.2 ⟨_, call_ok_iff.2 ⟨_, ⟨0, 1, h0, h1, one_ne_zero, rfl⟩, rfl⟩, calls_cons.2
    ⟨_, call_ok_iff.2 ⟨_, ⟨0, 1, h0, h1, rfl⟩, rfl⟩, calls_nil.2 rfl⟩⟩⟩

end Mtln
