import Verif.Lemmas.Calls
import Verif.Props.Demo

/-! # Networks: C46 – C51, C56, C57 -/

namespace Mtln

open Matrix

variable {N S : ℕ}

/-! ## C46 -/

/-- **C46** A step of a network whose matrices are up to date succeeds exactly if the linear system is regular; then
the new voltages and state variables satisfy the node equations and the state equations, and nothing but the voltages,
the previous voltages and the state variables changes. -/
theorem C46_node_equations {nw nw' : Network N S} {time dt : ℝ} (hp : nw.Prepared dt) :
    nw.advanceVoltage time dt = .ok nw' ↔ (nw.system dt).det ≠ 0 ∧ nw.NodeEquations time dt nw'.v nw'.X ∧
      nw.StateEquations time dt nw'.v nw'.X ∧ nw' = { nw with v := nw'.v, X := nw'.X, vPrev := nw.v } := by
  rw [advance_ok_iff hp]
  constructor
  · rintro ⟨h1, v', X', h2, h3, rfl⟩; exact ⟨h1, h2, h3, rfl⟩
  · rintro ⟨h1, h2, h3, h4⟩; exact ⟨h1, _, _, h2, h3, h4⟩

/-- **C46** The new values are the only solution of the equations. -/
theorem C46_unique {nw nw' : Network N S} {time dt : ℝ} (hp : nw.Prepared dt)
    (h : nw.advanceVoltage time dt = .ok nw') {v : Fin N → ℝ} {X : Fin S → ℝ} (h1 : nw.NodeEquations time dt v X)
    (h2 : nw.StateEquations time dt v X) : v = nw'.v ∧ X = nw'.X := by
  obtain ⟨hd, h3, h4, -⟩ := (C46_node_equations hp).1 h
  have e1 := (node_algebra nw time dt v X).1 ⟨h1, h2⟩
  have e2 := (node_algebra nw time dt nw'.v nw'.X).1 ⟨h3, h4⟩
  have hu : IsUnit (nw.system dt).det := isUnit_iff_ne_zero.2 hd
  have e3 : Sum.elim v X = Sum.elim nw'.v nw'.X := by
    have := congrArg (nw.system dt)⁻¹.mulVec (e1.trans e2.symm)
    rwa [mulVec_mulVec, mulVec_mulVec, nonsing_inv_mul _ hu, one_mulVec, one_mulVec] at this
  exact ⟨funext fun a => congrFun e3 (.inl a), funext fun x => congrFun e3 (.inr x)⟩

/-- **C46** The matrices are up to date after `compute_v_terms`, and stay so in steps. -/
theorem C46_prepared {nw nw' nw'' : Network N S} {time dt : ℝ} (h : nw.computeVTerms dt = .ok nw')
    (h' : nw'.advanceVoltage time dt = .ok nw'') : nw'.Prepared dt ∧ nw''.Prepared dt := by
  have hp := computeVTerms_prepared h
  obtain ⟨-, v', X', -, -, rfl⟩ := (advance_ok_iff hp).1 h'
  exact ⟨hp, hp.congr ⟨_, _, _, _, rfl⟩⟩

/-! ## Sequences of calls -/

theorem calls_nil {nw nw' : Network N S} : nw.calls [] = .ok nw' ↔ nw' = nw := by
  simp only [Network.calls, List.foldlM_nil, pure, Except.pure, Except.ok.injEq]
  exact eq_comm

theorem calls_cons {nw nw' : Network N S} {c : Call} {l : List Call} :
    nw.calls (c :: l) = .ok nw' ↔ ∃ nw1, nw.call c = .ok nw1 ∧ nw1.calls l = .ok nw' := by
  simp only [Network.calls, List.foldlM_cons, bind_ok_iff]

theorem calls_append {nw nw' : Network N S} {l l' : List Call} :
    nw.calls (l ++ l') = .ok nw' ↔ ∃ nw1, nw.calls l = .ok nw1 ∧ nw1.calls l' = .ok nw' := by
  simp only [Network.calls, List.foldlM_append, bind_ok_iff]

/-- A property kept by every call is kept by sequences. -/
theorem calls_induct {Q : Network N S → Prop} {A : Call → Prop}
    (step : ∀ nw nw' c, A c → Q nw → nw.call c = .ok nw' → Q nw') :
    ∀ {l : List Call} {nw nw' : Network N S}, (∀ c ∈ l, A c) → nw.calls l = .ok nw' → Q nw → Q nw'
  | [], nw, nw', _, h, q => by rw [calls_nil] at h; subst h; exact q
  | c :: l, nw, nw', hA, h, q => by
    obtain ⟨nw1, h1, h2⟩ := calls_cons.1 h
    exact calls_induct step (fun c hc => hA c (List.mem_cons_of_mem _ hc)) h2
      (step _ _ _ (hA c List.mem_cons_self) q h1)

theorem find_congr {nw nw' : Network N S} (h : nw'.nodes = nw.nodes) (id : ℤ) : nw'.find id = nw.find id := by
  unfold Network.find; rw [h]

theorem hasEffect_congr {nw nw' : Network N S} (h : nw'.nodes = nw.nodes) {E : Effect N S} {c : Call} :
    c.HasEffect nw' E ↔ c.HasEffect nw E := by
  cases c <;> simp only [Call.HasEffect, find_congr h, h]

theorem call_nodes {nw nw' : Network N S} {c : Call} (h : nw.call c = .ok nw') : nw'.nodes = nw.nodes := by
  obtain ⟨E, -, rfl⟩ := call_ok_iff.1 h
  rfl

theorem calls_nodes {nw nw' : Network N S} {l : List Call} (h : nw.calls l = .ok nw') : nw'.nodes = nw.nodes :=
  calls_induct (Q := fun x => x.nodes = nw.nodes) (A := fun _ => True)
    (fun _ _ _ _ q hc => (call_nodes hc).trans q) (fun _ _ => trivial) h rfl

/-! ## C48 -/

/-- **C48** After any sequence of connection calls the matrix `P1` is symmetric, if it was so before (it is zero in a
new network). -/
theorem C48_symmetric {nw nw' : Network N S} {l : List Call} (h : nw.calls l = .ok nw') (h0 : nw.P1.IsSymm) :
    nw'.P1.IsSymm := by
  refine calls_induct (Q := fun nw => nw.P1.IsSymm) (A := fun _ => True) ?_ (fun _ _ => trivial) h h0
  intro nw nw' c _ hs hc
  have hs' : ∀ i j, nw.P1 j i = nw.P1 i j := fun i j => hs.apply i j
  obtain ⟨E, hE, rfl⟩ := call_ok_iff.1 hc
  refine Matrix.IsSymm.ext fun i j => ?_
  show (E.P1 j i).app (nw.P1 j i) = (E.P1 i j).app (nw.P1 i j)
  rw [hs' i j]
  suffices E.P1 j i = E.P1 i j by rw [this]
  cases c with
  | ground id R Vt =>
    obtain ⟨a, -, -, rfl⟩ := hE
    simp only [and_left_comm]
  | groundLCpRs id R L C Vt =>
    obtain ⟨a, x, y, -, -, -, -, -, -, -, -, rfl⟩ := hE
    simp only [and_comm]
  | groundC id C Vt => obtain ⟨a, -, rfl⟩ := hE; rfl
  | shortGround id =>
    obtain ⟨a, -, rfl⟩ := hE
    simp only [and_comm]
  | branch id1 id2 R Vt =>
    obtain ⟨a, b, -, -, -, rfl⟩ := hE
    simp only [branchEntry, Upd.add.injEq]
    simp only [and_comm]
    ring
  | short id1 id2 =>
    obtain ⟨a, b, -, -, rfl⟩ := hE
    simp only [branchEntry, Upd.add.injEq]
    simp only [and_comm]
    ring

/-- **C48** for a network as it leaves the constructor. -/
theorem C48_symmetric_new {p : ℕ} {d : List (LineConnections p)} {nw : AnyNetwork} (hnew : Network.new d = .ok nw)
    {l : List Call} {nw' : Network nw.1 nw.2.1} (h : nw.2.2.calls l = .ok nw') : nw'.P1.IsSymm := by
  refine C48_symmetric h ?_
  simp only [Network.new, bind_ok_iff, Except.ok.injEq] at hnew
  obtain ⟨B, -, rfl⟩ := hnew
  exact Matrix.isSymm_zero

/-! ## C47 -/

/-- Two changes of an entry that can be exchanged: both add, or one does nothing. -/
def Upd.Compat {α : Type} [Zero α] (u u' : Upd α) : Prop :=
  (∃ x y, u = .add x ∧ u' = .add y) ∨ u = .add 0 ∨ u' = .add 0

theorem Upd.Compat.comm {α : Type} [AddCommMonoid α] {u u' : Upd α} (h : u.Compat u') (a : α) :
    u.app (u'.app a) = u'.app (u.app a) := by
  obtain ⟨x, y, rfl, rfl⟩ | rfl | rfl := h
  · simp only [Upd.app]; rw [add_right_comm]
  · simp only [Upd.app, add_zero]
  · simp only [Upd.app, add_zero]

structure Effect.Compat (E E' : Effect N S) : Prop where
  P1 : ∀ i j, (E.P1 i j).Compat (E'.P1 i j)
  Ps : ∀ i j, (E.Ps i j).Compat (E'.Ps i j)
  Q1 : ∀ i j, (E.Q1 i j).Compat (E'.Q1 i j)
  Qs : ∀ i j, (E.Qs i j).Compat (E'.Qs i j)
  M : ∀ i j, (E.M i j).Compat (E'.M i j)
  N1 : ∀ i j, (E.N1 i j).Compat (E'.N1 i j)
  Ns : ∀ i j, (E.Ns i j).Compat (E'.Ns i j)
  O : ∀ i j, (E.O i j).Compat (E'.O i j)
  src : ∀ i, (E.src i).Compat (E'.src i)

theorem Effect.Compat.comm {E E' : Effect N S} (h : E.Compat E') (nw : Network N S) :
    E.apply (E'.apply nw) = E'.apply (E.apply nw) :=
  network_ext ⟨rfl, rfl, rfl⟩ (fun i j => (h.P1 i j).comm _) (fun i j => (h.Ps i j).comm _)
    (fun i j => (h.Q1 i j).comm _) (fun i j => (h.Qs i j).comm _) (fun i j => (h.M i j).comm _)
    (fun i j => (h.N1 i j).comm _) (fun i j => (h.Ns i j).comm _) (fun i j => (h.O i j).comm _)
    (fun i => (h.src i).comm _) ⟨rfl, rfl, rfl, rfl, rfl⟩

/-- Different nodes have different state variables (as in every network the constructor makes: C53). -/
def Network.SlotsDisjoint (nw : Network N S) : Prop :=
  ∀ a b, a ≠ b → ∀ x ∈ (nw.nodes a).stateIndex, x ∉ (nw.nodes b).stateIndex

/-- Where the effect of a call can be seen: only in entries of its nodes and their state variables. -/
structure Effect.Within (E : Effect N S) (A : Fin N → Prop) (B : Fin S → Prop) : Prop where
  P1 : ∀ i j, ¬ (A i ∧ A j) → E.P1 i j = .add 0
  Ps : ∀ i j, ¬ (A i ∧ A j) → E.Ps i j = .add 0
  Q1 : ∀ i j, ¬ (A i ∧ A j) → E.Q1 i j = .add 0
  Qs : ∀ i j, ¬ (A i ∧ A j) → E.Qs i j = .add 0
  M : ∀ i j, ¬ (B i ∧ B j) → E.M i j = .add 0
  N1 : ∀ i j, ¬ (B i ∧ A j) → E.N1 i j = .add 0
  Ns : ∀ i j, ¬ (B i ∧ A j) → E.Ns i j = .add 0
  O : ∀ i j, ¬ (A i ∧ B j) → E.O i j = .add 0
  src : ∀ i, ¬ A i → E.src i = .add 0

theorem branchEntry_within {a b i j : Fin N} {y : ℝ} (h : ¬ ((i = a ∨ i = b) ∧ (j = a ∨ j = b))) :
    branchEntry a b y i j = 0 := by
  have h' : ∀ {P : Prop}, P → ¬ (i = a ∧ j = a) ∧ ¬ (i = a ∧ j = b) ∧ ¬ (i = b ∧ j = a) ∧ ¬ (i = b ∧ j = b) := by
    intro P _; tauto
  obtain ⟨h1, h2, h3, h4⟩ := h' trivial
  simp [branchEntry, h1, h2, h3, h4]

theorem Call.HasEffect.within {nw : Network N S} {E : Effect N S} {c : Call} (h : c.HasEffect nw E) :
    E.Within (fun i => (nw.nodes i).id ∈ c.nodes)
      (fun x => ∃ a, (nw.nodes a).id ∈ c.nodes ∧ (x : ℕ) ∈ (nw.nodes a).stateIndex) := by
  cases c with
  | ground id R Vt =>
    obtain ⟨a, ha, -, rfl⟩ := h
    have ha' := find_some ha
    refine ⟨?_, ?_, fun _ _ _ => rfl, fun _ _ _ => rfl, fun _ _ _ => rfl, fun _ _ _ => rfl, fun _ _ _ => rfl,
      fun _ _ _ => rfl, ?_⟩
    · intro i j hn; exact if_neg fun h => hn (by rw [h.1, h.2.1, ha']; simp [Call.nodes])
    · intro i j hn; exact if_neg fun h => hn (by rw [h.1, h.2.1, ha']; simp [Call.nodes])
    · intro i hn; exact if_neg fun h => hn (by rw [h, ha']; simp [Call.nodes])
  | groundLCpRs id R L C Vt =>
    obtain ⟨a, x, y, ha, -, -, -, -, -, -, hxy, rfl⟩ := h
    have ha' := find_some ha
    have hA : ∀ {i}, i = a → (nw.nodes i).id ∈ (Call.groundLCpRs id R L C Vt).nodes := by
      rintro i rfl; rw [ha']; simp [Call.nodes]
    have hx : ∀ {i}, i = x → ∃ a, (nw.nodes a).id ∈ (Call.groundLCpRs id R L C Vt).nodes ∧
        (i : ℕ) ∈ (nw.nodes a).stateIndex := by
      rintro i rfl; exact ⟨a, hA rfl, by rw [hxy]; simp⟩
    have hy : ∀ {i}, i = y → ∃ a, (nw.nodes a).id ∈ (Call.groundLCpRs id R L C Vt).nodes ∧
        (i : ℕ) ∈ (nw.nodes a).stateIndex := by
      rintro i rfl; exact ⟨a, hA rfl, by rw [hxy]; simp⟩
    refine ⟨?_, ?_, fun _ _ _ => rfl, fun _ _ _ => rfl, ?_, ?_, ?_, ?_, ?_⟩
    · intro i j hn; exact if_neg fun h => hn ⟨hA h.1, hA h.2⟩
    · intro i j hn; exact if_neg fun h => hn ⟨hA h.1, hA h.2.1⟩
    · intro i j hn
      show (if _ then _ else _) = _
      rw [if_neg fun h => hn ⟨hy h.1, hy h.2⟩, if_neg fun h => hn ⟨hy h.1, hx h.2⟩, if_neg fun h => hn ⟨hx h.1, hy h.2⟩,
        if_neg fun h => hn ⟨hx h.1, hx h.2⟩]
    · intro i j hn
      show (if _ then _ else _) = _
      rw [if_neg fun h => hn ⟨hy h.1, hA h.2⟩, if_neg fun h => hn ⟨hx h.1, hA h.2⟩]
    · intro i j hn
      show (if _ then _ else _) = _
      rw [if_neg fun h => hn ⟨hy h.1, hA h.2.1⟩, if_neg fun h => hn ⟨hx h.1, hA h.2.1⟩]
    · intro i j hn
      show (if _ then _ else _) = _
      rw [if_neg fun h => hn ⟨hA h.1, hy h.2⟩, if_neg fun h => hn ⟨hA h.1, hx h.2⟩]
    · intro i hn; exact if_neg fun h => hn (hA h)
  | groundC id C Vt =>
    obtain ⟨a, ha, rfl⟩ := h
    have ha' := find_some ha
    refine ⟨fun _ _ _ => rfl, fun _ _ _ => rfl, ?_, ?_, fun _ _ _ => rfl, fun _ _ _ => rfl, fun _ _ _ => rfl,
      fun _ _ _ => rfl, ?_⟩
    · intro i j hn; exact if_neg fun h => hn (by rw [h.1, h.2.1, ha']; simp [Call.nodes])
    · intro i j hn; exact if_neg fun h => hn (by rw [h.1, h.2.1, ha']; simp [Call.nodes])
    · intro i hn; exact if_neg fun h => hn (by rw [h, ha']; simp [Call.nodes])
  | shortGround id =>
    obtain ⟨a, ha, rfl⟩ := h
    have ha' := find_some ha
    refine ⟨?_, fun _ _ _ => rfl, fun _ _ _ => rfl, fun _ _ _ => rfl, fun _ _ _ => rfl, fun _ _ _ => rfl,
      fun _ _ _ => rfl, fun _ _ _ => rfl, fun _ _ => rfl⟩
    intro i j hn; exact if_neg fun h => hn (by rw [h.1, h.2, ha']; simp [Call.nodes])
  | branch id1 id2 R Vt =>
    obtain ⟨a, b, ha, hb, -, rfl⟩ := h
    have ha' := find_some ha
    have hb' := find_some hb
    have hA : ∀ i, (i = a ∨ i = b) → (nw.nodes i).id ∈ (Call.branch id1 id2 R Vt).nodes := by
      rintro i (rfl | rfl)
      · rw [ha']; simp [Call.nodes]
      · rw [hb']; simp [Call.nodes]
    refine ⟨?_, ?_, fun _ _ _ => rfl, fun _ _ _ => rfl, fun _ _ _ => rfl, fun _ _ _ => rfl, fun _ _ _ => rfl,
      fun _ _ _ => rfl, ?_⟩
    · intro i j hn
      show Upd.add _ = _
      rw [branchEntry_within fun h => hn ⟨hA _ h.1, hA _ h.2⟩]
    · intro i j hn
      show Upd.add _ = _
      rw [if_neg (fun h : i = a ∧ j = a => hn ⟨hA _ (.inl h.1), hA _ (.inl h.2)⟩),
        if_neg (fun h : i = b ∧ j = b => hn ⟨hA _ (.inr h.1), hA _ (.inr h.2)⟩)]
      simp
    · intro i hn
      show Upd.add _ = _
      rw [if_neg fun h => hn (hA _ (.inl h)), if_neg fun h => hn (hA _ (.inr h)), add_zero]
  | short id1 id2 =>
    obtain ⟨a, b, ha, hb, rfl⟩ := h
    have ha' := find_some ha
    have hb' := find_some hb
    have hA : ∀ i, (i = a ∨ i = b) → (nw.nodes i).id ∈ (Call.short id1 id2).nodes := by
      rintro i (rfl | rfl)
      · rw [ha']; simp [Call.nodes]
      · rw [hb']; simp [Call.nodes]
    refine ⟨?_, fun _ _ _ => rfl, fun _ _ _ => rfl, fun _ _ _ => rfl, fun _ _ _ => rfl, fun _ _ _ => rfl,
      fun _ _ _ => rfl, fun _ _ _ => rfl, fun _ _ => rfl⟩
    intro i j hn
    show Upd.add _ = _
    rw [branchEntry_within fun h => hn ⟨hA _ h.1, hA _ h.2⟩]

/-- Two calls that do not overwrite each other: both are branches, or they name different nodes. -/
def Call.Indep (c c' : Call) : Prop := (c.IsBranch ∧ c'.IsBranch) ∨ ∀ id ∈ c.nodes, id ∉ c'.nodes

theorem Call.Indep.symm {c c' : Call} (h : c.Indep c') : c'.Indep c := by
  obtain h | h := h
  · exact Or.inl h.symm
  · exact Or.inr fun id h1 h2 => h id h2 h1

theorem Call.Indep.compat {nw : Network N S} (hd : nw.SlotsDisjoint) {c c' : Call} (h : c.Indep c')
    {E E' : Effect N S} (hE : c.HasEffect nw E) (hE' : c'.HasEffect nw E') : E.Compat E' := by
  obtain ⟨hb, hb'⟩ | hne := h
  · have key : ∀ {c : Call} {E : Effect N S}, c.IsBranch → c.HasEffect nw E →
        (∀ i j, ∃ x, E.P1 i j = .add x) ∧ (∀ i j, ∃ x, E.Ps i j = .add x) ∧ (∀ i, ∃ x, E.src i = .add x) ∧
        (∀ i j, E.Q1 i j = .add 0) ∧ (∀ i j, E.Qs i j = .add 0) ∧ (∀ i j, E.M i j = .add 0) ∧
        (∀ i j, E.N1 i j = .add 0) ∧ (∀ i j, E.Ns i j = .add 0) ∧ (∀ i j, E.O i j = .add 0) := by
      intro c E hb hE
      cases c with
      | branch id1 id2 R Vt =>
        obtain ⟨a, b, -, -, -, rfl⟩ := hE
        exact ⟨fun i j => ⟨_, rfl⟩, fun i j => ⟨_, rfl⟩, fun i => ⟨_, rfl⟩, fun _ _ => rfl, fun _ _ => rfl,
          fun _ _ => rfl, fun _ _ => rfl, fun _ _ => rfl, fun _ _ => rfl⟩
      | short id1 id2 =>
        obtain ⟨a, b, -, -, rfl⟩ := hE
        exact ⟨fun i j => ⟨_, rfl⟩, fun i j => ⟨_, rfl⟩, fun i => ⟨_, rfl⟩, fun _ _ => rfl, fun _ _ => rfl,
          fun _ _ => rfl, fun _ _ => rfl, fun _ _ => rfl, fun _ _ => rfl⟩
      | ground _ _ _ => exact hb.elim
      | groundLCpRs _ _ _ _ _ => exact hb.elim
      | groundC _ _ _ => exact hb.elim
      | shortGround _ => exact hb.elim
    obtain ⟨p1, p2, p3, p4, p5, p6, p7, p8, p9⟩ := key hb hE
    obtain ⟨q1, q2, q3, -, -, -, -, -, -⟩ := key hb' hE'
    exact ⟨fun i j => .inl ⟨_, _, (p1 i j).choose_spec, (q1 i j).choose_spec⟩,
      fun i j => .inl ⟨_, _, (p2 i j).choose_spec, (q2 i j).choose_spec⟩, fun i j => .inr (.inl (p4 i j)),
      fun i j => .inr (.inl (p5 i j)), fun i j => .inr (.inl (p6 i j)), fun i j => .inr (.inl (p7 i j)),
      fun i j => .inr (.inl (p8 i j)), fun i j => .inr (.inl (p9 i j)),
      fun i => .inl ⟨_, _, (p3 i).choose_spec, (q3 i).choose_spec⟩⟩
  · have w := hE.within
    have w' := hE'.within
    have hA : ∀ i, (nw.nodes i).id ∈ c.nodes → ¬ (nw.nodes i).id ∈ c'.nodes := fun i => hne _
    have hB : ∀ x : Fin S, (∃ a, (nw.nodes a).id ∈ c.nodes ∧ (x : ℕ) ∈ (nw.nodes a).stateIndex) →
        ¬ ∃ a, (nw.nodes a).id ∈ c'.nodes ∧ (x : ℕ) ∈ (nw.nodes a).stateIndex := by
      rintro x ⟨a, h1, h2⟩ ⟨b, h3, h4⟩
      by_cases hab : a = b
      · subst hab; exact hA a h1 h3
      · exact hd a b hab _ h2 h4
    refine ⟨?_, ?_, ?_, ?_, ?_, ?_, ?_, ?_, ?_⟩
    · intro i j
      by_cases h : (nw.nodes i).id ∈ c.nodes
      · exact .inr (.inr (w'.P1 i j fun h' => hA i h h'.1))
      · exact .inr (.inl (w.P1 i j fun h' => h h'.1))
    · intro i j
      by_cases h : (nw.nodes i).id ∈ c.nodes
      · exact .inr (.inr (w'.Ps i j fun h' => hA i h h'.1))
      · exact .inr (.inl (w.Ps i j fun h' => h h'.1))
    · intro i j
      by_cases h : (nw.nodes i).id ∈ c.nodes
      · exact .inr (.inr (w'.Q1 i j fun h' => hA i h h'.1))
      · exact .inr (.inl (w.Q1 i j fun h' => h h'.1))
    · intro i j
      by_cases h : (nw.nodes i).id ∈ c.nodes
      · exact .inr (.inr (w'.Qs i j fun h' => hA i h h'.1))
      · exact .inr (.inl (w.Qs i j fun h' => h h'.1))
    · intro i j
      by_cases h : ∃ a, (nw.nodes a).id ∈ c.nodes ∧ (i : ℕ) ∈ (nw.nodes a).stateIndex
      · exact .inr (.inr (w'.M i j fun h' => hB i h h'.1))
      · exact .inr (.inl (w.M i j fun h' => h h'.1))
    · intro i j
      by_cases h : (nw.nodes j).id ∈ c.nodes
      · exact .inr (.inr (w'.N1 i j fun h' => hA j h h'.2))
      · exact .inr (.inl (w.N1 i j fun h' => h h'.2))
    · intro i j
      by_cases h : (nw.nodes j).id ∈ c.nodes
      · exact .inr (.inr (w'.Ns i j fun h' => hA j h h'.2))
      · exact .inr (.inl (w.Ns i j fun h' => h h'.2))
    · intro i j
      by_cases h : (nw.nodes i).id ∈ c.nodes
      · exact .inr (.inr (w'.O i j fun h' => hA i h h'.1))
      · exact .inr (.inl (w.O i j fun h' => h h'.1))
    · intro i
      by_cases h : (nw.nodes i).id ∈ c.nodes
      · exact .inr (.inr (w'.src i (hA i h)))
      · exact .inr (.inl (w.src i h))

/-- **C47 (partial)** Calls can be made in any order if any two of them are branches between nodes or name different
nodes. -/
theorem C47_order_partial {l l' : List Call} (hp : l.Perm l') :
    ∀ {nw nw' : Network N S}, nw.SlotsDisjoint → l.Pairwise Call.Indep → nw.calls l = .ok nw' →
      nw.calls l' = .ok nw' := by
  induction hp with
  | nil => intro nw nw' _ _ h; exact h
  | cons c _ ih =>
    intro nw nw' hd hi h
    obtain ⟨nw1, h1, h2⟩ := calls_cons.1 h
    refine calls_cons.2 ⟨nw1, h1, ih ?_ (List.pairwise_cons.1 hi).2 h2⟩
    unfold Network.SlotsDisjoint
    rw [call_nodes h1]
    exact hd
  | swap c c' l =>
    intro nw nw' hd hi h
    have hcc : c'.Indep c := (List.pairwise_cons.1 hi).1 c (by simp)
    obtain ⟨nw1, h1, h2⟩ := calls_cons.1 h
    obtain ⟨nw2, h3, h4⟩ := calls_cons.1 h2
    obtain ⟨E, hE, rfl⟩ := call_ok_iff.1 h1
    obtain ⟨E', hE', rfl⟩ := call_ok_iff.1 h3
    rw [hasEffect_congr (nw' := E.apply nw) (nw := nw) rfl] at hE'
    refine calls_cons.2 ⟨E'.apply nw, call_ok_iff.2 ⟨E', hE', rfl⟩, calls_cons.2 ⟨E.apply (E'.apply nw),
      call_ok_iff.2 ⟨E, (hasEffect_congr (nw' := E'.apply nw) (nw := nw) rfl).2 hE, rfl⟩, ?_⟩⟩
    rw [(hcc.compat hd hE hE').comm]
    exact h4
  | trans hp1 _ ih1 ih2 =>
    intro nw nw' hd hi h
    exact ih2 hd ((hp1.pairwise_iff (fun h => h.symm)).1 hi) (ih1 hd hi h)

end Mtln
