import Verif.Lemmas.Network

/-! # The effect of connection calls, entry by entry -/

namespace Mtln

open Matrix

variable {N S : ℕ}

/-- The change of one entry. -/
inductive Upd (α : Type) where
  | set (x : α)
  | add (x : α)

/-- The entry after the change. -/
def Upd.app {α : Type} [Add α] : Upd α → α → α
  | .set x, _ => x
  | .add x, a => a + x

/-- The change of all matrices and sources of a network. -/
structure Effect (N S : ℕ) where
  P1 : Fin N → Fin N → Upd ℝ := fun _ _ => .add 0
  Ps : Fin N → Fin N → Upd ℝ := fun _ _ => .add 0
  Q1 : Fin N → Fin N → Upd ℝ := fun _ _ => .add 0
  Qs : Fin N → Fin N → Upd ℝ := fun _ _ => .add 0
  M : Fin S → Fin S → Upd ℝ := fun _ _ => .add 0
  N1 : Fin S → Fin N → Upd ℝ := fun _ _ => .add 0
  Ns : Fin S → Fin N → Upd ℝ := fun _ _ => .add 0
  O : Fin N → Fin S → Upd ℝ := fun _ _ => .add 0
  src : Fin N → Upd (ℝ → ℝ) := fun _ => .add 0

/-- The changed network. -/
def Effect.apply (E : Effect N S) (nw : Network N S) : Network N S :=
  { nw with
    P1 := of fun i j => (E.P1 i j).app (nw.P1 i j)
    Ps := of fun i j => (E.Ps i j).app (nw.Ps i j)
    Q1 := of fun i j => (E.Q1 i j).app (nw.Q1 i j)
    Qs := of fun i j => (E.Qs i j).app (nw.Qs i j)
    M := of fun i j => (E.M i j).app (nw.M i j)
    N1 := of fun i j => (E.N1 i j).app (nw.N1 i j)
    Ns := of fun i j => (E.Ns i j).app (nw.Ns i j)
    O := of fun i j => (E.O i j).app (nw.O i j)
    vSources := fun i => (E.src i).app (nw.vSources i) }

/-- The entries of a branch of conductance `y` between `a` and `b`. -/
def branchEntry (a b : Fin N) (y : ℝ) (i j : Fin N) : ℝ :=
  (if i = a ∧ j = a then -y else 0) + (if i = a ∧ j = b then y else 0) + (if i = b ∧ j = a then y else 0)
    + (if i = b ∧ j = b then -y else 0)

/-- The change of a source entry. -/
def srcUpd : Option (ℝ → ℝ) → Upd (ℝ → ℝ)
  | some f => .set f
  | none => .add 0

open Classical in
/-- The effect of a call. -/
noncomputable def Call.HasEffect (nw : Network N S) (E : Effect N S) : Call → Prop
  | .ground id R Vt => ∃ a, nw.find id = some a ∧ (Vt ≠ none → R ≠ 0) ∧ E =
    { P1 := fun i j => if i = a ∧ j = a ∧ R ≠ 0 then .set (-1 / R) else .add 0
      Ps := fun i j => if i = a ∧ j = a ∧ Vt ≠ none then .set (1 / R) else .add 0
      src := fun i => if i = a then srcUpd Vt else .add 0 }
  | .groundLCpRs id R L C Vt => ∃ a, ∃ x y : Fin S, nw.find id = some a ∧ 0 ≤ R ∧ 0 ≤ L ∧ C < 10 ^ 22 ∧ R * C ≠ 0 ∧
    C ≠ 0 ∧ L ≠ 0 ∧ (nw.nodes a).stateIndex = [(x : ℕ), (y : ℕ)] ∧ E =
    { P1 := fun i j => if i = a ∧ j = a then .set (-1 / R) else .add 0
      Ps := fun i j => if i = a ∧ j = a ∧ Vt ≠ none then .set (1 / R) else .add 0
      src := fun i => if i = a then srcUpd Vt else .add 0
      M := fun i j => if i = y ∧ j = y then .set 0 else if i = y ∧ j = x then .set (-1 / L)
        else if i = x ∧ j = y then .set (1 / C) else if i = x ∧ j = x then .set (1 / (R * C)) else .add 0
      N1 := fun i j => if i = y ∧ j = a then .set 0 else if i = x ∧ j = a then .set (-1 / (R * C)) else .add 0
      Ns := fun i j => if i = y ∧ j = a ∧ Vt ≠ none then .set 0
        else if i = x ∧ j = a ∧ Vt ≠ none then .set (1 / (R * C)) else .add 0
      O := fun i j => if i = a ∧ j = y then .set 0 else if i = a ∧ j = x then .set (1 / R) else .add 0 }
  | .groundC id C Vt => ∃ a, nw.find id = some a ∧ E =
    { Q1 := fun i j => if i = a ∧ j = a ∧ C ≠ 0 then .set (-C) else .add 0
      Qs := fun i j => if i = a ∧ j = a ∧ Vt ≠ none then .set C else .add 0
      src := fun i => if i = a then srcUpd Vt else .add 0 }
  | .shortGround id => ∃ a, nw.find id = some a ∧ E =
    { P1 := fun i j => if i = a ∧ j = a then .set (-10 ^ 10) else .add 0 }
  | .branch id1 id2 R Vt => ∃ a b, nw.find id1 = some a ∧ nw.find id2 = some b ∧ R ≠ 0 ∧ E =
    { P1 := fun i j => .add (branchEntry a b (1 / R) i j)
      Ps := fun i j => .add (if Vt ≠ none then
        (if i = a ∧ j = a then 1 / R else 0) + (if i = b ∧ j = b then -(1 / R) else 0) else 0)
      src := fun i => .add ((if i = a then Vt.getD 0 else 0) + (if i = b then Vt.getD 0 else 0)) }
  | .short id1 id2 => ∃ a b, nw.find id1 = some a ∧ nw.find id2 = some b ∧ E =
    { P1 := fun i j => .add (branchEntry a b (10 ^ 10) i j) }

theorem network_ext {nw nw' : Network N S} (h0 : nw'.nodes = nw.nodes ∧ nw'.cSize = nw.cSize ∧ nw'.c = nw.c)
    (h1 : ∀ i j, nw'.P1 i j = nw.P1 i j) (h2 : ∀ i j, nw'.Ps i j = nw.Ps i j) (h3 : ∀ i j, nw'.Q1 i j = nw.Q1 i j)
    (h4 : ∀ i j, nw'.Qs i j = nw.Qs i j) (h5 : ∀ i j, nw'.M i j = nw.M i j) (h6 : ∀ i j, nw'.N1 i j = nw.N1 i j)
    (h7 : ∀ i j, nw'.Ns i j = nw.Ns i j) (h8 : ∀ i j, nw'.O i j = nw.O i j) (h9 : ∀ i, nw'.vSources i = nw.vSources i)
    (hs : nw'.v = nw.v ∧ nw'.vPrev = nw.vPrev ∧ nw'.i = nw.i ∧ nw'.X = nw.X ∧ nw'.terms = nw.terms) : nw' = nw := by
  cases nw
  cases nw'
  obtain ⟨a1, a2, a3⟩ := h0
  obtain ⟨b1, b2, b3, b4, b5⟩ := hs
  simp only at *
  subst a1 a2 a3 b1 b2 b3 b4 b5
  obtain rfl := Matrix.ext h1
  obtain rfl := Matrix.ext h2
  obtain rfl := Matrix.ext h3
  obtain rfl := Matrix.ext h4
  obtain rfl := Matrix.ext h5
  obtain rfl := Matrix.ext h6
  obtain rfl := Matrix.ext h7
  obtain rfl := Matrix.ext h8
  obtain rfl := funext h9
  rfl

theorem addBranch_apply (P : Matrix (Fin N) (Fin N) ℝ) (a b : Fin N) (y : ℝ) (i j : Fin N) :
    addBranch P a b y i j = P i j + branchEntry a b y i j := by
  unfold addBranch addEntry branchEntry
  simp only [of_apply]
  split_ifs <;> ring

open Classical in
theorem ground_effect (nw : Network N S) (a : Fin N) (R : ℝ) : { nw with
      P1 := if R ≠ 0 then putEntry nw.P1 a a (-1 / R) else nw.P1 } =
    Effect.apply { P1 := fun i j => if i = a ∧ j = a ∧ R ≠ 0 then .set (-1 / R) else .add 0
                   Ps := fun i j => if i = a ∧ j = a ∧ (none : Option (ℝ → ℝ)) ≠ none then .set (1 / R) else .add 0
                   src := fun i => if i = a then srcUpd none else .add 0 } nw := by
  apply network_ext <;> try simp [Effect.apply, Upd.app]
  · intro i j
    by_cases hR : R = 0
    · simp [hR]
    · simp only [hR, not_false_eq_true, and_true, if_true, putEntry, of_apply]
      split_ifs <;> simp_all
  · intro i
    split_ifs <;> simp [srcUpd]

open Classical in
theorem groundSource_effect (nw : Network N S) (a : Fin N) {R : ℝ} (hR : R ≠ 0) (f : ℝ → ℝ) : { nw with
      P1 := if R ≠ 0 then putEntry nw.P1 a a (-1 / R) else nw.P1
      vSources := Function.update nw.vSources a f
      Ps := putEntry nw.Ps a a (1 / R) } =
    Effect.apply { P1 := fun i j => if i = a ∧ j = a ∧ R ≠ 0 then .set (-1 / R) else .add 0
                   Ps := fun i j => if i = a ∧ j = a ∧ some f ≠ none then .set (1 / R) else .add 0
                   src := fun i => if i = a then srcUpd (some f) else .add 0 } nw := by
  apply network_ext <;> try simp [Effect.apply, Upd.app]
  · intro i j
    simp only [hR, not_false_eq_true, and_true, if_true, putEntry, of_apply]
    split_ifs <;> simp_all
  · intro i j
    simp only [putEntry, of_apply]
    split_ifs <;> simp_all
  · intro i
    by_cases hi : i = a
    · subst hi; simp [srcUpd]
    · simp [hi]

open Classical in
theorem groundC_effect (nw : Network N S) (a : Fin N) (C : ℝ) : { nw with
      Q1 := if C ≠ 0 then putEntry nw.Q1 a a (-C) else nw.Q1 } =
    Effect.apply { Q1 := fun i j => if i = a ∧ j = a ∧ C ≠ 0 then .set (-C) else .add 0
                   Qs := fun i j => if i = a ∧ j = a ∧ (none : Option (ℝ → ℝ)) ≠ none then .set C else .add 0
                   src := fun i => if i = a then srcUpd none else .add 0 } nw := by
  apply network_ext <;> try simp [Effect.apply, Upd.app]
  · intro i j
    by_cases hR : C = 0
    · simp [hR]
    · simp only [hR, not_false_eq_true, and_true, if_true, putEntry, of_apply]
      split_ifs <;> simp_all
  · intro i
    split_ifs <;> simp [srcUpd]

open Classical in
theorem groundCSource_effect (nw : Network N S) (a : Fin N) (C : ℝ) (f : ℝ → ℝ) : { nw with
      Q1 := if C ≠ 0 then putEntry nw.Q1 a a (-C) else nw.Q1
      vSources := Function.update nw.vSources a f
      Qs := putEntry nw.Qs a a C } =
    Effect.apply { Q1 := fun i j => if i = a ∧ j = a ∧ C ≠ 0 then .set (-C) else .add 0
                   Qs := fun i j => if i = a ∧ j = a ∧ some f ≠ none then .set C else .add 0
                   src := fun i => if i = a then srcUpd (some f) else .add 0 } nw := by
  apply network_ext <;> try simp [Effect.apply, Upd.app]
  · intro i j
    by_cases hR : C = 0
    · simp [hR]
    · simp only [hR, not_false_eq_true, and_true, if_true, putEntry, of_apply]
      split_ifs <;> simp_all
  · intro i j
    simp only [putEntry, of_apply]
    split_ifs <;> simp_all
  · intro i
    by_cases hi : i = a
    · subst hi; simp [srcUpd]
    · simp [hi]

theorem shortGround_effect (nw : Network N S) (a : Fin N) : { nw with P1 := putEntry nw.P1 a a (-10 ^ 10) } =
    Effect.apply { P1 := fun i j => if i = a ∧ j = a then .set (-10 ^ 10) else .add 0 } nw := by
  apply network_ext <;> try simp [Effect.apply, Upd.app]
  intro i j
  simp only [putEntry, of_apply]
  split_ifs <;> simp_all

theorem short_effect (nw : Network N S) (a b : Fin N) (y : ℝ) : { nw with P1 := addBranch nw.P1 a b y } =
    Effect.apply { P1 := fun i j => .add (branchEntry a b y i j) } nw := by
  apply network_ext <;> try simp [Effect.apply, Upd.app]
  intro i j
  exact addBranch_apply _ _ _ _ _ _

theorem branch_effect (nw : Network N S) (a b : Fin N) (y : ℝ) : { nw with P1 := addBranch nw.P1 a b y } =
    Effect.apply { P1 := fun i j => .add (branchEntry a b y i j)
                   Ps := fun i j => .add (if (none : Option (ℝ → ℝ)) ≠ none then
                     (if i = a ∧ j = a then y else 0) + (if i = b ∧ j = b then -y else 0) else 0)
                   src := fun i => .add ((if i = a then (none : Option (ℝ → ℝ)).getD 0 else 0) +
                     (if i = b then (none : Option (ℝ → ℝ)).getD 0 else 0)) } nw := by
  apply network_ext <;> try simp [Effect.apply, Upd.app]
  intro i j
  exact addBranch_apply _ _ _ _ _ _

theorem branchSource_effect (nw : Network N S) (a b : Fin N) (y : ℝ) (f : ℝ → ℝ) : { nw with
      P1 := addBranch nw.P1 a b y
      Ps := addEntry (addEntry nw.Ps a a y) b b (-y)
      vSources := Function.update (Function.update nw.vSources a (fun t => nw.vSources a t + f t)) b
        (fun t => (Function.update nw.vSources a (fun t => nw.vSources a t + f t)) b t + f t) } =
    Effect.apply { P1 := fun i j => .add (branchEntry a b y i j)
                   Ps := fun i j => .add (if some f ≠ none then
                     (if i = a ∧ j = a then y else 0) + (if i = b ∧ j = b then -y else 0) else 0)
                   src := fun i => .add ((if i = a then (some f).getD 0 else 0) +
                     (if i = b then (some f).getD 0 else 0)) } nw := by
  apply network_ext <;> try simp [Effect.apply, Upd.app]
  · intro i j
    exact addBranch_apply _ _ _ _ _ _
  · intro i j
    simp only [addEntry, of_apply]
    split_ifs <;> ring
  · intro i
    funext t
    by_cases hb : i = b
    · subst hb
      by_cases ha : i = a
      · subst ha; simp; ring
      · simp [ha]
    · by_cases ha : i = a
      · subst ha; simp [hb]
      · simp [ha, hb]

theorem lcprs_effect (nw : Network N S) (a : Fin N) (x y : Fin S) (R L C : ℝ) : { nw with
      M := putEntry (putEntry (putEntry (putEntry nw.M x x (1 / (R * C))) x y (1 / C)) y x (-1 / L)) y y 0
      N1 := putEntry (putEntry nw.N1 x a (-1 / (R * C))) y a 0
      O := putEntry (putEntry nw.O a x (1 / R)) a y 0
      P1 := putEntry nw.P1 a a (-1 / R) } =
    Effect.apply
      { P1 := fun i j => if i = a ∧ j = a then .set (-1 / R) else .add 0
        Ps := fun i j => if i = a ∧ j = a ∧ (none : Option (ℝ → ℝ)) ≠ none then .set (1 / R) else .add 0
        src := fun i => if i = a then srcUpd none else .add 0
        M := fun i j => if i = y ∧ j = y then .set 0 else if i = y ∧ j = x then .set (-1 / L)
          else if i = x ∧ j = y then .set (1 / C) else if i = x ∧ j = x then .set (1 / (R * C)) else .add 0
        N1 := fun i j => if i = y ∧ j = a then .set 0 else if i = x ∧ j = a then .set (-1 / (R * C)) else .add 0
        Ns := fun i j => if i = y ∧ j = a ∧ (none : Option (ℝ → ℝ)) ≠ none then .set 0
          else if i = x ∧ j = a ∧ (none : Option (ℝ → ℝ)) ≠ none then .set (1 / (R * C)) else .add 0
        O := fun i j => if i = a ∧ j = y then .set 0 else if i = a ∧ j = x then .set (1 / R) else .add 0 } nw := by
  apply network_ext <;> try simp only [Effect.apply, Upd.app, putEntry, of_apply, implies_true, and_self]
  · intro i j; split_ifs <;> simp
  · intro i j; split_ifs <;> simp_all
  · intro i j; simp
  · intro i j; simp
  · intro i j; split_ifs <;> simp
  · intro i j; split_ifs <;> simp
  · intro i j; split_ifs <;> simp_all
  · intro i j; split_ifs <;> simp
  · intro i; split_ifs <;> simp [srcUpd]

theorem lcprsSource_effect (nw : Network N S) (a : Fin N) (x y : Fin S) (R L C : ℝ) (f : ℝ → ℝ) : { nw with
      M := putEntry (putEntry (putEntry (putEntry nw.M x x (1 / (R * C))) x y (1 / C)) y x (-1 / L)) y y 0
      N1 := putEntry (putEntry nw.N1 x a (-1 / (R * C))) y a 0
      O := putEntry (putEntry nw.O a x (1 / R)) a y 0
      P1 := putEntry nw.P1 a a (-1 / R)
      vSources := Function.update nw.vSources a f
      Ps := putEntry nw.Ps a a (1 / R)
      Ns := putEntry (putEntry nw.Ns x a (1 / (R * C))) y a 0 } =
    Effect.apply
      { P1 := fun i j => if i = a ∧ j = a then .set (-1 / R) else .add 0
        Ps := fun i j => if i = a ∧ j = a ∧ some f ≠ none then .set (1 / R) else .add 0
        src := fun i => if i = a then srcUpd (some f) else .add 0
        M := fun i j => if i = y ∧ j = y then .set 0 else if i = y ∧ j = x then .set (-1 / L)
          else if i = x ∧ j = y then .set (1 / C) else if i = x ∧ j = x then .set (1 / (R * C)) else .add 0
        N1 := fun i j => if i = y ∧ j = a then .set 0 else if i = x ∧ j = a then .set (-1 / (R * C)) else .add 0
        Ns := fun i j => if i = y ∧ j = a ∧ some f ≠ none then .set 0
          else if i = x ∧ j = a ∧ some f ≠ none then .set (1 / (R * C)) else .add 0
        O := fun i j => if i = a ∧ j = y then .set 0 else if i = a ∧ j = x then .set (1 / R) else .add 0 } nw := by
  apply network_ext <;> try simp only [Effect.apply, Upd.app, putEntry, of_apply, implies_true, and_self]
  · intro i j; split_ifs <;> simp
  · intro i j; split_ifs <;> simp_all
  · intro i j; simp
  · intro i j; simp
  · intro i j; split_ifs <;> simp
  · intro i j; split_ifs <;> simp
  · intro i j; split_ifs <;> simp_all
  · intro i j; split_ifs <;> simp
  · intro i
    by_cases hi : i = a
    · subst hi; simp [srcUpd]
    · simp [hi]

/-- Every successful call has exactly its effect. -/
theorem call_ok_iff {nw nw' : Network N S} {c : Call} :
    nw.call c = .ok nw' ↔ ∃ E, c.HasEffect nw E ∧ nw' = E.apply nw := by
  cases c with
  | ground id R Vt =>
    simp only [Network.call, Network.connectToGround, bind_ok_iff, assertNode_ok_iff, Call.HasEffect]
    cases Vt with
    | none =>
      simp only [Except.ok.injEq, ground_effect]
      constructor
      · rintro ⟨a, ha, h⟩
        exact ⟨_, ⟨a, ha, by simp, rfl⟩, h.symm⟩
      · rintro ⟨E, ⟨a, ha, hR, rfl⟩, h⟩
        exact ⟨a, ha, h.symm⟩
    | some f =>
      simp only [bind_ok_iff, raiseIf_ok_iff, Except.ok.injEq]
      constructor
      · rintro ⟨a, ha, _, hR, h⟩
        exact ⟨_, ⟨a, ha, fun _ => hR, rfl⟩, h.symm.trans (groundSource_effect nw a hR f)⟩
      · rintro ⟨E, ⟨a, ha, hR, rfl⟩, h⟩
        have hR' : R ≠ 0 := hR (by simp)
        exact ⟨a, ha, (), hR', (groundSource_effect nw a hR' f).trans h.symm⟩
  | groundLCpRs id R L C Vt =>
    simp only [Network.call, Network.connectToGroundLCpRs, bind_ok_iff, assertNode_ok_iff, Call.HasEffect,
      pyAssert_ok_iff, raiseIf_ok_iff, not_or]
    constructor
    · rintro ⟨a, ha, _, ⟨h1, h2, h3⟩, _, ⟨h4, h5, h6⟩, _, -, h⟩
      split at h
      case h_2 => exact absurd h (by simp)
      rename_i x y hxy
      split at h
      case isFalse => exact absurd h (by simp)
      rename_i hS
      simp only [Except.ok.injEq] at h
      refine ⟨_, ⟨a, ⟨x, hS.1⟩, ⟨y, hS.2⟩, ha, h1, h2, h3, h4, h5, h6, hxy, rfl⟩, ?_⟩
      rw [← h]
      cases Vt with
      | none => exact lcprs_effect nw a _ _ R L C
      | some f => exact lcprsSource_effect nw a _ _ R L C f
    · rintro ⟨E, ⟨a, x, y, ha, h1, h2, h3, h4, h5, h6, hxy, rfl⟩, h⟩
      refine ⟨a, ha, (), ⟨h1, h2, h3⟩, (), ⟨h4, h5, h6⟩, (), by rw [hxy]; simp, ?_⟩
      rw [hxy]
      simp only
      rw [dif_pos ⟨x.2, y.2⟩, h]
      cases Vt with
      | none => exact congrArg _ (lcprs_effect nw a _ _ R L C)
      | some f => exact congrArg _ (lcprsSource_effect nw a _ _ R L C f)
  | groundC id C Vt =>
    simp only [Network.call, Network.connectToGroundC, bind_ok_iff, assertNode_ok_iff, Call.HasEffect]
    cases Vt with
    | none =>
      simp only [Except.ok.injEq, groundC_effect]
      constructor
      · rintro ⟨a, ha, h⟩
        exact ⟨_, ⟨a, ha, rfl⟩, h.symm⟩
      · rintro ⟨E, ⟨a, ha, rfl⟩, h⟩
        exact ⟨a, ha, h.symm⟩
    | some f =>
      simp only [Except.ok.injEq, groundCSource_effect]
      constructor
      · rintro ⟨a, ha, h⟩
        exact ⟨_, ⟨a, ha, rfl⟩, h.symm⟩
      · rintro ⟨E, ⟨a, ha, rfl⟩, h⟩
        exact ⟨a, ha, h.symm⟩
  | shortGround id =>
    simp only [Network.call, Network.shortToGround, bind_ok_iff, assertNode_ok_iff, Call.HasEffect, Except.ok.injEq,
      shortGround_effect]
    constructor
    · rintro ⟨a, ha, h⟩
      exact ⟨_, ⟨a, ha, rfl⟩, h.symm⟩
    · rintro ⟨E, ⟨a, ha, rfl⟩, h⟩
      exact ⟨a, ha, h.symm⟩
  | branch id1 id2 R Vt =>
    simp only [Network.call, Network.connectNodes, bind_ok_iff, assertNode_ok_iff, Call.HasEffect, pyAssert_ok_iff]
    cases Vt with
    | none =>
      simp only [Except.ok.injEq, branch_effect]
      constructor
      · rintro ⟨a, ha, b, hb, _, hR, h⟩
        exact ⟨_, ⟨a, b, ha, hb, hR, rfl⟩, h.symm⟩
      · rintro ⟨E, ⟨a, b, ha, hb, hR, rfl⟩, h⟩
        exact ⟨a, ha, b, hb, (), hR, h.symm⟩
    | some f =>
      simp only [Except.ok.injEq, branchSource_effect]
      constructor
      · rintro ⟨a, ha, b, hb, _, hR, h⟩
        exact ⟨_, ⟨a, b, ha, hb, hR, rfl⟩, h.symm⟩
      · rintro ⟨E, ⟨a, b, ha, hb, hR, rfl⟩, h⟩
        exact ⟨a, ha, b, hb, (), hR, h.symm⟩
  | short id1 id2 =>
    simp only [Network.call, Network.shortNodes, bind_ok_iff, getNode_ok_iff, Call.HasEffect, Except.ok.injEq,
      short_effect]
    constructor
    · rintro ⟨a, ha, b, hb, h⟩
      exact ⟨_, ⟨a, b, ha, hb, rfl⟩, h.symm⟩
    · rintro ⟨E, ⟨a, b, ha, hb, rfl⟩, h⟩
      exact ⟨a, ha, b, hb, h.symm⟩

end Mtln
