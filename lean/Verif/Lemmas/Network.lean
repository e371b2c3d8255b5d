import Verif.Spec.Network
import Verif.Lemmas.Bundle

/-! # Lemmas about networks -/

namespace Mtln

open Matrix

variable {N S p : ℕ}

theorem computeVTerms_ok_iff {nw nw' : Network N S} {dt : ℝ} : nw.computeVTerms dt = .ok nw' ↔
    nw.cSize = N ∧ dt ≠ 0 ∧ nw' = { nw with
      terms := some
        { A := fromBlocks ((1 / dt) • nw.dxc - nw.P1 - (1 / dt) • nw.Q1) (-nw.O) (-(dt • nw.N1)) (1 - dt • nw.M)
          B1 := fromBlocks ((1 / dt) • nw.dxc - (1 / dt) • nw.Q1) 0 0 1
          B2 := fromRows (nw.Ps + (1 / dt) • nw.Qs) (dt • nw.Ns) } } := by
  unfold Network.computeVTerms
  simp only [bind_ok_iff, raiseIf_ok_iff, not_not, Except.ok.injEq]
  constructor
  · rintro ⟨_, h1, _, h2, h3⟩; exact ⟨h1, h2, h3.symm⟩
  · rintro ⟨h1, h2, h3⟩; exact ⟨(), h1, (), h2, h3.symm⟩

theorem computeVTerms_prepared {nw nw' : Network N S} {dt : ℝ} (h : nw.computeVTerms dt = .ok nw') :
    nw'.Prepared dt := by
  rw [computeVTerms_ok_iff] at h
  obtain ⟨h1, h2, rfl⟩ := h
  exact computeVTerms_ok_iff.2 ⟨h1, h2, rfl⟩

theorem Network.Prepared.iff {nw : Network N S} {dt : ℝ} : nw.Prepared dt ↔ nw.cSize = N ∧ dt ≠ 0 ∧ nw.terms = some
    { A := fromBlocks ((1 / dt) • nw.dxc - nw.P1 - (1 / dt) • nw.Q1) (-nw.O) (-(dt • nw.N1)) (1 - dt • nw.M)
      B1 := fromBlocks ((1 / dt) • nw.dxc - (1 / dt) • nw.Q1) 0 0 1
      B2 := fromRows (nw.Ps + (1 / dt) • nw.Qs) (dt • nw.Ns) } := by
  unfold Network.Prepared
  rw [computeVTerms_ok_iff]
  constructor
  · rintro ⟨h1, h2, h3⟩
    exact ⟨h1, h2, congrArg Network.terms h3⟩
  · rintro ⟨h1, h2, h3⟩
    refine ⟨h1, h2, ?_⟩
    rw [← h3]

/-- The matrix of the system solved in every step. -/
noncomputable def Network.system (nw : Network N S) (dt : ℝ) : Matrix (Fin N ⊕ Fin S) (Fin N ⊕ Fin S) ℝ :=
  fromBlocks ((1 / dt) • nw.dxc - nw.P1 - (1 / dt) • nw.Q1) (-nw.O) (-(dt • nw.N1)) (1 - dt • nw.M)

theorem node_algebra (nw : Network N S) (time dt : ℝ) (v' : Fin N → ℝ) (X' : Fin S → ℝ) :
    (nw.NodeEquations time dt v' X' ∧ nw.StateEquations time dt v' X') ↔
    (nw.system dt).mulVec (Sum.elim v' X') =
      (fromBlocks ((1 / dt) • nw.dxc - (1 / dt) • nw.Q1) 0 0 1).mulVec (Sum.elim nw.v nw.X)
      + (fromRows (nw.Ps + (1 / dt) • nw.Qs) (dt • nw.Ns)).mulVec (fun a => nw.vSources a time)
      + Sum.elim (nw.known dt (fun a => nw.vSources a (time - dt)) (fun a => nw.vSources a (time - 2 * dt))
      (fun a => (nw.nodes a).eT time) (fun a => (nw.nodes a).eT (time - dt))) 0 := by
  unfold Network.system
  rw [fromBlocks_mulVec, fromBlocks_mulVec, fromRows_mulVec]
  have hsum : ∀ (a b : Fin N → ℝ) (c d : Fin S → ℝ), Sum.elim a c + Sum.elim b d = Sum.elim (a + b) (c + d) := by
    intro a b c d; funext x; cases x <;> rfl
  have hinj : ∀ (a b : Fin N → ℝ) (c d : Fin S → ℝ), Sum.elim a c = Sum.elim b d ↔ a = b ∧ c = d := by
    intro a b c d
    constructor
    · intro h
      exact ⟨funext fun x => congrFun h (.inl x), funext fun x => congrFun h (.inr x)⟩
    · rintro ⟨rfl, rfl⟩; rfl
  rw [hsum, hsum, hinj]
  simp only [Sum.elim_comp_inl, Sum.elim_comp_inr]
  refine and_congr ?_ ?_
  · unfold Network.NodeEquations Network.known
    simp only [sub_mulVec, neg_mulVec, smul_mulVec, mulVec_sub, mulVec_add, add_mulVec, zero_mulVec]
    have e1 : ∀ t : ℝ, ((fun (t : ℝ) (a : Fin N) => nw.vSources a t) t) = fun a => nw.vSources a t := fun t => rfl
    constructor
    · intro h
      linear_combination (norm := module) h
    · intro h
      linear_combination (norm := module) h
  · unfold Network.StateEquations
    simp only [sub_mulVec, neg_mulVec, smul_mulVec, zero_mulVec, one_mulVec]
    constructor
    · intro h
      linear_combination (norm := module) h
    · intro h
      linear_combination (norm := module) h

/-- What an advance of a prepared network does. -/
theorem advance_ok_iff {nw nw' : Network N S} {time dt : ℝ} (hp : nw.Prepared dt) :
    nw.advanceVoltage time dt = .ok nw' ↔ (nw.system dt).det ≠ 0 ∧ ∃ v' X', nw.NodeEquations time dt v' X' ∧
      nw.StateEquations time dt v' X' ∧ nw' = { nw with v := v', X := X', vPrev := nw.v } := by
  obtain ⟨h1, h2, h3⟩ := Network.Prepared.iff.1 hp
  have hsplit : ∀ H : Fin N ⊕ Fin S → ℝ, Sum.elim (fun a => H (.inl a)) (fun x => H (.inr x)) = H := by
    intro H; funext x; cases x <;> rfl
  have hkey : ∀ b, (nw.system dt).det ≠ 0 → ∀ H, H = (nw.system dt)⁻¹.mulVec b ↔ (nw.system dt).mulVec H = b := by
    intro b hd H
    have hu : IsUnit (nw.system dt).det := isUnit_iff_ne_zero.2 hd
    constructor
    · rintro rfl; rw [mulVec_mulVec, mul_nonsing_inv _ hu, one_mulVec]
    · rintro rfl; rw [mulVec_mulVec, nonsing_inv_mul _ hu, one_mulVec]
  unfold Network.advanceVoltage
  rw [h3]
  simp only [bind_ok_iff, raiseIf_ok_iff, not_not, Except.ok.injEq]
  constructor
  · rintro ⟨_, -, _, -, _, hd, rfl⟩
    refine ⟨hd, _, _, and_assoc.1 ⟨?_, rfl⟩⟩
    rw [node_algebra, hsplit]
    exact (hkey _ hd _).1 rfl
  · rintro ⟨hd, v', X', h4, h5, rfl⟩
    refine ⟨(), h1, (), h2, (), hd, ?_⟩
    have h6 := (hkey _ hd _).2 ((node_algebra nw time dt v' X').1 ⟨h4, h5⟩)
    have e : (nw.system dt) = fromBlocks ((1 / dt) • nw.dxc - nw.P1 - (1 / dt) • nw.Q1) (-nw.O) (-(dt • nw.N1)) (1 - dt • nw.M) := rfl
    rw [← e, ← h6]
    rfl

theorem Network.Prepared.congr {nw nw' : Network N S} {dt : ℝ} (hp : nw.Prepared dt)
    (h : ∃ v vPrev i X, nw' = { nw with v := v, vPrev := vPrev, i := i, X := X }) : nw'.Prepared dt := by
  obtain ⟨v, vPrev, i, X, rfl⟩ := h
  rw [Network.Prepared.iff] at hp ⊢
  exact hp

/-! ## mapPy -/

theorem mapPy_ok_iff {α β : Type} {f : α → Py β} : ∀ {l : List α} {l' : List β},
    mapPy f l = .ok l' ↔ List.Forall₂ (fun a b => f a = .ok b) l l'
  | [], l' => by
    simp only [mapPy, Except.ok.injEq, List.forall₂_nil_left_iff]
    exact eq_comm
  | a :: l, l' => by
    simp only [mapPy, bind_ok_iff, Except.ok.injEq, List.forall₂_cons_left_iff, mapPy_ok_iff]
    constructor
    · rintro ⟨b, h1, l1, h2, rfl⟩; exact ⟨b, l1, h1, h2, rfl⟩
    · rintro ⟨b, l1, h1, h2, rfl⟩; exact ⟨b, h1, l1, h2, rfl⟩

theorem mapPy_append {α β : Type} {f : α → Py β} {l1 l2 : List α} {l' : List β} :
    mapPy f (l1 ++ l2) = .ok l' ↔ ∃ a b, mapPy f l1 = .ok a ∧ mapPy f l2 = .ok b ∧ l' = a ++ b := by
  induction l1 generalizing l' with
  | nil =>
    simp only [List.nil_append, mapPy, Except.ok.injEq]
    constructor
    · intro h; exact ⟨[], l', rfl, h, rfl⟩
    · rintro ⟨_, _, rfl, h, rfl⟩; exact h
  | cons x l1 ih =>
    simp only [List.cons_append, mapPy, bind_ok_iff, ih, Except.ok.injEq]
    constructor
    · rintro ⟨b, h1, _, ⟨a, c, h2, h3, rfl⟩, rfl⟩
      exact ⟨_, c, ⟨b, h1, a, h2, rfl⟩, h3, rfl⟩
    · rintro ⟨_, c, ⟨b, h1, a, h2, rfl⟩, h3, rfl⟩
      exact ⟨b, h1, _, ⟨a, c, h2, h3, rfl⟩, rfl⟩

/-! ## Lookup of nodes -/

/-- Node ids are unique. -/
def Network.IdsInjective (nw : Network N S) : Prop := Function.Injective fun a => (nw.nodes a).id

theorem find_some {nw : Network N S} {id : ℤ} {a : Fin N} (h : nw.find id = some a) : (nw.nodes a).id = id := by
  simpa using List.find?_some h

theorem find_of_injective {nw : Network N S} (hi : nw.IdsInjective) (a : Fin N) :
    nw.find (nw.nodes a).id = some a := by
  cases h : nw.find (nw.nodes a).id with
  | none =>
    have := List.find?_eq_none.1 h a (List.mem_finRange a)
    simp at this
  | some b => rw [hi (find_some h)]

theorem assertNode_ok_iff {nw : Network N S} {id : ℤ} {a : Fin N} :
    nw.assertNode id = .ok a ↔ nw.find id = some a := by
  unfold Network.assertNode
  cases nw.find id <;> simp

theorem getNode_ok_iff {nw : Network N S} {id : ℤ} {a : Fin N} :
    nw.getNode id = .ok a ↔ nw.find id = some a := by
  unfold Network.getNode
  cases nw.find id <;> simp

end Mtln
