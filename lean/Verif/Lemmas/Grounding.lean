import Verif.Props.Circuit
import Verif.Spec.Program

/-! # Resistors to ground, and between nodes, determine the voltages of the nodes they reach -/

namespace Mtln

open Matrix

variable {p N S : ℕ}

/-- `P1` is a diagonal part with entries `≤ 0`, and `< 0` at the nodes `Z`, and a dissipative part that vanishes on the
diagonal outside `T` and that dissipates unless the voltages of the pairs `J` are equal. -/
structure Network.Drains (T Z : ℤ → Prop) (J : ℤ → ℤ → Prop) (nw : Network N S) : Prop where
  ex : ∃ (d : Fin N → ℝ) (B : Matrix (Fin N) (Fin N) ℝ), nw.P1 = diagonal d + B ∧ (∀ a, d a ≤ 0) ∧
    (∀ v : Fin N → ℝ, v ⬝ᵥ B.mulVec v ≤ 0) ∧ (∀ a, ¬ T (nw.nodes a).id → B a a = 0) ∧
    (∀ a, Z (nw.nodes a).id → d a < 0) ∧
    ∀ v : Fin N → ℝ, v ⬝ᵥ B.mulVec v = 0 → ∀ a b, J (nw.nodes a).id (nw.nodes b).id → v a = v b

/-- Without power in the resistors there is no voltage at the nodes of `Z`, and equal voltages at pairs of `J`. -/
theorem Network.Drains.kernel {T Z : ℤ → Prop} {J : ℤ → ℤ → Prop} {nw : Network N S} (h : nw.Drains T Z J)
    {v : Fin N → ℝ} (hv : v ⬝ᵥ nw.P1.mulVec v = 0) :
    (∀ a, Z (nw.nodes a).id → v a = 0) ∧ ∀ a b, J (nw.nodes a).id (nw.nodes b).id → v a = v b := by
  obtain ⟨d, B, h1, h2, h3, -, h5, h6⟩ := h.ex
  rw [h1, add_mulVec, dotProduct_add] at hv
  have e : v ⬝ᵥ (diagonal d).mulVec v = ∑ a, d a * v a ^ 2 := by
    simp only [dotProduct, mulVec_diagonal]
    exact Finset.sum_congr rfl fun a _ => by ring
  have hle : ∀ a, d a * v a ^ 2 ≤ 0 := fun a => mul_nonpos_of_nonpos_of_nonneg (h2 a) (sq_nonneg _)
  have h7 : ∑ a, d a * v a ^ 2 ≤ 0 := Finset.sum_nonpos fun a _ => hle a
  have h8 : ∑ a, d a * v a ^ 2 = 0 := by linarith [h3 v]
  refine ⟨fun a ha => ?_, h6 v (by linarith)⟩
  have h9 := (Finset.sum_eq_zero_iff_of_nonpos fun a _ => hle a).1 h8 a (Finset.mem_univ _)
  rcases mul_eq_zero.1 h9 with h0 | h0
  · exact absurd h0 (h5 a ha).ne
  · exact pow_eq_zero_iff two_ne_zero |>.1 h0

/-- A call that sets a diagonal entry. -/
theorem Network.Drains.set {T T' Z Z' : ℤ → Prop} {J J' : ℤ → ℤ → Prop} {nw : Network N S} {E : Effect N S}
    (h : nw.Drains T Z J) (hi : nw.IdsInjective)
    (hT : ∀ id, T id → T' id) {a : Fin N} (ha : ¬ T (nw.nodes a).id) {y : ℝ} (hy : y < 0)
    (hZ : ∀ id, Z' id → Z id ∨ id = (nw.nodes a).id) (hJ : ∀ x y, J' x y → J x y)
    (hE : ∀ i j, E.P1 i j = if i = a ∧ j = a then .set y else .add 0) : (E.apply nw).Drains T' Z' J' := by
  obtain ⟨d, B, h1, h2, h3, h4, h5, h6⟩ := h.ex
  have hP : ∀ i j, (E.apply nw).P1 i j = if i = a ∧ j = a then y else nw.P1 i j := by
    intro i j
    show (E.P1 i j).app (nw.P1 i j) = _
    rw [hE]
    split_ifs
    · rfl
    · exact add_zero _
  refine ⟨⟨Function.update d a y, B, ?_, ?_, h3, ?_, ?_, fun v hv x z hJx => h6 v hv x z (hJ _ _ hJx)⟩⟩
  · ext i j
    rw [hP, h1]
    by_cases hia : i = a
    · subst hia
      by_cases hij : j = i
      · subst hij; simp [h4 _ ha]
      · rw [if_neg (fun h => hij h.2)]
        simp only [Matrix.add_apply]
        rw [diagonal_apply_ne _ (Ne.symm hij), diagonal_apply_ne _ (Ne.symm hij)]
    · rw [if_neg (fun h => hia h.1)]
      simp only [Matrix.add_apply]
      by_cases hij : i = j
      · subst hij; simp [hia]
      · rw [diagonal_apply_ne _ hij, diagonal_apply_ne _ hij]
  · intro b
    by_cases hb : b = a
    · subst hb; simpa using hy.le
    · simpa [hb] using h2 b
  · intro b hb; exact h4 b fun e => hb (hT _ e)
  · intro b hb
    by_cases hba : b = a
    · subst hba; simpa using hy
    · rcases hZ _ hb with h0 | h0
      · simpa [hba] using h5 b h0
      · exact absurd (hi h0) hba

/-- A call that adds a branch. -/
theorem Network.Drains.branch {T T' Z Z' : ℤ → Prop} {J J' : ℤ → ℤ → Prop} {nw nw' : Network N S} (h : nw.Drains T Z J)
    (hi : nw.IdsInjective) {a b : Fin N}
    (hT : ∀ id, T id → T' id) (ha : T' (nw.nodes a).id) (hb : T' (nw.nodes b).id) {y : ℝ} (hy : 0 < y)
    (hZ : ∀ id, Z' id → Z id) (hJ : ∀ x z, J' x z → J x z ∨ (x = (nw.nodes a).id ∧ z = (nw.nodes b).id))
    (hn : nw'.nodes = nw.nodes) (hP : ∀ i j, nw'.P1 i j = nw.P1 i j + branchEntry a b y i j) : nw'.Drains T' Z' J' := by
  obtain ⟨d, B, h1, h2, h3, h4, h5, h6⟩ := h.ex
  refine ⟨⟨d, B + of fun i j => branchEntry a b y i j, ?_, h2, ?_, ?_, ?_, ?_⟩⟩
  · ext i j
    rw [hP, h1]
    simp only [Matrix.add_apply, of_apply]
    ring
  · intro v
    rw [add_mulVec, dotProduct_add, branch_form]
    nlinarith [h3 v, mul_nonneg hy.le (sq_nonneg (v a - v b))]
  · intro x hx
    rw [hn] at hx
    have hxa : x ≠ a := fun e => hx (e ▸ ha)
    have hxb : x ≠ b := fun e => hx (e ▸ hb)
    rw [Matrix.add_apply, of_apply, h4 x fun e => hx (hT _ e)]
    simp [branchEntry, hxa, hxb]
  · intro x hx
    rw [hn] at hx
    exact h5 x (hZ _ hx)
  · intro v hv x z hxz
    rw [hn] at hxz
    rw [add_mulVec, dotProduct_add, branch_form] at hv
    have h7 : 0 ≤ y * (v a - v b) ^ 2 := mul_nonneg hy.le (sq_nonneg _)
    have h8 := h3 v
    rcases hJ _ _ hxz with h0 | ⟨h0, h0'⟩
    · exact h6 v (by linarith) x z h0
    · rw [hi h0, hi h0']
      have h9 : y * (v a - v b) ^ 2 = 0 := by linarith
      rcases mul_eq_zero.1 h9 with h0 | h0
      · exact absurd h0 hy.ne'
      · exact sub_eq_zero.1 (pow_eq_zero_iff two_ne_zero |>.1 h0)

theorem Network.Drains.mono {T T' Z Z' : ℤ → Prop} {J J' : ℤ → ℤ → Prop} {nw nw' : Network N S} (h : nw.Drains T Z J)
    (hT : ∀ id, T id → T' id) (hZ : ∀ id, Z' id → Z id) (hJ : ∀ x z, J' x z → J x z) (hn : nw'.nodes = nw.nodes)
    (hP : ∀ i j, nw'.P1 i j = nw.P1 i j) : nw'.Drains T' Z' J' := by
  obtain ⟨d, B, h1, h2, h3, h4, h5, h6⟩ := h.ex
  refine ⟨⟨d, B, by rw [Matrix.ext hP]; exact h1, h2, h3, fun a ha => h4 a fun e => ha (by rw [hn]; exact hT _ e),
    fun a ha => h5 a (hZ _ (by rw [hn] at ha; exact ha)), fun v hv a b hab => h6 v hv a b (hJ _ _ (by rw [hn] at hab; exact hab))⟩⟩

/-- The node a resistor to ground is at. -/
def Call.Grounds : Call → ℤ → Prop
  | .ground id _ _, x => x = id
  | .shortGround id, x => x = id
  | _, _ => False

/-- The nodes a resistor is between. -/
def Call.Joins : Call → ℤ → ℤ → Prop
  | .branch id id' _ _, x, y => x = id ∧ y = id'
  | .short id id', x, y => x = id ∧ y = id'
  | _, _, _ => False

theorem drains_call {T Z : ℤ → Prop} {J : ℤ → ℤ → Prop} {nw nw' : Network N S} {c : Call} (hp : nw.Drains T Z J)
    (hi : nw.IdsInjective) (hc : c.Positive) (hl : ∀ id R L C Vt, c ≠ .groundLCpRs id R L C Vt)
    (hT : ¬ c.IsBranch → ∀ id ∈ c.nodes, ¬ T id) (h : nw.call c = .ok nw') :
    nw'.Drains (fun id => T id ∨ (c.IsBranch ∧ id ∈ c.nodes)) (fun id => Z id ∨ c.Grounds id)
      (fun x y => J x y ∨ c.Joins x y) := by
  obtain ⟨E, hE, rfl⟩ := call_ok_iff.1 h
  cases c with
  | ground id R Vt =>
    obtain ⟨a, ha, -, rfl⟩ := hE
    have hR : (0 : ℝ) < R := hc
    refine hp.set hi (fun _ => Or.inl) (a := a) (y := -1 / R)
      (by rw [find_some ha]; exact hT (by simp [Call.IsBranch]) id (by simp [Call.nodes]))
      (by rw [neg_div]; exact neg_lt_zero.2 (by positivity)) ?_ (fun x y hxy => hxy.elim (fun h => h) False.elim)
      (fun i j => by simp [hR.ne'])
    rintro x (hx | hx)
    · exact .inl hx
    · right; rw [find_some ha]; exact hx
  | groundLCpRs id R L C Vt => exact absurd rfl (hl _ _ _ _ _)
  | groundC id C Vt =>
    obtain ⟨a, ha, rfl⟩ := hE
    exact hp.mono (fun _ => Or.inl) (fun x hx => hx.elim (fun h => h) False.elim)
      (fun x y hx => hx.elim (fun h => h) False.elim) rfl fun i j => add_zero _
  | shortGround id =>
    obtain ⟨a, ha, rfl⟩ := hE
    refine hp.set hi (fun _ => Or.inl) (a := a) (y := -10 ^ 10)
      (by rw [find_some ha]; exact hT (by simp [Call.IsBranch]) id (by simp [Call.nodes]))
      (by norm_num) ?_ (fun x y hxy => hxy.elim (fun h => h) False.elim) (fun i j => rfl)
    rintro x (hx | hx)
    · exact .inl hx
    · right; rw [find_some ha]; exact hx
  | branch id1 id2 R Vt =>
    obtain ⟨a, b, ha, hb, -, rfl⟩ := hE
    have hR : (0 : ℝ) < R := hc
    refine hp.branch (nw' := Effect.apply _ nw) hi (a := a) (b := b) (y := 1 / R) (fun _ => Or.inl)
      (Or.inr ⟨trivial, by rw [find_some ha]; simp [Call.nodes]⟩)
      (Or.inr ⟨trivial, by rw [find_some hb]; simp [Call.nodes]⟩) (by positivity)
      (fun x hx => hx.elim (fun h => h) False.elim) ?_ rfl fun i j => rfl
    rw [find_some ha, find_some hb]
    exact fun x y h => h
  | short id1 id2 =>
    obtain ⟨a, b, ha, hb, rfl⟩ := hE
    refine hp.branch (nw' := Effect.apply _ nw) hi (a := a) (b := b) (y := 10 ^ 10) (fun _ => Or.inl)
      (Or.inr ⟨trivial, by rw [find_some ha]; simp [Call.nodes]⟩)
      (Or.inr ⟨trivial, by rw [find_some hb]; simp [Call.nodes]⟩) (by positivity)
      (fun x hx => hx.elim (fun h => h) False.elim) ?_ rfl fun i j => rfl
    rw [find_some ha, find_some hb]
    exact fun x y h => h

theorem drains_calls : ∀ {l : List Call} {T Z : ℤ → Prop} {J : ℤ → ℤ → Prop} {nw nw' : Network N S}, nw.Drains T Z J →
    nw.IdsInjective → (∀ c ∈ l, c.Positive) → (∀ c ∈ l, ∀ id R L C Vt, c ≠ .groundLCpRs id R L C Vt) →
    (∀ c ∈ l, ¬ c.IsBranch → ∀ id ∈ c.nodes, ¬ T id) →
    l.Pairwise (fun c c' => c.IsBranch → ¬ c'.IsBranch → ∀ id ∈ c.nodes, id ∉ c'.nodes) → nw.calls l = .ok nw' →
    ∃ T', nw'.Drains T' (fun id => Z id ∨ ∃ c ∈ l, c.Grounds id) (fun x y => J x y ∨ ∃ c ∈ l, c.Joins x y)
  | [], T, Z, J, nw, nw', hp, _, _, _, _, _, h => by
    rw [calls_nil] at h
    subst h
    exact ⟨T, hp.mono (fun _ h => h) (by simp) (by simp) rfl fun _ _ => rfl⟩
  | c :: l, T, Z, J, nw, nw', hp, hi, h1, h1', h2, h3, h => by
    obtain ⟨nw1, h4, h5⟩ := calls_cons.1 h
    have hp1 := drains_call hp hi (h1 c List.mem_cons_self) (h1' c List.mem_cons_self) (h2 c List.mem_cons_self) h4
    have hn := call_nodes h4
    obtain ⟨T', h6⟩ := drains_calls hp1 (by unfold Network.IdsInjective; rw [hn]; exact hi)
      (fun c' hc' => h1 c' (List.mem_cons_of_mem _ hc')) (fun c' hc' => h1' c' (List.mem_cons_of_mem _ hc')) (by
        rintro c' hc' hb id hid (hT | ⟨hcb, hcid⟩)
        · exact h2 c' (List.mem_cons_of_mem _ hc') hb id hid hT
        · exact (List.pairwise_cons.1 h3).1 c' hc' hcb hb id hcid hid) (List.pairwise_cons.1 h3).2 h5
    refine ⟨T', h6.mono (fun _ h => h) ?_ ?_ rfl fun _ _ => rfl⟩
    · rintro x (hx | ⟨c', hc', hx⟩)
      · exact .inl (.inl hx)
      · rcases List.mem_cons.1 hc' with rfl | hc'
        · exact .inl (.inr hx)
        · exact .inr ⟨c', hc', hx⟩
    · rintro x y (hx | ⟨c', hc', hx⟩)
      · exact .inl (.inl hx)
      · rcases List.mem_cons.1 hc' with rfl | hc'
        · exact .inl (.inr hx)
        · exact .inr ⟨c', hc', hx⟩

/-- Where no current flows in the resistors, grounded nodes have no voltage. -/
theorem NetPlan.Grounded.kernel {Q : NetPlan p} {nw nw' : Network N S} (h0 : nw.P1 = 0) (hi : nw.IdsInjective)
    (hpos : ∀ c ∈ Q.calls, c.Positive) (hl : ∀ c ∈ Q.calls, ∀ id R L C Vt, c ≠ .groundLCpRs id R L C Vt)
    (hord : Q.calls.Pairwise fun c c' => c.IsBranch → ¬ c'.IsBranch → ∀ id ∈ c.nodes, id ∉ c'.nodes)
    (h : nw.calls Q.calls = .ok nw') {v : Fin N → ℝ} (hv : nw'.P1 *ᵥ v = 0) {id : ℤ} (hg : Q.Grounded id) (a : Fin N)
    (ha : (nw'.nodes a).id = id) : v a = 0 := by
  obtain ⟨T', hD⟩ := drains_calls (T := fun _ => False) (Z := fun _ => False) (J := fun _ _ => False)
    ⟨0, 0, by rw [h0]; ext i j; simp [diagonal], fun _ => le_rfl, fun v => by simp, fun _ _ => rfl, fun _ h => h.elim,
      fun _ _ _ _ h => h.elim⟩ hi hpos hl (fun _ _ _ _ _ h => h) hord h
  obtain ⟨k1, k2⟩ := hD.kernel (v := v) (by show v ⬝ᵥ (nw'.P1 *ᵥ v) = 0; rw [hv]; simp)
  have hex : ∀ c ∈ Q.calls, ∀ id ∈ c.nodes, ∃ a, (nw'.nodes a).id = id := by
    have key : ∀ {l : List Call} {nw nw' : Network N S}, nw.calls l = .ok nw' →
        (∀ a, (nw'.nodes a) = nw.nodes a) ∧ ∀ c ∈ l, ∀ id ∈ c.nodes, ∃ a, (nw.nodes a).id = id := by
      intro l
      induction l with
      | nil => intro nw nw' h; rw [calls_nil] at h; subst h; simp
      | cons c l ih =>
        intro nw nw' h
        obtain ⟨nw1, h4, h5⟩ := calls_cons.1 h
        have hn := call_nodes h4
        obtain ⟨i1, i2⟩ := ih h5
        rw [hn] at i1 i2
        refine ⟨i1, fun c' hc' id hid => ?_⟩
        rcases List.mem_cons.1 hc' with rfl | hc'
        · obtain ⟨E, hE, -⟩ := call_ok_iff.1 h4
          cases c' with
          | ground id' R Vt => obtain ⟨a, ha, -⟩ := hE; exact ⟨a, by simp [Call.nodes] at hid; rw [hid]; exact find_some ha⟩
          | groundLCpRs id' R L C Vt =>
            obtain ⟨a, -, -, ha, -⟩ := hE; exact ⟨a, by simp [Call.nodes] at hid; rw [hid]; exact find_some ha⟩
          | groundC id' C Vt => obtain ⟨a, ha, -⟩ := hE; exact ⟨a, by simp [Call.nodes] at hid; rw [hid]; exact find_some ha⟩
          | shortGround id' => obtain ⟨a, ha, -⟩ := hE; exact ⟨a, by simp [Call.nodes] at hid; rw [hid]; exact find_some ha⟩
          | branch id1 id2 R Vt =>
            obtain ⟨a, b, ha, hb, -⟩ := hE
            simp [Call.nodes] at hid
            rcases hid with rfl | rfl
            · exact ⟨a, find_some ha⟩
            · exact ⟨b, find_some hb⟩
          | short id1 id2 =>
            obtain ⟨a, b, ha, hb, -⟩ := hE
            simp [Call.nodes] at hid
            rcases hid with rfl | rfl
            · exact ⟨a, find_some ha⟩
            · exact ⟨b, find_some hb⟩
        · exact i2 c' hc' id hid
    obtain ⟨e1, e2⟩ := key h
    intro c hc id hid
    obtain ⟨a, ha⟩ := e2 c hc id hid
    exact ⟨a, by rw [e1]; exact ha⟩
  induction hg generalizing a with
  | ground hm => exact k1 a (.inr ⟨_, hm, ha⟩)
  | shortGround hm => exact k1 a (.inr ⟨_, hm, ha⟩)
  | branch hm _ ih =>
    obtain ⟨b, hb⟩ := hex _ hm _ List.mem_cons_self
    rw [← k2 b a (.inr ⟨_, hm, hb, ha⟩)]
    exact ih b hb
  | branch' hm _ ih =>
    obtain ⟨b, hb⟩ := hex _ hm _ (List.mem_cons_of_mem _ List.mem_cons_self)
    rw [k2 a b (.inr ⟨_, hm, ha, hb⟩)]
    exact ih b hb
  | short hm _ ih =>
    obtain ⟨b, hb⟩ := hex _ hm _ List.mem_cons_self
    rw [← k2 b a (.inr ⟨_, hm, hb, ha⟩)]
    exact ih b hb
  | short' hm _ ih =>
    obtain ⟨b, hb⟩ := hex _ hm _ (List.mem_cons_of_mem _ List.mem_cons_self)
    rw [k2 a b (.inr ⟨_, hm, ha, hb⟩)]
    exact ih b hb

end Mtln
