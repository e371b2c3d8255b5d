import Verif.Spec.ManagerEnergy
import Verif.Lemmas.Energy
import Verif.Lemmas.ManagerComb

/-! # Energy balance of the manager -/

namespace Mtln

open Matrix

variable {n p N S : ℕ}

/-! ## Bundles -/

/-- Summation by parts without the end nodes. -/
theorem inner_sum {M : ℕ} {dt : ℝ} {du A P Q : ℕ → ℝ} (hA0 : A 0 = 0) (hAm : A (M + 1) = 0)
    (hi : ∀ k, 0 < k → k ≤ M → (du (k - 1) + du k) / 2 * A k ≤ -(dt * (P k - Q (k - 1)))) :
    ∑ k ∈ Finset.range (M + 1), du k / 2 * (A k + A (k + 1))
      ≤ dt * (∑ k ∈ Finset.range (M + 1), (Q k - P k) + P 0 - Q M) := by
  have key : ∀ j ≤ M, ∑ k ∈ Finset.range j, du k / 2 * (A k + A (k + 1)) + du j / 2 * A j
      ≤ dt * (∑ k ∈ Finset.range j, (Q k - P k) + P 0 - P j) := by
    intro j
    induction j with
    | zero => intro _; simp [hA0]
    | succ j ih =>
      intro hj
      have := ih (by omega)
      have h1 := hi (j + 1) (by omega) hj
      simp only [Nat.add_sub_cancel] at h1
      rw [Finset.sum_range_succ, Finset.sum_range_succ]
      nlinarith
  have := key M le_rfl
  rw [Finset.sum_range_succ, Finset.sum_range_succ, hAm]
  nlinarith

/-- One step of a passive line, whatever the new end voltages are: the energy between the ends grows at most by what enters
at the ends and what the excitation delivers. -/
theorem inner_energy_excited {s : MTL n p} {lr : LR n} {cg : CG n} {v' i' : Grid n} (hp : s.Passive)
    (hlr : updateLr s.m s.dt s.dun s.l s.r s.conn = .ok lr) (hcg : updateCg s.m s.dt s.dun s.c s.g = .ok cg)
    {JV JI : Grid n}
    (hv : ∀ k, 0 < k → k < s.m → v' k = cg.vTerm k *ᵥ s.v k - cg.iDiff k *ᵥ (s.i k - s.i (k - 1) + JV k))
    (hi : ∀ k < s.m, i' k = lr.iTerm k *ᵥ s.i k - lr.vDiff k *ᵥ (v' (k + 1) - v' k + JI k)) :
    MTL.energyW { s with v := v', i := i' } (innerWeight s.m) ≤ s.energyW (innerWeight s.m)
      + s.dt * ((v' 0 + s.v 0) ⬝ᵥ s.i 0 - (v' s.m + s.v s.m) ⬝ᵥ s.i (s.m - 1))
      - s.dt * ∑ k ∈ Finset.range s.m, ((if 0 < k then (v' k + s.v k) ⬝ᵥ JV k else 0) + (i' k + s.i k) ⬝ᵥ JI k) := by
  have hdt := hp.dt_pos
  obtain ⟨-, hdetL, hlr⟩ := updateLr_ok_iff.1 hlr
  obtain ⟨-, hdetC, hcg⟩ := updateCg_ok_iff.1 hcg
  obtain ⟨M, hM⟩ : ∃ M, s.m = M + 1 := ⟨s.m - 1, by have := hp.cells; omega⟩
  have hcell : ∀ k < s.m, s.dun k * (i' k ⬝ᵥ ((s.l k + s.conn.e k) *ᵥ i' k))
      - s.dun k * (s.i k ⬝ᵥ ((s.l k + s.conn.e k) *ᵥ s.i k))
      ≤ -(s.dt * ((i' k + s.i k) ⬝ᵥ (v' (k + 1) - v' k + JI k))) := by
    intro k hk
    refine current_energy hdt (hp.dun k hk) (hp.l k hk) (hp.r k hk) ?_
    have h1 := hi k hk
    rw [hlr] at h1
    have h2 := (current_update_iff (L := s.l k) (R := s.r k) (D := s.conn.d k) (E := s.conn.e k)
      (Q1 := s.conn.q1sum k) (Q2 := s.conn.q2sum k) rfl rfl (hdetL k hk) (i' k) (s.i k)
      0 (v' (k + 1) - v' k + JI k) 0 0 0).1 (by
        rw [h1]; simp only [add_zero, smul_zero, sub_zero, mulVec_zero]; rfl)
    rw [hp.q1 k hk, hp.q2 k hk] at h2
    exact h2
  set A : ℕ → ℝ := fun k => innerWeight s.m k * (v' k ⬝ᵥ (s.c k *ᵥ v' k) - s.v k ⬝ᵥ (s.c k *ᵥ s.v k)) with hA
  set P : ℕ → ℝ := fun k => (v' k + s.v k) ⬝ᵥ s.i k + (if 0 < k then (v' k + s.v k) ⬝ᵥ JV k else 0) with hP
  set Q : ℕ → ℝ := fun k => (v' (k + 1) + s.v (k + 1)) ⬝ᵥ s.i k with hQ
  have hA0 : A 0 = 0 := by simp [hA, innerWeight]
  have hAm : A (M + 1) = 0 := by simp [hA, innerWeight, hM]
  have hint : ∀ k, 0 < k → k ≤ M →
      (s.dun (k - 1) + s.dun k) / 2 * A k ≤ -(s.dt * (P k - Q (k - 1))) := by
    intro k h0 hk
    have hkm : k < s.m := by omega
    have h1 := hv k h0 hkm
    rw [hcg] at h1
    have h2 := (voltage_update_iff (C := s.c k) (G := s.g k) rfl rfl (hdetC k hkm.le) (v' k) (s.v k)
      (s.i k - s.i (k - 1) + JV k) 0).1 (by rw [h1, sub_zero]; rfl)
    have hlen : nodalLength s.m s.dun k = (s.dun (k - 1) + s.dun k) / 2 := by
      unfold nodalLength
      rw [if_neg (by omega), if_pos hkm]
      ring
    rw [hlen] at h2
    have hpos : 0 ≤ (s.dun (k - 1) + s.dun k) / 2 := by
      have := hp.dun (k - 1) (by omega)
      have := hp.dun k hkm
      linarith
    have h3 := voltage_energy hdt hpos (hp.c k hkm.le) (hp.g k hkm.le) h2
    have hk1 : k - 1 + 1 = k := by omega
    have hw : innerWeight s.m k = 1 := by unfold innerWeight; rw [if_neg (by omega)]
    simp only [hA, hP, hQ, hw, one_mul, hk1, if_pos h0]
    rw [dotProduct_add, dotProduct_sub] at h3
    linarith
  have hn := inner_sum hA0 hAm hint
  rw [← hM] at hn
  have hQM : Q M = (v' s.m + s.v s.m) ⬝ᵥ s.i (s.m - 1) := by
    have : s.m - 1 = M := by omega
    show (v' (M + 1) + s.v (M + 1)) ⬝ᵥ s.i M = _
    rw [this, ← hM]
  have hP0 : P 0 = (v' 0 + s.v 0) ⬝ᵥ s.i 0 := by simp [hP]
  rw [hQM, hP0] at hn
  have hcs := Finset.sum_le_sum fun k (hk : k ∈ Finset.range s.m) => hcell k (Finset.mem_range.1 hk)
  unfold MTL.energyW MTL.electric MTL.magnetic
  simp only
  rw [Finset.sum_sub_distrib] at hcs
  have e1 : ∑ k ∈ Finset.range s.m, s.dun k / 2 * (A k + A (k + 1))
      = ∑ k ∈ Finset.range s.m, s.dun k / 2 * (innerWeight s.m k * (v' k ⬝ᵥ (s.c k *ᵥ v' k))
          + innerWeight s.m (k + 1) * (v' (k + 1) ⬝ᵥ (s.c (k + 1) *ᵥ v' (k + 1))))
        - ∑ k ∈ Finset.range s.m, s.dun k / 2 * (innerWeight s.m k * (s.v k ⬝ᵥ (s.c k *ᵥ s.v k))
          + innerWeight s.m (k + 1) * (s.v (k + 1) ⬝ᵥ (s.c (k + 1) *ᵥ s.v (k + 1)))) := by
    rw [← Finset.sum_sub_distrib]
    refine Finset.sum_congr rfl fun k _ => ?_
    simp only [hA]; ring
  have e2 : s.dt * ∑ k ∈ Finset.range s.m, (Q k - P k)
      + ∑ k ∈ Finset.range s.m, -(s.dt * ((i' k + s.i k) ⬝ᵥ (v' (k + 1) - v' k + JI k)))
      = s.dt * ∑ k ∈ Finset.range s.m, s.i k ⬝ᵥ (s.v (k + 1) - s.v k)
        - s.dt * ∑ k ∈ Finset.range s.m, i' k ⬝ᵥ (v' (k + 1) - v' k)
        - s.dt * ∑ k ∈ Finset.range s.m, ((if 0 < k then (v' k + s.v k) ⬝ᵥ JV k else 0) + (i' k + s.i k) ⬝ᵥ JI k) := by
    simp only [Finset.mul_sum, ← Finset.sum_sub_distrib, ← Finset.sum_add_distrib]
    refine Finset.sum_congr rfl fun k _ => ?_
    simp only [hP, hQ, dotProduct_comm _ (s.i k), dotProduct_sub, dotProduct_add, add_dotProduct]
    ring
  rw [e1] at hn
  linarith

/-- The same without excitation. -/
theorem inner_energy_step {s : MTL n p} {lr : LR n} {cg : CG n} {v' i' : Grid n} (hp : s.Passive)
    (hlr : updateLr s.m s.dt s.dun s.l s.r s.conn = .ok lr) (hcg : updateCg s.m s.dt s.dun s.c s.g = .ok cg)
    (hv : ∀ k, 0 < k → k < s.m → v' k = cg.vTerm k *ᵥ s.v k - cg.iDiff k *ᵥ (s.i k - s.i (k - 1)))
    (hi : ∀ k < s.m, i' k = lr.iTerm k *ᵥ s.i k - lr.vDiff k *ᵥ (v' (k + 1) - v' k)) :
    MTL.energyW { s with v := v', i := i' } (innerWeight s.m) ≤ s.energyW (innerWeight s.m)
      + s.dt * ((v' 0 + s.v 0) ⬝ᵥ s.i 0 - (v' s.m + s.v s.m) ⬝ᵥ s.i (s.m - 1)) := by
  have := inner_energy_excited (v' := v') (i' := i') (JV := 0) (JI := 0) hp hlr hcg (fun k h0 hk => by rw [hv k h0 hk]; simp)
    fun k hk => by rw [hi k hk]; simp
  simpa using this

/-- The same for a step of a bundle. -/
theorem MTLD.stepWith_energy {b b' : MTLD n p} {time dt : ℝ} {ws : List Write} (hdt : 0 < dt) (hp : b.asLine.Passive)
    (hx : ∀ t, time - 2 * dt ≤ t → (∀ k x, b.eL k x t = 0) ∧ ∀ k x, b.eT k x t = 0)
    (hready : ∀ lr cg, b.lr = some lr → b.cg = some cg →
      updateLr b.m b.dt b.dun b.l b.r b.tz = .ok lr ∧ updateCg b.m b.dt b.dun b.c b.g = .ok cg)
    (hs : b.stepWith time dt ws = .ok b') :
    b'.innerEnergy ≤ b.innerEnergy
      + b.dt * ((b'.v 0 + b.v 0) ⬝ᵥ b.i 0 - (b'.v b.m + b.v b.m) ⬝ᵥ b.i (b.m - 1)) := by
  obtain ⟨lr, cg, hlr, hcg, -, rfl⟩ := MTLD.stepWith_ok_iff.1 hs
  obtain ⟨h1, h2⟩ := hready lr cg hlr hcg
  have eT : ∀ k, (b.sample time dt).eTNow k = 0 ∧ (b.sample time dt).eTPrev k = 0 ∧
      (b.sample time dt).eLNow k = 0 ∧ (b.sample time dt).eLPrev k = 0 := fun k =>
    ⟨funext fun a => (hx _ (by linarith)).2 _ _, funext fun a => (hx _ (by linarith)).2 _ _,
      funext fun a => (hx _ (by linarith)).1 _ _, funext fun a => (hx _ (by linarith)).1 _ _⟩
  refine inner_energy_step (s := b.asLine) (v' := (b.fieldsWith lr cg time dt ws).v)
    (i' := (b.fieldsWith lr cg time dt ws).i) hp h1 h2 ?_ ?_
  · intro k h0 hk
    rw [MTLD.fieldsWith_v]
    funext j
    rw [MTLD.hit_other]
    · show advanceVoltage b.m cg (b.sample time dt) b.v b.i k j = _
      unfold advanceVoltage
      rw [if_pos ⟨h0, hk⟩, (eT k).1, (eT k).2.1, sub_zero, sub_zero]
      rfl
    · rintro w - ⟨-, hw, -⟩
      have hk' : k < b.m := hk
      cases hside : w.target.side <;> rw [hside] at hw <;> simp only [Side.node] at hw <;> omega
  · intro k hk
    rw [MTLD.fieldsWith_i]
    unfold advanceCurrent
    have hk' : k < b.m := hk
    have h3 : b.tz.q3phi b.phi k = 0 := by
      funext a
      have hq : ∀ a c, b.tz.q3 k a c = none := hp.q3 k hk
      simp [Disp.q3phi, hq, QEntry.val, poleSum]
    rw [if_pos hk', (eT k).1, (eT (k + 1)).1, (eT k).2.2.1, (eT k).2.2.2, h3]
    simp
    rfl

/-! ## Networks -/

/-- What the sources and the fields of a network contribute to the equations of a step. -/
noncomputable def Network.drive (nw : Network N S) (time dt : ℝ) : Fin N → ℝ :=
  nw.Ps *ᵥ ((fun a => nw.vSources a time) + fun a => nw.vSources a (time - dt))
    + (1 / dt) • (nw.Qs *ᵥ ((fun a => nw.vSources a time) - fun a => nw.vSources a (time - 2 * dt)))
    - (1 / dt) • (nw.dxc *ᵥ ((fun a => (nw.nodes a).eT time) - fun a => (nw.nodes a).eT (time - dt)))

/-- A step of a network of resistors and capacitors, with what its resistors dissipate. -/
theorem Network.advance_loss {nw nw' : Network N S} {time dt : ℝ} (hdt : 0 < dt) (hr : nw.RC)
    (hp : nw.Prepared dt) (h : nw.advanceVoltage time dt = .ok nw') :
    nw'.energy ≤ nw.energy - dt * ((nw'.v + nw.v) ⬝ᵥ nw.i) + dt / 2 * ((nw'.v + nw.v) ⬝ᵥ nw.drive time dt) +
      dt / 2 * ((nw'.v + nw.v) ⬝ᵥ (nw.P1 *ᵥ (nw'.v + nw.v))) := by
  obtain ⟨-, v', X', h1, -, rfl⟩ := (advance_ok_iff hp).1 h
  unfold Network.NodeEquations at h1
  replace h1 : (1 / dt) • nw.dxc *ᵥ (v' - nw.v) = nw.P1 *ᵥ (v' + nw.v) + (1 / dt) • nw.Q1 *ᵥ (v' - nw.vPrev)
      - (2 : ℝ) • nw.i + nw.drive time dt := by
    rw [h1, hr.O]
    unfold Network.drive
    simp only [zero_mulVec]
    module
  have h2 := congrArg (fun w => dt * ((v' + nw.v) ⬝ᵥ w)) h1
  have hsym : (v' + nw.v) ⬝ᵥ (nw.dxc *ᵥ (v' - nw.v)) = v' ⬝ᵥ (nw.dxc *ᵥ v') - nw.v ⬝ᵥ (nw.dxc *ᵥ nw.v) :=
    dot_diff_of_symm hr.dxc v' nw.v
  have hcap : (v' + nw.v) ⬝ᵥ (nw.Q1 *ᵥ (v' - nw.vPrev)) ≤ ((v' + nw.v) ⬝ᵥ (nw.Q1 *ᵥ (v' + nw.v))
      - (nw.v + nw.vPrev) ⬝ᵥ (nw.Q1 *ᵥ (nw.v + nw.vPrev))) / 2 := by
    have e1 := dot_diff_of_symm hr.Q1_symm (v' + nw.v) (nw.v + nw.vPrev)
    have e2 := hr.Q1 (v' - nw.vPrev)
    rw [show v' + nw.v - (nw.v + nw.vPrev) = v' - nw.vPrev by abel] at e1
    have e3 : (v' - nw.vPrev) ⬝ᵥ (nw.Q1 *ᵥ (v' - nw.vPrev)) = (v' + nw.v) ⬝ᵥ (nw.Q1 *ᵥ (v' - nw.vPrev))
        - (nw.v + nw.vPrev) ⬝ᵥ (nw.Q1 *ᵥ (v' - nw.vPrev)) := by
      rw [← sub_dotProduct, show v' + nw.v - (nw.v + nw.vPrev) = v' - nw.vPrev by abel]
    rw [add_dotProduct (v' + nw.v)] at e1
    linarith
  simp only [dotProduct_smul, dotProduct_sub, dotProduct_add, smul_eq_mul, hsym] at h2
  have h4 : ∀ x : ℝ, dt * (1 / dt * x) = x := fun x => by field_simp
  simp only [mul_sub, mul_add, h4] at h2
  unfold Network.energy Network.cellEnergy Network.capEnergy
  have e : Network.dxc ({ nw with v := v', X := X', vPrev := nw.v } : Network N S) = nw.dxc := rfl
  simp only [e]
  nlinarith

/-- A step of a network of resistors and capacitors. -/
theorem Network.advance_excited {nw nw' : Network N S} {time dt : ℝ} (hdt : 0 < dt) (hr : nw.RC)
    (hp : nw.Prepared dt) (h : nw.advanceVoltage time dt = .ok nw') :
    nw'.energy ≤ nw.energy - dt * ((nw'.v + nw.v) ⬝ᵥ nw.i) + dt / 2 * ((nw'.v + nw.v) ⬝ᵥ nw.drive time dt) := by
  have := Network.advance_loss hdt hr hp h
  nlinarith [hr.P1 (nw'.v + nw.v)]

theorem Network.drive_silent {nw : Network N S} {time dt : ℝ} (hdt : 0 < dt)
    (hx : ∀ t, time - 2 * dt ≤ t → (∀ x, nw.vSources x t = 0) ∧ ∀ x, (nw.nodes x).eT t = 0) : nw.drive time dt = 0 := by
  have es : (fun a => nw.vSources a time) = 0 := funext fun a => (hx _ (by linarith)).1 a
  have es' : (fun a => nw.vSources a (time - dt)) = 0 := funext fun a => (hx _ (by linarith)).1 a
  have es2 : (fun a => nw.vSources a (time - 2 * dt)) = 0 := funext fun a => (hx _ (by linarith)).1 a
  have ee : (fun a => (nw.nodes a).eT time) = 0 := funext fun a => (hx _ (by linarith)).2 a
  have ee' : (fun a => (nw.nodes a).eT (time - dt)) = 0 := funext fun a => (hx _ (by linarith)).2 a
  unfold Network.drive
  simp only [es, es', es2, ee, ee', mulVec_zero, add_zero, sub_zero, smul_zero]

/-- A step of a network of resistors and capacitors without sources. -/
theorem Network.advance_energy {nw nw' : Network N S} {time dt : ℝ} (hdt : 0 < dt) (hr : nw.RC)
    (hp : nw.Prepared dt) (hx : ∀ t, time - 2 * dt ≤ t → (∀ x, nw.vSources x t = 0) ∧ ∀ x, (nw.nodes x).eT t = 0)
    (h : nw.advanceVoltage time dt = .ok nw') :
    nw'.energy ≤ nw.energy - dt * ((nw'.v + nw.v) ⬝ᵥ nw.i) := by
  have key := Network.advance_excited hdt hr hp h
  have e0 := Network.drive_silent hdt hx
  rw [e0, dotProduct_zero, mul_zero, add_zero] at key
  exact key

/-! ## Sums over lists -/

theorem mapPy_sum_le {α β : Type} {f : α → Py β} {g : β → ℝ} {h : α → ℝ} : ∀ {l : List α} {l' : List β},
    mapPy f l = .ok l' → (∀ a ∈ l, ∀ b ∈ l', f a = .ok b → g b ≤ h a) → (l'.map g).sum ≤ (l.map h).sum
  | [], l', e, _ => by
    simp only [mapPy, Except.ok.injEq] at e
    subst e
    simp
  | a :: l, l', e, H => by
    simp only [mapPy, bind_ok_iff, Except.ok.injEq] at e
    obtain ⟨b, h1, l1, h2, rfl⟩ := e
    simp only [List.map_cons, List.sum_cons]
    refine add_le_add (H a (List.mem_cons_self ..) b (List.mem_cons_self ..) h1) (mapPy_sum_le h2 ?_)
    intro a' ha' b' hb'
    exact H a' (List.mem_cons_of_mem _ ha') b' (List.mem_cons_of_mem _ hb')

/-- All ends of all conductors. -/
def allEnds (bs : List (AnyBundle p)) : List End :=
  bs.flatMap fun b => (List.ofFn fun j : Fin b.1 => (⟨b.2.name, j, .S⟩ : End)) ++
    List.ofFn fun j : Fin b.1 => (⟨b.2.name, j, .L⟩ : End)

theorem mem_allEnds {bs : List (AnyBundle p)} {x : End} :
    x ∈ allEnds bs ↔ ∃ b ∈ bs, b.2.name = x.bundle ∧ x.row < b.1 := by
  obtain ⟨nm, row, side⟩ := x
  simp only [allEnds, List.mem_flatMap, List.mem_append, List.mem_ofFn, End.mk.injEq]
  constructor
  · rintro ⟨b, hb, ⟨j, h1, h2, h3⟩ | ⟨j, h1, h2, h3⟩⟩
    · exact ⟨b, hb, h1, h2 ▸ j.2⟩
    · exact ⟨b, hb, h1, h2 ▸ j.2⟩
  · rintro ⟨b, hb, h1, h2⟩
    cases side with
    | S => exact ⟨b, hb, .inl ⟨⟨row, h2⟩, h1, rfl, rfl⟩⟩
    | L => exact ⟨b, hb, .inr ⟨⟨row, h2⟩, h1, rfl, rfl⟩⟩

theorem nodup_allEnds : ∀ {bs : List (AnyBundle p)}, (bs.map fun b => b.2.name).Nodup → (allEnds bs).Nodup
  | [], _ => by simp [allEnds]
  | b :: bs, h => by
    simp only [List.map_cons, List.nodup_cons] at h
    have e : allEnds (b :: bs) = ((List.ofFn fun j : Fin b.1 => (⟨b.2.name, j, .S⟩ : End)) ++
      List.ofFn fun j : Fin b.1 => (⟨b.2.name, j, .L⟩ : End)) ++ allEnds bs := rfl
    rw [e, List.nodup_append]
    refine ⟨?_, nodup_allEnds h.2, ?_⟩
    · rw [List.nodup_append]
      refine ⟨?_, ?_, ?_⟩
      · rw [List.nodup_ofFn]
        intro j j' e
        simp only [End.mk.injEq, true_and, and_true] at e
        exact Fin.ext e
      · rw [List.nodup_ofFn]
        intro j j' e
        simp only [End.mk.injEq, true_and, and_true] at e
        exact Fin.ext e
      · intro x hx y hy e
        simp only [List.mem_ofFn] at hx hy
        obtain ⟨j, rfl⟩ := hx
        obtain ⟨j', rfl⟩ := hy
        simp at e
    · intro x hx y hy e
      subst e
      obtain ⟨b', hb', hn, -⟩ := mem_allEnds.1 hy
      have : x.bundle = b.2.name := by
        simp only [List.mem_append, List.mem_ofFn] at hx
        rcases hx with ⟨j, rfl⟩ | ⟨j, rfl⟩ <;> rfl
      exact h.1 (List.mem_map.2 ⟨b', hb', hn.trans this⟩)

/-- A sum over all ends is a sum over the ends with nodes if it vanishes elsewhere. -/
theorem sum_ends {bs : List (AnyBundle p)} (hn : (bs.map fun b => b.2.name).Nodup) {l : List End} (hl : l.Nodup)
    (hsub : ∀ x ∈ l, x ∈ allEnds bs) {f : End → ℝ} (hf : ∀ x ∈ allEnds bs, x ∉ l → f x = 0) :
    ((allEnds bs).map f).sum = (l.map f).sum := by
  rw [← List.sum_toFinset f (nodup_allEnds hn), ← List.sum_toFinset f hl]
  symm
  refine Finset.sum_subset ?_ ?_
  · intro x hx
    rw [List.mem_toFinset] at hx ⊢
    exact hsub x hx
  · intro x hx hx'
    rw [List.mem_toFinset] at hx hx'
    exact hf x hx hx'

theorem sum_allEnds (bs : List (AnyBundle p)) (f : End → ℝ) : ((allEnds bs).map f).sum =
    (bs.map fun b => ∑ j : Fin b.1, f ⟨b.2.name, j, .S⟩ + ∑ j : Fin b.1, f ⟨b.2.name, j, .L⟩).sum := by
  induction bs with
  | nil => simp [allEnds]
  | cons b bs ih =>
    have e : allEnds (b :: bs) = ((List.ofFn fun j : Fin b.1 => (⟨b.2.name, j, .S⟩ : End)) ++
      List.ofFn fun j : Fin b.1 => (⟨b.2.name, j, .L⟩ : End)) ++ allEnds bs := rfl
    rw [e]
    simp only [List.map_append, List.sum_append, ih, List.map_cons, List.sum_cons, List.map_ofFn, List.sum_ofFn,
      Function.comp_def]

theorem sum_allNodes (nws : List NetworkD) (f : End → ℝ) : (((allNodes nws).map Node.end').map f).sum =
    (nws.map fun nwd => (nwd.map fun e => ∑ a, f (e.2.2.2.nodes a).end').sum).sum := by
  induction nws with
  | nil => simp [allNodes]
  | cons nwd nws ih =>
    have e : allNodes (nwd :: nws) = (nwd.flatMap fun e => List.ofFn e.2.2.2.nodes) ++ allNodes nws := rfl
    rw [e]
    simp only [List.map_append, List.sum_append, ih, List.map_cons, List.sum_cons]
    congr 1
    clear ih e
    induction nwd with
    | nil => simp
    | cons e nwd ih =>
      simp only [List.flatMap_cons, List.map_append, List.sum_append, ih, List.map_cons, List.sum_cons, List.map_ofFn,
        List.sum_ofFn, Function.comp_def]

/-- Bundles with distinct names are found. -/
theorem findBundle_mem : ∀ {bs : List (AnyBundle p)}, (bs.map fun b => b.2.name).Nodup → ∀ b ∈ bs,
    findBundle bs b.2.name = some b
  | [], _, b, hb => by simp at hb
  | c :: bs, h, b, hb => by
    simp only [List.map_cons, List.nodup_cons] at h
    unfold findBundle
    rcases List.mem_cons.1 hb with rfl | hb
    · simp
    · rw [List.find?_cons_of_neg]
      · exact findBundle_mem h.2 b hb
      · simp only [decide_eq_true_eq]
        intro e
        exact h.1 (List.mem_map.2 ⟨b, hb, e.symm⟩)

theorem endV_eq {bs : List (AnyBundle p)} (hn : (bs.map fun b => b.2.name).Nodup) {b : AnyBundle p} (hb : b ∈ bs)
    (j : Fin b.1) (side : Side) : endV bs ⟨b.2.name, j, side⟩ = b.2.v (side.node b.2.m) j := by
  unfold endV
  simp only [findBundle_mem hn b hb, j.2, dif_pos]

theorem endI_eq {bs : List (AnyBundle p)} (hn : (bs.map fun b => b.2.name).Nodup) {b : AnyBundle p} (hb : b ∈ bs)
    (j : Fin b.1) (side : Side) : endI bs ⟨b.2.name, j, side⟩ = side.factor * b.2.i (side.cell b.2.m) j := by
  unfold endI
  simp only [findBundle_mem hn b hb, j.2, dif_pos]

/-! ## One step -/

theorem Side.node_inj {m : ℕ} (hm : m ≠ 0) : ∀ {s t : Side}, s.node m = t.node m → s = t
  | .S, .S, _ => rfl
  | .L, .L, _ => rfl
  | .S, .L, h => absurd h.symm hm
  | .L, .S, h => absurd h hm

/-- The outcome of a step at the ends: an end with a node has the voltage the network computed, any other end keeps its
voltage. -/
theorem step_endV {time dt : ℝ} {ws : List Write} {bs bs2 : List (AnyBundle p)}
    (h : mapPy (onBundle (MTLD.stepWith time dt ws)) bs = .ok bs2) (hws : (ws.map Write.target).Nodup)
    (hm : ∀ b ∈ bs, b.2.m ≠ 0) : (∀ w ∈ ws, w.Valid bs → endV bs2 w.target = w.value) ∧
      ∀ x, x ∉ ws.map Write.target → endV bs2 x = endV bs x := by
  have hfind := mapPy_onBundle_find (f := MTLD.stepWith time dt ws) stepWith_name h
  constructor
  · rintro w hw ⟨b, hb, hrow⟩
    obtain ⟨c, hc, hf⟩ := (hfind w.bundle).2 b hb
    obtain ⟨lr, cg, -, -, -, rfl⟩ := MTLD.stepWith_ok_iff.1 hc
    unfold endV
    rw [show w.target.bundle = w.bundle from rfl, hf]
    simp only
    rw [dif_pos (show w.target.row < b.1 from hrow)]
    show (MTLD.hit ws _).v _ _ = _
    have hm' : (b.2.fieldsWith lr cg time dt ws).m = b.2.m := rfl
    rw [hm']
    refine MTLD.hit_value ⟨w, hw, (findBundle_some hb).2, rfl, rfl⟩ ?_
    rintro w' hw' ⟨h1, h2, h3⟩
    have hside : w'.side = w.side := (Side.node_inj (hm b (findBundle_some hb).1) h2).symm
    have hname : w'.bundle = w.bundle := by
      rw [← (findBundle_some hb).2]; exact h1.symm
    have hrow' : w'.row = w.row := h3.symm
    have : w' = w := List.inj_on_of_nodup_map hws hw' hw (by
      simp only [Write.target, hside, hname, hrow'])
    rw [this]
  · intro x hx
    unfold endV
    cases hf0 : findBundle bs x.bundle with
    | none => rw [(hfind x.bundle).1 hf0]
    | some b =>
      obtain ⟨c, hc, hf⟩ := (hfind x.bundle).2 b hf0
      obtain ⟨lr, cg, -, -, -, rfl⟩ := MTLD.stepWith_ok_iff.1 hc
      rw [hf]
      simp only
      have hm' : (b.2.fieldsWith lr cg time dt ws).m = b.2.m := rfl
      split
      · rename_i hrow
        show (MTLD.hit ws _).v _ _ = _
        rw [hm', MTLD.hit_other]
        · show advanceVoltage b.2.m cg _ _ _ _ _ = _
          unfold advanceVoltage
          rw [if_neg]
          cases x.side <;> simp [Side.node]
        · rintro w hw ⟨h1, h2, h3⟩
          refine hx (List.mem_map.2 ⟨w, hw, ?_⟩)
          obtain ⟨nm, row, side⟩ := x
          have e1 := (findBundle_some hf0).2
          have hside : w.side = side := (Side.node_inj (hm b (findBundle_some hf0).1) h2).symm
          have hname : w.bundle = nm := by
            have : b.2.name = w.bundle := h1
            rw [← this]; exact e1
          have hrow' : w.row = row := h3.symm
          simp only [Write.target, hside, hname, hrow']
      · rfl

theorem readCurrent_endI {bs : List (AnyBundle p)} {d : Node} {x : ℝ} (h : readCurrent bs d = .ok x) :
    x = endI bs d.end' := by
  unfold readCurrent at h
  unfold endI
  rw [show d.end'.bundle = d.bundleName from rfl]
  cases hf : findBundle bs d.bundleName with
  | none => rw [hf] at h; simp at h
  | some b =>
    rw [hf] at h
    simp only at h ⊢
    split at h
    · rename_i hc
      rw [dif_pos (show d.end'.row < b.1 from hc.1)]
      exact (Except.ok.inj h).symm
    · simp at h

/-- What a step of the manager does to networks. -/
theorem step_networks {M M' : MTLN p} (h : M.step = .ok M') : ∃ nws1, mapPy (NetworkD.advanceVoltage M.time M.dt)
    M.networks = .ok nws1 ∧ mapPy (NetworkD.updateCurrents M'.bundles) nws1 = .ok M'.networks := by
  obtain ⟨nws1, bs2, nws2, h1, -, -, h4, rfl⟩ := MTLN.step_ok_iff.1 h
  exact ⟨nws1, h1, h4⟩

theorem NetworkD.advance_mem {time dt : ℝ} {nws nws1 : List NetworkD}
    (h : mapPy (NetworkD.advanceVoltage time dt) nws = .ok nws1) {nwd1 : NetworkD} (hn : nwd1 ∈ nws1)
    {e1 : ℕ × AnyNetwork} (he : e1 ∈ nwd1) : ∃ nwd ∈ nws, ∃ e ∈ nwd, ∃ nw' : Network e.2.1 e.2.2.1,
      e.2.2.2.advanceVoltage time dt = .ok nw' ∧ e1 = (e.1, ⟨e.2.1, e.2.2.1, nw'⟩) := by
  obtain ⟨nwd, hnwd, hf⟩ := mapPy_mem h nwd1 hn
  obtain ⟨e, he', hg⟩ := mapPy_mem hf e1 he
  simp only [bind_ok_iff, onAny_ok_iff, Except.ok.injEq] at hg
  obtain ⟨_, ⟨c, hc, rfl⟩, rfl⟩ := hg
  exact ⟨nwd, hnwd, e, he', c, hc, rfl⟩

theorem NetworkD.currents_mem {bs : List (AnyBundle p)} {nws nws1 : List NetworkD}
    (h : mapPy (NetworkD.updateCurrents bs) nws = .ok nws1) {nwd1 : NetworkD} (hn : nwd1 ∈ nws1)
    {e1 : ℕ × AnyNetwork} (he : e1 ∈ nwd1) : ∃ nwd ∈ nws, ∃ e ∈ nwd, ∃ i' : Fin e.2.1 → ℝ,
      (∀ a, i' a = endI bs (e.2.2.2.nodes a).end') ∧ e1 = (e.1, ⟨e.2.1, e.2.2.1, { e.2.2.2 with i := i' }⟩) := by
  obtain ⟨nwd, hnwd, hf⟩ := mapPy_mem h nwd1 hn
  obtain ⟨e, he', hg⟩ := mapPy_mem hf e1 he
  simp only [bind_ok_iff, onAny_ok_iff, Except.ok.injEq] at hg
  obtain ⟨_, ⟨c, hc, rfl⟩, rfl⟩ := hg
  obtain ⟨i', hi, rfl⟩ := updateCurrents_ok_iff.1 hc
  exact ⟨nwd, hnwd, e, he', i', fun a => readCurrent_endI (hi a), rfl⟩

theorem mem_allWrites {nws : List NetworkD} {nwd : NetworkD} (h : nwd ∈ nws) {e : ℕ × AnyNetwork} (he : e ∈ nwd)
    (a : Fin e.2.1) : ∃ w ∈ allWrites nws, w.target = (e.2.2.2.nodes a).end' ∧ w.value = e.2.2.2.v a := by
  refine ⟨⟨(e.2.2.2.nodes a).bundleName, (e.2.2.2.nodes a).lineIndex, (e.2.2.2.nodes a).side, e.2.2.2.v a⟩, ?_, rfl, rfl⟩
  simp only [allWrites, NetworkD.writes, List.mem_flatMap]
  exact ⟨nwd, h, e, he, by simp only [Network.writes, List.mem_ofFn]; exact ⟨a, rfl⟩⟩

/-- A passive manager, prepared and with consistent ends. -/
structure MTLN.Sound (M : MTLN p) : Prop where
  dt : 0 < M.dt
  passive : M.Passive
  linked : M.Linked
  ready : M.Ready

theorem MTLN.Unexcited.silent {M : MTLN p} (h : M.Unexcited) (t₀ : ℝ) : M.SilentFrom t₀ :=
  ⟨fun b hb t _ => ⟨fun k x => (h.bundles b hb).1 k x t, fun k x => (h.bundles b hb).2 k x t⟩,
    fun nwd hn e he t _ => ⟨fun x => (h.networks nwd hn e he).1 x t, fun x => (h.networks nwd hn e he).2 x t⟩⟩

theorem MTLN.SilentFrom.mono {M : MTLN p} {t₀ t₁ : ℝ} (h : M.SilentFrom t₀) (ht : t₀ ≤ t₁) : M.SilentFrom t₁ :=
  ⟨fun b hb t h1 => h.bundles b hb t (ht.trans h1), fun nwd hn e he t h1 => h.networks nwd hn e he t (ht.trans h1)⟩

/-- A step of a sound manager: whatever its sources, the result is one; the energy grows at most by what the sources
deliver to bundles and networks. -/
theorem MTLN.Sound.step_excited {M M' : MTLN p} (hM : M.Sound) (h : M.step = .ok M') :
    (M'.Sound ∧ M'.time = M.time + M.dt ∧ M'.dt = M.dt ∧ ∀ t₀, M.SilentFrom t₀ → M'.SilentFrom t₀) ∧
      ∀ (F : AnyBundle p → ℝ) (H : ℕ × AnyNetwork → ℝ),
        (∀ b ∈ M.bundles, ∀ b' : MTLD b.1 p, ⟨b.1, b'⟩ ∈ M'.bundles → ∀ ws, b.2.stepWith M.time M.dt ws = .ok b' →
          b'.innerEnergy ≤ b.2.innerEnergy + b.2.dt * ((b'.v 0 + b.2.v 0) ⬝ᵥ b.2.i 0
            - (b'.v b.2.m + b.2.v b.2.m) ⬝ᵥ b.2.i (b.2.m - 1)) + F b) →
        (∀ nwd ∈ M.networks, ∀ e ∈ nwd, ∀ nw', e.2.2.2.advanceVoltage M.time M.dt = .ok nw' →
          (∀ a, nw'.v a = endV M'.bundles (e.2.2.2.nodes a).end') →
          nw'.energy ≤ e.2.2.2.energy - M.dt * ((nw'.v + e.2.2.2.v) ⬝ᵥ e.2.2.2.i) + H e) →
        M'.energy ≤ M.energy + ((M.bundles.map F).sum + (M.networks.map fun nwd => (nwd.map H).sum).sum) := by
  obtain ⟨nws1, bs2, nws2, h1, hvalid, h3, h4, he⟩ := MTLN.step_ok_iff.1 h
  have hn := hM.passive.names
  have hm : ∀ b ∈ M.bundles, b.2.m ≠ 0 := fun b hb => by
    have : 0 < b.2.m := (hM.passive.bundles b hb).1.cells
    omega
  have htargets : (allWrites nws1).map Write.target = (allNodes M.networks).map Node.end' := by
    rw [allWrites_target, allNodes_advance h1]
  have hends : ((allWrites nws1).map Write.target).Nodup := by rw [htargets]; exact hM.passive.ends
  obtain ⟨hval, hfree⟩ := step_endV h3 hends hm
  have hnames : bs2.map (fun b => b.2.name) = M.bundles.map fun b => b.2.name := by
    clear hval hfree hvalid hends htargets h h4 he
    have key : ∀ {l l' : List (AnyBundle p)}, mapPy (onBundle (MTLD.stepWith M.time M.dt (allWrites nws1))) l = .ok l' →
        l'.map (fun b => b.2.name) = l.map fun b => b.2.name := by
      intro l
      induction l with
      | nil => intro l' e; simp only [mapPy, Except.ok.injEq] at e; subst e; rfl
      | cons b l ih =>
        intro l' e
        simp only [mapPy, bind_ok_iff, Except.ok.injEq, onBundle_ok_iff] at e
        obtain ⟨_, ⟨c, e1, rfl⟩, l1, e2, rfl⟩ := e
        simp only [List.map_cons, ih e2, stepWith_name e1]
    exact key h3
  have hv1 : ∀ nwd ∈ nws1, ∀ e ∈ nwd, ∀ a, e.2.2.2.v a = endV bs2 (e.2.2.2.nodes a).end' := by
    intro nwd hnwd e he a
    obtain ⟨w, hw, ht, hvw⟩ := mem_allWrites hnwd he a
    rw [← ht, hval w hw (hvalid w hw), hvw]
  have hnodes : allNodes nws2 = allNodes M.networks := by rw [allNodes_currents h4, allNodes_advance h1]
  have hbundle : ∀ b' ∈ bs2, ∃ b ∈ M.bundles, ∃ v i phi probes,
      b' = ⟨b.1, { b.2 with v := v, i := i, phi := phi, probes := probes }⟩ := by
    intro b' hb'
    obtain ⟨b, hb, hs⟩ := mapPy_mem h3 b' hb'
    obtain ⟨c, hc, rfl⟩ := onBundle_ok_iff.1 hs
    obtain ⟨v, i, phi, probes, rfl⟩ := MTLD.stepWith_config hc
    exact ⟨b, hb, v, i, phi, probes, rfl⟩
  have hnet : ∀ nwd2 ∈ nws2, ∀ e2 ∈ nwd2, ∃ nwd ∈ M.networks, ∃ e ∈ nwd, ∃ v vPrev i X,
      e2 = (e.1, ⟨e.2.1, e.2.2.1, { e.2.2.2 with v := v, vPrev := vPrev, i := i, X := X }⟩) := by
    intro nwd2 hn2 e2 he2
    obtain ⟨nwd1, hn1, e1, he1, i', -, rfl⟩ := NetworkD.currents_mem h4 hn2 he2
    obtain ⟨nwd, hn0, e, he0, nw', hnw, rfl⟩ := NetworkD.advance_mem h1 hn1 he1
    obtain ⟨v, X, rfl⟩ := advanceVoltage_rest hnw
    exact ⟨nwd, hn0, e, he0, v, _, i', X, rfl⟩
  subst he
  constructor
  · refine ⟨⟨hM.dt, ⟨?_, ?_, ?_, ?_⟩, ⟨?_, ?_, ?_⟩, ⟨?_, ?_⟩⟩, rfl, rfl, fun t₀ ht₀ => ⟨?_, ?_⟩⟩
    · rw [hnames]; exact hn
    · intro b' hb'
      obtain ⟨b, hb, v, i, phi, probes, rfl⟩ := hbundle b' hb'
      obtain ⟨hp, hd⟩ := hM.passive.bundles b hb
      exact ⟨⟨hp.1, hp.2, hp.3, hp.4, hp.5, hp.6, hp.7, hp.8, hp.9, hp.10, hp.11, hp.12⟩, hd⟩
    · intro nwd2 hn2 e2 he2
      obtain ⟨nwd, hn0, e, he0, v, vPrev, i, X, rfl⟩ := hnet nwd2 hn2 e2 he2
      have hr := hM.passive.networks nwd hn0 e he0
      exact ⟨hr.1, hr.2, hr.3, hr.4, hr.5⟩
    · show ((allNodes nws2).map Node.end').Nodup
      rw [hnodes]; exact hM.passive.ends
    · intro nwd2 hn2 e2 he2 a
      obtain ⟨nwd1, hn1, e1, he1, i', -, rfl⟩ := NetworkD.currents_mem h4 hn2 he2
      exact hv1 nwd1 hn1 e1 he1 a
    · intro nwd2 hn2 e2 he2 a
      obtain ⟨nwd1, hn1, e1, he1, i', hi', rfl⟩ := NetworkD.currents_mem h4 hn2 he2
      exact hi' a
    · intro x hx
      have hx' : x ∉ (allNodes M.networks).map Node.end' := by rw [← hnodes]; exact hx
      show endV bs2 x = 0
      rw [hfree x (by rw [htargets]; exact hx')]
      exact hM.linked.free x hx'
    · intro b' hb' lr cg
      obtain ⟨b, hb, v, i, phi, probes, rfl⟩ := hbundle b' hb'
      exact hM.ready.bundles b hb lr cg
    · intro nwd2 hn2 e2 he2
      obtain ⟨nwd, hn0, e, he0, v, vPrev, i, X, rfl⟩ := hnet nwd2 hn2 e2 he2
      exact (hM.ready.networks nwd hn0 e he0).congr ⟨v, vPrev, i, X, rfl⟩
    · intro b' hb'
      obtain ⟨b, hb, v, i, phi, probes, rfl⟩ := hbundle b' hb'
      exact ht₀.bundles b hb
    · intro nwd2 hn2 e2 he2
      obtain ⟨nwd, hn0, e, he0, v, vPrev, i, X, rfl⟩ := hnet nwd2 hn2 e2 he2
      exact ht₀.networks nwd hn0 e he0
  · intro F H hF hH
    set f : End → ℝ := fun x => (endV bs2 x + endV M.bundles x) * endI M.bundles x with hf
    -- bundles
    have hB : (bs2.map fun b => b.2.innerEnergy).sum ≤ (M.bundles.map fun b => b.2.innerEnergy
        + M.dt * (∑ j : Fin b.1, f ⟨b.2.name, j, .S⟩ + ∑ j : Fin b.1, f ⟨b.2.name, j, .L⟩) + F b).sum := by
      refine mapPy_sum_le h3 ?_
      intro b hb b' hb' hs
      obtain ⟨c, hc, rfl⟩ := onBundle_ok_iff.1 hs
      obtain ⟨hp, hd⟩ := hM.passive.bundles b hb
      have key := hF b hb c hb' _ hc
      rw [hd] at key
      refine key.trans (le_of_eq ?_)
      obtain ⟨v, i, phi, probes, rfl⟩ := MTLD.stepWith_config hc
      have hn2 : (bs2.map fun b => b.2.name).Nodup := by rw [hnames]; exact hn
      have e1 : ∀ (j : Fin b.1) side, f ⟨b.2.name, j, side⟩ = (v (side.node b.2.m) j + b.2.v (side.node b.2.m) j)
          * (side.factor * b.2.i (side.cell b.2.m) j) := by
        intro j side
        have a1 := endV_eq hn2 hb' j side
        have a2 := endV_eq hn hb j side
        have a3 := endI_eq hn hb j side
        simp only [hf]
        rw [a2, a3]
        congr 2
      simp only [e1]
      congr 3
      simp only [Side.node, Side.factor, Side.cell, dotProduct, Pi.add_apply, one_mul, neg_one_mul, mul_neg,
        Finset.sum_neg_distrib]
      ring
    -- networks
    have hN : netsEnergy nws1 ≤ (M.networks.map fun nwd => (nwd.map fun e => e.2.2.2.energy
        - M.dt * ∑ a, f (e.2.2.2.nodes a).end' + H e).sum).sum := by
      refine mapPy_sum_le h1 ?_
      intro nwd hnwd nwd1 hnwd1 hs
      refine mapPy_sum_le hs ?_
      intro e he e1 he1 hs1
      have hv' := hv1 nwd1 hnwd1 e1 he1
      simp only [bind_ok_iff, onAny_ok_iff, Except.ok.injEq] at hs1
      obtain ⟨_, ⟨c, hc, rfl⟩, rfl⟩ := hs1
      have hnd : c.nodes = e.2.2.2.nodes := by
        obtain ⟨v, X, rfl⟩ := advanceVoltage_rest hc
        rfl
      have a1 : ∀ a, c.v a = endV bs2 (e.2.2.2.nodes a).end' := by
        intro a
        rw [← hnd]; exact hv' a
      refine (hH nwd hnwd e he c hc a1).trans (le_of_eq ?_)
      congr 3
      simp only [dotProduct, Pi.add_apply]
      refine Finset.sum_congr rfl fun a _ => ?_
      rw [a1, hM.linked.v nwd hnwd e he a, hM.linked.i nwd hnwd e he a]
    have hN2 : netsEnergy nws2 ≤ netsEnergy nws1 := by
      refine mapPy_sum_le h4 ?_
      intro nwd hnwd nwd1 hnwd1 hs
      refine mapPy_sum_le hs ?_
      intro e he e1 he1 hs1
      simp only [bind_ok_iff, onAny_ok_iff, Except.ok.injEq] at hs1
      obtain ⟨_, ⟨c, hc, rfl⟩, rfl⟩ := hs1
      obtain ⟨i', -, rfl⟩ := updateCurrents_ok_iff.1 hc
      exact le_rfl
    have hsum : ((allEnds M.bundles).map f).sum = (((allNodes M.networks).map Node.end').map f).sum := by
      refine sum_ends hn hM.passive.ends ?_ ?_
      · intro x hx
        rw [← htargets] at hx
        obtain ⟨w, hw, rfl⟩ := List.mem_map.1 hx
        obtain ⟨b, hb, hrow⟩ := hvalid w hw
        exact mem_allEnds.2 ⟨b, (findBundle_some hb).1, (findBundle_some hb).2, hrow⟩
      · intro x _ hx
        have e1 := hfree x (by rw [htargets]; exact hx)
        have e2 := hM.linked.free x hx
        simp only [hf, e1, e2]
        ring
    rw [sum_allEnds, sum_allNodes] at hsum
    have hB' : (M.bundles.map fun b => b.2.innerEnergy
        + M.dt * (∑ j : Fin b.1, f ⟨b.2.name, j, .S⟩ + ∑ j : Fin b.1, f ⟨b.2.name, j, .L⟩) + F b).sum =
        (M.bundles.map fun b => b.2.innerEnergy).sum + M.dt * (M.bundles.map fun b =>
          (∑ j : Fin b.1, f ⟨b.2.name, j, .S⟩ + ∑ j : Fin b.1, f ⟨b.2.name, j, .L⟩)).sum + (M.bundles.map F).sum := by
      rw [List.sum_map_add, List.sum_map_add, List.sum_map_mul_left]
    have hN' : (M.networks.map fun nwd => (nwd.map fun e => e.2.2.2.energy
        - M.dt * ∑ a, f (e.2.2.2.nodes a).end' + H e).sum).sum = netsEnergy M.networks - M.dt *
          (M.networks.map fun nwd => (nwd.map fun e => ∑ a, f (e.2.2.2.nodes a).end').sum).sum
          + (M.networks.map fun nwd => (nwd.map H).sum).sum := by
      unfold netsEnergy
      have inner : ∀ nwd : NetworkD,
          (nwd.map fun e => e.2.2.2.energy - M.dt * ∑ a, f (e.2.2.2.nodes a).end' + H e).sum =
          (nwd.map fun e => e.2.2.2.energy).sum + -M.dt * (nwd.map fun e => ∑ a, f (e.2.2.2.nodes a).end').sum
            + (nwd.map H).sum := by
        intro nwd
        rw [← List.sum_map_mul_left, ← List.sum_map_add, ← List.sum_map_add]
        congr 1
        refine List.map_congr_left fun e _ => ?_
        ring
      simp only [inner]
      rw [List.sum_map_add, List.sum_map_add, List.sum_map_mul_left]
      ring
    rw [hB', hsum] at hB
    rw [hN'] at hN
    show (bs2.map fun b => b.2.innerEnergy).sum + netsEnergy nws2 ≤
      (M.bundles.map fun b => b.2.innerEnergy).sum + netsEnergy M.networks
        + ((M.bundles.map F).sum + (M.networks.map fun nwd => (nwd.map H).sum).sum)
    linarith

/-- The energy a step without sources takes from a network. -/
noncomputable def lossIn (dt : ℝ) (bs : List (AnyBundle p)) (e : ℕ × AnyNetwork) : ℝ :=
  dt / 2 * (((fun a => endV bs (e.2.2.2.nodes a).end') + e.2.2.2.v) ⬝ᵥ
    (e.2.2.2.P1 *ᵥ ((fun a => endV bs (e.2.2.2.nodes a).end') + e.2.2.2.v)))

/-- When the sources have vanished, the energy decreases by what the resistors dissipate, at least. -/
theorem MTLN.Sound.step_loss {M M' : MTLN p} (hM : M.Sound) (h : M.step = .ok M') (hx : M.SilentFrom (M.time - 2 * M.dt)) :
    M'.energy ≤ M.energy + (M.networks.map fun nwd => (nwd.map (lossIn M.dt M'.bundles)).sum).sum := by
  have := (hM.step_excited h).2 (fun _ => 0) (lossIn M.dt M'.bundles) (fun b hb b' _ ws hs => by
      rw [add_zero]
      exact MTLD.stepWith_energy hM.dt (hM.passive.bundles b hb).1 (hx.bundles b hb) (hM.ready.bundles b hb) hs)
    (fun nwd hn e he nw' hs hv => by
      have := Network.advance_loss hM.dt (hM.passive.networks nwd hn e he) (hM.ready.networks nwd hn e he) hs
      rw [Network.drive_silent hM.dt (hx.networks nwd hn e he), dotProduct_zero, mul_zero, add_zero,
        show nw'.v = _ from funext hv] at this
      rw [show nw'.v = _ from funext hv]
      exact this)
  simpa using this

/-- The same when the sources have vanished. -/
theorem MTLN.Sound.step {M M' : MTLN p} (hM : M.Sound) (h : M.step = .ok M') :
    (M'.Sound ∧ M'.time = M.time + M.dt ∧ M'.dt = M.dt ∧ ∀ t₀, M.SilentFrom t₀ → M'.SilentFrom t₀) ∧
      (M.SilentFrom (M.time - 2 * M.dt) → M'.energy ≤ M.energy) := by
  obtain ⟨h1, h2⟩ := hM.step_excited h
  refine ⟨h1, fun hx => ?_⟩
  have := h2 (fun _ => 0) (fun _ => 0) (fun b hb b' _ ws hs => by
      rw [add_zero]
      exact MTLD.stepWith_energy hM.dt (hM.passive.bundles b hb).1 (hx.bundles b hb) (hM.ready.bundles b hb) hs)
    (fun nwd hn e he nw' hs _ => by
      rw [add_zero]
      exact Network.advance_energy hM.dt (hM.passive.networks nwd hn e he) (hM.ready.networks nwd hn e he)
        (hx.networks nwd hn e he) hs)
  simpa using this

end Mtln
