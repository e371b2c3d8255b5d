import Verif.Lemmas.ManagerEnergy

/-! # What bounded sources deliver in a step of a manager -/

namespace Mtln

open Matrix

variable {n p N S : ℕ}

/-- Sum of the absolute values of the entries of a matrix. -/
noncomputable def absSum {a b : ℕ} (A : Matrix (Fin a) (Fin b) ℝ) : ℝ := ∑ i, ∑ j, |A i j|

theorem absSum_nonneg {a b : ℕ} (A : Matrix (Fin a) (Fin b) ℝ) : 0 ≤ absSum A :=
  Finset.sum_nonneg fun _ _ => Finset.sum_nonneg fun _ _ => abs_nonneg _

theorem absSum_mulVec {a b : ℕ} (A : Matrix (Fin a) (Fin b) ℝ) {x : Fin b → ℝ} {σ : ℝ} (h0 : 0 ≤ σ)
    (h : ∀ j, |x j| ≤ σ) (i : Fin a) : |(A *ᵥ x) i| ≤ absSum A * σ := by
  have h1 : |(A *ᵥ x) i| ≤ (∑ j, |A i j|) * σ := by
    show |∑ j, A i j * x j| ≤ _
    refine (Finset.abs_sum_le_sum_abs _ _).trans ?_
    rw [Finset.sum_mul]
    refine Finset.sum_le_sum fun j _ => ?_
    rw [abs_mul]
    exact mul_le_mul_of_nonneg_left (h j) (abs_nonneg _)
  refine h1.trans (mul_le_mul_of_nonneg_right ?_ h0)
  exact Finset.single_le_sum (f := fun i => ∑ j, |A i j|) (fun i _ => Finset.sum_nonneg fun _ _ => abs_nonneg _)
    (Finset.mem_univ i)

theorem dot_abs_le {a : ℕ} {x y : Fin a → ℝ} {X Y : ℝ} (h0 : 0 ≤ X) (hx : ∀ i, |x i| ≤ X) (hy : ∀ i, |y i| ≤ Y) :
    |x ⬝ᵥ y| ≤ a * (X * Y) := by
  show |∑ i, x i * y i| ≤ _
  refine (Finset.abs_sum_le_sum_abs _ _).trans ?_
  have : ∀ i ∈ Finset.univ, |x i * y i| ≤ X * Y := fun i _ => by
    rw [abs_mul]
    exact mul_le_mul (hx i) (hy i) (abs_nonneg _) h0
  refine (Finset.sum_le_sum this).trans ?_
  simp

/-- What sources below `σ` can deliver to a bundle in a step, per unit of voltage and current. -/
noncomputable def MTLD.load (b : MTLD n p) (σ : ℝ) : ℝ :=
  b.dt * ∑ k ∈ Finset.range b.m, (n * (2 * (absSum (cgF1 b.m b.dt b.dun b.c b.g k) * (2 * σ)))
    + n * (2 * (2 * σ + |b.dun k| * σ)))

/-- The same for a network. -/
noncomputable def Network.load (nw : Network N S) (dt σ : ℝ) : ℝ :=
  dt / 2 * (N * (2 * (absSum nw.Ps * (2 * σ) + |1 / dt| * (absSum nw.Qs * (2 * σ)) + |1 / dt| * (absSum nw.dxc * (2 * σ)))))

/-- The same for a manager. -/
noncomputable def MTLN.load (M : MTLN p) (σ : ℝ) : ℝ :=
  (M.bundles.map fun b => b.2.load σ).sum + (M.networks.map fun nwd => (nwd.map fun e => e.2.2.2.load M.dt σ).sum).sum

theorem abs_sub_le_two {x y σ : ℝ} (hx : |x| ≤ σ) (hy : |y| ≤ σ) : |x - y| ≤ 2 * σ :=
  (abs_sub x y).trans (by linarith)

theorem abs_add_le_two {x y σ : ℝ} (hx : |x| ≤ σ) (hy : |y| ≤ σ) : |x + y| ≤ 2 * σ :=
  (abs_add_le x y).trans (by linarith)

/-- A bundle has no voltage and no current above `W`. -/
def MTLD.Below (b : MTLD n p) (W : ℝ) : Prop :=
  (∀ k ≤ b.m, ∀ a, |b.v k a| ≤ W) ∧ ∀ k < b.m, ∀ a, |b.i k a| ≤ W

theorem MTLD.stepWith_excited {b b' : MTLD n p} {time dt σ W : ℝ} {ws : List Write} (hp : b.asLine.Passive)
    (hσ : 0 ≤ σ) (hW : 0 ≤ W) (hx : ∀ t, (∀ k x, |b.eL k x t| ≤ σ) ∧ ∀ k x, |b.eT k x t| ≤ σ)
    (hready : ∀ lr cg, b.lr = some lr → b.cg = some cg →
      updateLr b.m b.dt b.dun b.l b.r b.tz = .ok lr ∧ updateCg b.m b.dt b.dun b.c b.g = .ok cg)
    (hs : b.stepWith time dt ws = .ok b') (hb : b.Below W) (hb' : b'.Below W) :
    b'.innerEnergy ≤ b.innerEnergy
      + b.dt * ((b'.v 0 + b.v 0) ⬝ᵥ b.i 0 - (b'.v b.m + b.v b.m) ⬝ᵥ b.i (b.m - 1)) + b.load σ * W := by
  obtain ⟨lr, cg, hlr, hcg, -, rfl⟩ := MTLD.stepWith_ok_iff.1 hs
  obtain ⟨h1, h2⟩ := hready lr cg hlr hcg
  obtain ⟨-, hdetC, hcg'⟩ := updateCg_ok_iff.1 h2
  obtain ⟨v', hv'⟩ : ∃ v', v' = (b.fieldsWith lr cg time dt ws).v := ⟨_, rfl⟩
  obtain ⟨i', hi'⟩ : ∃ i', i' = (b.fieldsWith lr cg time dt ws).i := ⟨_, rfl⟩
  obtain ⟨src, hsrc⟩ : ∃ src, src = b.sample time dt := ⟨_, rfl⟩
  obtain ⟨JV, hJV⟩ : ∃ JV : Grid n, JV = fun k => cgF1 b.m b.dt b.dun b.c b.g k *ᵥ (src.eTNow k - src.eTPrev k) := ⟨_, rfl⟩
  obtain ⟨JI, hJI⟩ : ∃ JI : Grid n, JI = fun k => (src.eTNow (k + 1) - src.eTNow k)
    - (b.dun k / 2) • (src.eLNow k + src.eLPrev k) := ⟨_, rfl⟩
  have hbv : ∀ k ≤ b.m, ∀ a, |v' k a| ≤ W := by rw [hv']; exact hb'.1
  have hbi : ∀ k < b.m, ∀ a, |i' k a| ≤ W := by rw [hi']; exact hb'.2
  have hE : ∀ k a, |src.eTNow k a| ≤ σ ∧ |src.eTPrev k a| ≤ σ ∧ |src.eLNow k a| ≤ σ ∧ |src.eLPrev k a| ≤ σ := by
    intro k a
    rw [hsrc]
    exact ⟨(hx _).2 _ _, (hx _).2 _ _, (hx _).1 _ _, (hx _).1 _ _⟩
  have key := inner_energy_excited (s := b.asLine) (v' := v') (i' := i') (JV := JV) (JI := JI) hp h1 h2 (by
    intro k h0 hk
    have hk' : k < b.m := hk
    rw [hv', MTLD.fieldsWith_v]
    funext j
    rw [MTLD.hit_other]
    · show advanceVoltage b.m cg (b.sample time dt) b.v b.i k j = _
      unfold advanceVoltage
      rw [if_pos ⟨h0, hk⟩, mulVec_add]
      have e : cg.iDiff k *ᵥ JV k = src.eTNow k - src.eTPrev k := by
        rw [hcg', hJV]
        exact ((inv_mulVec_eq_iff (hdetC k hk'.le) _ _).2 rfl).symm
      rw [e, hsrc]
      show _ = (cg.vTerm k *ᵥ b.v k - (cg.iDiff k *ᵥ (b.i k - b.i (k - 1)) + _)) j
      rw [sub_sub]
    · rintro w - ⟨-, hw, -⟩
      cases hside : w.target.side <;> rw [hside] at hw <;> simp only [Side.node] at hw <;> omega) (by
    intro k hk
    have hk' : k < b.m := hk
    have h3 : b.tz.q3phi b.phi k = 0 := by
      funext a
      have hq : ∀ a c, b.tz.q3 k a c = none := hp.q3 k hk
      simp [Disp.q3phi, hq, QEntry.val, poleSum]
    rw [hi', MTLD.fieldsWith_i, hv', hJI, hsrc]
    unfold advanceCurrent
    rw [if_pos hk', h3]
    simp only [smul_zero, mulVec_zero, sub_zero]
    rw [add_sub_assoc]
    rfl)
  have hbound : |∑ k ∈ Finset.range b.m, ((if 0 < k then (v' k + b.v k) ⬝ᵥ JV k else 0) + (i' k + b.i k) ⬝ᵥ JI k)| ≤
      (∑ k ∈ Finset.range b.m, (n * (2 * (absSum (cgF1 b.m b.dt b.dun b.c b.g k) * (2 * σ)))
        + n * (2 * (2 * σ + |b.dun k| * σ)))) * W := by
    refine (Finset.abs_sum_le_sum_abs _ _).trans ?_
    rw [Finset.sum_mul]
    refine Finset.sum_le_sum fun k hk => ?_
    rw [Finset.mem_range] at hk
    refine (abs_add_le _ _).trans ?_
    rw [add_mul]
    refine add_le_add ?_ ?_
    · have hnn : 0 ≤ absSum (cgF1 b.m b.dt b.dun b.c b.g k) * (2 * σ) :=
        mul_nonneg (absSum_nonneg _) (by linarith)
      split
      · refine (dot_abs_le (X := 2 * W) (Y := absSum (cgF1 b.m b.dt b.dun b.c b.g k) * (2 * σ)) (by linarith)
          (fun a => abs_add_le_two (hbv k hk.le a) (hb.1 k hk.le a)) (fun a => ?_)).trans (le_of_eq (by ring))
        rw [hJV]
        exact absSum_mulVec _ (by linarith) (fun j => abs_sub_le_two (hE k j).1 (hE k j).2.1) a
      · rw [abs_zero]
        positivity
    · refine (dot_abs_le (X := 2 * W) (Y := 2 * σ + |b.dun k| * σ) (by linarith)
          (fun a => abs_add_le_two (hbi k hk a) (hb.2 k hk a)) (fun a => ?_)).trans (le_of_eq (by ring))
      rw [hJI]
      refine (abs_sub _ _).trans (add_le_add (abs_sub_le_two (hE (k + 1) a).1 (hE k a).1) ?_)
      show |b.dun k / 2 * (src.eLNow k a + src.eLPrev k a)| ≤ _
      rw [abs_mul, abs_div, abs_two]
      have := abs_add_le_two (hE k a).2.2.1 (hE k a).2.2.2
      have h0 := abs_nonneg (b.dun k)
      nlinarith
  have h5 := (abs_le.1 hbound).1
  have h6 : 0 < b.dt := hp.dt_pos
  have h7 : -(b.dt * ∑ k ∈ Finset.range b.m, ((if 0 < k then (v' k + b.v k) ⬝ᵥ JV k else 0) + (i' k + b.i k) ⬝ᵥ JI k))
      ≤ b.load σ * W := by
    unfold MTLD.load
    rw [mul_assoc]
    nlinarith
  subst hv' hi'
  refine le_trans key ?_
  rw [sub_eq_add_neg]
  exact add_le_add le_rfl h7

theorem Network.load_bound {nw nw' : Network N S} {time dt σ W : ℝ} (hdt : 0 < dt) (hr : nw.RC)
    (hp : nw.Prepared dt) (h : nw.advanceVoltage time dt = .ok nw') (hσ : 0 ≤ σ) (hW : 0 ≤ W)
    (hx : ∀ t, (∀ x, |nw.vSources x t| ≤ σ) ∧ ∀ x, |(nw.nodes x).eT t| ≤ σ) (hb : ∀ a, |nw.v a| ≤ W)
    (hb' : ∀ a, |nw'.v a| ≤ W) :
    nw'.energy ≤ nw.energy - dt * ((nw'.v + nw.v) ⬝ᵥ nw.i) + nw.load dt σ * W := by
  refine (Network.advance_excited hdt hr hp h).trans (add_le_add le_rfl ?_)
  have h2 : 0 ≤ 2 * σ := by linarith
  have := dot_abs_le (x := nw'.v + nw.v) (y := nw.drive time dt) (X := 2 * W)
    (Y := absSum nw.Ps * (2 * σ) + |1 / dt| * (absSum nw.Qs * (2 * σ)) + |1 / dt| * (absSum nw.dxc * (2 * σ)))
    (by linarith) (fun a => abs_add_le_two (hb' a) (hb a)) (fun a => by
      unfold Network.drive
      refine (abs_sub _ _).trans (add_le_add ((abs_add_le _ _).trans (add_le_add ?_ ?_)) ?_)
      · exact absSum_mulVec _ h2 (fun j => abs_add_le_two ((hx _).1 j) ((hx _).1 j)) a
      · show |1 / dt * _| ≤ _
        rw [abs_mul]
        exact mul_le_mul_of_nonneg_left
          (absSum_mulVec _ h2 (fun j => abs_sub_le_two ((hx _).1 j) ((hx _).1 j)) a) (abs_nonneg _)
      · show |1 / dt * _| ≤ _
        rw [abs_mul]
        exact mul_le_mul_of_nonneg_left
          (absSum_mulVec _ h2 (fun j => abs_sub_le_two ((hx _).2 j) ((hx _).2 j)) a) (abs_nonneg _))
  have h3 := (le_abs_self _).trans this
  unfold Network.load
  nlinarith

/-- A step of a sound manager with sources below `σ` and fields below `W` before and after it. -/
theorem MTLN.Sound.step_load {M M' : MTLN p} (hM : M.Sound) (h : M.step = .ok M') {σ W : ℝ} (hσ : 0 ≤ σ) (hW : 0 ≤ W)
    (hx : M.ExcitedBelow σ) (hb : ∀ b ∈ M.bundles, b.2.Below W) (hb' : ∀ b ∈ M'.bundles, b.2.Below W) :
    M'.energy ≤ M.energy + M.load σ * W := by
  obtain ⟨⟨hS', -⟩, h2⟩ := hM.step_excited h
  have hend : ∀ {K : MTLN p}, (∀ b ∈ K.bundles, b.2.Below W) → ∀ x, |endV K.bundles x| ≤ W := by
    intro K hK x
    unfold endV
    cases hf : findBundle K.bundles x.bundle with
    | none => simpa using hW
    | some b =>
      simp only
      split
      · refine (hK b (findBundle_some hf).1).1 _ ?_ _
        cases x.side <;> simp [Side.node]
      · simpa using hW
  have := h2 (fun b => b.2.load σ * W) (fun e => e.2.2.2.load M.dt σ * W) (fun b hbm b' hm' ws hs =>
      MTLD.stepWith_excited (hM.passive.bundles b hbm).1 hσ hW (hx.bundles b hbm) (hM.ready.bundles b hbm) hs
        (hb b hbm) (hb' _ hm'))
    (fun nwd hn e he nw' hs hv => Network.load_bound hM.dt (hM.passive.networks nwd hn e he)
      (hM.ready.networks nwd hn e he) hs hσ hW (hx.networks nwd hn e he)
      (fun a => by rw [hM.linked.v nwd hn e he a]; exact hend hb _) fun a => by rw [hv a]; exact hend hb' _)
  refine this.trans (le_of_eq ?_)
  unfold MTLN.load
  simp only [List.sum_map_mul_right]
  ring

end Mtln
