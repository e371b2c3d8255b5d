import Verif.Props.ManagerEnergy
import Verif.Lemmas.Single

/-! # Runs of managers with physical data never fail: C135 -/

namespace Mtln

open Matrix

variable {n p N S : ℕ}

/-- A matrix whose quadratic form vanishes only at zero is regular. -/
theorem det_ne_zero_of_pos {m : Type*} [Fintype m] [DecidableEq m] {A : Matrix m m ℝ}
    (h : ∀ x, x ≠ 0 → 0 < x ⬝ᵥ (A *ᵥ x)) : A.det ≠ 0 := by
  intro h0
  obtain ⟨x, hx, he⟩ := Matrix.exists_mulVec_eq_zero_iff.2 h0
  have := h x hx
  rw [he, dotProduct_zero] at this
  exact lt_irrefl _ this

theorem updateLr_exists {m : ℕ} {dt : ℝ} {dun : ℕ → ℝ} {l r : ℕ → Mat n} {D : Disp n p} (hdt : 0 < dt)
    (hu : ∀ k < m, 0 < dun k) (hl : ∀ k < m, SPD (l k)) (he : ∀ k < m, Dissipative (D.e k))
    (hr : ∀ k < m, Dissipative (r k + D.d k)) (hq : ∀ k < m, D.q1sum k = 0) : ∃ lr, updateLr m dt dun l r D = .ok lr := by
  refine ⟨_, updateLr_ok_iff.2 ⟨hdt.ne', fun k hk => det_ne_zero_of_pos fun x hx => ?_, rfl⟩⟩
  have h1 := (hl k hk).pos x hx
  have h2 := he k hk x
  have h3 := hr k hk x
  rw [add_mulVec, dotProduct_add] at h3
  unfold lrF1
  rw [hq k hk]
  simp only [smul_mulVec, add_mulVec, dotProduct_smul, dotProduct_add, smul_eq_mul, add_zero, zero_mulVec,
    dotProduct_zero]
  refine mul_pos (hu k hk) ?_
  have : 0 < 1 / dt * (x ⬝ᵥ l k *ᵥ x) := by positivity
  have : 0 ≤ 1 / dt * (x ⬝ᵥ D.e k *ᵥ x) := by positivity
  linarith

theorem nodalLength_pos {m : ℕ} {dun : ℕ → ℝ} (hm : 0 < m) (hu : ∀ k < m, 0 < dun k) {k : ℕ} (hk : k ≤ m) :
    0 < nodalLength m dun k := by
  have a := hu 0 hm
  have b := hu (m - 1) (by omega)
  unfold nodalLength
  split_ifs with h1 h2
  all_goals first
    | assumption
    | (have c := hu k (by omega)
       have d := hu (k - 1) (by omega)
       linarith)

theorem updateCg_exists {m : ℕ} {dt : ℝ} {dun : ℕ → ℝ} {c g : ℕ → Mat n} (hm : 0 < m) (hdt : 0 < dt)
    (hu : ∀ k < m, 0 < dun k) (hc : ∀ k ≤ m, SPD (c k)) (hg : ∀ k ≤ m, Dissipative (g k)) :
    ∃ cg, updateCg m dt dun c g = .ok cg := by
  refine ⟨_, updateCg_ok_iff.2 ⟨hdt.ne', fun k hk => det_ne_zero_of_pos fun x hx => ?_, rfl⟩⟩
  have h1 := (hc k hk).pos x hx
  have h2 := hg k hk x
  unfold cgF1
  simp only [smul_mulVec, add_mulVec, dotProduct_smul, dotProduct_add, smul_eq_mul]
  refine mul_pos (nodalLength_pos hm hu hk) ?_
  have : 0 < 1 / dt * (x ⬝ᵥ c k *ᵥ x) := by positivity
  linarith

/-- The networks of resistors and capacitors: they dissipate, and the half cells store energy. -/
structure Network.Physical (nw : Network N S) : Prop where
  size : nw.cSize = N
  dxc : ∀ v, v ≠ 0 → 0 < v ⬝ᵥ (nw.dxc *ᵥ v)
  P1 : ∀ v, v ⬝ᵥ (nw.P1 *ᵥ v) ≤ 0
  Q1 : ∀ v, v ⬝ᵥ (nw.Q1 *ᵥ v) ≤ 0
  O : nw.O = 0
  M : nw.M = 0

/-- The system of such a network has exactly one solution. -/
theorem Network.Physical.system_det {nw : Network N S} (h : nw.Physical) {dt : ℝ} (hdt : 0 < dt) :
    (nw.system dt).det ≠ 0 := by
  unfold Network.system
  rw [h.O, h.M, neg_zero, smul_zero, sub_zero, det_fromBlocks_zero₁₂, det_one, mul_one]
  refine det_ne_zero_of_pos fun v hv => ?_
  have h1 := h.dxc v hv
  have h2 := h.P1 v
  have h3 := h.Q1 v
  simp only [smul_mulVec, sub_mulVec, dotProduct_smul, dotProduct_sub, smul_eq_mul]
  have : 0 < 1 / dt * (v ⬝ᵥ nw.dxc *ᵥ v) := by positivity
  have : 0 ≤ 1 / dt * -(v ⬝ᵥ nw.Q1 *ᵥ v) := mul_nonneg (by positivity) (by linarith)
  linarith

/-- A bundle with physical data: cells of positive length, positive definite inductances and capacitances, dissipative
resistances and conductances, connectors without poles. -/
structure MTLD.Physical (b : MTLD n p) : Prop where
  cells : 0 < b.m
  dun : ∀ k < b.m, 0 < b.dun k
  l : ∀ k < b.m, SPD (b.l k)
  c : ∀ k ≤ b.m, SPD (b.c k)
  r : ∀ k < b.m, Dissipative (b.r k + b.tz.d k)
  g : ∀ k ≤ b.m, Dissipative (b.g k)
  e : ∀ k < b.m, Dissipative (b.tz.e k)
  q1 : ∀ k < b.m, b.tz.q1sum k = 0
  probes : ∀ q ∈ b.probes, q.Valid

/-- **C135.** A manager whose bundles and networks have physical data runs for any positive time step and any duration:
no singular system and no other exception. -/
theorem C135_run (M : MTLN p) (T dt : ℝ) (hdt : 0 < M.runDt dt)
    (hpos : ∀ b ∈ (M.overrideDt dt).bundles, 0 < b.2.dt)
    (hb : ∀ b ∈ M.bundles, b.2.Physical) (hn : ∀ nwd ∈ M.networks, ∀ e ∈ nwd, e.2.2.2.Physical)
    (hd : ∀ d ∈ allNodes M.networks, ∃ b, findBundle M.bundles d.bundleName = some b ∧ d.lineIndex < b.1) :
    ∃ M', M.runUntil T dt = .ok M' := by
  have hb' : ∀ b ∈ (M.overrideDt dt).bundles, b.2.Physical := by
    intro b hbm
    unfold MTLN.overrideDt at hbm
    split at hbm
    · obtain ⟨b0, h0, rfl⟩ := List.mem_map.1 hbm
      have := hb b0 h0
      exact ⟨this.1, this.2, this.3, this.4, this.5, this.6, this.7, this.8, this.9⟩
    · exact hb b hbm
  refine MTLN.Startable.run ⟨hdt.ne', fun b hbm => ?_, fun nwd hnwd e he => ?_, fun d hdm => ?_⟩ T
  · have h := hb' b hbm
    have h0 := hpos b hbm
    exact ⟨updateLr_exists h0 h.dun h.l h.e h.r h.q1, updateCg_exists h.cells h0 h.dun h.c h.g, h.probes⟩
  · have h := hn nwd hnwd e he
    exact ⟨h.size, h.system_det hdt⟩
  · obtain ⟨b, h1, h2⟩ := hd d hdm
    exact ⟨b, h1, h2, (hb b (findBundle_some h1).1).cells.ne'⟩

/-- What calls that add positive resistors and capacitors, those to ground before the branches at their nodes, make of
a fresh network. -/
theorem C135_network {l : List Call} {nw nw' : Network N S} (hs : nw.cSize = N)
    (hc : ∀ v, v ≠ 0 → 0 < v ⬝ᵥ (nw.dxc *ᵥ v)) (h1 : nw.P1 = 0) (h2 : nw.Q1 = 0) (h3 : nw.O = 0) (h4 : nw.M = 0)
    (hr : ∀ c ∈ l, c.IsResistive ∨ ∃ id C Vt, 0 ≤ C ∧ c = .groundC id C Vt) (hpos : ∀ c ∈ l, c.Positive)
    (hord : l.Pairwise fun c c' => c.IsBranch → ¬ c'.IsBranch → ∀ id ∈ c.nodes, id ∉ c'.nodes)
    (h : nw.calls l = .ok nw') : nw'.Physical := by
  have key : nw'.cSize = N ∧ nw'.dxc = nw.dxc ∧ (∃ q : Fin N → ℝ, (∀ a, q a ≤ 0) ∧ nw'.Q1 = diagonal q) ∧ nw'.O = 0 ∧
      nw'.M = 0 := by
    refine calls_induct (Q := fun w => w.cSize = N ∧ w.dxc = nw.dxc ∧
      (∃ q : Fin N → ℝ, (∀ a, q a ≤ 0) ∧ w.Q1 = diagonal q) ∧ w.O = 0 ∧ w.M = 0) ?_ hr h
      ⟨hs, rfl, ⟨0, fun _ => le_rfl, by rw [h2]; ext i j; simp [diagonal]⟩, h3, h4⟩
    rintro w w' c hA ⟨q1, q2, ⟨q, q3, q4⟩, q5, q6⟩ hw
    obtain ⟨E, hE, rfl⟩ := call_ok_iff.1 hw
    have keep : ∀ {a b : ℕ} {X : Matrix (Fin a) (Fin b) ℝ}, (of fun i j => (Upd.add (0 : ℝ)).app (X i j)) = X := by
      intro a b X; ext i j; simp [Upd.app]
    cases c with
    | groundLCpRs => rcases hA with hA | ⟨_, _, _, _, hA⟩; exacts [hA.elim, by cases hA]
    | groundC id C Vt =>
      obtain ⟨a, -, rfl⟩ := hE
      refine ⟨q1, q2, ?_, keep.trans q5, keep.trans q6⟩
      obtain hA | ⟨_, C', _, hC, hA⟩ := hA
      · exact hA.elim
      cases hA
      refine ⟨fun i => if i = a ∧ C ≠ 0 then -C else q i, fun i => ?_, ?_⟩
      · beta_reduce
        split_ifs
        · linarith
        · exact q3 i
      · ext i j
        have e : w.Q1 i j = diagonal q i j := by rw [q4]
        by_cases hij : i = j
        · subst hij
          rw [diagonal_apply_eq] at e ⊢
          by_cases hi : i = a <;> by_cases h0 : C = 0 <;> simp [Effect.apply, Upd.app, hi, h0, e]
          all_goals (subst hi; exact e)
        · rw [diagonal_apply_ne _ hij] at e ⊢
          have : ¬ (i = a ∧ j = a ∧ C ≠ 0) := fun hh => hij (hh.1.trans hh.2.1.symm)
          simp [Effect.apply, Upd.app, this, e]
    | ground => obtain ⟨a, -, -, rfl⟩ := hE; exact ⟨q1, q2, ⟨q, q3, keep.trans q4⟩, keep.trans q5, keep.trans q6⟩
    | shortGround => obtain ⟨a, -, rfl⟩ := hE; exact ⟨q1, q2, ⟨q, q3, keep.trans q4⟩, keep.trans q5, keep.trans q6⟩
    | branch => obtain ⟨a, b, -, -, -, rfl⟩ := hE; exact ⟨q1, q2, ⟨q, q3, keep.trans q4⟩, keep.trans q5, keep.trans q6⟩
    | short => obtain ⟨a, b, -, -, rfl⟩ := hE; exact ⟨q1, q2, ⟨q, q3, keep.trans q4⟩, keep.trans q5, keep.trans q6⟩
  obtain ⟨k1, k2, ⟨q, k3, k4⟩, k5, k6⟩ := key
  refine ⟨k1, by rwa [k2], C49_passive_partial h1 hpos hord h, fun v => ?_, k5, k6⟩
  rw [k4]
  unfold dotProduct
  refine Finset.sum_nonpos fun i _ => ?_
  rw [mulVec_diagonal]
  nlinarith [k3 i, mul_self_nonneg (v i)]

/-- The hypotheses can be met: the charged line with a resistor at its end. -/
example {dt : ℝ} (h0 : 0 < dt) : (∀ b ∈ demoCharged.bundles, b.2.Physical) ∧
    (∀ nwd ∈ demoCharged.networks, ∀ e ∈ nwd, e.2.2.2.Physical) ∧ 0 < demoCharged.runDt dt ∧
    ∀ b ∈ (demoCharged.overrideDt dt).bundles, 0 < b.2.dt := by
  refine ⟨?_, ?_, ?_, ?_⟩
  · intro b hb
    obtain rfl := List.mem_singleton.1 hb
    refine ⟨two_pos, fun k hk => ?_, fun _ _ => demo_spd, fun _ _ => demo_spd, fun _ _ x => ?_, fun _ _ x => ?_,
      fun _ _ x => ?_, fun k _ => demo_q1sum (demoBare 0) k, ?_⟩
    · show (0 : ℝ) < if k < 2 then 1 else 0
      rw [if_pos (show k < 2 from hk)]; exact one_pos
    · show 0 ≤ x ⬝ᵥ ((0 + 0 : Mat 1) *ᵥ x); simp
    · show 0 ≤ x ⬝ᵥ ((0 : Mat 1) *ᵥ x); simp
    · show 0 ≤ x ⬝ᵥ ((0 : Mat 1) *ᵥ x); simp
    · intro q hq
      have : q ∈ demoOne.probes := hq
      simp only [demoOne, List.mem_singleton] at this
      subst this
      exact Or.inl rfl
  · intro nwd hn e he
    obtain rfl := List.mem_singleton.1 hn
    obtain rfl := List.mem_singleton.1 he
    refine ⟨rfl, fun v hv => ?_, fun v => ?_, fun v => ?_, rfl, rfl⟩
    · have hd : ({ demoTerm with vSources := fun _ _ => 0, v := fun _ => 1 } : Network 1 0).dxc = 1 := demoNet_dxc [] 0
      show 0 < v ⬝ᵥ (({ demoTerm with vSources := fun _ _ => 0, v := fun _ => 1 } : Network 1 0).dxc *ᵥ v)
      rw [hd]
      exact demo_spd.pos v hv
    · simp [demoTerm, demoNet, NetBuild.finish, putEntry, dotProduct, mulVec]
      exact mul_self_nonneg _
    · show v ⬝ᵥ ((0 : Matrix (Fin 1) (Fin 1) ℝ) *ᵥ v) ≤ 0; simp
  · rw [MTLN.runDt_eq, if_pos h0.ne']; exact h0
  · unfold MTLN.overrideDt
    rw [if_pos h0.ne']
    intro b hb
    obtain ⟨b0, -, rfl⟩ := List.mem_map.1 hb
    exact h0

end Mtln
