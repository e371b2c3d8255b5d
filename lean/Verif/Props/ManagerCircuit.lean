import Verif.Lemmas.ManagerRemade

/-! # Constant sources: bounded runs and the direct current circuit: C155 -/

namespace Mtln

open Matrix

variable {n p N S : ℕ}

theorem All3.mem_first {α : Type} {R : α → α → α → Prop} {l₁ l₂ l₃ : List α} (h : All3 R l₁ l₂ l₃) :
    ∀ a ∈ l₁, ∃ b ∈ l₂, ∃ c ∈ l₃, R a b c := by
  induction h with
  | nil => intro a ha; cases ha
  | cons hr _ ih =>
    intro x hx
    rcases List.mem_cons.1 hx with rfl | hx
    · exact ⟨_, List.mem_cons_self, _, List.mem_cons_self, hr⟩
    · obtain ⟨b, hb, c, hc, h⟩ := ih x hx
      exact ⟨b, List.mem_cons_of_mem _ hb, c, List.mem_cons_of_mem _ hc, h⟩

/-- Finitely many numbers have a bound. -/
theorem bundle_bound (b : AnyBundle p) : ∃ K, (∀ k ≤ b.2.m, ∀ a, |b.2.v k a| ≤ K) ∧ ∀ k < b.2.m, ∀ a, |b.2.i k a| ≤ K := by
  refine ⟨∑ k ∈ Finset.range (b.2.m + 1), ∑ a, (|b.2.v k a| + |b.2.i k a|), fun k hk a => ?_, fun k hk a => ?_⟩
  · refine le_trans ?_ (Finset.single_le_sum (f := fun k => ∑ a, (|b.2.v k a| + |b.2.i k a|))
      (fun k _ => Finset.sum_nonneg fun a _ => by positivity) (Finset.mem_range.2 (Nat.lt_succ_of_le hk)))
    refine le_trans ?_ (Finset.single_le_sum (f := fun a => |b.2.v k a| + |b.2.i k a|)
      (fun a _ => by positivity) (Finset.mem_univ a))
    exact le_add_of_nonneg_right (abs_nonneg _)
  · refine le_trans ?_ (Finset.single_le_sum (f := fun k => ∑ a, (|b.2.v k a| + |b.2.i k a|))
      (fun k _ => Finset.sum_nonneg fun a _ => by positivity) (Finset.mem_range.2 (Nat.lt_succ_of_lt hk)))
    refine le_trans ?_ (Finset.single_le_sum (f := fun a => |b.2.v k a| + |b.2.i k a|)
      (fun a _ => by positivity) (Finset.mem_univ a))
    exact le_add_of_nonneg_left (abs_nonneg _)

theorem MTLN.run_free {M M' : MTLN p} {T dt : ℝ} (h : M.runUntil T dt = .ok M') :
    List.Forall₂ FreeBundle (M.overrideDt dt).bundles M'.bundles := by
  obtain ⟨k, M0, h0, tr, htr0, htrk, hs⟩ := MTLN.runUntil_ok_iff.1 h
  have key : ∀ j ≤ k, List.Forall₂ FreeBundle (M.overrideDt dt).bundles (tr j).bundles := by
    intro j
    induction j with
    | zero => intro _; rw [htr0]; exact (MTLN.start_free h0).1
    | succ j ih =>
      intro hj
      obtain ⟨nws1, bs2, nws2, h1, hvalid, h3, h4, he⟩ := MTLN.step_ok_iff.1 (hs j (by omega))
      rw [he]
      refine forall₂_comp_mem (ih (by omega)) (mapPy_ok_iff.1 h3) fun a _ b _ r r' => ?_
      obtain ⟨c, hc, rfl⟩ := onBundle_ok_iff.1 r'
      exact r.trans (MovedBundle.free ⟨_, c, hc, rfl⟩)
  have := key k le_rfl
  rwa [htrk] at this

/-- **C155**, one direction: if runs stay bounded, the direct current circuit has a solution.  Stability is not needed. -/
theorem C155_necessary (M : MTLN p) (dt t₀ K : ℝ) (hdt : 0 < M.runDt dt) (hp : (M.overrideDt dt).Passive)
    (hl : (M.overrideDt dt).Linked) (hc : (M.overrideDt dt).ConstantFrom t₀) (hst : M.Startable dt)
    (hK : ∀ T M', M.runUntil T dt = .ok M' → ∀ b ∈ M'.bundles,
      (∀ k ≤ b.2.m, ∀ a, |b.2.v k a| ≤ K) ∧ ∀ k < b.2.m, ∀ a, |b.2.i k a| ≤ K) :
    (M.overrideDt dt).Solvable t₀ := by
  obtain ⟨tr, htr, -, hrun⟩ := hst.endless hdt hp hl
  refine htr.solvable (K := K) hp (fun j b hb => ?_) hc hdt
  obtain ⟨T, M', hr, htw⟩ := hrun j
  obtain ⟨b', hb', probes, -, rfl⟩ := forall₂_mem_left htw.bundles b hb
  exact hK T M' hr ⟨b.1, { b.2 with probes := probes }⟩ hb'

/-- **C155**, the other direction: if the circuit has a solution, runs of a stable manager stay bounded. -/
theorem C155_sufficient (M : MTLN p) (dt σ t₀ : ℝ) (hdt : 0 < M.runDt dt) (hp : (M.overrideDt dt).Passive)
    (hl : (M.overrideDt dt).Linked) (hm : (M.overrideDt dt).Matched)
    (hs : ∀ b ∈ (M.overrideDt dt).bundles, b.2.Stable) (hx : (M.overrideDt dt).ExcitedBelow σ)
    (hc : (M.overrideDt dt).ConstantFrom t₀) (hst : M.Startable dt) (hsol : (M.overrideDt dt).Solvable t₀) :
    ∃ K, ∀ T M', M.runUntil T dt = .ok M' → ∀ b ∈ M'.bundles,
      (∀ k ≤ b.2.m, ∀ a, |b.2.v k a| ≤ K) ∧ ∀ k < b.2.m, ∀ a, |b.2.i k a| ≤ K := by
  obtain ⟨V, I, hdc, hfree⟩ := hsol
  obtain ⟨N, hN⟩ : ∃ N, N = M.overrideDt dt := ⟨_, rfl⟩
  have hNo : N.overrideDt dt = N := by rw [hN]; exact M.override_twice dt
  have hNst : N.Startable dt := by rw [hN]; exact hst.override
  have hrun : ∀ T, M.runUntil T dt = N.runUntil T dt := fun T => by rw [hN, M.run_override]
  change 0 < (M.overrideDt dt).dt at hdt
  rw [← hN] at hdt hp hl hm hs hx hc hdc hfree
  simp only [hrun]
  obtain ⟨A, hA⟩ : ∃ A, A = (N.withState V I).frozen t₀ := ⟨_, rfl⟩
  obtain ⟨B, hB⟩ : ∃ B, B = N.missing V I t₀ := ⟨_, rfl⟩
  have hAr : N.Remade A := by rw [hA]; exact N.remade_frozen V I t₀
  have hBr : N.Remade B := by rw [hB]; exact N.remade_missing V I t₀
  have hcomb : MTLN.Comb 1 (-1) N A B := by rw [hA, hB]; exact N.comb_missing V I t₀
  have hAo := hAr.over hNo
  have hBo := hBr.over hNo
  have hBd : B.runDt dt = N.dt := by unfold MTLN.runDt; rw [hBo, hBr.dt]
  obtain ⟨K1, h1⟩ := C152_pulse B dt (2 * σ) t₀ (by rw [hBd]; exact hdt) (by rw [hBo]; exact hBr.passive hp)
    (by rw [hBo, hB]; exact MTLN.linked_missing hl hfree) (by rw [hBo]; exact hBr.matched hm)
    (by rw [hBo]; exact hBr.stable hs) (by rw [hBo, hB]; exact MTLN.excited_missing hx)
    (by rw [hBo, hB]; exact MTLN.silent_missing hc)
  obtain ⟨K2, h2⟩ := exists_bound (l := A.bundles)
    (P := fun (b : AnyBundle p) K => (∀ k ≤ b.2.m, ∀ a, |b.2.v k a| ≤ K) ∧ ∀ k < b.2.m, ∀ a, |b.2.i k a| ≤ K)
    (fun b K K' hK h => ⟨fun k hk a => (h.1 k hk a).trans hK, fun k hk a => (h.2 k hk a).trans hK⟩)
    fun b _ => bundle_bound b
  refine ⟨K1 + K2, fun T M' hM' b hb => ?_⟩
  obtain ⟨A', hA'⟩ := (hAr.startable hNo hNst).run T
  obtain ⟨B', hB'⟩ := (hBr.startable hNo hNst).run T
  have hend := C62_superposition 1 (-1) T dt N A B M' A' B' hcomb hM' hA' hB'
  have hkeep := C153_keeps A A' T dt (N.time - 2 * N.dt) (by rw [hAo, hA]; exact MTLN.poised_frozen hp hdt)
    (by rw [hAo, hA]; exact MTLN.dc_frozen hdc _) hA'
  rw [hAo] at hkeep
  obtain ⟨b2, hb2, b3, hb3, hcb⟩ := hend.bundles.mem_first b hb
  obtain ⟨b0, hb0, hsame, hfr⟩ := forall₂_right_mem (forall₂_and hkeep.bundles (hAo ▸ MTLN.run_free hA')) b2 hb2
  obtain ⟨g1, g2⟩ := h1 T B' hB' b3 hb3
  obtain ⟨g3, g4⟩ := h2 b0 hb0
  cases hcb with
  | @mk n s₁ s₂ s₃ hcb =>
    cases hsame with
    | @mk _ s₀ _ hsame =>
      have hm2 : s₂.m = s₁.m := hcb.hw₂.m
      have hm3 : s₃.m = s₁.m := hcb.hw₃.m
      have hm0 : s₂.m = s₀.m := by
        obtain ⟨_, _, _, _, _, _, e⟩ := hfr
        have := congrArg (fun b : AnyBundle p => b.2.m) e
        exact this
      have tri : ∀ x y z : ℝ, z = 1 * x + -1 * y → |z| ≤ K1 → |y| ≤ K2 → |x| ≤ K1 + K2 := by
        intro x y z e h h'
        have : x = z + y := by rw [e]; ring
        rw [this]
        exact (abs_add_le _ _).trans (add_le_add h h')
      refine ⟨fun k hk a => ?_, fun k hk a => ?_⟩
      · have hk : k ≤ s₁.m := hk
        refine tri _ _ _ (hcb.v k a) (g1 k (by rw [hm3]; exact hk) a) ?_
        rw [hsame.v k (by omega)]
        exact g3 k (show k ≤ s₀.m by omega) a
      · have hk : k < s₁.m := hk
        refine tri _ _ _ (hcb.i k a) (g2 k (by rw [hm3]; exact hk) a) ?_
        rw [hsame.i k (by omega)]
        exact g4 k (show k < s₀.m by omega) a

/-- **C155.** A manager of passive bundles and networks of resistors and capacitors that work with the capacitances of the
bundles, with time steps below the automatic ones, and with bounded sources and fields that are constant from some time
on: voltages and currents stay below one bound in runs of any length exactly if the direct current circuit has a
solution. -/
theorem C155_bounded (M : MTLN p) (dt σ t₀ : ℝ) (hdt : 0 < M.runDt dt) (hp : (M.overrideDt dt).Passive)
    (hl : (M.overrideDt dt).Linked) (hm : (M.overrideDt dt).Matched)
    (hs : ∀ b ∈ (M.overrideDt dt).bundles, b.2.Stable) (hx : (M.overrideDt dt).ExcitedBelow σ)
    (hc : (M.overrideDt dt).ConstantFrom t₀) (hst : M.Startable dt) :
    (∃ K, ∀ T M', M.runUntil T dt = .ok M' → ∀ b ∈ M'.bundles,
      (∀ k ≤ b.2.m, ∀ a, |b.2.v k a| ≤ K) ∧ ∀ k < b.2.m, ∀ a, |b.2.i k a| ≤ K) ↔ (M.overrideDt dt).Solvable t₀ :=
  ⟨fun ⟨K, hK⟩ => C155_necessary M dt t₀ K hdt hp hl hc hst hK,
    fun h => C155_sufficient M dt σ t₀ hdt hp hl hm hs hx hc hst h⟩

/-! ## Demonstrations -/

/-- A state that solves the circuit shows that there is a solution. -/
theorem MTLN.DC.solvable {M : MTLN p} {t : ℝ} (h : M.DC t) (hl : M.Linked) (hn : (M.bundles.map fun b => b.2.name).Nodup) :
    M.Solvable t := by
  have hb : M.bundles.map (AnyBundle.withState (nodeV M.bundles) (cellI M.bundles)) = M.bundles := by
    refine (List.map_congr_left fun b hb => ?_).trans (List.map_id _)
    obtain ⟨n, b⟩ := b
    have e1 := nodeV_eq hn hb
    have e2 := cellI_eq hn hb
    simp only at e1 e2
    simp only [AnyBundle.withState, e1, e2, id]
  refine ⟨nodeV M.bundles, cellI M.bundles, ⟨?_, ?_⟩, fun x hx => ?_⟩
  · intro b hb'
    have : (M.withState (nodeV M.bundles) (cellI M.bundles)).bundles = M.bundles := hb
    rw [this] at hb'
    exact h.bundles b hb'
  · intro nwd hn e he
    obtain ⟨nwd0, hn0, rfl⟩ := List.mem_map.1 hn
    obtain ⟨e0, he0, rfl⟩ := List.mem_map.1 he
    rw [hb]
    have e1 := hl.v nwd0 hn0 e0 he0
    have e2 := hl.i nwd0 hn0 e0 he0
    have q := h.networks nwd0 hn0 e0 he0
    refine ⟨?_, ?_⟩
    · show e0.2.2.2.P1 *ᵥ (fun a => endV M.bundles (e0.2.2.2.nodes a).end') + e0.2.2.2.O *ᵥ e0.2.2.2.X +
        e0.2.2.2.Ps *ᵥ (fun a => e0.2.2.2.vSources a t) = fun a => endI M.bundles (e0.2.2.2.nodes a).end'
      rw [← show e0.2.2.2.v = _ from funext e1, ← show e0.2.2.2.i = _ from funext e2]
      exact q.node
    · intro hO
      show e0.2.2.2.M *ᵥ e0.2.2.2.X + e0.2.2.2.N1 *ᵥ (fun a => endV M.bundles (e0.2.2.2.nodes a).end') +
        e0.2.2.2.Ns *ᵥ (fun a => e0.2.2.2.vSources a t) = 0
      rw [← show e0.2.2.2.v = _ from funext e1]
      exact q.state hO
  · show endV (M.bundles.map (AnyBundle.withState (nodeV M.bundles) (cellI M.bundles))) x = 0
    rw [hb]
    exact hl.free x hx

/-- Non-vacuity of C155: the demo line with a source of 1 V, a resistor and a short. -/
theorem demoDirect_bounded {dt : ℝ} (h0 : 0 < dt) (h1 : dt < 1) : ∃ K, ∀ T M', (demoDirect 1).runUntil T dt = .ok M' →
    ∀ b ∈ M'.bundles, (∀ k ≤ b.2.m, ∀ a, |b.2.v k a| ≤ K) ∧ ∀ k < b.2.m, ∀ a, |b.2.i k a| ≤ K := by
  obtain ⟨-, a2, a3, a4, a5, a6, a7, -⟩ := demoPulse_hyps h0 h1
  have hpo := demoDirect_poised h0 1
  have hr : (demoPulse.overrideDt dt).Remade ((demoDirect 1).overrideDt dt) := by
    rw [demoDirect_override h0]
    unfold MTLN.overrideDt
    rw [if_pos h0.ne']
    refine ⟨rfl, rfl, .cons ⟨_, _, _, _, _, rfl⟩ .nil, .cons (.cons ⟨_, _, _, _, _, _, rfl⟩ .nil) .nil⟩
  have hl : ((demoDirect 1).overrideDt dt).Linked := by
    refine ⟨hpo.v, hpo.i, fun x _ => ?_⟩
    rw [demoDirect_override h0]
    unfold endV
    split
    · rename_i b hf
      obtain ⟨hb, -⟩ := findBundle_some hf
      obtain rfl := List.mem_singleton.1 hb
      split <;> rfl
    · rfl
  refine (C155_bounded (demoDirect 1) dt 1 (-2 * dt) ?_ (hr.passive a2) hl (hr.matched a4) (hr.stable a5) ⟨?_, ?_⟩
    hpo.constant (demoDirect_startable h0 h1 1)).2 (((demoDirect_dc h0 1 _).2 rfl).solvable hl (hr.passive a2).names)
  · rw [MTLN.runDt_eq, if_pos h0.ne']; exact h0
  · rw [demoDirect_override h0]
    intro b hb t
    obtain rfl := List.mem_singleton.1 hb
    exact ⟨fun _ _ => by simp [demoOne, MTLD.single], fun _ _ => by simp [demoOne, MTLD.single]⟩
  · rw [demoDirect_override h0]
    intro nwd hn e he t
    obtain rfl := List.mem_singleton.1 hn
    obtain rfl := List.mem_singleton.1 he
    refine ⟨fun _ => by simp, fun a => ?_⟩
    fin_cases a
    simp [demoTerm, demoNet, NetBuild.finish, demoNode]

/-- The circuit need not have a solution: a field along a line without resistance that is grounded at both ends. -/
theorem demoEmf_unsolvable {dt : ℝ} (h0 : 0 < dt) (t : ℝ) : ¬ (demoEmf.overrideDt dt).Solvable t := by
  have e1 : demoEmf.overrideDt dt = { bundles := [⟨1, { demoOne with eL := fun _ _ _ => 1, dt := dt }⟩], networks := [], dt := dt } := by
    unfold MTLN.overrideDt
    rw [if_pos h0.ne']
    rfl
  rintro ⟨V, I, hd, hf⟩
  rw [e1] at hd hf
  have hb := hd.bundles _ List.mem_cons_self
  have c0 := congrFun (hb.cell 0 (show 0 < 2 by norm_num)) (0 : Fin 1)
  have c1 := congrFun (hb.cell 1 (show 1 < 2 by norm_num)) (0 : Fin 1)
  have v0 := hf ⟨"demo", 0, .S⟩ (by simp [allNodes])
  have v2 := hf ⟨"demo", 0, .L⟩ (by simp [allNodes])
  have hz : ∀ k (x : Fin 1 → ℝ), ((demoOne.r k + demoOne.tz.d k) *ᵥ x) 0 = 0 := by
    intro k x
    have : demoOne.r k + demoOne.tz.d k = 0 := by
      show (0 : Mat 1) + 0 = 0
      rw [add_zero]
    rw [this, zero_mulVec]
    rfl
  have d0 : V "demo" 1 0 - V "demo" 0 0 + (0 - 0) = demoOne.dun 0 * (1 - ((demoOne.r 0 + demoOne.tz.d 0) *ᵥ
    fun a : Fin 1 => I "demo" 0 a) 0) := c0
  have d1 : V "demo" 2 0 - V "demo" 1 0 + (0 - 0) = demoOne.dun 1 * (1 - ((demoOne.r 1 + demoOne.tz.d 1) *ᵥ
    fun a : Fin 1 => I "demo" 1 a) 0) := c1
  have w0 : V "demo" 0 0 = 0 := by simpa [endV, findBundle, MTLN.withState, AnyBundle.withState, demoOne, MTLD.single, Side.node] using v0
  have w2 : V "demo" 2 0 = 0 := by
    have h2 : demoOne.m = 2 := rfl
    simpa [endV, findBundle, MTLN.withState, AnyBundle.withState, demoOne, MTLD.single, Side.node, demoBare] using v2
  rw [hz] at d0 d1
  have l0 : demoOne.dun 0 = 1 := by simp [demoOne, MTLD.single, demoBare]
  have l1 : demoOne.dun 1 = 1 := by simp [demoOne, MTLD.single, demoBare]
  rw [l0] at d0
  rw [l1] at d1
  linarith

end Mtln
