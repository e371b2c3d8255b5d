import Verif.Lemmas.ManagerRelax
import Verif.Lemmas.ManagerSolve
import Verif.Props.ManagerReciprocity
import Verif.Props.ManagerCircuit

/-! # Managers with resistors settle at the solution of the direct current circuit: C157 -/

namespace Mtln

open Matrix

variable {n p N S : ℕ}

/-- **C157**, without sources: a manager whose resistors reach every bundle, and whose sources and fields end at some time,
comes to rest. -/
theorem C157_relax (M : MTLN p) (dt t₀ : ℝ) (hdt : 0 < M.runDt dt) (hp : (M.overrideDt dt).Passive)
    (hl : (M.overrideDt dt).Linked) (hm : (M.overrideDt dt).Matched)
    (hs : ∀ b ∈ (M.overrideDt dt).bundles, b.2.Stable) (hd : (M.overrideDt dt).Dissipates)
    (hx : (M.overrideDt dt).SilentFrom t₀) (hst : M.Startable dt) :
    ∀ ε > 0, ∃ T₀, ∀ T ≥ T₀, ∀ M', M.runUntil T dt = .ok M' → ∀ b ∈ M'.bundles,
      (∀ k ≤ b.2.m, ∀ a, |b.2.v k a| ≤ ε) ∧ ∀ k < b.2.m, ∀ a, |b.2.i k a| ≤ ε := by
  obtain ⟨tr, htr, ⟨q, h0⟩, hrun⟩ := hst.traced hdt hp hl
  have hpar : ∀ j, SameParts (M.overrideDt dt) (tr j) := fun j =>
    (MTLN.start_parts h0).trans (parts_trace (k := j) (fun j _ => htr.step j) j le_rfl)
  intro ε hε
  obtain ⟨J, hJ⟩ := htr.rest hx hp hm hd hs hpar ε hε
  refine ⟨J * M.runDt dt, fun T hT M' hM' b hb => ?_⟩
  have hj : J ≤ ⌊T / M.runDt dt⌋.toNat := by
    have : (J : ℝ) ≤ T / M.runDt dt := by rw [le_div_iff₀ hdt]; exact hT
    have : (J : ℤ) ≤ ⌊T / M.runDt dt⌋ := Int.le_floor.2 (by exact_mod_cast this)
    omega
  have htw := hrun T M' hM'
  generalize ⌊T / M.runDt dt⌋.toNat = j at hj htw
  obtain ⟨b1, hb1, probes, -, rfl⟩ := forall₂_right_mem htw.bundles b hb
  obtain ⟨b0, hb0, v, i, phi, pr, lr, cg, rfl⟩ := forall₂_right_mem (htr.bundles j) b1 hb1
  obtain ⟨g1, g2⟩ := hJ j hj b0 hb0
  refine ⟨fun k hk a => ?_, fun k hk a => ?_⟩
  · have := congrFun (htr.col hb1 rfl k).1 a
    refine le_trans (le_of_eq (congrArg abs this)) (g1 k hk a)
  · have := congrFun (htr.col hb1 rfl k).2 a
    refine le_trans (le_of_eq (congrArg abs this)) (g2 k hk a)

/-! ## Other states and sources -/

theorem MTLN.Remade.quiet {M M' : MTLN p} (h : M.Remade M') {x : End} (hx : M.Quiet x) : M'.Quiet x := by
  induction hx with
  | free hf => exact .free (by rw [h.ends]; exact hf)
  | resistors hn he T a _ hdet ih =>
    obtain ⟨nwd', hn', hr⟩ := forall₂_mem_left h.networks _ hn
    obtain ⟨e', he', _, _, _, _, _, _, rfl⟩ := forall₂_mem_left hr _ he
    exact .resistors hn' he' T a ih hdet
  | along hb side side' c _ hc _ ihq ihQ =>
    obtain ⟨b', hb', _, _, _, _, _, rfl⟩ := forall₂_mem_left h.bundles _ hb
    refine .along hb' side side' c ihq (fun c => by rw [h.ends]; exact hc c) fun c nwd' hn' e' he' a ha a' hq => ?_
    obtain ⟨nwd, hn, e, he, _, _, _, _, _, _, rfl⟩ := h.level hn' he'
    exact ihQ c nwd hn e he a ha a' hq

theorem MTLN.Remade.dissipates {M M' : MTLN p} (h : M.Remade M') (hd : M.Dissipates) : M'.Dissipates := by
  refine ⟨fun nwd' hn' e' he' => ?_, fun b' hb' => ?_⟩
  · obtain ⟨nwd, hn, e, he, _, _, _, _, _, _, rfl⟩ := h.level hn' he'
    exact hd.P1 nwd hn e he
  · obtain ⟨b, hb, _, _, _, _, _, rfl⟩ := h.bundle hb'
    obtain ⟨side, hs⟩ := hd.bundles b hb
    refine ⟨side, fun c => ⟨h.quiet (hs c).1, by rw [h.ends]; exact (hs c).2.1, fun nwd' hn' e' he' a ha a' hq => ?_⟩⟩
    obtain ⟨nwd, hn, e, he, _, _, _, _, _, _, rfl⟩ := h.level hn' he'
    exact h.quiet ((hs c).2.2 nwd hn e he a ha a' hq)

/-- Bundles whose voltages and currents differ by at most `ε`. -/
def Near (ε : ℝ) (b b' : AnyBundle p) : Prop := ∃ c : MTLD b.1 p, b' = ⟨b.1, c⟩ ∧ c.m = b.2.m ∧ c.name = b.2.name ∧
  (∀ k ≤ b.2.m, ∀ a, |b.2.v k a - c.v k a| ≤ ε) ∧ ∀ k < b.2.m, ∀ a, |b.2.i k a - c.i k a| ≤ ε

/-- If the difference of two managers has no sources from some time on, their runs approach each other. -/
theorem near_runs {N A B : MTLN p} {dt t₀ : ℝ} (hNo : N.overrideDt dt = N) (hst : N.Startable dt) (hdt : 0 < N.dt)
    (hp : N.Passive) (hm : N.Matched) (hs : ∀ b ∈ N.bundles, b.2.Stable) (hd : N.Dissipates)
    (hBr : N.Remade B) (hl : B.Linked) (hx : B.SilentFrom t₀) (hcomb : MTLN.Comb 1 (-1) N A B) :
    ∀ ε > 0, ∃ T₀, ∀ T ≥ T₀, ∀ M' A', N.runUntil T dt = .ok M' → A.runUntil T dt = .ok A' →
      List.Forall₂ (Near ε) M'.bundles A'.bundles := by
  intro ε hε
  have hBo := hBr.over hNo
  have hBd : B.runDt dt = N.dt := by unfold MTLN.runDt; rw [hBo, hBr.dt]
  obtain ⟨T₀, hT₀⟩ := C157_relax B dt t₀ (by rw [hBd]; exact hdt) (by rw [hBo]; exact hBr.passive hp)
    (by rw [hBo]; exact hl) (by rw [hBo]; exact hBr.matched hm) (by rw [hBo]; exact hBr.stable hs)
    (by rw [hBo]; exact hBr.dissipates hd) (by rw [hBo]; exact hx) (hBr.startable hNo hst) ε hε
  refine ⟨T₀, fun T hT M' A' hM' hA' => ?_⟩
  obtain ⟨B', hB'⟩ := (hBr.startable hNo hst).run T
  have hend := (C62_superposition 1 (-1) T dt N A B M' A' B' hcomb hM' hA' hB').bundles
  have hsmall := hT₀ T hT B' hB'
  generalize M'.bundles = l₁ at hend
  generalize A'.bundles = l₂ at hend
  generalize B'.bundles = l₃ at hend hsmall
  induction hend with
  | nil => exact .nil
  | cons hr _ ih =>
    refine .cons ?_ (ih fun b hb => hsmall b (List.mem_cons_of_mem _ hb))
    obtain ⟨g1, g2⟩ := hsmall _ List.mem_cons_self
    cases hr with
    | @mk n s₁ s₂ s₃ hcb =>
      have e3 : s₃.m = s₁.m := hcb.hw₃.m
      refine ⟨s₂, rfl, hcb.hw₂.m, hcb.hw₂.name, fun k hk a => ?_, fun k hk a => ?_⟩
      · have := g1 k (show k ≤ s₃.m by rw [e3]; exact hk) a
        have e := hcb.v k a
        refine le_trans (le_of_eq (congrArg abs ?_)) this
        show s₁.v k a - s₂.v k a = s₃.v k a
        rw [e]; ring
      · have := g2 k (show k < s₃.m by rw [e3]; exact hk) a
        have e := hcb.i k a
        refine le_trans (le_of_eq (congrArg abs ?_)) this
        show s₁.i k a - s₂.i k a = s₃.i k a
        rw [e]; ring

/-- With constant sources, runs approach every solution of the circuit. -/
theorem settles_at (M : MTLN p) (dt t₀ : ℝ) (hdt : 0 < M.runDt dt) (hp : (M.overrideDt dt).Passive)
    (hl : (M.overrideDt dt).Linked) (hm : (M.overrideDt dt).Matched)
    (hs : ∀ b ∈ (M.overrideDt dt).bundles, b.2.Stable) (hd : (M.overrideDt dt).Dissipates)
    (hc : (M.overrideDt dt).ConstantFrom t₀) (hst : M.Startable dt) {V I : String → ℕ → ℕ → ℝ}
    (hdc : ((M.overrideDt dt).withState V I).DC t₀)
    (hfree : ∀ x, x ∉ (allNodes (M.overrideDt dt).networks).map Node.end' →
      endV ((M.overrideDt dt).withState V I).bundles x = 0) :
    ∀ ε > 0, ∃ T₀, ∀ T ≥ T₀, ∀ M', M.runUntil T dt = .ok M' → ∀ b ∈ M'.bundles,
      (∀ k ≤ b.2.m, ∀ a : Fin b.1, |b.2.v k a - V b.2.name k a| ≤ ε) ∧
      ∀ k < b.2.m, ∀ a : Fin b.1, |b.2.i k a - I b.2.name k a| ≤ ε := by
  obtain ⟨N, hN⟩ : ∃ N, N = M.overrideDt dt := ⟨_, rfl⟩
  have hNo : N.overrideDt dt = N := by rw [hN]; exact M.override_twice dt
  have hNst : N.Startable dt := by rw [hN]; exact hst.override
  have hrun : ∀ T, M.runUntil T dt = N.runUntil T dt := fun T => by rw [hN, M.run_override]
  change 0 < (M.overrideDt dt).dt at hdt
  rw [← hN] at hdt hp hl hm hs hd hc hdc hfree
  simp only [hrun]
  obtain ⟨A, hA⟩ : ∃ A, A = (N.withState V I).frozen t₀ := ⟨_, rfl⟩
  have hAr : N.Remade A := by rw [hA]; exact N.remade_frozen V I t₀
  have hAo := hAr.over hNo
  intro ε hε
  obtain ⟨T₀, h₀⟩ := near_runs hNo hNst hdt hp hm hs hd (N.remade_missing V I t₀) (MTLN.linked_missing hl hfree)
    (MTLN.silent_missing hc) (hA ▸ N.comb_missing V I t₀) ε hε
  refine ⟨T₀, fun T hT M' hM' b hb => ?_⟩
  obtain ⟨A', hA'⟩ := (hAr.startable hNo hNst).run T
  have hkeep := C153_keeps A A' T dt (N.time - 2 * N.dt) (by rw [hAo, hA]; exact MTLN.poised_frozen hp hdt)
    (by rw [hAo, hA]; exact MTLN.dc_frozen hdc _) hA'
  rw [hAo] at hkeep
  obtain ⟨b2, hb2, hnear⟩ := forall₂_mem_left (h₀ T hT M' A' hM' hA') b hb
  obtain ⟨b1, hb1, hsame, hfr⟩ := forall₂_right_mem (forall₂_and hkeep.bundles (hAo ▸ MTLN.run_free hA')) b2 hb2
  rw [hA] at hb1
  obtain ⟨b1', hb1', rfl⟩ := List.mem_map.1 hb1
  obtain ⟨b0, hb0, rfl⟩ := List.mem_map.1 hb1'
  obtain ⟨v, i, phi, pr, lr, cg, rfl⟩ := hfr
  obtain ⟨c, ec, e1, e2, g1, g2⟩ := hnear
  obtain ⟨n, s⟩ := b
  obtain ⟨n0, s0⟩ := b0
  obtain ⟨hn, hc'⟩ := Sigma.mk.inj_iff.1 ec
  change n0 = n at hn
  subst hn
  obtain rfl := eq_of_heq hc'
  have e1 : s0.m = s.m := e1
  have e2 : s0.name = s.name := e2
  obtain ⟨f1, f2⟩ : (∀ k ≤ s0.m, v k = fun a : Fin n0 => V s0.name k a) ∧
      ∀ k < s0.m, i k = fun a : Fin n0 => I s0.name k a := by
    cases hsame with
    | mk hsame => exact ⟨hsame.v, hsame.i⟩
  rw [e1, e2] at f1 f2
  refine ⟨fun k hk a => ?_, fun k hk a => ?_⟩
  · have := g1 k hk a
    change |s.v k a - v k a| ≤ ε at this
    rwa [f1 k hk] at this
  · have := g2 k hk a
    change |s.i k a - i k a| ≤ ε at this
    rwa [f2 k hk] at this

/-- Two solutions of the circuit agree. -/
theorem solution_unique {N : MTLN p} {dt t : ℝ} (hNo : N.overrideDt dt = N) (hst : N.Startable dt) (hdt : 0 < N.dt)
    (hp : N.Passive) (hm : N.Matched) (hs : ∀ b ∈ N.bundles, b.2.Stable) (hd : N.Dissipates)
    {V I V' I' : String → ℕ → ℕ → ℝ} (hdc : (N.withState V I).DC t) (hdc' : (N.withState V' I').DC t)
    (hf : ∀ x, x ∉ (allNodes N.networks).map Node.end' → endV (N.withState V I).bundles x = 0)
    (hf' : ∀ x, x ∉ (allNodes N.networks).map Node.end' → endV (N.withState V' I').bundles x = 0) :
    ∀ b ∈ N.bundles, (∀ k ≤ b.2.m, ∀ a < b.1, V b.2.name k a = V' b.2.name k a) ∧
      ∀ k < b.2.m, ∀ a < b.1, I b.2.name k a = I' b.2.name k a := by
  obtain ⟨A, hA⟩ : ∃ A, A = (N.withState V I).frozen t := ⟨_, rfl⟩
  have hAr : N.Remade A := by rw [hA]; exact N.remade_frozen V I t
  have hAo := hAr.over hNo
  have hpo := MTLN.poised_frozen (V := V) (I := I) (t := t) hp hdt
  rw [← hA] at hpo
  have hAd : A.runDt dt = N.dt := by unfold MTLN.runDt; rw [hAo, hAr.dt]
  have hcst : A.ConstantFrom t := by
    rw [hA]
    refine ⟨?_, ?_⟩
    · intro b hb s hs
      obtain ⟨b0, hb0, rfl⟩ := List.mem_map.1 hb
      exact ⟨fun _ _ => rfl, fun _ _ => rfl⟩
    · intro nwd hn e he s hs
      obtain ⟨nwd0, hn0, rfl⟩ := List.mem_map.1 hn
      obtain ⟨e0, he0, rfl⟩ := List.mem_map.1 he
      exact ⟨fun _ => rfl, fun _ => rfl⟩
  have hlk : A.Linked := by
    refine ⟨hpo.v, hpo.i, fun x hx => ?_⟩
    rw [hAr.ends] at hx
    rw [hA]
    exact ((endV_frozen t _ x).1).trans (hf x hx)
  have hA2 : A.bundles.map (AnyBundle.withState V' I') = (N.bundles.map (AnyBundle.withState V' I')).map (AnyBundle.frozen t) := by
    rw [hA]
    show ((N.bundles.map _).map _).map _ = _
    simp only [List.map_map]
    rfl
  have hf2 : ∀ x, x ∉ (allNodes A.networks).map Node.end' → endV (A.withState V' I').bundles x = 0 := by
    intro x hx
    rw [hAr.ends] at hx
    show endV (A.bundles.map _) x = 0
    rw [hA2]
    exact ((endV_frozen t _ x).1).trans (hf' x hx)
  have hdc2 : (A.withState V' I').DC t := by
    refine ⟨?_, ?_⟩
    · intro b hb
      change b ∈ A.bundles.map _ at hb
      rw [hA2] at hb
      obtain ⟨b0, hb0, rfl⟩ := List.mem_map.1 hb
      exact ⟨(hdc'.bundles b0 hb0).cell, (hdc'.bundles b0 hb0).node⟩
    · intro nwd hn e he
      obtain ⟨nwd1, hn1, rfl⟩ := List.mem_map.1 hn
      obtain ⟨e1, he1, rfl⟩ := List.mem_map.1 he
      rw [hA] at hn1
      obtain ⟨nwd2, hn2, rfl⟩ := List.mem_map.1 hn1
      obtain ⟨e2, he2, rfl⟩ := List.mem_map.1 he1
      obtain ⟨nwd3, hn3, rfl⟩ := List.mem_map.1 hn2
      obtain ⟨e3, he3, rfl⟩ := List.mem_map.1 he2
      rw [hA2]
      have q := hdc'.networks _ (List.mem_map_of_mem hn3) _ (List.mem_map_of_mem he3)
      refine ⟨?_, ?_⟩
      · have := q.node
        refine Eq.trans ?_ (this.trans ?_)
        · refine congrArg (fun z => e3.2.2.2.P1 *ᵥ z + _ + _) (funext fun a => (endV_frozen t _ _).1)
        · exact funext fun a => (endV_frozen t _ _).2.symm
      · intro hO
        have := q.state hO
        refine Eq.trans ?_ this
        exact congrArg (fun z => _ + e3.2.2.2.N1 *ᵥ z + _) (funext fun a => (endV_frozen t _ _).1)
  have hset := settles_at A dt t (by rw [hAd]; exact hdt) (by rw [hAo]; exact hAr.passive hp) (by rw [hAo]; exact hlk)
    (by rw [hAo]; exact hAr.matched hm) (by rw [hAo]; exact hAr.stable hs) (by rw [hAo]; exact hAr.dissipates hd)
    (by rw [hAo]; exact hcst) (hAr.startable hNo hst) (by rw [hAo]; exact hdc2) (by rw [hAo]; exact hf2)
  have key : ∀ ε > 0, ∀ b ∈ N.bundles, (∀ k ≤ b.2.m, ∀ a : Fin b.1, |V b.2.name k a - V' b.2.name k a| ≤ ε) ∧
      ∀ k < b.2.m, ∀ a : Fin b.1, |I b.2.name k a - I' b.2.name k a| ≤ ε := by
    intro ε hε b hb
    obtain ⟨T, hT⟩ := hset ε hε
    obtain ⟨A', hA'⟩ := (hAr.startable hNo hst).run T
    have hkeep := C153_keeps A A' T dt (N.time - 2 * N.dt) (by rw [hAo]; exact hpo)
      (by rw [hAo, hA]; exact MTLN.dc_frozen hdc _) hA'
    rw [hAo] at hkeep
    have hbA : (AnyBundle.frozen t (AnyBundle.withState V I b)) ∈ A.bundles := by
      rw [hA]
      exact List.mem_map_of_mem (List.mem_map_of_mem hb)
    obtain ⟨b2, hb2, hsame, hfr⟩ := forall₂_mem_left (forall₂_and hkeep.bundles (hAo ▸ MTLN.run_free hA')) _ hbA
    obtain ⟨v, i, phi, pr, lr, cg, rfl⟩ := hfr
    obtain ⟨g1, g2⟩ := hT T le_rfl A' hA' _ hb2
    obtain ⟨f1, f2⟩ : (∀ k ≤ b.2.m, v k = fun a : Fin b.1 => V b.2.name k a) ∧ ∀ k < b.2.m, i k = fun a : Fin b.1 => I b.2.name k a := by
      cases hsame with
      | mk hsame => exact ⟨hsame.v, hsame.i⟩
    refine ⟨fun k hk a => ?_, fun k hk a => ?_⟩
    · have := g1 k hk a
      change |v k a - V' b.2.name k a| ≤ ε at this
      rwa [f1 k hk] at this
    · have := g2 k hk a
      change |i k a - I' b.2.name k a| ≤ ε at this
      rwa [f2 k hk] at this
  have zero : ∀ x y : ℝ, (∀ ε > 0, |x - y| ≤ ε) → x = y := by
    intro x y h
    have : |x - y| ≤ 0 := le_of_forall_pos_le_add fun ε hε => by rw [zero_add]; exact h ε hε
    exact sub_eq_zero.1 (abs_nonpos_iff.1 this)
  exact fun b hb => ⟨fun k hk a ha => zero _ _ fun ε hε => (key ε hε b hb).1 k hk ⟨a, ha⟩,
    fun k hk a ha => zero _ _ fun ε hε => (key ε hε b hb).2 k hk ⟨a, ha⟩⟩

/-- **C157**, the circuit: where the resistors reach every bundle, the direct current circuit has exactly one solution, for
any sources and fields. -/
theorem C157_solution (M : MTLN p) (dt t : ℝ) (hdt : 0 < M.runDt dt) (hp : (M.overrideDt dt).Passive)
    (hm : (M.overrideDt dt).Matched) (hs : ∀ b ∈ (M.overrideDt dt).bundles, b.2.Stable) (hd : (M.overrideDt dt).Dissipates)
    (hst : M.Startable dt) :
    ∃ V I, ((M.overrideDt dt).withState V I).DC t ∧
      (∀ x, x ∉ (allNodes (M.overrideDt dt).networks).map Node.end' → endV ((M.overrideDt dt).withState V I).bundles x = 0) ∧
      ∀ V' I', ((M.overrideDt dt).withState V' I').DC t →
        (∀ x, x ∉ (allNodes (M.overrideDt dt).networks).map Node.end' → endV ((M.overrideDt dt).withState V' I').bundles x = 0) →
        ∀ b ∈ (M.overrideDt dt).bundles, (∀ k ≤ b.2.m, ∀ a < b.1, V' b.2.name k a = V b.2.name k a) ∧
          ∀ k < b.2.m, ∀ a < b.1, I' b.2.name k a = I b.2.name k a := by
  have hNo := M.override_twice dt
  have hNst := hst.override
  change 0 < (M.overrideDt dt).dt at hdt
  generalize M.overrideDt dt = N at *
  have hO : ∀ nwd ∈ N.networks, ∀ e ∈ nwd, e.2.2.2.O = 0 := fun nwd hn e he => (hp.networks nwd hn e he).O
  have hr := N.remade_muted
  obtain ⟨z1, z2⟩ := N.muted_zero t hO
  obtain ⟨V, I, h1, h2⟩ := MTLN.solvable_of_unique (M := N) (t := t) hp.names (fun b hb => (hp.bundles b hb).1.cells) hp.ends hO
    hm.nodes fun V I hVI hf b hb => by
      have := solution_unique (hr.over hNo) (hr.startable hNo hNst) (by rw [hr.dt]; exact hdt) (hr.passive hp) (hr.matched hm)
        (hr.stable hs) (hr.dissipates hd) hVI z1 hf (fun x _ => z2 x) b hb
      exact this
  exact ⟨V, I, h1, h2, fun V' I' h1' h2' => solution_unique hNo hNst hdt hp hm hs hd h1' h1 h2' h2⟩

/-- **C157.** A manager of passive bundles and networks of resistors and capacitors that work with the capacitances of the
bundles, with time steps below the automatic ones, where the resistors reach every bundle, and with sources and fields
that are constant from some time on: whatever it starts from, voltages and currents tend to those of the solution of the
direct current circuit. -/
theorem C157_settles (M : MTLN p) (dt t₀ : ℝ) (hdt : 0 < M.runDt dt) (hp : (M.overrideDt dt).Passive)
    (hl : (M.overrideDt dt).Linked) (hm : (M.overrideDt dt).Matched)
    (hs : ∀ b ∈ (M.overrideDt dt).bundles, b.2.Stable) (hd : (M.overrideDt dt).Dissipates)
    (hc : (M.overrideDt dt).ConstantFrom t₀) (hst : M.Startable dt) :
    ∃ V I, ((M.overrideDt dt).withState V I).DC t₀ ∧
      (∀ x, x ∉ (allNodes (M.overrideDt dt).networks).map Node.end' → endV ((M.overrideDt dt).withState V I).bundles x = 0) ∧
      ∀ ε > 0, ∃ T₀, ∀ T ≥ T₀, ∀ M', M.runUntil T dt = .ok M' → ∀ b ∈ M'.bundles,
        (∀ k ≤ b.2.m, ∀ a : Fin b.1, |b.2.v k a - V b.2.name k a| ≤ ε) ∧
        ∀ k < b.2.m, ∀ a : Fin b.1, |b.2.i k a - I b.2.name k a| ≤ ε := by
  obtain ⟨V, I, h1, h2, -⟩ := C157_solution M dt t₀ hdt hp hm hs hd hst
  exact ⟨V, I, h1, h2, settles_at M dt t₀ hdt hp hl hm hs hd hc hst h1 h2⟩

/-! ## Other starts -/

/-- The difference to a bundle that starts with other voltages and currents. -/
def AnyBundle.offset (V I : String → ℕ → ℕ → ℝ) (b : AnyBundle p) : AnyBundle p :=
  ⟨b.1, { b.2 with
    v := fun k a => b.2.v k a - V b.2.name k a
    i := fun k a => b.2.i k a - I b.2.name k a
    phi := fun _ _ _ => 0
    eL := fun _ _ _ => 0
    eT := fun _ _ _ => 0 }⟩

/-- The same for a network. -/
noncomputable def levelOffset (bs : List (AnyBundle p)) (e : ℕ × AnyNetwork) : ℕ × AnyNetwork :=
  (e.1, ⟨e.2.1, e.2.2.1, { e.2.2.2 with
    v := fun a => e.2.2.2.v a - endV bs (e.2.2.2.nodes a).end'
    vPrev := fun a => e.2.2.2.vPrev a - endV bs (e.2.2.2.nodes a).end'
    i := fun a => e.2.2.2.i a - endI bs (e.2.2.2.nodes a).end'
    X := fun _ => 0
    vSources := fun _ _ => 0
    nodes := fun a => { e.2.2.2.nodes a with eT := fun _ => 0 } }⟩)

/-- The same for a manager. -/
noncomputable def MTLN.offset (M : MTLN p) (V I : String → ℕ → ℕ → ℝ) : MTLN p :=
  { M with
    bundles := M.bundles.map (AnyBundle.offset V I)
    networks := M.networks.map fun nwd => nwd.map (levelOffset (M.bundles.map (AnyBundle.withState V I))) }

theorem MTLN.remade_offset (M : MTLN p) (V I : String → ℕ → ℕ → ℝ) : M.Remade (M.offset V I) :=
  ⟨rfl, rfl, forall₂_map_of (fun _ => ⟨_, _, _, _, _, rfl⟩) _,
    forall₂_map_of (fun _ => forall₂_map_of (fun _ => ⟨_, _, _, _, _, _, rfl⟩) _) _⟩

theorem MTLN.remade_with (M : MTLN p) (V I : String → ℕ → ℕ → ℝ) : M.Remade (M.withState V I) :=
  ⟨rfl, rfl, forall₂_map_of (fun _ => ⟨_, _, _, _, _, rfl⟩) _,
    forall₂_map_of (fun _ => forall₂_map_of (fun _ => ⟨_, _, _, _, _, _, rfl⟩) _) _⟩

theorem MTLN.comb_offset (M : MTLN p) (V I : String → ℕ → ℕ → ℝ) : MTLN.Comb 1 (-1) M (M.withState V I) (M.offset V I) := by
  refine ⟨rfl, rfl, rfl, rfl, ?_, ?_⟩
  · refine all3_map (fun b => ?_) _
    obtain ⟨n, b⟩ := b
    refine .mk ⟨⟨rfl, rfl, rfl, rfl, rfl, rfl, rfl, rfl, rfl⟩, ⟨rfl, rfl, rfl, rfl, rfl, rfl, rfl, rfl, rfl⟩, ?_, ?_, ?_, ?_, ?_⟩
    · intro k x; simp only [AnyBundle.withState]; ring
    · intro k x; simp only [AnyBundle.withState]; ring
    · intro k x σ; simp only [AnyBundle.withState]; push_cast; ring
    · intro k x s; simp only [AnyBundle.withState]; ring
    · intro k x s; simp only [AnyBundle.withState]; ring
  · refine all3_map (fun nwd => ?_) _
    refine all3_map (fun e => ?_) _
    obtain ⟨l, N, S, nw⟩ := e
    refine .mk ⟨⟨fun _ => rfl, fun _ => rfl, fun _ => rfl, fun _ => rfl, rfl, rfl, rfl, rfl, rfl, rfl, rfl, rfl, rfl, rfl⟩,
      ⟨fun _ => rfl, fun _ => rfl, fun _ => rfl, fun _ => rfl, rfl, rfl, rfl, rfl, rfl, rfl, rfl, rfl, rfl, rfl⟩,
      ?_, ?_, ?_, ?_, ?_, ?_⟩
    · intro x; simp only [levelWith]; ring
    · intro x; simp only [levelWith]; ring
    · intro x; simp only [levelWith]; ring
    · intro x; simp only [levelWith]; ring
    · intro x s; simp only [levelWith]; ring
    · intro x s; simp only [levelWith]; ring

theorem endV_offset (bs : List (AnyBundle p)) (V I : String → ℕ → ℕ → ℝ) (x : End) :
    endV (bs.map (AnyBundle.offset V I)) x = endV bs x - endV (bs.map (AnyBundle.withState V I)) x ∧
    endI (bs.map (AnyBundle.offset V I)) x = endI bs x - endI (bs.map (AnyBundle.withState V I)) x := by
  have : findBundle (bs.map (AnyBundle.offset V I)) x.bundle = (findBundle bs x.bundle).map (AnyBundle.offset V I) := by
    unfold findBundle
    rw [List.find?_map]
    rfl
  unfold endV endI
  rw [this, find_withState]
  cases findBundle bs x.bundle with
  | none => simp
  | some b =>
    simp only [Option.map_some, AnyBundle.offset, AnyBundle.withState]
    split
    · exact ⟨rfl, by ring⟩
    · simp

theorem MTLN.linked_offset {M : MTLN p} {V I : String → ℕ → ℕ → ℝ} (hl : M.Linked)
    (hf : ∀ x, x ∉ (allNodes M.networks).map Node.end' → endV (M.withState V I).bundles x = 0) : (M.offset V I).Linked := by
  refine ⟨?_, ?_, ?_⟩
  · intro nwd hn e he a
    obtain ⟨nwd0, hn0, rfl⟩ := List.mem_map.1 hn
    obtain ⟨e0, he0, rfl⟩ := List.mem_map.1 he
    refine Eq.trans ?_ (endV_offset M.bundles V I _).1.symm
    exact congrArg (fun z => z - _) (hl.v nwd0 hn0 e0 he0 a)
  · intro nwd hn e he a
    obtain ⟨nwd0, hn0, rfl⟩ := List.mem_map.1 hn
    obtain ⟨e0, he0, rfl⟩ := List.mem_map.1 he
    refine Eq.trans ?_ (endV_offset M.bundles V I _).2.symm
    exact congrArg (fun z => z - _) (hl.i nwd0 hn0 e0 he0 a)
  · intro x hx
    rw [(M.remade_offset V I).ends] at hx
    refine (endV_offset M.bundles V I x).1.trans ?_
    rw [hl.free x hx]
    have := hf x hx
    simp only [MTLN.withState] at this
    rw [this, sub_zero]

theorem MTLN.silent_offset (M : MTLN p) (V I : String → ℕ → ℕ → ℝ) (t : ℝ) : (M.offset V I).SilentFrom t := by
  refine ⟨?_, ?_⟩
  · intro b hb s hs
    obtain ⟨b0, hb0, rfl⟩ := List.mem_map.1 hb
    exact ⟨fun _ _ => rfl, fun _ _ => rfl⟩
  · intro nwd hn e he s hs
    obtain ⟨nwd0, hn0, rfl⟩ := List.mem_map.1 hn
    obtain ⟨e0, he0, rfl⟩ := List.mem_map.1 he
    exact ⟨fun _ => rfl, fun _ => rfl⟩

/-- **C157**, for any sources: runs of the manager from different voltages and currents approach each other. -/
theorem C157_forget (M : MTLN p) (dt : ℝ) (V I : String → ℕ → ℕ → ℝ) (hdt : 0 < M.runDt dt) (hp : (M.overrideDt dt).Passive)
    (hl : (M.overrideDt dt).Linked) (hm : (M.overrideDt dt).Matched)
    (hs : ∀ b ∈ (M.overrideDt dt).bundles, b.2.Stable) (hd : (M.overrideDt dt).Dissipates) (hst : M.Startable dt)
    (hf : ∀ x, x ∉ (allNodes (M.overrideDt dt).networks).map Node.end' → endV ((M.overrideDt dt).withState V I).bundles x = 0) :
    ∀ ε > 0, ∃ T₀, ∀ T ≥ T₀, ∃ M' A', M.runUntil T dt = .ok M' ∧ ((M.overrideDt dt).withState V I).runUntil T dt = .ok A' ∧
      ∀ b ∈ M'.bundles, (∀ k ≤ b.2.m, ∀ a : Fin b.1, |b.2.v k a - nodeV A'.bundles b.2.name k a| ≤ ε) ∧
        ∀ k < b.2.m, ∀ a : Fin b.1, |b.2.i k a - cellI A'.bundles b.2.name k a| ≤ ε := by
  have hNo := M.override_twice dt
  have hNst := hst.override
  have hrun : ∀ T, M.runUntil T dt = (M.overrideDt dt).runUntil T dt := fun T => (M.run_override T dt).symm
  simp only [hrun]
  change 0 < (M.overrideDt dt).dt at hdt
  generalize M.overrideDt dt = N at *
  intro ε hε
  obtain ⟨T₀, h₀⟩ := near_runs hNo hNst hdt hp hm hs hd (N.remade_offset V I) (MTLN.linked_offset hl hf)
    (N.silent_offset V I 0) (N.comb_offset V I) ε hε
  refine ⟨T₀, fun T hT => ?_⟩
  obtain ⟨M', hM'⟩ := hNst.run T
  have hAr := N.remade_with V I
  have hAo := hAr.over hNo
  obtain ⟨A', hA'⟩ := (hAr.startable hNo hNst).run T
  refine ⟨M', A', hM', hA', fun b hb => ?_⟩
  have hnames : (A'.bundles.map fun b => b.2.name).Nodup := by
    have h1 := MTLN.run_free hA'
    rw [hAo] at h1
    have h2 : A'.bundles.map (fun b => b.2.name) = (N.withState V I).bundles.map fun b => b.2.name := by
      generalize (N.withState V I).bundles = l at h1
      generalize A'.bundles = l' at h1
      induction h1 with
      | nil => rfl
      | cons hr _ ih =>
        obtain ⟨_, _, _, _, _, _, rfl⟩ := hr
        simp only [List.map_cons, ih]
    rw [h2, hAr.names]
    exact hp.names
  obtain ⟨b2, hb2, c, rfl, -, en, g1, g2⟩ := forall₂_mem_left (h₀ T hT M' A' hM' hA') b hb
  refine ⟨fun k hk a => ?_, fun k hk a => ?_⟩
  · have := nodeV_eq hnames hb2 k a
    simp only [en] at this
    rw [this]
    exact g1 k hk a
  · have := cellI_eq hnames hb2 k a
    simp only [en] at this
    rw [this]
    exact g2 k hk a

/-! ## Demonstrations -/

theorem demoDirect_remade {dt : ℝ} (h0 : 0 < dt) (j : ℝ) : (demoPulse.overrideDt dt).Remade ((demoDirect j).overrideDt dt) := by
  rw [demoDirect_override h0]
  unfold MTLN.overrideDt
  rw [if_pos h0.ne']
  exact ⟨rfl, rfl, .cons ⟨_, _, _, _, _, rfl⟩ .nil, .cons (.cons ⟨_, _, _, _, _, _, rfl⟩ .nil) .nil⟩

theorem demoDirect_dissipates {dt : ℝ} (h0 : 0 < dt) (j : ℝ) : ((demoDirect j).overrideDt dt).Dissipates := by
  rw [demoDirect_override h0]
  obtain ⟨W, hW⟩ : ∃ W : Network 1 0, W = { demoTerm with vSources := fun _ _ => 1, v := fun _ => 0, i := fun _ => j } := ⟨_, rfl⟩
  rw [← hW]
  have hnode : ∀ a, W.nodes a = demoNode [] := by
    intro a; subst hW; fin_cases a; rfl
  have hP : W.P1 = putEntry 0 0 0 (-1 / 1) := by subst hW; rfl
  have hQ : W.Q1 = 0 := by subst hW; rfl
  have hend : (W.nodes 0).end' = ⟨"demo", 0, .S⟩ := by rw [hnode]; rfl
  refine ⟨fun nwd hn e he => ?_, fun b hb => ⟨.S, fun c => ⟨?_, ?_, fun nwd hn e he a _ a' hq => ?_⟩⟩⟩
  · obtain rfl := List.mem_singleton.1 hn
    obtain rfl := List.mem_singleton.1 he
    ext a b
    rw [Subsingleton.elim a b]
    rfl
  · obtain rfl := List.mem_singleton.1 hb
    have hc : (c : ℕ) = 0 := by have := c.2; change (c : ℕ) < 1 at this; omega
    have hgen : ∀ M : MTLN 0, M.networks = [[(0, ⟨1, 0, W⟩)]] → M.Quiet (W.nodes 0).end' := fun M hM =>
      MTLN.Quiet.resistors (M := M) (nwd := [(0, ⟨1, 0, W⟩)]) (by rw [hM]; exact List.mem_cons_self) (e := (0, ⟨1, 0, W⟩)) List.mem_cons_self ∅ (0 : Fin 1) (by simp) (by
        intro v hv _
        have := congrFun hv (0 : Fin 1)
        change (W.P1 *ᵥ v) 0 = 0 at this
        rw [hP] at this
        simpa [putEntry, mulVec, dotProduct] using this)
    rw [hc]
    rw [hend] at hgen
    exact hgen _ rfl
  · obtain rfl := List.mem_singleton.1 hb
    have hc : (c : ℕ) = 0 := by have := c.2; change (c : ℕ) < 1 at this; omega
    rw [hc]
    refine List.mem_map.2 ⟨W.nodes 0, ?_, hend⟩
    simp [allNodes]
  · obtain rfl := List.mem_singleton.1 hn
    obtain rfl := List.mem_singleton.1 he
    refine absurd ?_ hq
    show W.Q1 a a' = 0
    rw [hQ]
    rfl

/-- Non-vacuity of C157: the demo line with a source of 1 V, a resistor of 1 Ω and a short, started with any current, tends
to 1 A and no voltage. -/
theorem demoDirect_settles {dt : ℝ} (h0 : 0 < dt) (h1 : dt < 1) (j : ℝ) : ∀ ε > 0, ∃ T₀, ∀ T ≥ T₀, ∀ M',
    (demoDirect j).runUntil T dt = .ok M' → ∀ b ∈ M'.bundles,
      (∀ k ≤ b.2.m, ∀ a, |b.2.v k a| ≤ ε) ∧ ∀ k < b.2.m, ∀ a, |b.2.i k a - 1| ≤ ε := by
  obtain ⟨-, a2, a3, a4, a5, a6, a7, -⟩ := demoPulse_hyps h0 h1
  have hpo := demoDirect_poised h0 j
  have hr := demoDirect_remade h0 j
  have hz : ∀ (l : List (AnyBundle 0)) x, (∀ b ∈ l, ∀ k a, b.2.v k a = 0) → endV l x = 0 := by
    intro l x hl
    unfold endV
    split
    · rename_i b hf
      obtain ⟨hb, -⟩ := findBundle_some hf
      split
      · exact hl b hb _ _
      · rfl
    · rfl
  have hl : ((demoDirect j).overrideDt dt).Linked := by
    refine ⟨hpo.v, hpo.i, fun x _ => hz _ _ ?_⟩
    rw [demoDirect_override h0]
    intro b hb k a
    obtain rfl := List.mem_singleton.1 hb
    rfl
  have hw : ∀ x, endV (((demoDirect j).overrideDt dt).withState (fun _ _ _ => 0) fun _ _ _ => 1).bundles x = 0 := by
    refine fun x => hz _ _ fun b hb k a => ?_
    obtain ⟨b0, -, rfl⟩ := List.mem_map.1 hb
    rfl
  have := settles_at (demoDirect j) dt (-2 * dt) (V := fun _ _ _ => 0) (I := fun _ _ _ => 1)
    (by rw [MTLN.runDt_eq, if_pos h0.ne']; exact h0) (hr.passive a2) hl (hr.matched a4) (hr.stable a5)
    (demoDirect_dissipates h0 j) hpo.constant (demoDirect_startable h0 h1 j) ⟨?_, ?_⟩ fun x _ => hw x
  · simpa only [sub_zero] using this
  · have q := ((demoDirect_dc h0 1 (-2 * dt)).2 rfl).bundles
    rw [demoDirect_override h0] at q ⊢
    intro b hb
    obtain rfl := List.mem_singleton.1 hb
    have q := q _ List.mem_cons_self
    exact ⟨q.cell, q.node⟩
  · have hi : endI (((demoDirect j).overrideDt dt).withState (fun _ _ _ => 0) fun _ _ _ => 1).bundles ⟨"demo", 0, .S⟩ = 1 := by
      rw [demoDirect_override h0]
      simp [endI, findBundle, MTLN.withState, AnyBundle.withState, demoOne, MTLD.single, Side.factor]
    have q := ((demoDirect_dc h0 1 (-2 * dt)).2 rfl).networks
    rw [demoDirect_override h0] at q hi hw ⊢
    intro nwd hn e he
    obtain rfl := List.mem_singleton.1 hn
    obtain rfl := List.mem_singleton.1 he
    have q := (q _ List.mem_cons_self _ List.mem_cons_self).node
    refine ⟨Eq.trans ?_ (q.trans ?_), fun h => absurd rfl h⟩
    · exact congrArg (fun z : Fin 1 → ℝ => demoTerm.P1 *ᵥ z + _ + _) (funext fun a => hw _)
    · funext a
      fin_cases a
      exact hi.symm

end Mtln
