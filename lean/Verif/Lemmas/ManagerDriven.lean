import Verif.Lemmas.ManagerTones

/-! # Solutions of the circuit for alternating current move as the code says -/

namespace Mtln

open Matrix

variable {n p N S : ℕ}

/-- The amplitudes solve the circuit of a manager with sinusoidal sources for alternating current. -/
structure MTLN.Driven (A : MTLN p) (ω : ℝ) (V I : String → ℕ → ℕ → ℂ) : Prop where
  bundles : ∀ b ∈ A.bundles, ∃ F H : ℕ → Fin b.1 → ℂ, (∀ k t, (fun a => b.2.eT k a t) = phasor (ω * t) (F k)) ∧
    (∀ k t, (fun a => b.2.eL k a t) = phasor (ω * t) (H k)) ∧
    b.2.AC (ω * A.dt) F H (fun k a => V b.2.name k a) (fun k a => I b.2.name k a)
  networks : ∀ nwd ∈ A.networks, ∀ e ∈ nwd, ∃ E F : Fin e.2.1 → ℂ, (∀ t, (fun a => e.2.2.2.vSources a t) = phasor (ω * t) E) ∧
    (∀ t, (fun a => (e.2.2.2.nodes a).eT t) = phasor (ω * t) F) ∧
    e.2.2.2.AC A.dt (ω * A.dt) E F (fun a => acEndV A.bundles V (e.2.2.2.nodes a).end')
      (fun a => acEndI A.bundles I (e.2.2.2.nodes a).end')
  free : ∀ x, x ∉ (allNodes A.networks).map Node.end' → acEndV A.bundles V x = 0

/-- A step of a manager with a regular system of every network. -/
theorem MTLN.step_regular {M M' : MTLN p} (h : M.step = .ok M') (hr : M.Ready) :
    ∀ nwd ∈ M.networks, ∀ e ∈ nwd, (e.2.2.2.system M.dt).det ≠ 0 := by
  obtain ⟨nws1, bs2, nws2, h1, hvalid, h3, h4, rfl⟩ := MTLN.step_ok_iff.1 h
  intro nwd hn e he
  obtain ⟨nwd1, -, hs⟩ := forall₂_mem_left (mapPy_ok_iff.1 h1) nwd hn
  obtain ⟨e1, -, hs'⟩ := forall₂_mem_left (mapPy_ok_iff.1 hs) e he
  simp only [bind_ok_iff, onAny_ok_iff, Except.ok.injEq] at hs'
  obtain ⟨_, ⟨c, hc, rfl⟩, rfl⟩ := hs'
  exact ((advance_ok_iff (hr.networks nwd hn e he)).1 hc).1

/-- The node equations without state variables have one solution. -/
theorem Network.NodeEquations.unique {nw : Network N S} {time dt : ℝ} {v w : Fin N → ℝ} {X Y : Fin S → ℝ} (hO : nw.O = 0)
    (hd : (nw.system dt).det ≠ 0) (h : nw.NodeEquations time dt v X) (h' : nw.NodeEquations time dt w Y) : v = w := by
  have hdet : ((1 / dt) • nw.dxc - nw.P1 - (1 / dt) • nw.Q1).det ≠ 0 := by
    intro h0
    refine hd ?_
    unfold Network.system
    rw [hO, neg_zero, det_fromBlocks_zero₁₂, h0, zero_mul]
  have h4 : ((1 / dt) • nw.dxc - nw.P1 - (1 / dt) • nw.Q1) *ᵥ (v - w) = 0 := by
    unfold Network.NodeEquations at h h'
    simp only [hO, zero_mulVec, add_zero] at h h'
    simp only [sub_mulVec, smul_mulVec, mulVec_sub, mulVec_add] at h h' ⊢
    linear_combination (norm := module) h - h'
  exact sub_eq_zero.1 (eq_zero_of_mulVec_eq_zero hdet h4)

/-- The state of a manager at the phase of its time. -/
structure MTLN.InPhase (A : MTLN p) (ω : ℝ) (V I : String → ℕ → ℕ → ℂ) (B : MTLN p) : Prop where
  v : ∀ b ∈ A.bundles, ∀ k ≤ b.2.m, (fun a : Fin b.1 => nodeV B.bundles b.2.name k a) =
    phasor (ω * B.time - ω * A.dt) (fun a => V b.2.name k a)
  i : ∀ b ∈ A.bundles, ∀ k < b.2.m, (fun a : Fin b.1 => cellI B.bundles b.2.name k a) =
    phasor (ω * B.time - ω * A.dt / 2) (fun a => I b.2.name k a)
  prev : ∀ nwd ∈ B.networks, ∀ e ∈ nwd, e.2.2.2.vPrev = phasor (ω * B.time - 2 * (ω * A.dt))
    (fun a => acEndV A.bundles V (e.2.2.2.nodes a).end')

section

variable {A B : MTLN p} {ω : ℝ} {V I : String → ℕ → ℕ → ℂ}

/-- The ends of a state in phase. -/
theorem MTLN.InPhase.ends (h : A.InPhase ω V I B) (hf : List.Forall₂ FreeBundle A.bundles B.bundles) (hM : ∀ b ∈ A.bundles, 0 < b.2.m)
    (x : End) :
    endV B.bundles x = (acEndV A.bundles V x * Complex.exp (((ω * B.time - ω * A.dt : ℝ) : ℂ) * Complex.I)).re ∧
    endI B.bundles x = (acEndI A.bundles I x * Complex.exp (((ω * B.time - ω * A.dt / 2 : ℝ) : ℂ) * Complex.I)).re := by
  rcases find_free hf x.bundle with ⟨e, e'⟩ | ⟨b, b', e, e', v, i, phi, probes, lr, cg, rfl⟩
  · unfold endV endI acEndV acEndI
    simp only [e, e', zero_mul, Complex.zero_re, and_self]
  · obtain ⟨hb, hname⟩ := findBundle_some e
    by_cases hrow : x.row < b.1
    · have hm := hM b hb
      have hnode : x.side.node b.2.m ≤ b.2.m := by cases x.side <;> simp [Side.node]
      have hcell : x.side.cell b.2.m < b.2.m := by cases x.side <;> simp [Side.cell] <;> omega
      have e1 : endV B.bundles x = nodeV B.bundles b.2.name (x.side.node b.2.m) x.row ∧
          endI B.bundles x = x.side.factor * cellI B.bundles b.2.name (x.side.cell b.2.m) x.row := by
        unfold endV endI nodeV cellI
        rw [hname, e']
        simp only [hrow, dif_pos]
        trivial
      have e2 : acEndV A.bundles V x = V b.2.name (x.side.node b.2.m) x.row ∧
          acEndI A.bundles I x = x.side.factor * I b.2.name (x.side.cell b.2.m) x.row := by
        unfold acEndV acEndI
        rw [hname, e]
        simp only [hrow, if_true]
        trivial
      have e3 := congrFun (h.v b hb _ hnode) ⟨x.row, hrow⟩
      have e4 := congrFun (h.i b hb _ hcell) ⟨x.row, hrow⟩
      rw [phasor_apply] at e3 e4
      simp only at e3 e4
      rw [e1.1, e1.2, e2.1, e2.2, e3, e4, mul_assoc, Complex.re_ofReal_mul]
      exact ⟨rfl, rfl⟩
    · unfold endV endI acEndV acEndI
      rw [e, e']
      simp only [hrow, dif_neg, if_false, not_false_eq_true, zero_mul, Complex.zero_re, and_self]

variable {tr : ℕ → MTLN p}

theorem Endless.nodes (h : Endless A tr) (j : ℕ) : allNodes (tr j).networks = allNodes A.networks := by
  have := h.networks j
  generalize (tr j).networks = L at this
  refine (flatMap_congr₂ (fun a b r => flatMap_congr₂ (R := FreeLevel) (fun e e' q => ?_) r) this).symm
  obtain ⟨_, _, _, _, _, rfl⟩ := q
  rfl

/-- The new voltages of a network in phase. -/
theorem Endless.driven_network (h : Endless A tr) (hp : A.Passive) (hD : A.Driven ω V I) {j : ℕ} (hj : A.InPhase ω V I (tr j))
    {nwd : NetworkD} (hn : nwd ∈ A.networks) {e : ℕ × AnyNetwork} (he : e ∈ nwd) :
    (fun a => endV (tr (j + 1)).bundles (e.2.2.2.nodes a).end') =
      phasor (ω * (tr j).time) (fun a => acEndV A.bundles V (e.2.2.2.nodes a).end') := by
  have hM : ∀ b ∈ A.bundles, 0 < b.2.m := fun b hb => (hp.bundles b hb).1.cells
  obtain ⟨nwd1, hn1, hr1⟩ := forall₂_mem_left (h.networks j) nwd hn
  obtain ⟨e1, he1, v, vP, i, X, terms, rfl⟩ := forall₂_mem_left hr1 e he
  obtain ⟨nw, hnw⟩ : ∃ nw : Network e.2.1 e.2.2.1, nw = { e.2.2.2 with v := v, vPrev := vP, i := i, X := X, terms := terms } := ⟨_, rfl⟩
  have he1 : ((e.1, ⟨e.2.1, e.2.2.1, nw⟩) : ℕ × AnyNetwork) ∈ nwd1 := by rw [hnw]; exact he1
  obtain ⟨nwd2, hn2, hr⟩ := forall₂_mem_left (MTLN.step_moved (h.step j) (h.sound j).ready).2 _ hn1
  obtain ⟨e2, he2, v', X', i', heq, rfl⟩ := forall₂_mem_left hr _ he1
  have hdet := MTLN.step_regular (h.step j) (h.sound j).ready _ hn1 _ he1
  obtain ⟨E, F, hE, hF, hac⟩ := hD.networks nwd hn e he
  have a1 := (h.sound j).linked.v _ hn1 _ he1
  have a2 := (h.sound j).linked.i _ hn1 _ he1
  have a3 := (h.sound (j + 1)).linked.v _ hn2 _ he2
  have a4 := hj.prev _ hn1 _ he1
  simp only at a1 a2 a3 a4 heq hdet
  rw [h.dt] at heq hdet
  have hnodes : nw.nodes = e.2.2.2.nodes := by rw [hnw]
  have c0 : nw.dxc = e.2.2.2.dxc := by rw [hnw]; rfl
  have c1 : nw.P1 = e.2.2.2.P1 ∧ nw.O = e.2.2.2.O ∧ nw.Ps = e.2.2.2.Ps ∧ nw.Q1 = e.2.2.2.Q1 ∧ nw.Qs = e.2.2.2.Qs ∧
      nw.vSources = e.2.2.2.vSources := by
    rw [hnw]; exact ⟨rfl, rfl, rfl, rfl, rfl, rfl⟩
  obtain ⟨c1, c2, c3, c4, c5, c6⟩ := c1
  rw [hnodes] at a1 a2 a3 a4
  obtain ⟨θ, hθ⟩ : ∃ θ, θ = ω * A.dt := ⟨_, rfl⟩
  obtain ⟨W, hW⟩ : ∃ W, W = fun a => acEndV A.bundles V (e.2.2.2.nodes a).end' := ⟨_, rfl⟩
  obtain ⟨J, hJ⟩ : ∃ J, J = fun a => acEndI A.bundles I (e.2.2.2.nodes a).end' := ⟨_, rfl⟩
  rw [← hW, ← hJ, ← hθ] at hac
  rw [← hW, ← hθ] at a4
  rw [← hW]
  have b1 : nw.v = phasor (ω * (tr j).time - θ) W := by
    funext a
    rw [a1 a, (hj.ends (h.bundles j) hM _).1, phasor_apply, hW, hθ]
  have b2 : nw.i = phasor (ω * (tr j).time - θ / 2) J := by
    funext a
    rw [a2 a, (hj.ends (h.bundles j) hM _).2, phasor_apply, hJ, hθ]
  have b3 : (fun a => endV (tr (j + 1)).bundles (e.2.2.2.nodes a).end') = v' := funext fun a => (a3 a).symm
  rw [b3]
  refine Network.NodeEquations.unique (by rw [c2]; exact (hp.networks nwd hn e he).O) hdet heq (Y := X') ?_
  unfold Network.NodeEquations
  have hO := (hp.networks nwd hn e he).O
  simp only [c0, c1, c2, c3, c4, c5, c6, hnodes, hE, hF, hO, zero_mulVec, add_zero]
  rw [b1, b2, a4]
  generalize (tr j).time = t
  obtain ⟨φ, hφ⟩ : ∃ φ, φ = ω * t - θ / 2 := ⟨_, rfl⟩
  rw [show ω * (t - A.dt) = φ - θ / 2 by rw [hφ, hθ]; ring, show ω * (t - 2 * A.dt) = φ - 3 * θ / 2 by rw [hφ, hθ]; ring,
    show ω * t - 2 * θ = φ - 3 * θ / 2 by rw [hφ]; ring, show ω * t - θ = φ - θ / 2 by rw [hφ]; ring, ← hφ,
    show ω * t = φ + θ / 2 by rw [hφ]; ring, phasor_lag, phasor_lag, phasor_diff, phasor_diff, phasor_sum, phasor_sum]
  have eq := congrArg (phasor φ) hac
  simp only [map_add, map_smul, phasor_mulVec, smul_add, mulVec_add] at eq
  simp only [mulVec_smul, smul_smul] at eq ⊢
  have e2 : (1 / (2 * A.dt)) = (1 / 2) * (1 / A.dt) := by field_simp
  rw [e2] at eq
  linear_combination (norm := module) (2 : ℝ) • eq

/-- The ends after a step in phase. -/
theorem Endless.driven_ends (h : Endless A tr) (hp : A.Passive) (hD : A.Driven ω V I) {j : ℕ} (hj : A.InPhase ω V I (tr j)) (x : End) :
    endV (tr (j + 1)).bundles x = (acEndV A.bundles V x * Complex.exp (((ω * (tr j).time : ℝ) : ℂ) * Complex.I)).re := by
  by_cases hx : x ∈ (allNodes A.networks).map Node.end'
  · obtain ⟨nd, hnd, rfl⟩ := List.mem_map.1 hx
    obtain ⟨nwd, hn, hnd⟩ := List.mem_flatMap.1 hnd
    obtain ⟨e, he, hnd⟩ := List.mem_flatMap.1 hnd
    obtain ⟨a, rfl⟩ := List.mem_ofFn.1 hnd
    exact congrFun (h.driven_network hp hD hj hn he) a
  · rw [(h.sound (j + 1)).linked.free x (by rw [h.nodes]; exact hx), hD.free x hx, zero_mul, Complex.zero_re]

/-- The end nodes of a bundle are ends. -/
theorem Endless.end_node (h : Endless A tr) {b : AnyBundle p} (hb : b ∈ A.bundles) (hp : A.Passive) (side : Side) (a : Fin b.1) (j : ℕ)
    (V : String → ℕ → ℕ → ℂ) :
    nodeV (tr j).bundles b.2.name (side.node b.2.m) a = endV (tr j).bundles ⟨b.2.name, a, side⟩ ∧
    acEndV A.bundles V ⟨b.2.name, a, side⟩ = V b.2.name (side.node b.2.m) a := by
  have hf := findBundle_mem hp.names b hb
  rcases find_free (h.bundles j) b.2.name with ⟨e, e'⟩ | ⟨b0, b', e, e', v, i, phi, probes, lr, cg, rfl⟩
  · rw [hf] at e; cases e
  · rw [hf] at e
    obtain rfl := Option.some.inj e
    unfold nodeV endV acEndV
    simp only [e', hf, a.2, dif_pos, if_true, and_self]

/-- A solution of the circuit for alternating current stays in phase. -/
theorem Endless.in_phase (h : Endless A tr) (hp : A.Passive) (hD : A.Driven ω V I) (h0 : A.InPhase ω V I (tr 0)) (j : ℕ) :
    A.InPhase ω V I (tr j) := by
  have hM : ∀ b ∈ A.bundles, 0 < b.2.m := fun b hb => (hp.bundles b hb).1.cells
  induction j with
  | zero => exact h0
  | succ j hj =>
    obtain ⟨θ, hθ⟩ : ∃ θ, θ = ω * A.dt := ⟨_, rfl⟩
    have hnext : ω * (tr (j + 1)).time = ω * (tr j).time + θ := by rw [h.next, hθ]; ring
    have hv : ∀ b ∈ A.bundles, ∀ k ≤ b.2.m, (fun a : Fin b.1 => nodeV (tr (j + 1)).bundles b.2.name k a) =
        phasor (ω * (tr j).time) (fun a => V b.2.name k a) := by
      intro b hb k hk
      have hside : ∀ side : Side, (fun a : Fin b.1 => nodeV (tr (j + 1)).bundles b.2.name (side.node b.2.m) a) =
          phasor (ω * (tr j).time) (fun a => V b.2.name (side.node b.2.m) a) := by
        intro side
        funext a
        obtain ⟨e1, e2⟩ := h.end_node hb hp side a (j + 1) V
        rw [e1, h.driven_ends hp hD hj, e2, phasor_apply]
      rcases Nat.eq_zero_or_pos k with rfl | hpos
      · exact hside .S
      rcases Nat.eq_or_lt_of_le hk with rfl | hlt
      · exact hside .L
      obtain ⟨F, H, hF, -, hac⟩ := hD.bundles b hb
      obtain ⟨c, c', hcm, hcm', ⟨v, i, phi, probes, lr, cg, hf⟩, hn, hn', ws, hs⟩ := h.bundle_moved hb j
      have hready := (h.sound j).ready.bundles _ hcm
      simp only [Sigma.mk.injEq, heq_eq_eq, true_and] at hf
      have key := (MTLD.stepWith_equations hready hs).1 k hpos (by rw [hf]; exact hlt) (phasor (ω * (tr j).time) fun a => V b.2.name k a)
      rw [← (h.col hcm' hn' k).1, eq_comm, ← key, (h.col hcm hn k).1, (h.col hcm hn k).2, (h.col hcm hn (k - 1)).2]
      have f1 : c.dun = b.2.dun ∧ c.dt = b.2.dt ∧ c.c = b.2.c ∧ c.g = b.2.g ∧ c.eT = b.2.eT := by
        rw [hf]; exact ⟨rfl, rfl, rfl, rfl, rfl⟩
      obtain ⟨f1, f2, f3, f4, f5⟩ := f1
      rw [f1, f2, f3, f4, f5]
      unfold VoltageEq
      rw [show (fun a => b.2.eT k a (tr j).time - b.2.eT k a ((tr j).time - A.dt)) = phasor (ω * (tr j).time) (F k) -
        phasor (ω * ((tr j).time - A.dt)) (F k) by rw [← hF, ← hF]; rfl, hj.v b hb k hk, hj.i b hb k hlt, hj.i b hb (k - 1) (by omega),
        show ω * ((tr j).time - A.dt) = ω * (tr j).time - θ by rw [hθ]; ring, ← hθ]
      have e := congrArg (phasor (ω * (tr j).time - θ / 2)) (hac.node k hpos hlt)
      rw [← hθ] at e
      generalize ω * (tr j).time = φ at e ⊢
      have sum : ∀ X : Fin b.1 → ℂ, phasor φ X + phasor (φ - θ) X = (2 * Real.cos (θ / 2)) • phasor (φ - θ / 2) X := by
        intro X
        have := phasor_sum (φ - θ / 2) θ X
        rwa [sub_add_cancel, show φ - θ / 2 - θ / 2 = φ - θ by ring] at this
      have diff : ∀ X : Fin b.1 → ℂ, phasor φ X - phasor (φ - θ) X = phasor (φ - θ / 2) (turn θ • X) := by
        intro X
        have := phasor_diff (φ - θ / 2) θ X
        rwa [sub_add_cancel, show φ - θ / 2 - θ / 2 = φ - θ by ring] at this
      simp only [map_add, map_sub, map_neg, map_smul, phasor_mulVec] at e
      rw [diff, diff, sum]
      simp only [mulVec_smul, smul_smul] at e ⊢
      linear_combination (norm := module) e
    refine ⟨fun b hb k hk => ?_, fun b hb k hk => ?_, fun nwd hn e he => ?_⟩
    · rw [hv b hb k hk, hnext, ← hθ, add_sub_cancel_right]
    · obtain ⟨F, H, hF, hH, hac⟩ := hD.bundles b hb
      obtain ⟨c, c', hcm, hcm', ⟨v, i, phi, probes, lr, cg, hf⟩, hn, hn', ws, hs⟩ := h.bundle_moved hb j
      have hready := (h.sound j).ready.bundles _ hcm
      simp only [Sigma.mk.injEq, heq_eq_eq, true_and] at hf
      have key := (MTLD.stepWith_equations hready hs).2 k (by rw [hf]; exact hk) (phasor (ω * (tr j).time + θ / 2) fun a => I b.2.name k a)
      rw [hnext, ← hθ, show ω * (tr j).time + θ - θ / 2 = ω * (tr j).time + θ / 2 by ring]
      rw [← (h.col hcm' hn' k).2, eq_comm, ← key, (h.col hcm hn k).2, (h.col hcm' hn' k).1, (h.col hcm' hn' (k + 1)).1]
      have f1 : c.dun = b.2.dun ∧ c.dt = b.2.dt ∧ c.l = b.2.l ∧ c.r = b.2.r ∧ c.tz = b.2.tz ∧ c.eL = b.2.eL ∧ c.eT = b.2.eT := by
        rw [hf]; exact ⟨rfl, rfl, rfl, rfl, rfl, rfl, rfl⟩
      obtain ⟨f1, f2, f3, f4, f5, f6, f7⟩ := f1
      have l1 : b.2.tz.q1sum k = 0 := (hp.bundles b hb).1.q1 k hk
      have l2 : b.2.tz.q2sum k = 0 := (hp.bundles b hb).1.q2 k hk
      have l3 : ∀ a c, b.2.tz.q3 k a c = none := (hp.bundles b hb).1.q3 k hk
      have hist : b.2.tz.q3phi c.phi k = 0 := by
        funext x
        simp [Disp.q3phi, l3, QEntry.val, poleSum]
      rw [f1, f2, f3, f4, f5, f6, f7, hist, l1, l2]
      unfold CurrentEq
      rw [show (fun a => b.2.eT (k + 1) a (tr j).time - b.2.eT k a (tr j).time) = phasor (ω * (tr j).time) (F (k + 1)) -
        phasor (ω * (tr j).time) (F k) by rw [← hF, ← hF]; rfl, hj.i b hb k hk, hv b hb k hk.le, hv b hb (k + 1) hk, hH, hH,
        show ω * ((tr j).time - A.dt / 2) = ω * (tr j).time - θ / 2 by rw [hθ]; ring,
        show ω * ((tr j).time + A.dt / 2) = ω * (tr j).time + θ / 2 by rw [hθ]; ring, ← hθ]
      have e := congrArg (phasor (ω * (tr j).time)) (hac.cell k hk)
      rw [← hθ] at e
      generalize ω * (tr j).time = φ at e ⊢
      simp only [map_add, map_sub, map_neg, map_smul, phasor_mulVec] at e
      rw [phasor_diff, phasor_sum, phasor_sum]
      simp only [mulVec_smul, smul_smul, zero_mulVec, add_zero] at e ⊢
      linear_combination (norm := module) e
    · obtain ⟨nwd0, hn0, hr0⟩ := forall₂_right_mem (MTLN.step_moved (h.step j) (h.sound j).ready).2 nwd hn
      obtain ⟨e0, he0, v', X', i', -, rfl⟩ := forall₂_right_mem hr0 e he
      show e0.2.2.2.v = phasor _ (fun a => acEndV A.bundles V (e0.2.2.2.nodes a).end')
      funext a
      rw [(h.sound j).linked.v _ hn0 _ he0 a, (hj.ends (h.bundles j) hM _).1, phasor_apply, hnext, ← hθ,
        show ω * (tr j).time + θ - 2 * θ = ω * (tr j).time - θ by ring]

end

end Mtln
