import Verif.Spec.ManagerAC
import Verif.Lemmas.ManagerCircuit

/-! # Sinusoidal motions of managers -/

namespace Mtln

open Matrix

variable {n p N S : ℕ}

/-- Two phases determine the complex amplitudes. -/
theorem phasor_unique {φ θ : ℝ} {X Y : Fin n → ℂ} (hs : Real.sin θ ≠ 0) (h0 : phasor φ X = phasor φ Y)
    (h1 : phasor (φ + θ) X = phasor (φ + θ) Y) : X = Y := by
  funext a
  have e0 := congrFun h0 a
  have e1 := congrFun h1 a
  rw [phasor_apply, phasor_apply] at e0 e1
  obtain ⟨u, hu⟩ : ∃ u, u = (X a - Y a) * Complex.exp (φ * Complex.I) := ⟨_, rfl⟩
  have u0 : u.re = 0 := by rw [hu, sub_mul, Complex.sub_re, e0, sub_self]
  have u1 : (u * Complex.exp (θ * Complex.I)).re = 0 := by
    have : u * Complex.exp (θ * Complex.I) = (X a - Y a) * Complex.exp (((φ + θ : ℝ) : ℂ) * Complex.I) := by
      rw [hu]; push_cast; rw [add_mul, Complex.exp_add]; ring
    rw [this, sub_mul, Complex.sub_re, e1, sub_self]
  rw [Complex.mul_re, u0, Complex.exp_ofReal_mul_I_im, zero_mul, zero_sub, neg_eq_zero] at u1
  have u2 : u.im = 0 := (mul_eq_zero.1 u1).resolve_right hs
  have : u = 0 := Complex.ext u0 u2
  rw [hu] at this
  exact sub_eq_zero.1 ((mul_eq_zero.1 this).resolve_right (Complex.exp_ne_zero _))

/-- A step of the phase without the phase. -/
theorem phasor_lag (φ θ : ℝ) (X : Fin n → ℂ) : phasor (φ + θ / 2) X - phasor (φ - 3 * θ / 2) X = phasor φ (lag θ • X) := by
  have h := phasor_diff (φ - θ / 2) (2 * θ) X
  rw [show φ - θ / 2 + 2 * θ / 2 = φ + θ / 2 by ring, show φ - θ / 2 - 2 * θ / 2 = φ - 3 * θ / 2 by ring] at h
  rw [h]
  funext a
  simp only [phasor_apply, Pi.smul_apply, smul_eq_mul, lag]
  congr 1
  have : Complex.exp (((φ - θ / 2 : ℝ) : ℂ) * Complex.I) = Complex.exp (-(θ / 2) * Complex.I) * Complex.exp (φ * Complex.I) := by
    rw [← Complex.exp_add]; congr 1; push_cast; ring
  rw [this]; ring

/-- Voltages and currents of a trace are sinusoids with the complex amplitudes `V` and `I`. -/
structure Endless.Tones (M : MTLN p) (tr : ℕ → MTLN p) (ω : ℝ) (V I : String → ℕ → ℕ → ℂ) : Prop where
  v : ∀ j, ∀ b ∈ M.bundles, ∀ k ≤ b.2.m, ∀ a : Fin b.1, nodeV (tr j).bundles b.2.name k a =
    (V b.2.name k a * Complex.exp (((ω * (tr j).time - ω * M.dt : ℝ) : ℂ) * Complex.I)).re
  i : ∀ j, ∀ b ∈ M.bundles, ∀ k < b.2.m, ∀ a : Fin b.1, cellI (tr j).bundles b.2.name k a =
    (I b.2.name k a * Complex.exp (((ω * (tr j).time - ω * M.dt / 2 : ℝ) : ℂ) * Complex.I)).re

/-- A function is, from `t₀` on, the sinusoid with the complex amplitude `z`. -/
def HasAmplitude (ω t₀ : ℝ) (f : ℝ → ℝ) (z : ℂ) : Prop := ∀ t ≥ t₀, f t = (z * Complex.exp (((ω * t : ℝ) : ℂ) * Complex.I)).re

section

variable {M : MTLN p} {tr : ℕ → MTLN p} {ω t₀ : ℝ} {V I : String → ℕ → ℕ → ℂ}

theorem Endless.late (h : Endless M tr) (hd : 0 < M.dt) (t₀ : ℝ) : ∃ q : ℕ, ∀ j ≥ q, t₀ ≤ (tr j).time - 2 * M.dt := by
  obtain ⟨q, hq⟩ := exists_nat_ge ((t₀ - M.time + 2 * M.dt) / M.dt)
  rw [div_le_iff₀ hd] at hq
  refine ⟨q, fun j hj => ?_⟩
  rw [h.time]
  have : (q : ℝ) ≤ j := by exact_mod_cast hj
  nlinarith

theorem Endless.next (h : Endless M tr) (j : ℕ) : (tr (j + 1)).time = (tr j).time + M.dt := by
  rw [h.time, h.time]; push_cast; ring

theorem Endless.Tones.node (h : Endless M tr) (hT : Endless.Tones M tr ω V I) {b : AnyBundle p} (hb : b ∈ M.bundles) {k : ℕ} (hk : k ≤ b.2.m)
    (j : ℕ) : (fun a : Fin b.1 => nodeV (tr j).bundles b.2.name k a) = phasor (ω * (tr j).time - ω * M.dt) (fun a => V b.2.name k a) ∧
      (fun a : Fin b.1 => nodeV (tr (j + 1)).bundles b.2.name k a) = phasor (ω * (tr j).time) (fun a => V b.2.name k a) := by
  refine ⟨funext fun a => hT.v j b hb k hk a, funext fun a => ?_⟩
  rw [hT.v (j + 1) b hb k hk a, h.next, phasor_apply, show ω * ((tr j).time + M.dt) - ω * M.dt = ω * (tr j).time by ring]

theorem Endless.Tones.cell (h : Endless M tr) (hT : Endless.Tones M tr ω V I) {b : AnyBundle p} (hb : b ∈ M.bundles) {k : ℕ} (hk : k < b.2.m)
    (j : ℕ) : (fun a : Fin b.1 => cellI (tr j).bundles b.2.name k a) = phasor (ω * (tr j).time - ω * M.dt / 2) (fun a => I b.2.name k a) ∧
      (fun a : Fin b.1 => cellI (tr (j + 1)).bundles b.2.name k a) = phasor (ω * (tr j).time + ω * M.dt / 2) (fun a => I b.2.name k a) := by
  refine ⟨funext fun a => hT.i j b hb k hk a, funext fun a => ?_⟩
  rw [hT.i (j + 1) b hb k hk a, h.next, phasor_apply,
    show ω * ((tr j).time + M.dt) - ω * M.dt / 2 = ω * (tr j).time + ω * M.dt / 2 by ring]

theorem HasAmplitude.at {f : Fin n → ℝ → ℝ} {z : Fin n → ℂ} (h : ∀ a, HasAmplitude ω t₀ (f a) (z a)) {t : ℝ} (ht : t₀ ≤ t) :
    (fun a => f a t) = phasor (ω * t) z := funext fun a => h a t ht

/-- The step of a bundle of the trace. -/
theorem Endless.bundle_moved (h : Endless M tr) {b : AnyBundle p} (hb : b ∈ M.bundles) (j : ℕ) :
    ∃ c c' : MTLD b.1 p, (⟨b.1, c⟩ : AnyBundle p) ∈ (tr j).bundles ∧
      (⟨b.1, c'⟩ : AnyBundle p) ∈ (tr (j + 1)).bundles ∧ FreeBundle b ⟨b.1, c⟩ ∧ c.name = b.2.name ∧
      c'.name = b.2.name ∧ ∃ ws, c.stepWith (tr j).time M.dt ws = .ok c' := by
  obtain ⟨c, hcm, hf, hn⟩ := h.at hb j
  obtain ⟨b', hb', ws, c', hs, rfl⟩ := forall₂_mem_left (MTLN.step_moved (h.step j) (h.sound j).ready).1 _ hcm
  rw [h.dt] at hs
  exact ⟨c, c', hcm, hb', hf, hn, (stepWith_name hs).trans hn, ws, hs⟩

theorem Endless.cell_equation (h : Endless M tr) (hl : M.Lumped) {b : AnyBundle p} (hb : b ∈ M.bundles) {k : ℕ} (hk : k < b.2.m) (j : ℕ) :
    b.2.dun k • ((1 / b.2.dt) • ((b.2.l k + b.2.tz.e k) *ᵥ
          ((fun a : Fin b.1 => cellI (tr (j + 1)).bundles b.2.name k a) - fun a : Fin b.1 => cellI (tr j).bundles b.2.name k a))
        + (1 / 2 : ℝ) • ((b.2.r k + b.2.tz.d k) *ᵥ
          ((fun a : Fin b.1 => cellI (tr (j + 1)).bundles b.2.name k a) + fun a : Fin b.1 => cellI (tr j).bundles b.2.name k a))) =
        -((fun a : Fin b.1 => nodeV (tr (j + 1)).bundles b.2.name (k + 1) a) -
            fun a : Fin b.1 => nodeV (tr (j + 1)).bundles b.2.name k a)
          - ((fun a => b.2.eT (k + 1) a (tr j).time) - fun a => b.2.eT k a (tr j).time) + b.2.dun k • ((1 / 2 : ℝ) •
            ((fun a => b.2.eL k a ((tr j).time + M.dt / 2)) + fun a => b.2.eL k a ((tr j).time - M.dt / 2))) := by
  obtain ⟨c, c', hcm, hcm', ⟨v, i, phi, probes, lr, cg, hf⟩, hn, hn', ws, hs⟩ := h.bundle_moved hb j
  have hready := (h.sound j).ready.bundles _ hcm
  have := ((MTLD.stepWith_equations hready hs).2 k (by
    simp only [Sigma.mk.injEq, heq_eq_eq, true_and] at hf
    rw [hf]; exact hk) (c'.i k)).2 rfl
  obtain ⟨e1, e2⟩ := h.col hcm hn k
  obtain ⟨e3, e4⟩ := h.col hcm' hn' k
  obtain ⟨e5, e6⟩ := h.col hcm' hn' (k + 1)
  rw [← e4, ← e2, ← e3, ← e5]
  obtain ⟨l1, l2, l3⟩ := hl b hb k hk
  simp only [Sigma.mk.injEq, heq_eq_eq, true_and] at hf
  have f1 : c.dun = b.2.dun ∧ c.dt = b.2.dt ∧ c.l = b.2.l ∧ c.r = b.2.r ∧ c.tz = b.2.tz ∧ c.eL = b.2.eL ∧ c.eT = b.2.eT := by
    rw [hf]; exact ⟨rfl, rfl, rfl, rfl, rfl, rfl, rfl⟩
  obtain ⟨f1, f2, f3, f4, f5, f6, f7⟩ := f1
  have hist : b.2.tz.q3phi c.phi k = 0 := by
    funext x
    simp [Disp.q3phi, l3, QEntry.val, poleSum]
  unfold CurrentEq at this
  rw [f1, f2, f3, f4, f5, f6, f7, l1, l2, hist] at this
  simp only [zero_mulVec, add_zero] at this
  exact this

theorem Endless.node_equation (h : Endless M tr) {b : AnyBundle p} (hb : b ∈ M.bundles) {k : ℕ} (h0 : 0 < k) (hk : k < b.2.m) (j : ℕ) :
    ((b.2.dun (k - 1) + b.2.dun k) / 2) • ((1 / b.2.dt) • (b.2.c k *ᵥ
          ((fun a : Fin b.1 => nodeV (tr (j + 1)).bundles b.2.name k a) - fun a : Fin b.1 => nodeV (tr j).bundles b.2.name k a))
        + (1 / 2 : ℝ) • (b.2.g k *ᵥ
          ((fun a : Fin b.1 => nodeV (tr (j + 1)).bundles b.2.name k a) + fun a : Fin b.1 => nodeV (tr j).bundles b.2.name k a))) =
        -((fun a : Fin b.1 => cellI (tr j).bundles b.2.name k a) -
            fun a : Fin b.1 => cellI (tr j).bundles b.2.name (k - 1) a) - ((b.2.dun (k - 1) + b.2.dun k) / 2) •
          ((1 / b.2.dt) • (b.2.c k *ᵥ ((fun a => b.2.eT k a (tr j).time) - fun a => b.2.eT k a ((tr j).time - M.dt))) +
            (1 / 2 : ℝ) • (b.2.g k *ᵥ ((fun a => b.2.eT k a (tr j).time) - fun a => b.2.eT k a ((tr j).time - M.dt)))) := by
  obtain ⟨c, c', hcm, hcm', ⟨v, i, phi, probes, lr, cg, hf⟩, hn, hn', ws, hs⟩ := h.bundle_moved hb j
  have hready := (h.sound j).ready.bundles _ hcm
  simp only [Sigma.mk.injEq, heq_eq_eq, true_and] at hf
  have := ((MTLD.stepWith_equations hready hs).1 k h0 (by rw [hf]; exact hk) (c'.v k)).2 rfl
  obtain ⟨e1, e2⟩ := h.col hcm hn k
  obtain ⟨e3, e4⟩ := h.col hcm' hn' k
  obtain ⟨e5, e6⟩ := h.col hcm hn (k - 1)
  rw [← e3, ← e1, ← e2, ← e6]
  have f1 : c.dun = b.2.dun ∧ c.dt = b.2.dt ∧ c.c = b.2.c ∧ c.g = b.2.g ∧ c.eT = b.2.eT := by
    rw [hf]; exact ⟨rfl, rfl, rfl, rfl, rfl⟩
  obtain ⟨f1, f2, f3, f4, f5⟩ := f1
  unfold VoltageEq at this
  rw [f1, f2, f3, f4, f5] at this
  exact this

/-- A bundle that moves sinusoidally solves its circuit for alternating current. -/
theorem Endless.bundle_ac (h : Endless M tr) (hT : Endless.Tones M tr ω V I) (hl : M.Lumped) (hd : 0 < M.dt)
    (hω : Real.sin (ω * M.dt) ≠ 0) {b : AnyBundle p} (hb : b ∈ M.bundles) {F H : ℕ → Fin b.1 → ℂ}
    (hF : ∀ k a, HasAmplitude ω t₀ (b.2.eT k a) (F k a)) (hH : ∀ k a, HasAmplitude ω t₀ (b.2.eL k a) (H k a)) :
    b.2.AC (ω * M.dt) F H (fun k a => V b.2.name k a) (fun k a => I b.2.name k a) := by
  obtain ⟨q, hq⟩ := h.late hd t₀
  obtain ⟨θ, hθ⟩ : ∃ θ, θ = ω * M.dt := ⟨_, rfl⟩
  refine ⟨fun k hk => ?_, fun k h0 hk => ?_⟩
  · have key : ∀ j ≥ q, phasor (ω * (tr j).time) (b.2.dun k • ((1 / b.2.dt) • (cx (b.2.l k + b.2.tz.e k) *ᵥ (turn θ • fun a : Fin b.1 => I b.2.name k a)) +
        Real.cos (θ / 2) • (cx (b.2.r k + b.2.tz.d k) *ᵥ fun a : Fin b.1 => I b.2.name k a))) =
        phasor (ω * (tr j).time) (-((fun a : Fin b.1 => V b.2.name (k + 1) a) - fun a : Fin b.1 => V b.2.name k a) - (F (k + 1) - F k) +
          b.2.dun k • (Real.cos (θ / 2) • H k)) := by
      intro j hj
      have ht := hq j hj
      have e := h.cell_equation hl hb hk j
      rw [(hT.cell h hb hk j).1, (hT.cell h hb hk j).2, (hT.node h hb hk.le j).2, (hT.node h hb (k := k + 1) hk j).2,
        HasAmplitude.at (hF k) (show t₀ ≤ (tr j).time by linarith), HasAmplitude.at (hF (k + 1)) (show t₀ ≤ (tr j).time by linarith),
        HasAmplitude.at (hH k) (show t₀ ≤ (tr j).time + M.dt / 2 by linarith),
        HasAmplitude.at (hH k) (show t₀ ≤ (tr j).time - M.dt / 2 by linarith),
        show ω * ((tr j).time + M.dt / 2) = ω * (tr j).time + θ / 2 by rw [hθ]; ring,
        show ω * ((tr j).time - M.dt / 2) = ω * (tr j).time - θ / 2 by rw [hθ]; ring, ← hθ, phasor_diff, phasor_sum, phasor_sum] at e
      simp only [map_add, map_sub, map_neg, map_smul, phasor_mulVec]
      simp only [mulVec_smul, smul_smul] at e ⊢
      linear_combination (norm := module) e
    have k0 := key q le_rfl
    have k1 := key (q + 1) (by omega)
    rw [h.next, mul_add] at k1
    rw [← hθ]
    exact phasor_unique hω k0 k1
  · have sum : ∀ (φ : ℝ) (X : Fin b.1 → ℂ), phasor φ X + phasor (φ - θ) X = (2 * Real.cos (θ / 2)) • phasor (φ - θ / 2) X := by
      intro φ X
      have := phasor_sum (φ - θ / 2) θ X
      rwa [sub_add_cancel, show φ - θ / 2 - θ / 2 = φ - θ by ring] at this
    have diff : ∀ (φ : ℝ) (X : Fin b.1 → ℂ), phasor φ X - phasor (φ - θ) X = phasor (φ - θ / 2) (turn θ • X) := by
      intro φ X
      have := phasor_diff (φ - θ / 2) θ X
      rwa [sub_add_cancel, show φ - θ / 2 - θ / 2 = φ - θ by ring] at this
    have key : ∀ j ≥ q, phasor (ω * (tr j).time - θ / 2) (((b.2.dun (k - 1) + b.2.dun k) / 2) •
        ((1 / b.2.dt) • (cx (b.2.c k) *ᵥ (turn θ • fun a : Fin b.1 => V b.2.name k a)) +
        Real.cos (θ / 2) • (cx (b.2.g k) *ᵥ fun a : Fin b.1 => V b.2.name k a))) =
        phasor (ω * (tr j).time - θ / 2) (-((fun a : Fin b.1 => I b.2.name k a) - fun a : Fin b.1 => I b.2.name (k - 1) a) -
          ((b.2.dun (k - 1) + b.2.dun k) / 2) • ((1 / b.2.dt) • (cx (b.2.c k) *ᵥ (turn θ • F k)) +
            (1 / 2 : ℝ) • (cx (b.2.g k) *ᵥ (turn θ • F k)))) := by
      intro j hj
      have ht := hq j hj
      have e := h.node_equation hb h0 hk j
      rw [(hT.cell h hb hk j).1, (hT.cell h hb (k := k - 1) (by omega) j).1, (hT.node h hb hk.le j).1, (hT.node h hb hk.le j).2,
        HasAmplitude.at (hF k) (show t₀ ≤ (tr j).time by linarith), HasAmplitude.at (hF k) (show t₀ ≤ (tr j).time - M.dt by linarith),
        show ω * ((tr j).time - M.dt) = ω * (tr j).time - θ by rw [hθ]; ring, ← hθ, diff, diff, sum] at e
      simp only [map_add, map_sub, map_neg, map_smul, phasor_mulVec]
      simp only [mulVec_smul, smul_smul] at e ⊢
      linear_combination (norm := module) e
    have k0 := key q le_rfl
    have k1 := key (q + 1) (by omega)
    rw [h.next, mul_add, ← hθ, show ω * (tr q).time + θ - θ / 2 = ω * (tr q).time - θ / 2 + θ by ring] at k1
    rw [← hθ]
    exact phasor_unique (hθ ▸ hω) k0 k1

/-- The ends of a trace that moves sinusoidally. -/
theorem Endless.Tones.ends (h : Endless M tr) (hM : ∀ b ∈ M.bundles, 0 < b.2.m) (hT : Endless.Tones M tr ω V I) (x : End) (j : ℕ) :
    endV (tr j).bundles x = (acEndV M.bundles V x * Complex.exp (((ω * (tr j).time - ω * M.dt : ℝ) : ℂ) * Complex.I)).re ∧
    endI (tr j).bundles x = (acEndI M.bundles I x * Complex.exp (((ω * (tr j).time - ω * M.dt / 2 : ℝ) : ℂ) * Complex.I)).re := by
  rcases find_free (h.bundles j) x.bundle with ⟨e, e'⟩ | ⟨b, b', e, e', v, i, phi, probes, lr, cg, rfl⟩
  · unfold endV endI acEndV acEndI
    simp only [e, e', zero_mul, Complex.zero_re, and_self]
  · obtain ⟨hb, hname⟩ := findBundle_some e
    by_cases hrow : x.row < b.1
    · have hm := hM b hb
      have hnode : x.side.node b.2.m ≤ b.2.m := by cases x.side <;> simp [Side.node]
      have hcell : x.side.cell b.2.m < b.2.m := by cases x.side <;> simp [Side.cell] <;> omega
      have e1 : endV (tr j).bundles x = nodeV (tr j).bundles b.2.name (x.side.node b.2.m) x.row ∧
          endI (tr j).bundles x = x.side.factor * cellI (tr j).bundles b.2.name (x.side.cell b.2.m) x.row := by
        unfold endV endI nodeV cellI
        rw [hname, e']
        simp only [hrow, dif_pos]
        trivial
      have e2 : acEndV M.bundles V x = V b.2.name (x.side.node b.2.m) x.row ∧
          acEndI M.bundles I x = x.side.factor * I b.2.name (x.side.cell b.2.m) x.row := by
        unfold acEndV acEndI
        rw [hname, e]
        simp only [hrow, if_true]
        trivial
      rw [e1.1, e1.2, e2.1, e2.2, hT.v j b hb _ hnode ⟨x.row, hrow⟩, hT.i j b hb _ hcell ⟨x.row, hrow⟩, mul_assoc, Complex.re_ofReal_mul]
      exact ⟨rfl, rfl⟩
    · unfold endV endI acEndV acEndI
      rw [e, e']
      simp only [hrow, dif_neg, if_false, not_false_eq_true, zero_mul, Complex.zero_re, and_self]

/-- The step of a network of the trace. -/
theorem Endless.network_equation (h : Endless M tr) {nwd : NetworkD} (hn : nwd ∈ M.networks) {e : ℕ × AnyNetwork} (he : e ∈ nwd)
    (hO : e.2.2.2.O = 0) (j : ℕ) :
    (1 / M.dt) • e.2.2.2.dxc *ᵥ ((fun a => endV (tr (j + 2)).bundles (e.2.2.2.nodes a).end') -
        fun a => endV (tr (j + 1)).bundles (e.2.2.2.nodes a).end') =
      e.2.2.2.P1 *ᵥ ((fun a => endV (tr (j + 2)).bundles (e.2.2.2.nodes a).end') +
        fun a => endV (tr (j + 1)).bundles (e.2.2.2.nodes a).end') + e.2.2.2.Ps *ᵥ ((fun a => e.2.2.2.vSources a (tr (j + 1)).time) +
          fun a => e.2.2.2.vSources a ((tr (j + 1)).time - M.dt))
      + (1 / M.dt) • e.2.2.2.Q1 *ᵥ ((fun a => endV (tr (j + 2)).bundles (e.2.2.2.nodes a).end') -
        fun a => endV (tr j).bundles (e.2.2.2.nodes a).end') + (1 / M.dt) • e.2.2.2.Qs *ᵥ ((fun a => e.2.2.2.vSources a (tr (j + 1)).time) -
          fun a => e.2.2.2.vSources a ((tr (j + 1)).time - 2 * M.dt)) - (2 : ℝ) • (fun a => endI (tr (j + 1)).bundles (e.2.2.2.nodes a).end')
      - (1 / M.dt) • e.2.2.2.dxc *ᵥ ((fun a => (e.2.2.2.nodes a).eT (tr (j + 1)).time) -
          fun a => (e.2.2.2.nodes a).eT ((tr (j + 1)).time - M.dt)) := by
  obtain ⟨nwd1, hn1, nw1, he1, ⟨v, vP, i, X, terms, hnw1⟩, hprev⟩ := h.level hn he (j + 1)
  obtain ⟨nwd2, hn2, hr⟩ := forall₂_mem_left (MTLN.step_moved (h.step (j + 1)) (h.sound (j + 1)).ready).2 _ hn1
  obtain ⟨e2, he2, v', X', i', heq, rfl⟩ := forall₂_mem_left hr _ he1
  have a1 := (h.sound (j + 1)).linked.v _ hn1 _ he1
  have a2 := (h.sound (j + 1)).linked.i _ hn1 _ he1
  have a3 := (h.sound (j + 1 + 1)).linked.v _ hn2 _ he2
  have a4 := hprev j rfl
  rw [h.dt] at heq
  simp only at a1 a2 a3
  have hnodes : nw1.nodes = e.2.2.2.nodes := by rw [hnw1]
  have hsrc : nw1.vSources = e.2.2.2.vSources := by rw [hnw1]
  rw [hnodes] at a1 a2 a3
  unfold Network.NodeEquations at heq
  simp only [hnodes, hsrc] at heq
  have c1 : nw1.dxc = e.2.2.2.dxc := by rw [hnw1]; rfl
  have c2 : nw1.P1 = e.2.2.2.P1 ∧ nw1.O = e.2.2.2.O ∧ nw1.Ps = e.2.2.2.Ps ∧ nw1.Q1 = e.2.2.2.Q1 ∧ nw1.Qs = e.2.2.2.Qs := by
    rw [hnw1]; exact ⟨rfl, rfl, rfl, rfl, rfl⟩
  obtain ⟨c2, c3, c4, c5, c6⟩ := c2
  rw [c1, c2, c3, c4, c5, c6, hO,
    show nw1.v = _ from funext a1, show nw1.i = _ from funext a2, show nw1.vPrev = _ from funext a4,
    show v' = _ from funext a3] at heq
  simp only [zero_mulVec, add_zero] at heq
  exact heq

/-- A network that moves sinusoidally solves its circuit for alternating current. -/
theorem Endless.network_ac (h : Endless M tr) (hM : ∀ b ∈ M.bundles, 0 < b.2.m) (hT : Endless.Tones M tr ω V I) (hd : 0 < M.dt)
    (hω : Real.sin (ω * M.dt) ≠ 0) {nwd : NetworkD} (hn : nwd ∈ M.networks) {e : ℕ × AnyNetwork} (he : e ∈ nwd)
    (hO : e.2.2.2.O = 0) {E F : Fin e.2.1 → ℂ} (hE : ∀ a, HasAmplitude ω t₀ (e.2.2.2.vSources a) (E a))
    (hF : ∀ a, HasAmplitude ω t₀ (e.2.2.2.nodes a).eT (F a)) :
    e.2.2.2.AC M.dt (ω * M.dt) E F (fun a => acEndV M.bundles V (e.2.2.2.nodes a).end')
      (fun a => acEndI M.bundles I (e.2.2.2.nodes a).end') := by
  obtain ⟨q, hq⟩ := h.late hd t₀
  obtain ⟨θ, hθ⟩ : ∃ θ, θ = ω * M.dt := ⟨_, rfl⟩
  have hv : ∀ j, (fun a => endV (tr j).bundles (e.2.2.2.nodes a).end') = phasor (ω * (tr j).time - θ)
      (fun a => acEndV M.bundles V (e.2.2.2.nodes a).end') := fun j => by
    rw [hθ]; exact funext fun a => (hT.ends h hM _ j).1
  have hi : ∀ j, (fun a => endI (tr j).bundles (e.2.2.2.nodes a).end') = phasor (ω * (tr j).time - θ / 2)
      (fun a => acEndI M.bundles I (e.2.2.2.nodes a).end') := fun j => by
    rw [hθ]; exact funext fun a => (hT.ends h hM _ j).2
  obtain ⟨W, hW⟩ : ∃ W, W = fun a => acEndV M.bundles V (e.2.2.2.nodes a).end' := ⟨_, rfl⟩
  obtain ⟨J, hJ⟩ : ∃ J, J = fun a => acEndI M.bundles I (e.2.2.2.nodes a).end' := ⟨_, rfl⟩
  rw [← hW] at hv ⊢
  rw [← hJ] at hi ⊢
  rw [← hθ] at hω ⊢
  have key : ∀ j ≥ q, phasor (ω * (tr (j + 1)).time - θ / 2) (J + (1 / (2 * M.dt)) • (cx e.2.2.2.dxc *ᵥ (turn θ • (W + F)))) =
      phasor (ω * (tr (j + 1)).time - θ / 2) (Real.cos (θ / 2) • (cx e.2.2.2.P1 *ᵥ W + cx e.2.2.2.Ps *ᵥ E) +
        (1 / (2 * M.dt)) • (cx e.2.2.2.Q1 *ᵥ (lag θ • W) + cx e.2.2.2.Qs *ᵥ (lag θ • E))) := by
    intro j hj
    have ht := hq (j + 1) (by omega)
    have eq := h.network_equation hn he hO j
    rw [hv, hv, hv, hi, HasAmplitude.at hE (show t₀ ≤ (tr (j + 1)).time by linarith),
      HasAmplitude.at hE (show t₀ ≤ (tr (j + 1)).time - M.dt by linarith), HasAmplitude.at hE ht,
      HasAmplitude.at hF (show t₀ ≤ (tr (j + 1)).time by linarith),
      HasAmplitude.at hF (show t₀ ≤ (tr (j + 1)).time - M.dt by linarith), h.next (j + 1)] at eq
    have et : (tr j).time = (tr (j + 1)).time - M.dt := by rw [h.next j]; ring
    rw [et] at eq
    generalize (tr (j + 1)).time = t at eq
    obtain ⟨φ, hφ⟩ : ∃ φ, φ = ω * t - θ / 2 := ⟨_, rfl⟩
    rw [show ω * (t + M.dt) - θ = φ + θ / 2 by rw [hφ, hθ]; ring, show ω * t - θ = φ - θ / 2 by rw [hφ]; ring,
      show ω * (t - M.dt) - θ = φ - 3 * θ / 2 by rw [hφ, hθ]; ring, show ω * (t - M.dt) = φ - θ / 2 by rw [hφ, hθ]; ring,
      show ω * t = φ + θ / 2 by rw [hφ]; ring, show ω * (t - 2 * M.dt) = φ - 3 * θ / 2 by rw [hφ, hθ]; ring,
      show φ + θ / 2 - θ / 2 = φ by ring, phasor_lag, phasor_lag, phasor_diff, phasor_diff, phasor_sum, phasor_sum] at eq
    rw [← hφ]
    simp only [map_add, map_smul, phasor_mulVec, smul_add, mulVec_add]
    simp only [mulVec_smul, smul_smul] at eq ⊢
    have e2 : (1 / (2 * M.dt)) = (1 / 2) * (1 / M.dt) := by field_simp
    rw [e2]
    linear_combination (norm := module) (1 / 2 : ℝ) • eq
  have k0 := key q le_rfl
  have k1 := key (q + 1) (by omega)
  rw [h.next (q + 1), mul_add, ← hθ, show ω * (tr (q + 1)).time + θ - θ / 2 = ω * (tr (q + 1)).time - θ / 2 + θ by ring] at k1
  exact phasor_unique hω k0 k1

/-- The ends without a node rest. -/
theorem Endless.free_ac (h : Endless M tr) (hM : ∀ b ∈ M.bundles, 0 < b.2.m) (hT : Endless.Tones M tr ω V I)
    (hω : Real.sin (ω * M.dt) ≠ 0) (x : End) (hx : x ∉ (allNodes M.networks).map Node.end') : acEndV M.bundles V x = 0 := by
  have hnodes : ∀ j, allNodes (tr j).networks = allNodes M.networks := by
    intro j
    have := h.networks j
    generalize (tr j).networks = L at this
    refine (flatMap_congr₂ (fun a b r => flatMap_congr₂ (R := FreeLevel) (fun e e' q => ?_) r) this).symm
    obtain ⟨_, _, _, _, _, rfl⟩ := q
    rfl
  have h0 : ∀ j, phasor (ω * (tr j).time - ω * M.dt) (fun _ : Fin 1 => acEndV M.bundles V x) =
      phasor (ω * (tr j).time - ω * M.dt) (fun _ => 0) := fun j => by
    funext a
    have := (hT.ends h hM x j).1
    rw [(h.sound j).linked.free x (by rw [hnodes]; exact hx)] at this
    rw [phasor_apply, phasor_apply, ← this, zero_mul, Complex.zero_re]
  have k0 := h0 0
  have k1 := h0 1
  rw [h.next 0, mul_add, add_sub_right_comm] at k1
  exact congrFun (phasor_unique hω k0 k1) 0

end

end Mtln
