import Verif.Lemmas.Phasor

/-! # The frequency response of a line is its circuit for alternating current: C178 -/

namespace Mtln

open Matrix

variable {n p : ℕ}

theorem cx_add_vec (A : Mat n) (X Y : Fin n → ℂ) : cx A *ᵥ (X + Y) = cx A *ᵥ X + cx A *ᵥ Y := mulVec_add _ _ _

/-- The complex solutions may be multiplied by complex numbers. -/
theorem MTL.AC.smul {s : MTL n p} {τ θ : ℝ} {V I : ℕ → Fin n → ℂ} (h : s.AC τ θ 0 0 0 0 V I) (z : ℂ) :
    s.AC τ θ 0 0 0 0 (z • V) (z • I) := by
  have e : ∀ X : Fin n → ℂ, turn θ • z • X = z • turn θ • X := fun X => smul_comm _ _ _
  have e' : ∀ (r : ℝ) (X : Fin n → ℂ), r • z • X = z • r • X := fun r X => smul_comm _ _ _
  refine ⟨fun k hk => ?_, fun k h0 hk => ?_, ?_, ?_⟩
  · have a := congrArg (z • ·) (h.cell k hk)
    simp only [Pi.smul_apply, Pi.zero_apply, sub_zero, smul_zero, add_zero, smul_add, smul_neg, smul_sub, e, e', mulVec_smul] at a ⊢
    exact a
  · have a := congrArg (z • ·) (h.node k h0 hk)
    simp only [Pi.smul_apply, Pi.zero_apply, sub_zero, smul_zero, add_zero, smul_add, smul_neg, smul_sub, e, e', mulVec_smul,
      mulVec_zero] at a ⊢
    exact a
  · have a := congrArg (z • ·) h.first
    simp only [Pi.smul_apply, Pi.zero_apply, zero_sub, smul_zero, add_zero, smul_add, smul_neg, smul_sub, e, e', mulVec_smul,
      mulVec_zero, mulVec_add] at a ⊢
    exact a
  · have a := congrArg (z • ·) h.last
    simp only [Pi.smul_apply, Pi.zero_apply, zero_sub, smul_zero, add_zero, smul_add, smul_neg, smul_sub, e, e', mulVec_smul,
      mulVec_zero, mulVec_add, mulVec_neg] at a ⊢
    exact a

theorem MTL.AC.sub {s : MTL n p} {τ θ : ℝ} {E0 E1 : Fin n → ℂ} {F H V I V' I' : ℕ → Fin n → ℂ} (h : s.AC τ θ E0 E1 F H V I)
    (h' : s.AC τ θ E0 E1 F H V' I') : s.AC τ θ 0 0 0 0 (V - V') (I - I') := by
  refine ⟨fun k hk => ?_, fun k h0 hk => ?_, ?_, ?_⟩
  · have a := h.cell k hk
    have b := h'.cell k hk
    simp only [Pi.sub_apply, Pi.zero_apply, mulVec_sub, smul_sub] at a b ⊢
    linear_combination (norm := module) a - b
  · have a := h.node k h0 hk
    have b := h'.node k h0 hk
    simp only [Pi.sub_apply, Pi.zero_apply, mulVec_sub, smul_sub, mulVec_zero, smul_zero] at a b ⊢
    linear_combination (norm := module) a - b
  · have a := h.first
    have b := h'.first
    simp only [Pi.sub_apply, Pi.zero_apply, mulVec_sub, smul_sub, mulVec_zero, smul_zero, mulVec_add, mulVec_smul] at a b ⊢
    linear_combination (norm := module) a - b
  · have a := h.last
    have b := h'.last
    simp only [Pi.sub_apply, Pi.zero_apply, mulVec_sub, smul_sub, mulVec_zero, smul_zero, mulVec_add, mulVec_smul, mulVec_neg] at a b ⊢
    linear_combination (norm := module) a - b

/-- From the time `t` on the sources at the two ends and the fields are sinusoids of the angular frequency `ω`. -/
structure MTL.TonesFrom (s : MTL n p) (t ω : ℝ) (E0 E1 : Fin n → ℂ) (F H : ℕ → Fin n → ℂ) : Prop where
  first : ∀ x, ∀ u ≥ t, s.vSources 0 x u = phasor (ω * u) E0 x
  last : ∀ x, ∀ u ≥ t, s.vSources s.m x u = phasor (ω * u) E1 x
  eL : ∀ k x, ∀ u ≥ t, s.eL k x u = phasor (ω * u) (H k) x
  eT : ∀ k x, ∀ u ≥ t, s.eT k x u = phasor (ω * u) (F k) x

section

variable {s : MTL n p} {C : Mat n} {d τ θ : ℝ}

/-- What an end does to the voltages of a solution. -/
theorem ac_end {Z : Mat n} {γ : ℝ} (hγ : γ ≠ 0) {V E J : Fin n → ℂ} (h : γ • V = γ • E - cx Z *ᵥ J)
    (hZ : Absorbing Z ∨ Zᵀ = Z) (φ : ℝ) : Compatible Z (phasor φ V - phasor φ E) := by
  rcases hZ with hZ | hZ
  · exact Or.inl hZ
  · refine Or.inr ⟨hZ, -(γ⁻¹ • phasor φ J), ?_⟩
    have e := congrArg (phasor φ) h
    simp only [map_sub, map_smul, phasor_mulVec] at e
    rw [mulVec_neg, mulVec_smul]
    have : γ • (phasor φ V - phasor φ E) = -(Z *ᵥ phasor φ J) := by rw [smul_sub, e]; abel
    rw [← smul_neg, ← this, smul_smul, inv_mul_cancel₀ hγ, one_smul]

/-- Without sources the circuit for alternating current has no solution but zero. -/
theorem ac_zero (hp : s.Passive) (hr : s.Regular C) (hτ : s.dt ≤ τ) (hauto : maxTimestep s.m s.dun s.l s.c = .ok d)
    (hlt : s.dt * τ < d ^ 2) (ha : Absorbing s.zs ∨ Absorbing s.zl) (hs : Absorbing s.zs ∨ s.zsᵀ = s.zs)
    (hl : Absorbing s.zl ∨ s.zlᵀ = s.zl) (hγ : Real.cos (θ / 2) ≠ 0) {V I : ℕ → Fin n → ℂ} (h : s.AC τ θ 0 0 0 0 V I) :
    (∀ k ≤ s.m, V k = 0) ∧ ∀ k < s.m, I k = 0 := by
  -- the real parts die out
  have die : ∀ {V I : ℕ → Fin n → ℂ}, s.AC τ θ 0 0 0 0 V I → ∀ ε > 0, ∃ J : ℕ, ∀ j ≥ J, (∀ k ≤ s.m, ∀ a, |phasor (j * θ) (V k) a| ≤ ε) ∧
      ∀ k < s.m, ∀ a, |phasor (j * θ + θ / 2) (I k) a| ≤ ε := by
    intro V I h
    refine oscillations_die (x := fun j k => phasor (j * θ) (V k)) (y := fun j k => phasor (j * θ + θ / 2) (I k)) hp hr hτ hauto hlt
      (fun j => ?_) ha ?_ ?_
    · have := h.step ((j + 1) * θ)
      simp only [map_zero, Pi.zero_apply, add_zero] at this
      have e1 : ((j : ℝ) + 1) * θ - θ = j * θ := by ring
      have e2 : ((j : ℝ) + 1) * θ - θ / 2 = j * θ + θ / 2 := by ring
      rw [e1, e2] at this
      have := MTL.ForcedStep.free this
      push_cast
      exact this
    · have := ac_end hγ h.first hs ((0 : ℕ) * θ)
      simp only [map_zero, sub_zero] at this
      exact this
    · have := ac_end hγ h.last hl ((0 : ℕ) * θ)
      simp only [map_zero, sub_zero] at this
      exact this
  have small : ∀ (X : Fin n → ℂ) (a : Fin n), (∀ ε > 0, ∃ φ : ℝ, |phasor φ X a| ≤ ε ∧ |phasor φ (Complex.I • X) a| ≤ ε) → X a = 0 := by
    intro X a hX
    have hb : ∀ ε > 0, ‖X a‖ ≤ 0 + ε := by
      intro ε hε
      obtain ⟨φ, h1, h2⟩ := hX (ε / 2) (by linarith)
      have e : ‖X a‖ = ‖X a * Complex.exp (φ * Complex.I)‖ := by rw [norm_mul, Complex.norm_exp_ofReal_mul_I, mul_one]
      rw [e]
      refine (Complex.norm_le_abs_re_add_abs_im _).trans ?_
      have h3 : phasor φ (Complex.I • X) a = -(X a * Complex.exp (φ * Complex.I)).im := by
        rw [phasor_apply, Pi.smul_apply, smul_eq_mul, mul_assoc, Complex.I_mul_re]
      rw [h3, abs_neg] at h2
      rw [phasor_apply] at h1
      linarith
    exact norm_eq_zero.1 (le_antisymm (le_of_forall_pos_le_add hb) (norm_nonneg _))
  refine ⟨fun k hk => funext fun a => small _ a fun ε hε => ?_, fun k hk => funext fun a => small _ a fun ε hε => ?_⟩
  · obtain ⟨J, hJ⟩ := die h ε hε
    obtain ⟨J', hJ'⟩ := die (h.smul Complex.I) ε hε
    exact ⟨_, (hJ (J + J') (by omega)).1 k hk a, (hJ' (J + J') (by omega)).1 k hk a⟩
  · obtain ⟨J, hJ⟩ := die h ε hε
    obtain ⟨J', hJ'⟩ := die (h.smul Complex.I) ε hε
    exact ⟨_, (hJ (J + J') (by omega)).2 k hk a, (hJ' (J + J') (by omega)).2 k hk a⟩

end

/-! ## Existence -/

/-- Functions on the nodes of a line as functions of natural numbers. -/
def spread {m : ℕ} (v : Fin m → Fin n → ℂ) (k : ℕ) : Fin n → ℂ := if h : k < m then v ⟨k, h⟩ else 0

theorem spread_add {m : ℕ} (v w : Fin m → Fin n → ℂ) (k : ℕ) : spread (v + w) k = spread v k + spread w k := by
  unfold spread; split_ifs <;> simp

theorem spread_smul {m : ℕ} (r : ℝ) (v : Fin m → Fin n → ℂ) (k : ℕ) : spread (r • v) k = r • spread v k := by
  unfold spread; split_ifs <;> simp

theorem spread_at {m : ℕ} (v : Fin m → Fin n → ℂ) (k : Fin m) : spread v k = v k := by
  unfold spread
  rw [dif_pos k.2]

/-- Complex voltages and currents inside a line of `m` cells. -/
abbrev ACState (n m : ℕ) := (Fin (m + 1) → Fin n → ℂ) × (Fin m → Fin n → ℂ)

/-- The parts of the equations of `MTL.AC` with voltages and currents. -/
noncomputable def MTL.acMap (s : MTL n p) (τ θ : ℝ) : ACState n s.m →ₗ[ℝ] ACState n s.m where
  toFun w := (fun k => if (k : ℕ) = 0 then
      Real.cos (θ / 2) • spread w.1 0 + cx s.zs *ᵥ (spread w.2 0 + (s.dun 0 / 2) • ((1 / τ) • (cx (s.c 0) *ᵥ (turn θ • spread w.1 0)) +
        Real.cos (θ / 2) • (cx (s.g 0) *ᵥ spread w.1 0)))
    else if (k : ℕ) = s.m then
      Real.cos (θ / 2) • spread w.1 s.m + cx s.zl *ᵥ (-spread w.2 (s.m - 1) + (s.dun (s.m - 1) / 2) •
        ((1 / τ) • (cx (s.c s.m) *ᵥ (turn θ • spread w.1 s.m)) + Real.cos (θ / 2) • (cx (s.g s.m) *ᵥ spread w.1 s.m)))
    else ((s.dun (k - 1) + s.dun k) / 2) • ((1 / s.dt) • (cx (s.c k) *ᵥ (turn θ • spread w.1 k)) +
        Real.cos (θ / 2) • (cx (s.g k) *ᵥ spread w.1 k)) + (spread w.2 k - spread w.2 (k - 1)),
    fun k => s.dun k • ((1 / s.dt) • (cx (s.l k + s.conn.e k) *ᵥ (turn θ • spread w.2 k)) +
      Real.cos (θ / 2) • (cx (s.r k + s.conn.d k) *ᵥ spread w.2 k)) + (spread w.1 (k + 1) - spread w.1 k))
  map_add' x y := by
    refine Prod.ext (funext fun k => ?_) (funext fun k => ?_)
    · simp only [Prod.fst_add, Prod.snd_add, Pi.add_apply, spread_add]
      split_ifs
      · simp only [mulVec_add, smul_add, mulVec_smul]; module
      · simp only [mulVec_add, smul_add, mulVec_smul, neg_add, mulVec_neg]; module
      · simp only [mulVec_add, smul_add, mulVec_smul]; module
    · simp only [Prod.fst_add, Prod.snd_add, Pi.add_apply, spread_add]
      simp only [mulVec_add, smul_add, mulVec_smul]; module
  map_smul' r x := by
    have e : ∀ X : Fin n → ℂ, turn θ • r • X = r • turn θ • X := fun X => smul_comm _ _ _
    refine Prod.ext (funext fun k => ?_) (funext fun k => ?_)
    · simp only [Prod.smul_fst, Prod.smul_snd, Pi.smul_apply, spread_smul, RingHom.id_apply]
      split_ifs
      · simp only [e, mulVec_smul, smul_add, mulVec_add]; module
      · simp only [e, mulVec_smul, smul_add, mulVec_add, mulVec_neg]; module
      · simp only [e, mulVec_smul, smul_add]; module
    · simp only [Prod.smul_fst, Prod.smul_snd, Pi.smul_apply, spread_smul, RingHom.id_apply, e, mulVec_smul]; module

/-- The right hand sides of the equations of `MTL.AC`. -/
noncomputable def MTL.acSource (s : MTL n p) (θ : ℝ) (E0 E1 : Fin n → ℂ) (F H : ℕ → Fin n → ℂ) : ACState n s.m :=
  (fun k => if (k : ℕ) = 0 then
      Real.cos (θ / 2) • E0 - cx s.zs *ᵥ ((s.dun 0 / 2) • ((1 / s.dt) • (cx (s.c 0) *ᵥ (turn θ • F 0))))
    else if (k : ℕ) = s.m then
      Real.cos (θ / 2) • E1 - cx s.zl *ᵥ ((s.dun (s.m - 1) / 2) • ((1 / s.dt) • (cx (s.c s.m) *ᵥ (turn θ • F s.m))))
    else -(((s.dun (k - 1) + s.dun k) / 2) • ((1 / s.dt) • (cx (s.c k) *ᵥ (turn θ • F k)) +
      (1 / 2 : ℝ) • (cx (s.g k) *ᵥ (turn θ • F k)))),
    fun k => -(F (k + 1) - F k) + s.dun k • (Real.cos (θ / 2) • H k))

theorem ac_iff {s : MTL n p} {τ θ : ℝ} {E0 E1 : Fin n → ℂ} {F H : ℕ → Fin n → ℂ} (hm : 0 < s.m) (w : ACState n s.m) :
    s.acMap τ θ w = s.acSource θ E0 E1 F H ↔ s.AC τ θ E0 E1 F H (spread w.1) (spread w.2) := by
  constructor
  · intro h
    refine ⟨fun k hk => ?_, fun k h0 hk => ?_, ?_, ?_⟩
    · have e := congrFun (congrArg Prod.snd h) ⟨k, hk⟩
      simp only [MTL.acMap, MTL.acSource, LinearMap.coe_mk, AddHom.coe_mk] at e
      linear_combination (norm := module) e
    · have e := congrFun (congrArg Prod.fst h) ⟨k, by omega⟩
      simp only [MTL.acMap, MTL.acSource, LinearMap.coe_mk, AddHom.coe_mk, if_neg h0.ne', if_neg hk.ne] at e
      linear_combination (norm := module) e
    · have e := congrFun (congrArg Prod.fst h) 0
      simp only [MTL.acMap, MTL.acSource, LinearMap.coe_mk, AddHom.coe_mk, Fin.val_zero, if_true] at e
      simp only [mulVec_add, mulVec_smul, smul_add] at e ⊢
      linear_combination (norm := module) e
    · have e := congrFun (congrArg Prod.fst h) (Fin.last s.m)
      simp only [MTL.acMap, MTL.acSource, LinearMap.coe_mk, AddHom.coe_mk, Fin.val_last, if_neg hm.ne', if_true] at e
      simp only [mulVec_add, mulVec_smul, smul_add, mulVec_neg] at e ⊢
      linear_combination (norm := module) e
  · intro h
    refine Prod.ext (funext fun k => ?_) (funext fun k => ?_)
    · simp only [MTL.acMap, MTL.acSource, LinearMap.coe_mk, AddHom.coe_mk]
      split_ifs with h0 h1
      · have e := h.first
        simp only [mulVec_add, mulVec_smul, smul_add] at e ⊢
        linear_combination (norm := module) e
      · have e := h.last
        simp only [mulVec_add, mulVec_smul, smul_add, mulVec_neg] at e ⊢
        linear_combination (norm := module) e
      · have e := h.node k (Nat.pos_of_ne_zero h0) (by omega)
        linear_combination (norm := module) e
    · simp only [MTL.acMap, MTL.acSource, LinearMap.coe_mk, AddHom.coe_mk]
      have e := h.cell k k.2
      linear_combination (norm := module) e

section

variable {s : MTL n p} {C : Mat n} {d τ θ : ℝ} {E0 E1 : Fin n → ℂ} {F H : ℕ → Fin n → ℂ}

/-- **C178** The circuit of a line for alternating current has a solution, and only one. -/
theorem C178_circuit (hp : s.Passive) (hr : s.Regular C) (hτ : s.dt ≤ τ) (hauto : maxTimestep s.m s.dun s.l s.c = .ok d)
    (hlt : s.dt * τ < d ^ 2) (ha : Absorbing s.zs ∨ Absorbing s.zl) (hs : Absorbing s.zs ∨ s.zsᵀ = s.zs)
    (hl : Absorbing s.zl ∨ s.zlᵀ = s.zl) (hγ : Real.cos (θ / 2) ≠ 0) :
    (∃ V I, s.AC τ θ E0 E1 F H V I) ∧ ∀ V I V' I', s.AC τ θ E0 E1 F H V I → s.AC τ θ E0 E1 F H V' I' →
      (∀ k ≤ s.m, V k = V' k) ∧ ∀ k < s.m, I k = I' k := by
  constructor
  · have inj : Function.Injective (s.acMap τ θ) := by
      rw [injective_iff_map_eq_zero]
      intro w hw
      have hz : s.acSource θ 0 0 0 0 = 0 := by
        unfold MTL.acSource
        refine Prod.ext (funext fun k => ?_) (funext fun k => ?_)
        · simp
        · simp
      rw [← hz] at hw
      obtain ⟨h1, h2⟩ := ac_zero hp hr hτ hauto hlt ha hs hl hγ ((ac_iff hp.cells w).1 hw)
      refine Prod.ext (funext fun k => ?_) (funext fun k => ?_)
      · rw [← spread_at w.1 k]; exact h1 k (by omega)
      · rw [← spread_at w.2 k]; exact h2 k k.2
    obtain ⟨w, hw⟩ := LinearMap.injective_iff_surjective.1 inj (s.acSource θ E0 E1 F H)
    exact ⟨_, _, (ac_iff hp.cells w).1 hw⟩
  · intro V I V' I' h h'
    obtain ⟨h1, h2⟩ := ac_zero hp hr hτ hauto hlt ha hs hl hγ (h.sub h')
    exact ⟨fun k hk => sub_eq_zero.1 (h1 k hk), fun k hk => sub_eq_zero.1 (h2 k hk)⟩

/-- **C178** With sinusoidal sources and fields the runs of a line with an end that absorbs power approach the sinusoids whose
complex amplitudes solve the circuit for alternating current: voltages at the time of the step before, currents half a step
later. -/
theorem C178_response {t ω : ℝ} (hp : s.Passive) (hr : s.Regular C) (hτ : s.dt ≤ τ) (ht : s.TermFor τ)
    (hauto : maxTimestep s.m s.dun s.l s.c = .ok d) (hlt : s.dt * τ < d ^ 2) (ha : Absorbing s.zs ∨ Absorbing s.zl)
    (hs : Absorbing s.zs ∨ s.zsᵀ = s.zs) (hl : Absorbing s.zl ∨ s.zlᵀ = s.zl) (hγ : Real.cos (ω * s.dt / 2) ≠ 0)
    (hS : s.TonesFrom t ω E0 E1 F H) {V I : ℕ → Fin n → ℂ} (h : s.AC τ (ω * s.dt) E0 E1 F H V I)
    (h0 : Compatible s.zs (s.v 0 - fun x => s.vSources 0 x (s.time - s.dt)))
    (h1 : Compatible s.zl (s.v s.m - fun x => s.vSources s.m x (s.time - s.dt))) :
    s.Approaches (fun j k => phasor (ω * (s.time + j * s.dt - s.dt)) (V k))
      (fun j k => phasor (ω * (s.time + j * s.dt - s.dt / 2)) (I k)) := by
  have hdt := hp.dt_pos
  have hτ0 : τ ≠ 0 := (lt_of_lt_of_le hdt hτ).ne'
  obtain ⟨q, hq⟩ := exists_nat_ge ((t - s.time + s.dt) / s.dt)
  rw [div_le_iff₀ hdt] at hq
  have hq' : t ≤ s.time + q * s.dt - s.dt := by linarith
  by_cases hok : (∃ lr, updateLr s.m s.dt s.dun s.l s.r s.conn = .ok lr) ∧ ∃ cg, updateCg s.m s.dt s.dun s.c s.g = .ok cg
  swap
  · intro ε _
    refine ⟨0, fun T t' N tr R => ?_⟩
    obtain ⟨lr, cg, hlr, hcg, -⟩ := R.closed
    exact absurd ⟨⟨lr, hlr⟩, cg, hcg⟩ hok
  obtain ⟨⟨lr, hlr⟩, cg, hcg⟩ := hok
  obtain ⟨c0, c1⟩ := ends_compatible (lr := lr) (cg := cg) hp.cells hτ0 ht h0 h1 q
  obtain ⟨A, hA⟩ : ∃ A : ℕ → Grid n, A = fun (j : ℕ) (k : ℕ) => phasor (ω * (s.time + j * s.dt - s.dt)) (V k) := ⟨_, rfl⟩
  obtain ⟨B, hB⟩ : ∃ B : ℕ → Grid n, B = fun (j : ℕ) (k : ℕ) => phasor (ω * (s.time + j * s.dt - s.dt / 2)) (I k) := ⟨_, rfl⟩
  have die := oscillations_die (s := s) (τ := τ) (C := C) (d := d)
    (x := fun j => ((MTL.advanceFields lr cg)^[q + j] s).v - A (q + j)) (y := fun j => ((MTL.advanceFields lr cg)^[q + j] s).i - B (q + j))
    hp hr hτ hauto hlt (fun j => ?_) ha ?_ ?_
  · intro ε hε
    obtain ⟨J, hJ⟩ := die ε hε
    refine ⟨q + J, fun T t' N tr R j hj hN => ?_⟩
    obtain ⟨r, rfl⟩ := Nat.exists_eq_add_of_le hj
    obtain ⟨a1, a2⟩ := hJ (J + r) (by omega)
    rw [← add_assoc] at a1 a2
    rw [R.fields hlr hcg _ hN]
    rw [hA] at a1
    rw [hB] at a2
    exact ⟨a1, a2⟩
  · obtain ⟨y, hy⟩ : ∃ y, y = (MTL.advanceFields lr cg)^[q + j] s := ⟨_, rfl⟩
    have hc := iterate_advanceFields_config lr cg s (q + j)
    have htime := iterate_advanceFields_time lr cg s (q + j)
    have hstep : ((MTL.advanceFields lr cg)^[q + (j + 1)] s) = y.advanceFields lr cg := by
      rw [hy, ← add_assoc, iterate_succ_fields]
    rw [hstep]
    rw [← hy] at hc htime ⊢
    refine MTL.FreeStep.congr hc ?_
    have late : ∀ w : ℝ, -s.dt ≤ w → t ≤ y.time + w := by
      intro w hw
      rw [htime]
      push_cast
      have : (0 : ℝ) ≤ j * s.dt := by positivity
      nlinarith
    have f1 := forced_step (s := y) (lr := lr) (cg := cg) (hp.congr hc) hτ0 (ht.congr hc)
      (by rw [hc.m, hc.dt, hc.dun, hc.l, hc.r, hc.conn]; exact hlr) (by rw [hc.m, hc.dt, hc.dun, hc.c, hc.g]; exact hcg)
    have hAC : y.AC τ (ω * s.dt) E0 E1 F H V I := by
      constructor
      · rw [hc.m, hc.dun, hc.l, hc.conn, hc.dt, hc.r]; exact h.cell
      · rw [hc.m, hc.dun, hc.c, hc.g, hc.dt]; exact h.node
      · rw [hc.dun, hc.c, hc.g, hc.zs, hc.dt]; exact h.first
      · rw [hc.m, hc.dun, hc.c, hc.g, hc.zl, hc.dt]; exact h.last
    have f2 := hAC.step (ω * y.time)
    have p1 : ω * y.time - ω * s.dt = ω * (y.time - s.dt) := by ring
    have p2 : ω * y.time + ω * s.dt / 2 = ω * (y.time + s.dt / 2) := by ring
    have p3 : ω * y.time - ω * s.dt / 2 = ω * (y.time - s.dt / 2) := by ring
    rw [p1, p2, p3] at f2
    have s1 : y.sample.vNow 0 + y.sample.vPrev 0 = phasor (ω * y.time) E0 + phasor (ω * (y.time - s.dt)) E0 := by
      funext x
      simp only [MTL.sample, sampleSources, hc.vSources, hc.dt, Pi.add_apply]
      rw [hS.first x _ (by simpa using late 0 (by linarith)), hS.first x _ (by simpa [sub_eq_add_neg] using late (-s.dt) le_rfl)]
    have s2 : y.sample.vNow y.m + y.sample.vPrev y.m = phasor (ω * y.time) E1 + phasor (ω * (y.time - s.dt)) E1 := by
      funext x
      simp only [MTL.sample, sampleSources, hc.vSources, hc.dt, hc.m, Pi.add_apply]
      rw [hS.last x _ (by simpa using late 0 (by linarith)), hS.last x _ (by simpa [sub_eq_add_neg] using late (-s.dt) le_rfl)]
    have s3 : y.sample.eTPrev = fun k => phasor (ω * (y.time - s.dt)) (F k) := by
      funext k x
      simp only [MTL.sample, sampleSources, hc.eT, hc.dt]
      rw [hS.eT k x _ (by simpa [sub_eq_add_neg] using late (-s.dt) le_rfl)]
    have s4 : y.sample.eTNow = fun k => phasor (ω * y.time) (F k) := by
      funext k x
      simp only [MTL.sample, sampleSources, hc.eT]
      rw [hS.eT k x _ (by simpa using late 0 (by linarith))]
    have s5 : y.sample.eLNow + y.sample.eLPrev = fun k => phasor (ω * (y.time + s.dt / 2)) (H k) + phasor (ω * (y.time - s.dt / 2)) (H k) := by
      funext k x
      simp only [MTL.sample, sampleSources, hc.eL, hc.dt, Pi.add_apply]
      rw [hS.eL k x _ (late _ (by linarith)), hS.eL k x _ (by simpa [sub_eq_add_neg] using late (-(s.dt / 2)) (by linarith))]
    rw [s1, s2, s3, s4, s5] at f1
    have key := f1.diff f2
    have q1 : (fun k => phasor (ω * (y.time - s.dt)) (V k)) = A (q + j) := by rw [hA, htime]
    have q2 : (fun k => phasor (ω * (y.time - s.dt / 2)) (I k)) = B (q + j) := by rw [hB, htime]
    have q3 : (fun k => phasor (ω * y.time) (V k)) = A (q + (j + 1)) := by
      rw [hA, htime]
      funext k
      congr 2
      push_cast
      ring
    have q4 : (fun k => phasor (ω * (y.time + s.dt / 2)) (I k)) = B (q + (j + 1)) := by
      rw [hB, htime]
      funext k
      congr 2
      push_cast
      ring
    rw [q1, q2, q3, q4] at key
    exact key
  · have := ac_end hγ h.first hs (ω * (s.time + q * s.dt - s.dt))
    refine Compatible.diff (c := fun x => s.vSources 0 x (s.time + q * s.dt - s.dt)) c0 ?_
    rw [hA]
    have e : (fun x => s.vSources 0 x (s.time + q * s.dt - s.dt)) = phasor (ω * (s.time + q * s.dt - s.dt)) E0 :=
      funext fun x => hS.first x _ hq'
    rw [e]
    exact this
  · have := ac_end hγ h.last hl (ω * (s.time + q * s.dt - s.dt))
    refine Compatible.diff (c := fun x => s.vSources s.m x (s.time + q * s.dt - s.dt)) c1 ?_
    rw [hA]
    have e : (fun x => s.vSources s.m x (s.time + q * s.dt - s.dt)) = phasor (ω * (s.time + q * s.dt - s.dt)) E1 :=
      funext fun x => hS.last x _ hq'
    rw [e]
    exact this

end

/-! ## From the constructor -/

/-- **C178** for programs: a line from the constructor with resistances at one end, a time step below the automatic one and
sinusoidal sources that begin at time zero.  Below half of the sampling frequency its circuit for alternating current has one
solution, and its run approaches it. -/
theorem C178_program {l c r g : Arg} {length : ℝ} {positions : List V3} {ndiv : List ℕ} {Zs Zl : ZArg} {name : String} {s : MTL n p}
    (h : MTL.new p l c r g length positions ndiv Zs Zl name = .ok ⟨n, s⟩) (hl : SPD (l.matrix n)) (hc : SPD (c.matrix n))
    (hr : Dissipative (r.matrix n)) (hg : Dissipative (g.matrix n)) (hzs : ∀ i < n, 0 ≤ Zs.value i)
    (hzl : ∀ i < n, 0 ≤ Zl.value i) (hz : (∀ i < n, 0 < Zs.value i) ∨ ∀ i < n, 0 < Zl.value i)
    (hdu : ∀ k < s.m, s.du k ≠ 0) {dt ω : ℝ} (hdt : 0 < dt) (hlt : dt < s.dt) (hω : 0 ≤ ω) (hπ : ω * dt < Real.pi) {S : Src n}
    {E0 E1 : Fin n → ℂ} (hS : ∀ k x, ∀ u < 0, S k x u = 0) (hS0 : ∀ x, ∀ u ≥ 0, S 0 x u = (E0 x * Complex.exp (ω * u * Complex.I)).re)
    (hS1 : ∀ x, ∀ u ≥ 0, S s.m x u = (E1 x * Complex.exp (ω * u * Complex.I)).re) :
    ∃ V I, ({ s with dt := dt, vSources := S } : MTL n p).AC s.dt (ω * dt) E0 E1 0 0 V I ∧
      (∀ V' I', ({ s with dt := dt, vSources := S } : MTL n p).AC s.dt (ω * dt) E0 E1 0 0 V' I' →
        (∀ k ≤ s.m, V' k = V k) ∧ ∀ k < s.m, I' k = I k) ∧
      ({ s with dt := dt, vSources := S } : MTL n p).Approaches
        (fun j k x => (V k x * Complex.exp (ω * (j * dt - dt) * Complex.I)).re)
        (fun j k x => (I k x * Complex.exp (ω * (j * dt - dt / 2) * Complex.I)).re) := by
  obtain ⟨-, -, -, -, -, -, -, -, ezs, ezl, -⟩ := new_ok_contents h
  obtain ⟨hp, hR, ht, hauto⟩ := constructed_physical h hl hc hr hg hzs hzl hdu
  obtain ⟨hv, htime, heL, heT⟩ : (∀ k, s.v k = 0) ∧ s.time = 0 ∧ (∀ k x u, s.eL k x u = 0) ∧ ∀ k x u, s.eT k x u = 0 := by
    obtain ⟨la, ca, ga, ra, zsa, zla, mem, d, -, -, -, -, -, -, -, h8⟩ := new_ok_iff.1 h
    obtain ⟨-, -, -, rfl⟩ := computeTerminalTerms_ok_iff.1 h8
    exact ⟨fun _ => rfl, rfl, fun _ _ _ => rfl, fun _ _ _ => rfl⟩
  have ha : Absorbing s.zs ∨ Absorbing s.zl := by
    rw [ezs, ezl]
    exact hz.imp absorbing_diagonal absorbing_diagonal
  have zero : ∀ k, (s.v k - fun x => S k x (s.time - dt)) = 0 := by
    intro k
    funext x
    rw [Pi.sub_apply, hv, htime, hS k x _ (by linarith)]
    simp
  have hγ : Real.cos (ω * dt / 2) ≠ 0 := by
    refine (Real.cos_pos_of_mem_Ioo ⟨?_, ?_⟩).ne'
    · have : 0 ≤ ω * dt := mul_nonneg hω hdt.le
      linarith [Real.pi_pos]
    · linarith
  obtain ⟨z, hz'⟩ : ∃ z : MTL n p, z = { s with dt := dt, vSources := S } := ⟨_, rfl⟩
  have a1 : z.Passive := by rw [hz']; exact ⟨hp.cells, hdt, hp.dun, hp.l, hp.c, hp.r, hp.g, hp.zs, hp.zl, hp.q1, hp.q2, hp.q3⟩
  have a2 : z.Regular (c.matrix n) := by rw [hz']; exact ⟨hR.c, hR.c_spd, hR.l_spd, hR.e, hR.dun⟩
  have a3 : z.dt ≤ s.dt := by rw [hz']; exact hlt.le
  have a4 : z.TermFor s.dt := by rw [hz']; exact ⟨ht.det_left, ht.det_right, ht.left1, ht.left2, ht.right1, ht.right2⟩
  have a5 : maxTimestep z.m z.dun z.l z.c = .ok s.dt := by rw [hz']; exact hauto
  have a6 : z.dt * s.dt < s.dt ^ 2 := by rw [hz']; show dt * s.dt < s.dt ^ 2; nlinarith
  have a7 : Absorbing z.zs ∨ Absorbing z.zl := by rw [hz']; exact ha
  have a8 : Absorbing z.zs ∨ z.zsᵀ = z.zs := by rw [hz']; show _ ∨ s.zsᵀ = s.zs; rw [ezs]; exact Or.inr (diagonal_transpose _)
  have a9 : Absorbing z.zl ∨ z.zlᵀ = z.zl := by rw [hz']; show _ ∨ s.zlᵀ = s.zl; rw [ezl]; exact Or.inr (diagonal_transpose _)
  obtain ⟨⟨V, I, hAC⟩, uniq⟩ := C178_circuit (s := z) (θ := ω * dt) (E0 := E0) (E1 := E1) (F := 0) (H := 0) a1 a2 a3 a5 a6 a7 a8 a9 hγ
  have hT : z.TonesFrom 0 ω E0 E1 0 0 := by
    rw [hz']
    refine ⟨fun x u hu => ?_, fun x u hu => ?_, fun k x u _ => ?_, fun k x u _ => ?_⟩
    · rw [phasor_apply]; push_cast; exact hS0 x u hu
    · rw [phasor_apply]; push_cast; exact hS1 x u hu
    · simp [heL]
    · simp [heT]
  have hzd : z.dt = dt := by rw [hz']
  have app := C178_response (s := z) (ω := ω) a1 a2 a3 a4 a5 a6 a7 a8 a9 (by rw [hzd]; exact hγ) hT (by rw [hzd]; exact hAC) (by
      rw [hz']
      show Compatible s.zs (s.v 0 - fun x => S 0 x (s.time - dt))
      rw [ezs]
      exact compatible_diagonal (zero 0)) (by
      rw [hz']
      show Compatible s.zl (s.v s.m - fun x => S s.m x (s.time - dt))
      rw [ezl]
      exact compatible_diagonal (zero s.m))
  rw [← hz']
  refine ⟨V, I, hAC, fun V' I' h' => ?_, ?_⟩
  · obtain ⟨u1, u2⟩ := uniq _ _ _ _ h' hAC
    rw [hz'] at u1 u2
    exact ⟨u1, u2⟩
  · have e1 : (fun (j : ℕ) k => phasor (ω * (z.time + j * z.dt - z.dt)) (V k)) =
        fun (j : ℕ) k x => (V k x * Complex.exp (ω * (j * dt - dt) * Complex.I)).re := by
      funext j k x
      rw [phasor_apply, hzd, show z.time = 0 by rw [hz']; exact htime]
      push_cast
      rw [zero_add]
    have e2 : (fun (j : ℕ) k => phasor (ω * (z.time + j * z.dt - z.dt / 2)) (I k)) =
        fun (j : ℕ) k x => (I k x * Complex.exp (ω * (j * dt - dt / 2) * Complex.I)).re := by
      funext j k x
      rw [phasor_apply, hzd, show z.time = 0 by rw [hz']; exact htime]
      push_cast
      rw [zero_add]
    rw [e1, e2] at app
    exact app

/-! ## Non-vacuity -/

/-- Non-vacuity of C178: the demo line with half of its time step and a sine at its beginning. -/
example : ∃ s : MTL 1 0, MTL.new 0 (.scalar 1) (.scalar 1) (.scalar 0) (.scalar 0) 2 [] [2] (.scalar 1) (.scalar 1) "demo" = .ok ⟨1, s⟩ ∧
    ∃ V I, ({ s with dt := 1 / 2 * s.dt, vSources := fun k _ u => if k = 0 ∧ 0 ≤ u then Real.cos (1 / s.dt * u) else 0 } :
        MTL 1 0).AC s.dt (1 / s.dt * (1 / 2 * s.dt)) (fun _ => 1) (fun _ => 0) 0 0 V I ∧
      ({ s with dt := 1 / 2 * s.dt, vSources := fun k _ u => if k = 0 ∧ 0 ≤ u then Real.cos (1 / s.dt * u) else 0 } :
        MTL 1 0).Approaches (fun j k x => (V k x * Complex.exp (((1 / s.dt : ℝ) : ℂ) * (j * ((1 / 2 * s.dt : ℝ) : ℂ) - ((1 / 2 * s.dt : ℝ) : ℂ)) * Complex.I)).re)
          (fun j k x => (I k x * Complex.exp (((1 / s.dt : ℝ) : ℂ) * (j * ((1 / 2 * s.dt : ℝ) : ℂ) - ((1 / 2 * s.dt : ℝ) : ℂ) / 2) * Complex.I)).re) := by
  obtain ⟨s, hs⟩ := demoLine_accepted (p := 0)
  have hdu := demoLine_cells hs
  obtain ⟨-, -, -, hauto⟩ := constructed_physical hs (spd_one one_pos) (spd_one one_pos) dissipative_zero dissipative_zero
    (fun _ _ => zero_le_one) (fun _ _ => zero_le_one) hdu
  obtain ⟨hp, -⟩ := constructed_physical hs (spd_one one_pos) (spd_one one_pos) dissipative_zero dissipative_zero
    (fun _ _ => zero_le_one) (fun _ _ => zero_le_one) hdu
  have hdt := hp.dt_pos
  refine ⟨s, hs, ?_⟩
  obtain ⟨V, I, h1, -, h2⟩ := C178_program (dt := 1 / 2 * s.dt) (ω := 1 / s.dt) (E0 := fun _ => 1) (E1 := fun _ => 0)
    (S := fun k _ u => if k = 0 ∧ 0 ≤ u then Real.cos (1 / s.dt * u) else 0) hs
    (spd_one one_pos) (spd_one one_pos) dissipative_zero dissipative_zero (fun _ _ => zero_le_one) (fun _ _ => zero_le_one)
    (Or.inl fun _ _ => one_pos) hdu (by linarith) (by linarith) (by positivity) (by
      have : 1 / s.dt * (1 / 2 * s.dt) = 1 / 2 := by field_simp
      rw [this]
      linarith [Real.two_le_pi]) (fun k x u hu => if_neg fun h => absurd h.2 (not_le.2 hu)) (fun x u hu => by
      show (if _ then _ else _) = _
      rw [if_pos ⟨rfl, hu⟩, one_mul, ← Complex.ofReal_mul, Complex.exp_ofReal_mul_I_re]) (fun x u hu => by
      show (if _ then _ else _) = _
      rw [if_neg fun h => hp.cells.ne' h.1]
      simp)
  exact ⟨V, I, h1, h2⟩

end Mtln
