import Verif.Lemmas.ManagerWave
import Verif.Props.Periodic
import Verif.Props.ProgramSources

/-! # Managers with periodic sources approach a periodic steady state: C174 -/

namespace Mtln

open Matrix Filter

variable {n p N S : ℕ}

/-! ## Managers without sources -/

section

variable {M : MTLN p} {dt : ℝ}

/-- No sources and fields at all. -/
def Mute (_ g : ℝ → ℝ) : Prop := g = fun _ => 0

theorem mute_superposed (a b : ℝ) (f g h : ℝ → ℝ) (hg : Mute f g) (hh : Mute f h) : Mute f fun t => a * g t + b * h t := by
  unfold Mute at *
  rw [hg, hh]
  funext t
  ring

theorem MTLN.Redriven.mute_silent {A : MTLN p} (h : M.Redriven Mute A) (t₀ : ℝ) : A.SilentFrom t₀ :=
  (h.imp (ρ₂ := fun _ g => ∀ t ≥ t₀, g t = 0) fun _ g hg t _ => congrFun hg t).silent

/-- What managers with the hardware of `M` and no sources show. -/
noncomputable def MTLN.echoes (hM : M.Damped dt) (hl : M.Linked) : Submodule ℝ (ℕ → Places M.bundles → ℝ) where
  carrier := { h | ∃ B, M.Redriven Mute B ∧ B.Linked ∧ ∀ j q, h j q = B.wave dt j q }
  zero_mem' := by
    obtain ⟨B, h1, h2⟩ := MTLN.Redriven.superposed (a := 1) (b := -1) (ρ₃ := Mute) (fun f g h hg hh => by
      rw [hg, hh]; funext t; show 1 * f t + -1 * f t = 0; ring) (MTLN.Redriven.refl M) (MTLN.Redriven.refl M)
    have r := (MTLN.Redriven.refl M).remade
    refine ⟨B, h2, h1.linked r r h2.remade hl hl, fun j q => ?_⟩
    rw [h1.wave hM hM (h2.remade.damped hM)]
    show (0 : ℝ) = _
    ring
  add_mem' := by
    rintro x y ⟨A, a1, a2, a3⟩ ⟨B, b1, b2, b3⟩
    obtain ⟨C, c1, c2⟩ := a1.superposed (a := 1) (b := 1) (mute_superposed 1 1) b1
    refine ⟨C, c2, c1.linked a1.remade b1.remade c2.remade a2 b2, fun j q => ?_⟩
    rw [c1.wave (a1.remade.damped hM) (b1.remade.damped hM) (c2.remade.damped hM), ← a3, ← b3]
    show x j q + y j q = _
    ring
  smul_mem' := by
    rintro c x ⟨A, a1, a2, a3⟩
    obtain ⟨C, c1, c2⟩ := a1.superposed (a := c) (b := 0) (mute_superposed c 0) a1
    refine ⟨C, c2, c1.linked a1.remade a1.remade c2.remade a2 a2, fun j q => ?_⟩
    rw [c1.wave (a1.remade.damped hM) (a1.remade.damped hM) (c2.remade.damped hM), ← a3]
    show c * x j q = _
    ring

theorem MTLN.echoes_finite (hM : M.Damped dt) (hl : M.Linked) : FiniteDimensional ℝ (MTLN.echoes hM hl) := by
  haveI : Finite (Places M.bundles) := (Places.finite M.bundles).to_subtype
  haveI := Fintype.ofFinite (Places M.bundles)
  let f : MTLN.echoes hM hl →ₗ[ℝ] (Places M.bundles → ℝ) × (Places M.bundles → ℝ) :=
    { toFun := fun h => (h.1 0, h.1 1), map_add' := fun _ _ => rfl, map_smul' := fun _ _ => rfl }
  refine FiniteDimensional.of_injective f ?_
  rw [← LinearMap.ker_eq_bot, LinearMap.ker_eq_bot']
  rintro ⟨x, B, b1, b2, b3⟩ hx
  have hx0 : x 0 = 0 := congrArg Prod.fst hx
  have hx1 : x 1 = 0 := congrArg Prod.snd hx
  have hB := b1.remade.damped hM
  have hpl := b1.remade.places
  refine Subtype.ext (funext fun j => funext fun q => ?_)
  show x j q = 0
  rw [b3]
  refine hB.stays_zero b2 b1.mute_silent (fun q hq => ?_) (fun q hq => ?_) j q (by rw [hpl]; exact q.2)
  · rw [hpl] at hq
    rw [← b3 0 ⟨q, hq⟩, hx0]; rfl
  · rw [hpl] at hq
    rw [← b3 1 ⟨q, hq⟩, hx1]; rfl

/-- What is shown `P` steps later, minus what is shown. -/
noncomputable def echoShift {ι : Type} (P : ℕ) : (ℕ → ι → ℝ) →ₗ[ℝ] (ℕ → ι → ℝ) where
  toFun x := fun j => x (j + P) - x j
  map_add' x y := by funext j q; simp only [Pi.add_apply, Pi.sub_apply]; ring
  map_smul' c x := by funext j q; simp only [Pi.smul_apply, Pi.sub_apply, smul_eq_mul, RingHom.id_apply]; ring

theorem MTLN.echoes_shift (hM : M.Damped dt) (hl : M.Linked) (P : ℕ) : ∀ x ∈ MTLN.echoes hM hl, echoShift P x ∈ MTLN.echoes hM hl := by
  rintro x ⟨B, b1, b2, b3⟩
  have hB := b1.remade.damped hM
  have hsrc : B.Sources fun f => ∀ t, f (t + P * B.dt) = f t :=
    b1.sources (D := fun _ => True) (fun f g hg _ t => by rw [hg]) ⟨fun _ _ => ⟨fun _ _ => trivial, fun _ _ => trivial⟩,
      fun _ _ _ _ => ⟨fun _ => trivial, fun _ => trivial⟩⟩
  obtain ⟨B', c1, c2, c3⟩ := hB.later b2 P hsrc
  have hmem : (fun j => x (j + P)) ∈ MTLN.echoes hM hl := by
    refine ⟨B', b1.trans (fun f g h hg hh => by rw [hh]; exact hg) c1, c2, fun j q => ?_⟩
    show x (j + P) q = _
    rw [b3, c3 j q (by rw [b1.remade.places]; exact q.2)]
  exact (MTLN.echoes hM hl).sub_mem hmem ⟨B, b1, b2, b3⟩

/-- Every manager without sources shows the changes over `P` steps of another one. -/
theorem MTLN.echoes_solved (hM : M.Damped dt) (hl : M.Linked) {P : ℕ} (hP : 0 < P) :
    ∀ d ∈ MTLN.echoes hM hl, ∃ w ∈ MTLN.echoes hM hl, echoShift P w = d := by
  haveI := MTLN.echoes_finite hM hl
  have hinj : Function.Injective ((echoShift P).restrict (MTLN.echoes_shift hM hl P)) := by
    rw [← LinearMap.ker_eq_bot, LinearMap.ker_eq_bot']
    rintro ⟨x, B, b1, b2, b3⟩ hx
    have hx : ∀ j q, x (j + P) q = x j q := fun j q => by
      have := congrFun (congrFun (congrArg Subtype.val hx) j) q
      exact sub_eq_zero.1 this
    have hrep : ∀ r j q, x (j + r * P) q = x j q := by
      intro r j q
      induction r with
      | zero => simp
      | succ r ih => rw [show j + (r + 1) * P = j + r * P + P by ring, hx, ih]
    refine Subtype.ext (funext fun j => funext fun q => ?_)
    show x j q = 0
    have hfade := (b1.remade.damped hM).fades b2 (b1.mute_silent 0) (q := q) (by rw [b1.remade.places]; exact q.2)
    have hsub : Tendsto (fun r : ℕ => j + r * P) atTop atTop := by
      refine tendsto_atTop_mono (fun r => ?_) tendsto_id
      show r ≤ j + r * P
      nlinarith
    have hlim := hfade.comp hsub
    have hconst : ((fun j => B.wave dt j q) ∘ fun r : ℕ => j + r * P) = fun _ => x j q := by
      funext r
      show B.wave dt (j + r * P) q = x j q
      rw [← b3, hrep]
    rw [hconst] at hlim
    exact tendsto_nhds_unique tendsto_const_nhds hlim
  have hsurj := LinearMap.injective_iff_surjective.1 hinj
  intro d hd
  obtain ⟨⟨w, hw⟩, hwd⟩ := hsurj ⟨d, hd⟩
  exact ⟨w, hw, congrArg Subtype.val hwd⟩

/-- With periodic sources, there is a start from which all readings are periodic. -/
theorem MTLN.Damped.periodic_start (hM : M.Damped dt) (hl : M.Linked) {P : ℕ} (hP : 0 < P)
    (hper : M.Sources fun f => ∀ t, f (t + P * M.dt) = f t) :
    ∃ C, M.Redriven (fun f g => g = f) C ∧ C.Linked ∧ ∀ j, ∀ q ∈ Places M.bundles, C.wave dt (j + P) q = C.wave dt j q := by
  obtain ⟨A, a1, a2, a3⟩ := hM.later hl P hper
  have r := (MTLN.Redriven.refl M).remade
  obtain ⟨B, b1, b2⟩ := a1.superposed (a := 1) (b := -1) (ρ₃ := Mute) (fun f g h hg hh => by
      rw [hg, hh]; funext t; show 1 * f t + -1 * f t = 0; ring) (MTLN.Redriven.refl M)
  have hB := b2.remade.damped hM
  have hA := a1.remade.damped hM
  obtain ⟨w, ⟨D, d1, d2, d3⟩, hwd⟩ := MTLN.echoes_solved hM hl hP (fun j (q : Places M.bundles) => B.wave dt j q)
    ⟨B, b2, b1.linked a1.remade r b2.remade a2 hl, fun _ _ => rfl⟩
  have hD := d1.remade.damped hM
  obtain ⟨C, c1, c2⟩ := (MTLN.Redriven.refl M).superposed (a := 1) (b := -1) (ρ₃ := fun f g => g = f) (fun f g h hg hh => by
      rw [hg, hh]; funext t; show 1 * f t + -1 * 0 = f t; ring) d1
  have hC := c2.remade.damped hM
  refine ⟨C, c2, c1.linked r d1.remade c2.remade hl d2, fun j q hq => ?_⟩
  have h1 : w (j + P) ⟨q, hq⟩ - w j ⟨q, hq⟩ = B.wave dt j q := congrFun (congrFun hwd j) ⟨q, hq⟩
  rw [d3, d3, b1.wave hA hM hB, a3 j q hq] at h1
  rw [c1.wave hM hD hC, c1.wave hM hD hC]
  simp only at h1
  linarith

end

/-! ## Sources that are periodic from some time on -/

/-- All sources and external fields repeat after `Θ`, from `t₀` on. -/
def MTLN.PeriodicFrom (M : MTLN p) (t₀ Θ : ℝ) : Prop := M.Sources fun f => ∀ t ≥ t₀, f (t + Θ) = f t

/-- The function that is periodic at all times and agrees with `f` from `t₀` on. -/
noncomputable def wrapped (t₀ Θ : ℝ) (f : ℝ → ℝ) (t : ℝ) : ℝ := f (t + ⌈(t₀ - t) / Θ⌉₊ * Θ)

theorem wrapped_after {t₀ Θ : ℝ} (hΘ : 0 < Θ) (f : ℝ → ℝ) {t : ℝ} (ht : t₀ ≤ t) : wrapped t₀ Θ f t = f t := by
  have : ⌈(t₀ - t) / Θ⌉₊ = 0 := Nat.ceil_eq_zero.2 (div_nonpos_of_nonpos_of_nonneg (by linarith) hΘ.le)
  unfold wrapped
  rw [this]
  simp

theorem wrapped_repeats {t₀ Θ : ℝ} (hΘ : 0 < Θ) {f : ℝ → ℝ} (hf : ∀ t ≥ t₀, f (t + Θ) = f t) (t : ℝ) :
    wrapped t₀ Θ f (t + Θ) = wrapped t₀ Θ f t := by
  by_cases ht : t₀ ≤ t
  · rw [wrapped_after hΘ f ht, wrapped_after hΘ f (by linarith), hf t ht]
  · have h1 : (t₀ - (t + Θ)) / Θ = (t₀ - t) / Θ - 1 := by field_simp; ring
    have h2 : 0 < (t₀ - t) / Θ := div_pos (by linarith) hΘ
    have h3 : 0 < ⌈(t₀ - t) / Θ⌉₊ := Nat.ceil_pos.2 h2
    unfold wrapped
    rw [h1, Nat.ceil_sub_one]
    congr 1
    rw [Nat.cast_sub h3]
    push_cast
    ring

theorem MTLN.redrive_linked (N : MTLN p) (φ : (ℝ → ℝ) → ℝ → ℝ) (hl : N.Linked) : (N.redrive φ).Linked := by
  have hv : ∀ x, endV (N.redrive φ).bundles x = endV N.bundles x ∧ endI (N.redrive φ).bundles x = endI N.bundles x := fun x =>
    ends_same (forall₂_map_of (fun b => ⟨_, rfl, rfl, rfl, rfl, rfl⟩) _) x
  refine ⟨fun nwd hn e he a => ?_, fun nwd hn e he a => ?_, fun x hx => ?_⟩
  · obtain ⟨nwd0, hn0, rfl⟩ := List.mem_map.1 hn
    obtain ⟨e0, he0, rfl⟩ := List.mem_map.1 he
    rw [(hv _).1]
    exact hl.v nwd0 hn0 e0 he0 a
  · obtain ⟨nwd0, hn0, rfl⟩ := List.mem_map.1 hn
    obtain ⟨e0, he0, rfl⟩ := List.mem_map.1 he
    rw [(hv _).2]
    exact hl.i nwd0 hn0 e0 he0 a
  · rw [(hv _).1]
    refine hl.free x ?_
    rw [← (N.redriven φ).remade.ends]
    exact hx

/-- Bundles of the same name and size. -/
inductive SameShape : AnyBundle p → AnyBundle p → Prop
  | mk {n : ℕ} {s t : MTLD n p} : t.name = s.name → t.m = s.m → SameShape ⟨n, s⟩ ⟨n, t⟩

theorem FreeBundle.shape {b c : AnyBundle p} (h : FreeBundle b c) : SameShape b c := by
  obtain ⟨v, i, phi, pr, lr, cg, rfl⟩ := h
  exact ⟨rfl, rfl⟩

theorem RemadeBundle.shape {b c : AnyBundle p} (h : RemadeBundle b c) : SameShape b c := by
  obtain ⟨v, i, phi, eL, eT, rfl⟩ := h
  exact ⟨rfl, rfl⟩

theorem SameShape.trans {a b c : AnyBundle p} (h : SameShape a b) (h' : SameShape b c) : SameShape a c := by
  obtain @⟨n, s, t, h1, h2⟩ := h
  cases h' with
  | mk g1 g2 => exact ⟨g1.trans h1, g2.trans h2⟩

theorem same_of_shapes {D D' : MTLN p} (n1 : (D.bundles.map fun b => b.2.name).Nodup) (n2 : (D'.bundles.map fun b => b.2.name).Nodup)
    {l l₁ l₂ : List (AnyBundle p)} (g1 : List.Forall₂ SameShape l l₁) (g2 : List.Forall₂ SameShape l l₂)
    (hq : ∀ q ∈ Places l, D'.reading q = D.reading q)
    (m1 : ∀ b ∈ l₁, b ∈ D.bundles) (m2 : ∀ b ∈ l₂, b ∈ D'.bundles) : List.Forall₂ SameFields l₁ l₂ := by
  induction g1 generalizing l₂ with
  | nil => cases g2; exact .nil
  | @cons b b₁ l l₁ hr _ ih =>
    cases g2 with
    | @cons _ b₂ _ l₂ hr' ht =>
      refine .cons ?_ (ih ht (fun q h => hq q ?_) (fun b hb => m1 b (List.mem_cons_of_mem _ hb))
        fun b hb => m2 b (List.mem_cons_of_mem _ hb))
      · have k1 := m1 _ List.mem_cons_self
        have k2 := m2 _ List.mem_cons_self
        obtain @⟨n, s, t, x1, x2⟩ := hr
        obtain @⟨n, _, t', y1, y2⟩ := hr'
        refine .mk (y1.trans x1.symm) (y2.trans x2.symm) (fun k hk => funext fun a => ?_) fun k hk => funext fun a => ?_
        · refine (reading_node n2 k2 k a).symm.trans (Eq.trans ?_ (reading_node n1 k1 k a))
          simp only [y1, x1]
          exact hq _ ⟨⟨n, s⟩, List.mem_cons_self, rfl, a.2, .inl ⟨rfl, hk.trans_eq x2⟩⟩
        · refine (reading_cell n2 k2 k a).symm.trans (Eq.trans ?_ (reading_cell n1 k1 k a))
          simp only [y1, x1]
          exact hq _ ⟨⟨n, s⟩, List.mem_cons_self, rfl, a.2, .inr ⟨rfl, hk.trans_eq x2⟩⟩
      · obtain ⟨c, hc, h⟩ := h
        exact ⟨c, List.mem_cons_of_mem _ hc, h⟩

theorem same_of_readings {N C C' D D' : MTLN p} (hC : N.Remade C) (hC' : N.Remade C') (f1 : List.Forall₂ FreeBundle C.bundles D.bundles)
    (f2 : List.Forall₂ FreeBundle C'.bundles D'.bundles) (n1 : (D.bundles.map fun b => b.2.name).Nodup)
    (n2 : (D'.bundles.map fun b => b.2.name).Nodup) (hq : ∀ q ∈ Places N.bundles, D'.reading q = D.reading q) :
    List.Forall₂ SameFields D.bundles D'.bundles := by
  refine same_of_shapes n1 n2 (forall₂_comp (fun _ _ _ h h' => h.trans h') (hC.bundles.imp fun _ _ h => RemadeBundle.shape h)
    (f1.imp fun _ _ h => FreeBundle.shape h)) (forall₂_comp (fun _ _ _ h h' => h.trans h')
    (hC'.bundles.imp fun _ _ h => RemadeBundle.shape h) (f2.imp fun _ _ h => FreeBundle.shape h)) hq (fun _ h => h) fun _ h => h

/-- A manager that repeats after `P` time steps. -/
def MTLN.Repeats (C : MTLN p) (dt : ℝ) (P : ℕ) : Prop := ∀ (j : ℕ) (C₁ C₂ : MTLN p), C.runUntil (j * C.runDt dt) dt = .ok C₁ →
  C.runUntil ((j + P : ℕ) * C.runDt dt) dt = .ok C₂ → List.Forall₂ SameFields C₁.bundles C₂.bundles

theorem MTLN.Damped.repeats {C : MTLN p} {dt : ℝ} {P : ℕ} (hC : C.Damped dt)
    (h : ∀ j, ∀ q ∈ Places C.bundles, C.wave dt (j + P) q = C.wave dt j q) : C.Repeats dt P := by
  intro j C₁ C₂ h₁ h₂
  have f1 := MTLN.run_free h₁
  have f2 := MTLN.run_free h₂
  rw [hC.over] at f1 f2
  obtain ⟨n1, p1⟩ := hC.after h₁
  obtain ⟨n2, p2⟩ := hC.after h₂
  rw [hC.runDt] at h₁ h₂
  have hq : ∀ q ∈ Places C.bundles, C₂.reading q = C₁.reading q := fun q hq => by
    rw [← MTLN.wave_eq h₁, ← MTLN.wave_eq h₂]; exact h j q hq
  exact same_of_readings (MTLN.Redriven.refl C).remade (MTLN.Redriven.refl C).remade f1 f2 n1 n2 hq

/-- The runs of two managers approach each other. -/
def MTLN.Approach (M C : MTLN p) (dt : ℝ) : Prop := ∀ ε > 0, ∃ T₀, ∀ T ≥ T₀, ∀ M' C', M.runUntil T dt = .ok M' →
  C.runUntil T dt = .ok C' → List.Forall₂ (Near ε) M'.bundles C'.bundles

/-- **C174.** A manager of passive bundles and networks of resistors and capacitors that work with the capacitances of the
bundles, with time steps below the automatic ones, where the resistors reach every bundle, and with sources and fields that
repeat after `P` time steps from some time on: there is a manager with the same hardware, with the same sources and fields from
that time on, and with other initial voltages and currents, whose voltages and currents repeat after `P` steps from the start,
and the runs of the given manager approach it. -/
theorem C174_periodic (M : MTLN p) (dt t₀ : ℝ) (P : ℕ) (hP : 0 < P) (hdt : 0 < M.runDt dt) (hp : (M.overrideDt dt).Passive)
    (hl : (M.overrideDt dt).Linked) (hm : (M.overrideDt dt).Matched)
    (hs : ∀ b ∈ (M.overrideDt dt).bundles, b.2.Stable) (hd : (M.overrideDt dt).Dissipates) (hst : M.Startable dt)
    (hper : (M.overrideDt dt).PeriodicFrom t₀ (P * M.runDt dt)) :
    ∃ C, (M.overrideDt dt).Redriven (fun f g => ∀ t ≥ t₀, g t = f t) C ∧ C.Linked ∧ C.Startable dt ∧ C.Repeats dt P ∧ M.Approach C dt := by
  have hN : (M.overrideDt dt).Damped dt := ⟨M.override_twice dt, hst.override, hdt, hp, hm, hs, hd⟩
  have hrun : ∀ T, M.runUntil T dt = (M.overrideDt dt).runUntil T dt := fun T => (M.run_override T dt).symm
  unfold MTLN.Approach
  simp only [hrun]
  have hΘ : M.runDt dt = (M.overrideDt dt).dt := rfl
  rw [hΘ] at hper hdt
  generalize M.overrideDt dt = N at *
  have hΘ : 0 < (P : ℝ) * N.dt := mul_pos (by exact_mod_cast hP) hdt
  obtain ⟨A, hA⟩ : ∃ A, A = N.redrive (wrapped t₀ (P * N.dt)) := ⟨_, rfl⟩
  have a1 : N.Redriven (fun f g => g = wrapped t₀ (P * N.dt) f) A := by rw [hA]; exact N.redriven _
  have hAd := a1.remade.damped hN
  have hAs : A.Sources fun f => ∀ t, f (t + P * A.dt) = f t := by
    rw [a1.dt]
    exact a1.sources (fun f g hg hf t => by rw [hg]; exact wrapped_repeats hΘ hf t) hper
  have hAl : A.Linked := by rw [hA]; exact N.redrive_linked _ hl
  obtain ⟨C, c1, c2, c3⟩ := hAd.periodic_start hAl hP hAs
  have nc : N.Redriven (fun f g => ∀ t ≥ t₀, g t = f t) C :=
    a1.trans (fun f g h hg hh t ht => by rw [hh, hg, wrapped_after hΘ f ht]) c1
  have hC := nc.remade.damped hN
  refine ⟨C, nc, c2, hC.startable, hC.repeats fun j q hq => c3 j q (by rw [c1.remade.places] at hq; exact hq), ?_⟩
  obtain ⟨B, b1, b2⟩ := (MTLN.Redriven.refl N).superposed (a := 1) (b := -1) (ρ₃ := fun _ g => ∀ t ≥ t₀, g t = 0) (fun f g h hg hh t ht => by
    show 1 * g t + -1 * h t = 0
    rw [hg, hh t ht]; ring) nc
  exact near_runs hN.over hN.startable hN.pos hN.passive hN.matched hN.stable hN.dissipates b2.remade
    (b1.linked (MTLN.Redriven.refl N).remade nc.remade b2.remade hl c2) b2.silent b1

/-- **C174, sources that are periodic at all times.** Then the periodic manager has exactly the same sources and fields, and only
another initial state. -/
theorem C174_always (M : MTLN p) (dt : ℝ) (P : ℕ) (hP : 0 < P) (hdt : 0 < M.runDt dt) (hp : (M.overrideDt dt).Passive)
    (hl : (M.overrideDt dt).Linked) (hm : (M.overrideDt dt).Matched)
    (hs : ∀ b ∈ (M.overrideDt dt).bundles, b.2.Stable) (hd : (M.overrideDt dt).Dissipates) (hst : M.Startable dt)
    (hper : (M.overrideDt dt).Sources fun f => ∀ t, f (t + P * M.runDt dt) = f t) :
    ∃ C, (M.overrideDt dt).Redriven (fun f g => g = f) C ∧ C.Linked ∧ C.Startable dt ∧ C.Repeats dt P ∧ M.Approach C dt := by
  have hN : (M.overrideDt dt).Damped dt := ⟨M.override_twice dt, hst.override, hdt, hp, hm, hs, hd⟩
  have hrun : ∀ T, M.runUntil T dt = (M.overrideDt dt).runUntil T dt := fun T => (M.run_override T dt).symm
  unfold MTLN.Approach
  simp only [hrun]
  have hΘ : M.runDt dt = (M.overrideDt dt).dt := rfl
  rw [hΘ] at hper hdt
  generalize M.overrideDt dt = N at *
  obtain ⟨C, c1, c2, c3⟩ := hN.periodic_start hl hP hper
  have hC := c1.remade.damped hN
  refine ⟨C, c1, c2, hC.startable, hC.repeats fun j q hq => c3 j q (by rw [c1.remade.places] at hq; exact hq), ?_⟩
  obtain ⟨B, b1, b2⟩ := (MTLN.Redriven.refl N).superposed (a := 1) (b := -1) (ρ₃ := fun _ g => ∀ t ≥ (0 : ℝ), g t = 0)
    (fun f g h hg hh t ht => by
      show 1 * g t + -1 * h t = 0
      rw [hg, hh]; ring) c1
  exact near_runs hN.over hN.startable hN.pos hN.passive hN.matched hN.stable hN.dissipates b2.remade
    (b1.linked (MTLN.Redriven.refl N).remade c1.remade b2.remade hl c2) b2.silent b1

theorem MTLN.Damped.wave_repeats {C : MTLN p} {dt : ℝ} {P : ℕ} (hC : C.Damped dt) (h : C.Repeats dt P) (j : ℕ) :
    ∀ q ∈ Places C.bundles, C.wave dt (j + P) q = C.wave dt j q := by
  intro q hq
  obtain ⟨C₁, h₁⟩ := hC.startable.run (j * C.runDt dt)
  obtain ⟨C₂, h₂⟩ := hC.startable.run ((j + P : ℕ) * C.runDt dt)
  have := h j C₁ C₂ h₁ h₂
  obtain ⟨n1, p1⟩ := hC.after h₁
  obtain ⟨n2, p2⟩ := hC.after h₂
  rw [hC.runDt] at h₁ h₂
  rw [MTLN.wave_eq h₁, MTLN.wave_eq h₂]
  exact reading_fields n1 n2 this (by rw [p1]; exact hq)

/-- **C174, uniqueness.** Two periodic managers with the same hardware and, from some time on, the same sources show the same
voltages and currents after every number of steps, whatever their periods. -/
theorem C174_unique {N C C' : MTLN p} {dt t₀ : ℝ} {P P' : ℕ} (hP : 0 < P) (hP' : 0 < P') (hN : N.Damped dt)
    (hC : N.Redriven (fun f g => ∀ t ≥ t₀, g t = f t) C) (hC' : N.Redriven (fun f g => ∀ t ≥ t₀, g t = f t) C')
    (hl : C.Linked) (hl' : C'.Linked) (hr : C.Repeats dt P) (hr' : C'.Repeats dt P') (j : ℕ) {D D' : MTLN p}
    (h : C.runUntil (j * N.dt) dt = .ok D) (h' : C'.runUntil (j * N.dt) dt = .ok D') :
    List.Forall₂ SameFields D.bundles D'.bundles := by
  have dC := hC.remade.damped hN
  have dC' := hC'.remade.damped hN
  obtain ⟨B, b1, b2⟩ := hC.superposed (a := 1) (b := -1) (ρ₃ := fun _ g => ∀ t ≥ t₀, g t = 0) (fun f g k hg hk t ht => by
    show 1 * g t + -1 * k t = 0
    rw [hg t ht, hk t ht]; ring) hC'
  have dB := b2.remade.damped hN
  have hwave : ∀ q ∈ Places N.bundles, ∀ i, C'.wave dt i q = C.wave dt i q := by
    intro q hq i
    have hrep : ∀ r, B.wave dt (i + r * (P * P')) q = B.wave dt i q := by
      have e1 : ∀ r i, C.wave dt (i + r * P) q = C.wave dt i q := by
        intro r i
        induction r with
        | zero => simp
        | succ r ih =>
          rw [show i + (r + 1) * P = i + r * P + P by ring, dC.wave_repeats hr _ q (by rw [hC.remade.places]; exact hq), ih]
      have e2 : ∀ r i, C'.wave dt (i + r * P') q = C'.wave dt i q := by
        intro r i
        induction r with
        | zero => simp
        | succ r ih =>
          rw [show i + (r + 1) * P' = i + r * P' + P' by ring, dC'.wave_repeats hr' _ q (by rw [hC'.remade.places]; exact hq), ih]
      intro r
      rw [b1.wave dC dC' dB, b1.wave dC dC' dB, show i + r * (P * P') = i + (r * P') * P by ring, e1,
        show i + (r * P') * P = i + (r * P) * P' by ring, e2]
    have hfade := dB.fades (b1.linked hC.remade hC'.remade b2.remade hl hl') b2.silent (q := q) (by rw [b2.remade.places]; exact hq)
    have hsub : Tendsto (fun r : ℕ => i + r * (P * P')) atTop atTop := by
      refine tendsto_atTop_mono (fun r => ?_) tendsto_id
      show r ≤ i + r * (P * P')
      have : 0 < P * P' := Nat.mul_pos hP hP'
      nlinarith
    have hlim := hfade.comp hsub
    have hconst : ((fun j => B.wave dt j q) ∘ fun r : ℕ => i + r * (P * P')) = fun _ => B.wave dt i q := funext hrep
    rw [hconst] at hlim
    have := tendsto_nhds_unique tendsto_const_nhds hlim
    rw [b1.wave dC dC' dB] at this
    linarith
  have f1 := MTLN.run_free h
  have f2 := MTLN.run_free h'
  rw [dC.over] at f1
  rw [dC'.over] at f2
  obtain ⟨n1, p1⟩ := dC.after h
  obtain ⟨n2, p2⟩ := dC'.after h'
  rw [← hC.dt] at h
  rw [← hC'.dt] at h'
  refine same_of_readings hC.remade hC'.remade f1 f2 n1 n2 fun q hq => ?_
  rw [← MTLN.wave_eq h, ← MTLN.wave_eq h']
  exact hwave q hq j

/-- The demo line with a resistor of 1 Ω and a source at its left end, short at the right end. -/
noncomputable def demoDriven (dt : ℝ) (f : ℝ → ℝ) : MTLN 0 := ((demoDirect 0).overrideDt dt).redrive fun _ => f

theorem demoDriven_hyps {dt : ℝ} (h0 : 0 < dt) (h1 : dt < 1) (f : ℝ → ℝ) : (demoDriven dt f).Damped dt ∧ (demoDriven dt f).Linked ∧
    (demoDriven dt f).runDt dt = dt ∧ (demoDriven dt f).Sources fun g => g = f := by
  obtain ⟨-, a2, -, a4, a5, -, -, -⟩ := demoPulse_hyps h0 h1
  have hpo := demoDirect_poised h0 0
  have hr := demoDirect_remade h0 0
  have hl : ((demoDirect 0).overrideDt dt).Linked := by
    refine ⟨hpo.v, hpo.i, fun x _ => ?_⟩
    rw [demoDirect_override h0]
    unfold endV
    split
    · rename_i b hf
      obtain ⟨hb, -⟩ := findBundle_some hf
      obtain rfl := List.mem_singleton.1 hb
      split <;> rfl
    · rfl
  have hN : ((demoDirect 0).overrideDt dt).Damped dt := ⟨(demoDirect 0).override_twice dt, (demoDirect_startable h0 h1 0).override,
    (by rw [demoDirect_override h0]; exact h0), hr.passive a2, hr.matched a4, hr.stable a5, demoDirect_dissipates h0 0⟩
  have hdt : ((demoDirect 0).overrideDt dt).dt = dt := by rw [demoDirect_override h0]
  unfold demoDriven
  generalize (demoDirect 0).overrideDt dt = N at *
  have hM := N.redriven fun _ => f
  have hD := hM.remade.damped hN
  exact ⟨hD, N.redrive_linked (fun _ => f) hl, hD.runDt.trans (hM.dt.trans hdt), hM.sources (D := fun _ => True) (fun f g hg _ => hg)
      ⟨fun _ _ => ⟨fun _ _ => trivial, fun _ _ => trivial⟩, fun _ _ _ _ => ⟨fun _ => trivial, fun _ => trivial⟩⟩⟩

theorem MTLN.Sources.imp {M : MTLN p} {D D' : (ℝ → ℝ) → Prop} (h : ∀ f, D f → D' f) (hM : M.Sources D) : M.Sources D' :=
  (MTLN.Redriven.refl M).sources (fun f g hg hf => by rw [hg]; exact h f hf) hM

/-- Non-vacuity of C174: the demo line with a sinusoidal source approaches a periodic run. -/
theorem demoSine_periodic {dt : ℝ} (h0 : 0 < dt) (h1 : dt < 1) :
    ∃ C, (demoDriven dt (sineSource 5 (20 * dt))).Redriven (fun f g => ∀ t ≥ (0 : ℝ), g t = f t) C ∧ C.Repeats dt 20 ∧
      (demoDriven dt (sineSource 5 (20 * dt))).Approach C dt := by
  obtain ⟨hD, hl, hrd, hsrc⟩ := demoDriven_hyps h0 h1 (sineSource 5 (20 * dt))
  generalize demoDriven dt (sineSource 5 (20 * dt)) = M at *
  have := C174_periodic M dt 0 20 (by norm_num) (by rw [hrd]; exact h0)
  rw [hD.over, hrd] at this
  obtain ⟨C, c1, -, -, c4, c5⟩ := this hD.passive hl hD.matched hD.stable hD.dissipates hD.startable
    (hsrc.imp fun f hf t ht => by rw [hf]; exact sineSource_repeats (by positivity) t ht)
  exact ⟨C, c1, c4, c5⟩

/-- The functions that repeat after `Θ`, from a time on. -/
def periodicFrom (t₀ Θ : ℝ) : Submodule ℝ (ℝ → ℝ) where
  carrier := {f | ∀ t ≥ t₀, f (t + Θ) = f t}
  add_mem' := fun hf hg t ht => by simp only [Pi.add_apply, hf t ht, hg t ht]
  zero_mem' := fun _ _ => rfl
  smul_mem' := fun c f hf t ht => by simp only [Pi.smul_apply, hf t ht]

/-- **C174, programs.** From the program alone: with resistors to ground and sources that repeat after `P` time steps from some
time on, every run ends, and the runs approach those of a manager that repeats after `P` steps. -/
theorem C174_program {Pr : Program p} {M : MTLN p} (h : Pr.make = .ok M) (hw : Pr.WellFormed) (hg : Pr.Grounded) {dt t₀ : ℝ} {P : ℕ}
    (hP : 0 < P) (h0 : 0 < dt) (hlt : ∀ B ∈ Pr.bundles, ∀ L ∈ B.lines, dt < L.2.dt)
    (hs : Pr.SourcesIn {f | ∀ t ≥ t₀, f (t + P * dt) = f t}) :
    (∀ T, ∃ M', M.runUntil T dt = .ok M') ∧
    ∃ C, (M.overrideDt dt).Redriven (fun f g => ∀ t ≥ t₀, g t = f t) C ∧ C.Startable dt ∧ C.Repeats dt P ∧ M.Approach C dt := by
  obtain ⟨hd, -, hl, hp, hm, -, hst⟩ := C159_program h hw h0
  have hdt : 0 < M.runDt dt := by rw [hd]; exact h0
  obtain ⟨h1, h2⟩ := C159_sources (periodicFrom t₀ (P * dt)) h hs dt
  obtain ⟨C, c1, -, c3, c4, c5⟩ := C174_periodic M dt t₀ P hP hdt hp hl hm (hst hlt) (C159_dissipates h hw hg h0) (C159_startable h hw h0)
    ⟨fun b hb => ⟨fun k x t ht => by rw [hd]; exact (h1 b hb).1.1 k x t ht, fun k x t ht => by rw [hd]; exact (h1 b hb).2.1 k x t ht⟩,
      fun nwd hn e he => ⟨fun x t ht => by rw [hd]; exact (h2 nwd hn e he).1 x t ht,
        fun x t ht => by rw [hd]; exact (h2 nwd hn e he).2 x t ht⟩⟩
  exact ⟨C159_runs h hw h0.le, C, c1, c3, c4, c5⟩

end Mtln
