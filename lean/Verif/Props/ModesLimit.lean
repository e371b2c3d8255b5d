import Verif.Props.Modes

/-! # More and more cells: the telegrapher's equations of several conductors (C187) -/

namespace Mtln

open Matrix Filter Topology

variable {n p : ℕ}

/-- The telegrapher's equations of a line of several conductors for alternating current: the series impedances `A` and the shunt
admittances `B` per unit length, sources `E` with the impedances `Zs` at the beginning and the impedances `Zl` at the end. -/
structure TelegraphN (A B : Matrix (Fin n) (Fin n) ℂ) (E : Fin n → ℂ) (D : ℝ) (Zs Zl : Mat n) (v i : ℝ → Fin n → ℂ) : Prop where
  voltage : ∀ z ∈ Set.Icc 0 D, HasDerivWithinAt v (-(A *ᵥ i z)) (Set.Icc 0 D) z
  current : ∀ z ∈ Set.Icc 0 D, HasDerivWithinAt i (-(B *ᵥ v z)) (Set.Icc 0 D) z
  first : v 0 = E - cx Zs *ᵥ i 0
  last : v D = cx Zl *ᵥ i D

/-- Common modes of the matrices of a line, each of which takes power, along the line or at an end. -/
structure ModalLine (U : NewVars n) (L C R G Zs Zl : Mat n) : Prop where
  l : (U.imp L).IsDiag
  c : (U.adm C).IsDiag
  r : (U.imp R).IsDiag
  g : (U.adm G).IsDiag
  zs : (U.imp Zs).IsDiag
  zl : (U.imp Zl).IsDiag
  l_pos : ∀ x, 0 < U.imp L x x
  c_pos : ∀ x, 0 < U.adm C x x
  r_nonneg : ∀ x, 0 ≤ U.imp R x x
  g_nonneg : ∀ x, 0 ≤ U.adm G x x
  zs_nonneg : ∀ x, 0 ≤ U.imp Zs x x
  zl_nonneg : ∀ x, 0 ≤ U.imp Zl x x
  loss : ∀ x, 0 < U.imp R x x ∨ 0 < U.adm G x x ∨ 0 < U.imp Zs x x ∨ 0 < U.imp Zl x x

/-- The impedances, or admittances, per unit length at the angular frequency `ω`. -/
noncomputable def perLength (ω : ℝ) (R L : Mat n) : Matrix (Fin n) (Fin n) ℂ := cx R + (ω * Complex.I) • cx L

section

variable {U : NewVars n} {L C R G Zs Zl : Mat n} {ω D : ℝ} {E : Fin n → ℂ} {v i : ℝ → Fin n → ℂ}

theorem mv_perLength (hl : (U.imp L).IsDiag) (hr : (U.imp R).IsDiag) (x : Fin n) (X : Fin n → ℂ) :
    U.mv x (perLength ω R L *ᵥ X) = (U.imp R x x + ω * U.imp L x x * Complex.I) * U.mi x X := by
  rw [perLength, add_mulVec, smul_mulVec, map_add, map_smul, NewVars.mv_imp hr, NewVars.mv_imp hl, smul_eq_mul]
  ring

theorem mi_perLength (hc : (U.adm C).IsDiag) (hg : (U.adm G).IsDiag) (x : Fin n) (X : Fin n → ℂ) :
    U.mi x (perLength ω G C *ᵥ X) = (U.adm G x x + ω * U.adm C x x * Complex.I) * U.mv x X := by
  rw [perLength, add_mulVec, smul_mulVec, map_add, map_smul, NewVars.mi_adm hg, NewVars.mi_adm hc, smul_eq_mul]
  ring

theorem sum_deriv {a : Fin n → ℂ} {f : ℝ → Fin n → ℂ} {f' : Fin n → ℂ} {S : Set ℝ} {z : ℝ} (h : HasDerivWithinAt f f' S z) :
    HasDerivWithinAt (fun z => ∑ y, a y * f z y) (∑ y, a y * f' y) S z :=
  HasDerivWithinAt.fun_sum fun y _ => ((hasDerivWithinAt_pi.1 h) y).const_mul (a y)

/-- Each mode of a solution solves the telegrapher's equations of one conductor. -/
theorem TelegraphN.mode (h : ModalLine U L C R G Zs Zl) (hv : TelegraphN (perLength ω R L) (perLength ω G C) E D Zs Zl v i) (x : Fin n) :
    Telegraph (U.imp R x x + ω * U.imp L x x * Complex.I) (U.adm G x x + ω * U.adm C x x * Complex.I) (U.mv x E) D (U.imp Zs x x)
      (U.imp Zl x x) (fun z => U.mv x (v z)) fun z => U.mi x (i z) := by
  refine ⟨fun z hz => ?_, fun z hz => ?_, ?_, ?_⟩
  · have := sum_deriv (a := fun y => (U.a x y : ℂ)) (hv.voltage z hz)
    refine this.congr_deriv ?_
    show U.mv x (-(perLength ω R L *ᵥ i z)) = _
    rw [map_neg, mv_perLength h.l h.r]
  · have := sum_deriv (a := fun y => (U.b x y : ℂ)) (hv.current z hz)
    refine this.congr_deriv ?_
    show U.mi x (-(perLength ω G C *ᵥ v z)) = _
    rw [map_neg, mi_perLength h.c h.g]
  · rw [hv.first, map_sub, NewVars.mv_imp h.zs]
  · rw [hv.last, NewVars.mv_imp h.zl]

theorem mv_inv (U : NewVars n) (x : Fin n) (X : Fin n → ℂ) : U.mv x (cx U.a⁻¹ *ᵥ X) = X x := by
  show (cx U.a *ᵥ (cx U.a⁻¹ *ᵥ X)) x = _
  rw [cx_mul_vec, U.a_ai, cx_one_vec]

theorem mi_inv (U : NewVars n) (x : Fin n) (X : Fin n → ℂ) : U.mi x (cx U.b⁻¹ *ᵥ X) = X x := by
  show (cx U.b *ᵥ (cx U.b⁻¹ *ᵥ X)) x = _
  rw [cx_mul_vec, U.b_bi, cx_one_vec]

/-- **C187.**  The telegrapher's equations of a line of several conductors with common modes have exactly one solution. -/
theorem C187_solution (h : ModalLine U L C R G Zs Zl) (hD : 0 < D) (hω : 0 < ω) (E : Fin n → ℂ) :
    ∃ v i, TelegraphN (perLength ω R L) (perLength ω G C) E D Zs Zl v i ∧
      ∀ v' i', TelegraphN (perLength ω R L) (perLength ω G C) E D Zs Zl v' i' → ∀ z ∈ Set.Icc 0 D, v' z = v z ∧ i' z = i z := by
  have ex := fun x => C186_solution hD (h.l_pos x) (h.c_pos x) (h.r_nonneg x) (h.g_nonneg x) (h.zs_nonneg x) (h.zl_nonneg x) (h.loss x) hω
    (U.mv x E)
  choose w j hw huniq using ex
  refine ⟨fun z => cx U.a⁻¹ *ᵥ fun y => w y z, fun z => cx U.b⁻¹ *ᵥ fun y => j y z, ⟨fun z hz => ?_, fun z hz => ?_, ?_, ?_⟩, ?_⟩
  · refine hasDerivWithinAt_pi.2 fun x => ?_
    have := HasDerivWithinAt.fun_sum (u := Finset.univ) fun (y : Fin n) _ => ((hw y).voltage z hz).const_mul (U.a⁻¹ x y : ℂ)
    refine this.congr_deriv ?_
    show (cx U.a⁻¹ *ᵥ fun y => -((U.imp R y y + ω * U.imp L y y * Complex.I) * j y z)) x = _
    refine congrFun (NewVars.mv_ext (U := U).2 fun y => ?_) x
    rw [mv_inv, map_neg, mv_perLength h.l h.r, mi_inv]
  · refine hasDerivWithinAt_pi.2 fun x => ?_
    have := HasDerivWithinAt.fun_sum (u := Finset.univ) fun (y : Fin n) _ => ((hw y).current z hz).const_mul (U.b⁻¹ x y : ℂ)
    refine this.congr_deriv ?_
    show (cx U.b⁻¹ *ᵥ fun y => -((U.adm G y y + ω * U.adm C y y * Complex.I) * w y z)) x = _
    refine congrFun (NewVars.mi_ext (U := U).2 fun y => ?_) x
    rw [mi_inv, map_neg, mi_perLength h.c h.g, mv_inv]
  · refine NewVars.mv_ext (U := U).2 fun y => ?_
    rw [map_sub, mv_inv, NewVars.mv_imp h.zs, mi_inv]
    exact (hw y).first
  · refine NewVars.mv_ext (U := U).2 fun y => ?_
    rw [mv_inv, NewVars.mv_imp h.zl, mi_inv]
    exact (hw y).last
  · intro v' i' h' z hz
    refine ⟨NewVars.mv_ext (U := U).2 fun y => ?_, NewVars.mi_ext (U := U).2 fun y => ?_⟩
    · rw [mv_inv]
      exact (huniq y _ _ (h'.mode h y) z hz).1
    · rw [mi_inv]
      exact (huniq y _ _ (h'.mode h y) z hz).2

end

section

variable {l c r g : Arg} {D : ℝ} {Zs Zl : ZArg} {name : String} {s : ℕ → MTL n p} {dt : ℕ → ℝ} {ω : ℝ} {S : ℕ → Src n} {E : Fin n → ℂ}
  {V I : ℕ → ℕ → Fin n → ℂ} {U : NewVars n}

/-- The impedances of the conductors at an end. -/
noncomputable def ZArg.diag (n : ℕ) (Z : ZArg) : Mat n := Matrix.diagonal fun i : Fin n => Z.value i

theorem constructed_cells {m : ℕ} {t : MTL n p} (hD : 0 < D) (hm : 0 < m) (h : MTL.new p l c r g D [] [m] Zs Zl name = .ok ⟨n, t⟩) :
    t.m = m ∧ (∀ k < m, t.dun k = D / m) ∧ ∀ k < t.m, t.du k ≠ 0 := by
  obtain ⟨-, -, -, -, -, -, -, -, -, -, -, -, -, hdun, -⟩ := new_ok_contents h
  obtain ⟨em, -, edu, -⟩ := straight_mesh (a := ![0, 0, 0]) (b := ![0, 0, D]) hm rfl h
  have hm' : (0 : ℝ) < m := by exact_mod_cast hm
  have hd : 0 < D / m := by positivity
  refine ⟨em, fun k hk => ?_, fun k hk h0 => ?_⟩
  · rw [hdun]
    show norm3 (t.du k) = _
    rw [edu k hk]
    unfold norm3
    simp
    rw [Real.sqrt_sq hd.le]
  · rw [edu k (em ▸ hk)] at h0
    have := congrFun h0 2
    simp at this
    rcases this with h1 | h1
    · exact hD.ne' h1
    · exact hm.ne' h1

/-- The automatic time steps tend to zero. -/
theorem steps_limit (hD : 0 < D) (h : ∀ m > 0, MTL.new p l c r g D [] [m] Zs Zl name = .ok ⟨n, s m⟩) :
    Tendsto (fun m => (s m).dt) atTop (𝓝 0) := by
  have vel : ∀ m > 0, ∀ k, phaseVelocities (s m).l (s m).c k = phaseVelocities (fun _ => l.matrix n) (fun _ => c.matrix n) 0 := by
    intro m hm k
    obtain ⟨-, -, -, -, el, ec, -⟩ := new_ok_contents (h m hm)
    rw [el, ec]
    rfl
  obtain ⟨d0, -, k, hk, -, k', hk', w, hw, e⟩ := C21_constructed (h 1 one_pos)
  obtain ⟨e1, e2, -⟩ := constructed_cells hD one_pos (h 1 one_pos)
  rw [vel 1 one_pos] at hw
  have w0 : 0 < w := by
    rw [e2 k (by omega)] at e
    have : 0 < (s 1).dt * w := by rw [e]; push_cast; linarith
    exact (mul_pos_iff_of_pos_left d0).1 this
  have lim : Tendsto (fun m : ℕ => D / w * (m : ℝ)⁻¹) atTop (𝓝 0) := by
    have := (tendsto_inv_atTop_nhds_zero_nat (𝕜 := ℝ)).const_mul (D / w)
    rwa [mul_zero] at this
  refine squeeze_zero' ((eventually_gt_atTop 0).mono fun m hm => (C21_constructed (h m hm)).1.le) ?_ lim
  filter_upwards [eventually_gt_atTop 0] with m hm
  obtain ⟨em, ed, -⟩ := constructed_cells hD hm (h m hm)
  have hm' : (0 : ℝ) < m := by exact_mod_cast hm
  have := (C21_constructed (h m hm)).2.1 0 (by omega) (by rw [ed 0 hm]; positivity) 0 (by omega) w (by rw [vel m hm]; exact hw)
  rw [ed 0 hm] at this
  rw [show D / w * (m : ℝ)⁻¹ = D / m / w by field_simp, le_div_iff₀ w0]
  exact this

/-- Sources that tend to some sources. -/
theorem modal_limit {F : ℕ → Fin n → ℂ} (hF : Tendsto F atTop (𝓝 E)) (hD : 0 < D) (h : ∀ m > 0, MTL.new p l c r g D [] [m] Zs Zl name = .ok ⟨n, s m⟩)
    (hU : ModalLine U (l.matrix n) (c.matrix n) (r.matrix n) (g.matrix n) (Zs.diag n) (Zl.diag n)) (hω : 0 < ω)
    (hdt : ∀ m > 0, 0 < dt m ∧ dt m ≤ (s m).dt)
    (hac : ∀ m > 0, ω * dt m < Real.pi → ({ s m with dt := dt m, vSources := S m } : MTL n p).AC (s m).dt (ω * dt m) (F m) 0 0 0
      (V m) (I m))
    {v i : ℝ → Fin n → ℂ}
    (hv : TelegraphN (perLength ω (r.matrix n) (l.matrix n)) (perLength ω (g.matrix n) (c.matrix n)) E D (Zs.diag n) (Zl.diag n) v i) :
    ∀ ε > 0, ∃ M, ∀ m ≥ M, (∀ k ≤ m, ∀ x, ‖V m k x - v (k * D / m) x‖ ≤ ε) ∧
      ∀ k < m, ∀ x, ‖I m k x - i ((k + 1 / 2) * D / m) x‖ ≤ ε := by
  have hdt0 : Tendsto dt atTop (𝓝 0) := squeeze_zero' ((eventually_gt_atTop 0).mono fun m hm => (hdt m hm).1.le)
    ((eventually_gt_atTop 0).mono fun m hm => (hdt m hm).2) (steps_limit hD h)
  have contents : ∀ m > 0, (∀ k, (s m).l k + (s m).conn.e k = l.matrix n) ∧ (∀ k, (s m).r k + (s m).conn.d k = r.matrix n) ∧
      (∀ k, (s m).c k = c.matrix n) ∧ (∀ k, (s m).g k = g.matrix n) ∧ (s m).zs = Zs.diag n ∧ (s m).zl = Zl.diag n := by
    intro m hm
    obtain ⟨-, -, -, -, el, ec, er, eg, ezs, ezl, -, -, -, -, econn⟩ := new_ok_contents (h m hm)
    refine ⟨fun k => ?_, fun k => ?_, fun k => by rw [ec], fun k => by rw [eg], ezs, ezl⟩
    · rw [el, econn]; exact add_zero _
    · rw [er, econn]; exact add_zero _
  have modes : ∀ m > 0, ({ s m with dt := dt m, vSources := S m } : MTL n p).HasModes U := by
    intro m hm
    obtain ⟨e1, e2, e3, e4, e5, e6⟩ := contents m hm
    refine ⟨fun k _ => ?_, fun k _ => ?_, fun k _ => ?_, fun k _ => ?_, ?_, ?_⟩
    · show (U.imp ((s m).l k + (s m).conn.e k)).IsDiag
      rw [e1]; exact hU.l
    · show (U.imp ((s m).r k + (s m).conn.d k)).IsDiag
      rw [e2]; exact hU.r
    · show (U.adm ((s m).c k)).IsDiag
      rw [e3]; exact hU.c
    · show (U.adm ((s m).g k)).IsDiag
      rw [e4]; exact hU.g
    · show (U.imp (s m).zs).IsDiag
      rw [e5]; exact hU.zs
    · show (U.imp (s m).zl).IsDiag
      rw [e6]; exact hU.zl
  have mode : ∀ x, ∀ ε > 0, ∃ M, ∀ m ≥ M, ω * dt m < Real.pi ∧ (∀ k ≤ m, ‖U.mv x (V m k) - U.mv x (v (k * D / m))‖ ≤ ε) ∧
      ∀ k < m, ‖U.mi x (I m k) - U.mi x (i ((k + 1 / 2) * D / m))‖ ≤ ε := by
    intro x
    have hFx : Tendsto (fun m => U.mv x (F m)) atTop (𝓝 (U.mv x E)) := by
      show Tendsto (fun m => ∑ y, (U.a x y : ℂ) * F m y) atTop (𝓝 (∑ y, (U.a x y : ℂ) * E y))
      exact tendsto_finset_sum _ fun y _ => (tendsto_pi_nhds.1 hF y).const_mul _
    refine even_limit hFx (t := fun m => MTL.modeLine { s m with dt := dt m, vSources := S m } U x) (V := fun m k _ => U.mv x (V m k))
      (I := fun m k _ => U.mi x (I m k)) (τ := fun m => (s m).dt) hD (fun m hm => (constructed_cells hD hm (h m hm)).1)
      (fun _ _ => rfl) (fun m hm => ?_) (fun m hm => ?_) (hU.l_pos x) (hU.c_pos x) (hU.r_nonneg x) (hU.g_nonneg x) (hU.zs_nonneg x)
      (hU.zl_nonneg x) (hU.loss x) hω hdt hdt0 (fun m hm hn => ?_) (hv.mode hU x)
    · obtain ⟨em, ed, -⟩ := constructed_cells hD hm (h m hm)
      obtain ⟨e1, e2, e3, e4, -⟩ := contents m hm
      refine ⟨fun k hk => ed k (by have : k < (s m).m := hk; omega), fun k _ => ?_, fun k _ => ?_, fun k _ _ => ?_, fun k _ _ => ?_⟩
      · show U.imp ((s m).l k + (s m).conn.e k) x x • (1 : Mat 1) + 0 = _
        rw [e1, add_zero]
      · show U.imp ((s m).r k + (s m).conn.d k) x x • (1 : Mat 1) + 0 = _
        rw [e2, add_zero]
      · show U.adm ((s m).c k) x x • (1 : Mat 1) = _
        rw [e3]
      · show U.adm ((s m).g k) x x • (1 : Mat 1) = _
        rw [e4]
    · obtain ⟨-, -, e3, e4, e5, e6⟩ := contents m hm
      refine ⟨?_, ?_, ?_, ?_, ?_, ?_⟩
      · show U.adm ((s m).c 0) x x • (1 : Mat 1) = _
        rw [e3]
      · show U.adm ((s m).g 0) x x • (1 : Mat 1) = _
        rw [e4]
      · show U.adm ((s m).c (s m).m) x x • (1 : Mat 1) = _
        rw [e3]
      · show U.adm ((s m).g (s m).m) x x • (1 : Mat 1) = _
        rw [e4]
      · show U.imp (s m).zs x x • (1 : Mat 1) = _
        rw [e5]
      · show U.imp (s m).zl x x • (1 : Mat 1) = _
        rw [e6]
    · have := (C187_modes (modes m hm)).1 (hac m hm hn) x
      have z : ∀ X : Fin n → ℂ, X = 0 → U.mv x X = 0 := fun X hX => by rw [hX, map_zero]
      simp only [Pi.zero_apply, map_zero] at this
      exact this
  intro ε hε
  obtain ⟨K, hK⟩ : ∃ K : ℝ, K = 1 + ∑ x, ∑ y, (|U.a⁻¹ x y| + |U.b⁻¹ x y|) := ⟨_, rfl⟩
  have nn : 0 ≤ ∑ x, ∑ y, (|U.a⁻¹ x y| + |U.b⁻¹ x y|) := Finset.sum_nonneg fun x _ => Finset.sum_nonneg fun y _ => by positivity
  have K0 : 0 < K := by linarith
  have bound : ∀ x, ∑ y, (|U.a⁻¹ x y| + |U.b⁻¹ x y|) ≤ K := by
    intro x
    have := Finset.single_le_sum (f := fun x => ∑ y, (|U.a⁻¹ x y| + |U.b⁻¹ x y|))
      (fun x _ => Finset.sum_nonneg fun y _ => by positivity) (Finset.mem_univ x)
    linarith
  have key : ∀ {b : Fin n → ℝ} {f : Fin n → ℂ}, (∑ y, |b y| ≤ K) → (∀ y, ‖f y‖ ≤ ε / K) → ‖∑ y, (b y : ℂ) * f y‖ ≤ ε := by
    intro b f hb hf
    calc ‖∑ y, (b y : ℂ) * f y‖ ≤ ∑ y, |b y| * (ε / K) := by
          refine norm_sum_le_of_le _ fun y _ => ?_
          rw [norm_mul, Complex.norm_real, Real.norm_eq_abs]
          exact mul_le_mul_of_nonneg_left (hf y) (abs_nonneg _)
      _ = (∑ y, |b y|) * (ε / K) := by rw [Finset.sum_mul]
      _ ≤ K * (ε / K) := mul_le_mul_of_nonneg_right hb (by positivity)
      _ = ε := by field_simp
  choose M hM using fun x => mode x (ε / K) (by positivity)
  refine ⟨Finset.univ.sup M, fun m hm => ⟨fun k hk x => ?_, fun k hk x => ?_⟩⟩
  · rw [U.mv_sum (V m k), U.mv_sum (v (k * D / m)), ← Finset.sum_sub_distrib]
    simp only [← mul_sub]
    refine key (b := fun y => U.a⁻¹ x y) ((Finset.sum_le_sum fun y _ => ?_).trans (bound x)) fun y =>
      (hM y m ((Finset.le_sup (Finset.mem_univ y)).trans hm)).2.1 k hk
    linarith [abs_nonneg (U.b⁻¹ x y)]
  · rw [U.mi_sum (I m k), U.mi_sum (i ((k + 1 / 2) * D / m)), ← Finset.sum_sub_distrib]
    simp only [← mul_sub]
    refine key (b := fun y => U.b⁻¹ x y) ((Finset.sum_le_sum fun y _ => ?_).trans (bound x)) fun y =>
      (hM y m ((Finset.le_sup (Finset.mem_univ y)).trans hm)).2.2 k hk
    linarith [abs_nonneg (U.a⁻¹ x y)]

/-- **C187.**  For more and more cells, and any time steps up to the automatic ones, the complex amplitudes of the voltages and currents of
a line of several conductors with common modes tend to the solution of the telegrapher's equations, uniformly over the line. -/
theorem C187_limit (hD : 0 < D) (h : ∀ m > 0, MTL.new p l c r g D [] [m] Zs Zl name = .ok ⟨n, s m⟩)
    (hU : ModalLine U (l.matrix n) (c.matrix n) (r.matrix n) (g.matrix n) (Zs.diag n) (Zl.diag n)) (hω : 0 < ω)
    (hdt : ∀ m > 0, 0 < dt m ∧ dt m ≤ (s m).dt)
    (hac : ∀ m > 0, ω * dt m < Real.pi → ({ s m with dt := dt m, vSources := S m } : MTL n p).AC (s m).dt (ω * dt m) E 0 0 0 (V m) (I m))
    {v i : ℝ → Fin n → ℂ}
    (hv : TelegraphN (perLength ω (r.matrix n) (l.matrix n)) (perLength ω (g.matrix n) (c.matrix n)) E D (Zs.diag n) (Zl.diag n) v i) :
    ∀ ε > 0, ∃ M, ∀ m ≥ M, (∀ k ≤ m, ∀ x, ‖V m k x - v (k * D / m) x‖ ≤ ε) ∧
      ∀ k < m, ∀ x, ‖I m k x - i ((k + 1 / 2) * D / m) x‖ ≤ ε :=
  modal_limit tendsto_const_nhds hD h hU hω hdt hac hv

/-- **C187** for programs: a line of several conductors with common modes, sinusoidal sources at its beginning and resistances at an end.
For more and more cells the voltages and currents of its runs settle on the solution of the telegrapher's equations. -/
theorem C187_program (hD : 0 < D) (h : ∀ m > 0, MTL.new p l c r g D [] [m] Zs Zl name = .ok ⟨n, s m⟩)
    (hU : ModalLine U (l.matrix n) (c.matrix n) (r.matrix n) (g.matrix n) (Zs.diag n) (Zl.diag n))
    (hl : SPD (l.matrix n)) (hc : SPD (c.matrix n)) (hr : Dissipative (r.matrix n)) (hg : Dissipative (g.matrix n))
    (hzs : ∀ i < n, 0 ≤ Zs.value i) (hzl : ∀ i < n, 0 ≤ Zl.value i) (hz : (∀ i < n, 0 < Zs.value i) ∨ ∀ i < n, 0 < Zl.value i)
    (hω : 0 < ω) (hdt : ∀ m > 0, 0 < dt m ∧ dt m < (s m).dt) (hS : ∀ m k x, ∀ u < 0, S m k x u = 0)
    (hS0 : ∀ m x, ∀ u ≥ 0, S m 0 x u = (E x * Complex.exp (ω * u * Complex.I)).re) (hS1 : ∀ m > 0, ∀ x u, S m m x u = 0)
    {v i : ℝ → Fin n → ℂ}
    (hv : TelegraphN (perLength ω (r.matrix n) (l.matrix n)) (perLength ω (g.matrix n) (c.matrix n)) E D (Zs.diag n) (Zl.diag n) v i) :
    ∀ ε > 0, ∃ M, ∀ m ≥ M, ∃ J, ∀ (T : ℝ) (t' : MTL n p) (N : ℕ) (tr : ℕ → MTL n p),
      RunTrace { s m with dt := dt m, vSources := S m } T t' N tr → ∀ j ≥ J, j ≤ N → ∀ k ≤ m, ∀ x,
        |(tr j).v k x - (v (k * D / m) x * Complex.exp (ω * (j * dt m - dt m) * Complex.I)).re| ≤ ε ∧ (k < m →
          |(tr j).i k x - (i ((k + 1 / 2) * D / m) x * Complex.exp (ω * (j * dt m - dt m / 2) * Complex.I)).re| ≤ ε) := by
  have hex : ∀ m, ∃ V I : ℕ → Fin n → ℂ, 0 < m → ω * dt m < Real.pi →
      ({ s m with dt := dt m, vSources := S m } : MTL n p).AC (s m).dt (ω * dt m) E 0 0 0 V I ∧
      ({ s m with dt := dt m, vSources := S m } : MTL n p).Approaches
        (fun j k x => (V k x * Complex.exp (ω * (j * dt m - dt m) * Complex.I)).re)
        (fun j k x => (I k x * Complex.exp (ω * (j * dt m - dt m / 2) * Complex.I)).re) := by
    intro m
    by_cases hm : 0 < m ∧ ω * dt m < Real.pi
    · obtain ⟨em, -, hdu⟩ := constructed_cells hD hm.1 (h m hm.1)
      obtain ⟨V, I, hac, -, happ⟩ := C178_program (E0 := E) (E1 := 0) (ω := ω) (h m hm.1) hl hc hr hg hzs hzl hz hdu
        (hdt m hm.1).1 (hdt m hm.1).2 hω.le hm.2 (hS m) (fun x u hu => hS0 m x u hu)
        (fun x u hu => by rw [em, hS1 m hm.1]; simp)
      exact ⟨V, I, fun _ _ => ⟨hac, happ⟩⟩
    · exact ⟨0, 0, fun a b => absurd ⟨a, b⟩ hm⟩
  choose V I hVI using hex
  intro ε hε
  have hdt' : ∀ m > 0, 0 < dt m ∧ dt m ≤ (s m).dt := fun m hm => ⟨(hdt m hm).1, (hdt m hm).2.le⟩
  obtain ⟨M, hM⟩ := C187_limit (V := V) (I := I) hD h hU hω hdt' (fun m hm hn => (hVI m hm hn).1) hv (ε / 2) (by linarith)
  obtain ⟨M', hM'⟩ := eventually_atTop.1 ((steps_limit hD h).eventually (gt_mem_nhds (show 0 < Real.pi / ω by positivity)))
  refine ⟨M + M' + 1, fun m hm => ?_⟩
  have hm0 : 0 < m := by omega
  have hn : ω * dt m < Real.pi := by
    have h1 := hM' m (by omega)
    rw [lt_div_iff₀ hω] at h1
    nlinarith [(hdt m hm0).2]
  obtain ⟨hk, hkI⟩ := hM m (by omega)
  obtain ⟨em, -, -⟩ := constructed_cells hD hm0 (h m hm0)
  obtain ⟨J, hJ⟩ := (hVI m hm0 hn).2 (ε / 2) (by linarith)
  have close : ∀ {r ψ : ℝ} {X Y : ℂ}, |r - (X * Complex.exp (ψ * Complex.I)).re| ≤ ε / 2 → ‖X - Y‖ ≤ ε / 2 →
      |r - (Y * Complex.exp (ψ * Complex.I)).re| ≤ ε := by
    intro r ψ X Y h1 h2
    obtain ⟨e, he⟩ : ∃ e, e = Complex.exp (ψ * Complex.I) := ⟨_, rfl⟩
    have ne : ‖e‖ = 1 := by rw [he, Complex.norm_exp_ofReal_mul_I]
    rw [← he] at h1 ⊢
    have h3 : |(X * e).re - (Y * e).re| ≤ ε / 2 := by
      rw [← Complex.sub_re, ← sub_mul]
      refine (Complex.abs_re_le_norm _).trans ?_
      rw [norm_mul, ne, mul_one]
      exact h2
    calc _ = |(r - (X * e).re) + ((X * e).re - (Y * e).re)| := by congr 1; ring
      _ ≤ _ := (abs_add_le _ _).trans (by linarith)
  refine ⟨J, fun T t' N tr Rn j hj hN k hkm x => ⟨?_, fun hkl => ?_⟩⟩
  · have h1 := (hJ T t' N tr Rn j hj hN).1 k (by show k ≤ (s m).m; omega) x
    beta_reduce at h1
    rw [show (ω * (j * dt m - dt m) : ℂ) = ((ω * (j * dt m - dt m) : ℝ) : ℂ) by push_cast; ring] at h1 ⊢
    exact close h1 (hk k hkm x)
  · have h1 := (hJ T t' N tr Rn j hj hN).2 k (by show k < (s m).m; omega) x
    beta_reduce at h1
    rw [show (ω * (j * dt m - dt m / 2) : ℂ) = ((ω * (j * dt m - dt m / 2) : ℝ) : ℂ) by push_cast; ring] at h1 ⊢
    exact close h1 (hkI k hkl x)

end

/-! ## Non-vacuity -/

/-- Even and odd modes of two conductors. -/
noncomputable def evenOdd : NewVars 2 where
  a := !![1, 1; 1, -1]
  b := !![1, 1; 1, -1]
  tau := 1
  lam := 1
  a_unit := by norm_num [Matrix.det_fin_two]
  b_unit := by norm_num [Matrix.det_fin_two]
  tau_pos := one_pos
  lam_pos := one_pos

/-- Equal conductors: `x` on the diagonal and `y` beside it. -/
def pairMat (x y : ℝ) : Arg := .mat 2 2 fun i j => if i = j then x else y

theorem pairMat_matrix (x y : ℝ) : (pairMat x y).matrix 2 = !![x, y; y, x] := by
  ext i j
  fin_cases i <;> fin_cases j <;> rfl

theorem evenOdd_inv : (!![1, 1; 1, -1] : Mat 2)⁻¹ = !![1 / 2, 1 / 2; 1 / 2, -1 / 2] := by
  refine Matrix.inv_eq_right_inv ?_
  ext i j
  fin_cases i <;> fin_cases j <;> norm_num [Matrix.mul_apply, Fin.sum_univ_two]

theorem evenOdd_imp (x y : ℝ) : evenOdd.imp !![x, y; y, x] = !![x + y, 0; 0, x - y] := by
  show !![1, 1; 1, -1] * !![x, y; y, x] * (!![1, 1; 1, -1] : Mat 2)⁻¹ = _
  rw [evenOdd_inv]
  ext i j
  fin_cases i <;> fin_cases j <;> simp [Matrix.mul_apply, Fin.sum_univ_two] <;> ring

theorem evenOdd_adm (x y : ℝ) : evenOdd.adm !![x, y; y, x] = !![x + y, 0; 0, x - y] := evenOdd_imp x y

theorem isDiag_two (x y : ℝ) : (!![x, 0; 0, y] : Mat 2).IsDiag := by
  intro i j h
  fin_cases i <;> fin_cases j <;> simp at h ⊢

theorem pairMat_spd {x y : ℝ} (h : |y| < x) : SPD ((pairMat x y).matrix 2) := by
  rw [pairMat_matrix]
  obtain ⟨h1, h2⟩ := abs_lt.1 h
  refine ⟨?_, fun w hw => ?_⟩
  · ext i j
    fin_cases i <;> fin_cases j <;> rfl
  · have e : w ⬝ᵥ !![x, y; y, x] *ᵥ w = (x + y) / 2 * (w 0 + w 1) ^ 2 + (x - y) / 2 * (w 0 - w 1) ^ 2 := by
      simp [dotProduct, mulVec, Fin.sum_univ_two]
      ring
    rw [e]
    by_contra hn
    have n1 : 0 ≤ (x + y) / 2 * (w 0 + w 1) ^ 2 := mul_nonneg (by linarith) (sq_nonneg _)
    have n2 : 0 ≤ (x - y) / 2 * (w 0 - w 1) ^ 2 := mul_nonneg (by linarith) (sq_nonneg _)
    have z1 : (w 0 + w 1) ^ 2 = 0 := (mul_eq_zero.1 (by linarith : (x + y) / 2 * (w 0 + w 1) ^ 2 = 0)).resolve_left (by linarith)
    have z2 : (w 0 - w 1) ^ 2 = 0 := (mul_eq_zero.1 (by linarith : (x - y) / 2 * (w 0 - w 1) ^ 2 = 0)).resolve_left (by linarith)
    have z1' := pow_eq_zero_iff (two_ne_zero) |>.1 z1
    have z2' := pow_eq_zero_iff (two_ne_zero) |>.1 z2
    refine hw (funext fun q => ?_)
    fin_cases q
    · show w 0 = 0
      linarith
    · show w 1 = 0
      linarith

theorem one_two : (1 : Mat 2) = !![1, 0; 0, 1] := by
  ext i j
  fin_cases i <;> fin_cases j <;> rfl

theorem zdiag_one : (ZArg.scalar 1).diag 2 = !![1, 0; 0, 1] := by
  rw [← one_two]
  exact Matrix.diagonal_one

theorem zero_two : (Arg.scalar 0).matrix 2 = !![0, 0; 0, 0] := by
  ext i j
  fin_cases i <;> fin_cases j <;> simp [Arg.matrix]

/-- Two equal coupled conductors, for all numbers of cells. -/
example : (∃ s : ℕ → MTL 2 0, ∀ m > 0, MTL.new 0 (pairMat 2 1) (pairMat 2 (-1)) (.scalar 0) (.scalar 0) 1 [] [m] (.scalar 1) (.scalar 1)
      "pair" = .ok ⟨2, s m⟩) ∧
    ModalLine evenOdd ((pairMat 2 1).matrix 2) ((pairMat 2 (-1)).matrix 2) ((Arg.scalar 0).matrix 2) ((Arg.scalar 0).matrix 2)
      ((ZArg.scalar 1).diag 2) ((ZArg.scalar 1).diag 2) := by
  constructor
  · have hex : ∀ m > 0, ∃ s : MTL 2 0, MTL.new 0 (pairMat 2 1) (pairMat 2 (-1)) (.scalar 0) (.scalar 0) 1 [] [m] (.scalar 1) (.scalar 1)
        "pair" = .ok ⟨2, s⟩ := by
      intro m hm
      refine C32_physical_accepted (d := m) "pair" two_ne_zero (.matrices 2 _ _) .zero .zero (.numbers 1 1)
        (pairMat_spd (by norm_num)) (pairMat_spd (by norm_num)) dissipative_zero (fun _ _ => zero_le_one) (fun _ _ => zero_le_one)
        hm (by simp) rfl (by simp) ⟨0, by simp, ?_⟩
      intro h
      have := congrFun h 2
      simp at this
    choose f hf using hex
    refine ⟨fun m => if h : 0 < m then f m h else f 1 one_pos, fun m hm => ?_⟩
    beta_reduce
    rw [dif_pos (show 0 < m from hm)]
    exact hf m hm
  · rw [pairMat_matrix, pairMat_matrix, zero_two, zdiag_one]
    refine ⟨?_, ?_, ?_, ?_, ?_, ?_, ?_, ?_, ?_, ?_, ?_, ?_, ?_⟩ <;> simp only [evenOdd_imp, evenOdd_adm]
    any_goals exact isDiag_two _ _
    all_goals
      intro x
      fin_cases x <;> norm_num

end Mtln
