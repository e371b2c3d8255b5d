import Mathlib.Analysis.Calculus.Deriv.MeanValue
import Verif.Lemmas.BoundaryGrid
import Verif.Props.ModesLimit

/-! # Lines of several conductors with any matrices tend to the telegrapher's equations (C187) -/

namespace Mtln

open Matrix Filter Topology

variable {n p : ℕ}

/-- The product with a matrix. -/
noncomputable def mvL (Q : Matrix (Fin n) (Fin n) ℂ) : (Fin n → ℂ) →L[ℂ] Fin n → ℂ := LinearMap.toContinuousLinearMap (Matrix.mulVecLin Q)

theorem mvL_apply (Q : Matrix (Fin n) (Fin n) ℂ) (X : Fin n → ℂ) : mvL Q X = Q *ᵥ X := rfl

section

variable {L C R G : Mat n} {ω D : ℝ} {zs zl : Fin n → ℝ} {E : Fin n → ℂ} {v i : ℝ → Fin n → ℂ}

theorem perLength_re (X : Fin n → ℂ) (x : Fin n) :
    ((perLength ω R L *ᵥ X) x).re = (R *ᵥ fun y => (X y).re) x - ω * (L *ᵥ fun y => (X y).im) x := by
  rw [perLength, add_mulVec, smul_mulVec]
  simp [cx, mulVec, dotProduct, Complex.re_sum, Complex.im_sum]
  ring

theorem perLength_im (X : Fin n → ℂ) (x : Fin n) :
    ((perLength ω R L *ᵥ X) x).im = (R *ᵥ fun y => (X y).im) x + ω * (L *ᵥ fun y => (X y).re) x := by
  rw [perLength, add_mulVec, smul_mulVec]
  simp [cx, mulVec, dotProduct, Complex.re_sum, Complex.im_sum]

/-- The impedances of a line take power. -/
theorem perLength_power (hL : Lᵀ = L) (hR : Dissipative R) (X : Fin n → ℂ) :
    0 ≤ ∑ x, (((perLength ω R L *ᵥ X) x).re * (X x).re + ((perLength ω R L *ᵥ X) x).im * (X x).im) := by
  obtain ⟨a, ha⟩ : ∃ a : Fin n → ℝ, a = fun y => (X y).re := ⟨_, rfl⟩
  obtain ⟨b, hb⟩ : ∃ b : Fin n → ℝ, b = fun y => (X y).im := ⟨_, rfl⟩
  have e : ∑ x, (((perLength ω R L *ᵥ X) x).re * (X x).re + ((perLength ω R L *ᵥ X) x).im * (X x).im) =
      a ⬝ᵥ (R *ᵥ a) + b ⬝ᵥ (R *ᵥ b) + ω * (b ⬝ᵥ (L *ᵥ a) - a ⬝ᵥ (L *ᵥ b)) := by
    simp only [perLength_re, perLength_im, ← ha, ← hb, dotProduct, mul_sub, Finset.mul_sum]
    rw [← Finset.sum_add_distrib, ← Finset.sum_sub_distrib, ← Finset.sum_add_distrib]
    refine Finset.sum_congr rfl fun x _ => ?_
    rw [show (X x).re = a x by rw [ha], show (X x).im = b x by rw [hb]]
    ring
  have s : b ⬝ᵥ (L *ᵥ a) = a ⬝ᵥ (L *ᵥ b) := by
    rw [dotProduct_mulVec, ← mulVec_transpose, hL, dotProduct_comm]
  rw [e, s, sub_self, mul_zero, add_zero]
  exact add_nonneg (hR a) (hR b)

theorem cx_diagonal (z : Fin n → ℝ) (X : Fin n → ℂ) (x : Fin n) : (cx (Matrix.diagonal z) *ᵥ X) x = z x * X x := by
  rw [cx_diag (isDiag_diagonal z), diagonal_apply_eq]

/-- Without sources there is only the solution zero. -/
theorem telegraph_zero (hL : Lᵀ = L) (hC : Cᵀ = C) (hR : Dissipative R) (hG : Dissipative G) (hzs : ∀ x, 0 ≤ zs x) (hzl : ∀ x, 0 ≤ zl x)
    (hz : (∀ x, 0 < zs x) ∨ ∀ x, 0 < zl x) (hD : 0 < D)
    (hv : TelegraphN (perLength ω R L) (perLength ω G C) 0 D (Matrix.diagonal zs) (Matrix.diagonal zl) v i) : v 0 = 0 ∧ i 0 = 0 := by
  obtain ⟨P, hP⟩ : ∃ P : ℝ → ℝ, ∀ z, P z = ∑ x, ((v z x).re * (i z x).re + (v z x).im * (i z x).im) := ⟨_, fun _ => rfl⟩
  have dre : ∀ {f : ℝ → Fin n → ℂ} {f' : Fin n → ℂ} {z : ℝ} (x : Fin n), HasDerivWithinAt f f' (Set.Icc 0 D) z →
      HasDerivWithinAt (fun z => (f z x).re) (f' x).re (Set.Icc 0 D) z ∧ HasDerivWithinAt (fun z => (f z x).im) (f' x).im (Set.Icc 0 D) z := by
    intro f f' z x hf
    have h := hasDerivWithinAt_pi.1 hf x
    exact ⟨Complex.reCLM.hasFDerivAt.comp_hasDerivWithinAt z h, Complex.imCLM.hasFDerivAt.comp_hasDerivWithinAt z h⟩
  have dP : ∀ z ∈ Set.Icc 0 D, ∃ d ≤ 0, HasDerivWithinAt P d (Set.Icc 0 D) z := by
    intro z hz
    have h := HasDerivWithinAt.fun_sum (u := Finset.univ) fun (x : Fin n) _ =>
      ((dre x (hv.voltage z hz)).1.mul (dre x (hv.current z hz)).1).add ((dre x (hv.voltage z hz)).2.mul (dre x (hv.current z hz)).2)
    refine ⟨_, ?_, h.congr_of_mem (fun y _ => hP y) hz⟩
    have p1 := perLength_power (ω := ω) hL hR (i z)
    have p2 := perLength_power (ω := ω) hC hG (v z)
    have e : ∀ x, (-(perLength ω R L *ᵥ i z)) x = -((perLength ω R L *ᵥ i z) x) := fun _ => rfl
    have e' : ∀ x, (-(perLength ω G C *ᵥ v z)) x = -((perLength ω G C *ᵥ v z) x) := fun _ => rfl
    have := add_nonneg p1 p2
    rw [← Finset.sum_add_distrib] at this
    refine le_of_eq_of_le ?_ (neg_nonpos.2 this)
    rw [← Finset.sum_neg_distrib]
    refine Finset.sum_congr rfl fun x _ => ?_
    rw [e, e', Complex.neg_re, Complex.neg_re, Complex.neg_im, Complex.neg_im]
    ring
  have anti : P D ≤ P 0 := by
    choose! d d0 hd using dP
    have := antitoneOn_of_hasDerivWithinAt_nonpos (convex_Icc 0 D) (fun z hz => (hd z hz).continuousWithinAt)
      (fun z hz => (hd z (interior_subset hz)).mono interior_subset) (fun z hz => d0 z (interior_subset hz))
    exact this ⟨le_rfl, hD.le⟩ ⟨hD.le, le_rfl⟩ hD.le
  have v0 : ∀ x, v 0 x = -(zs x * i 0 x) := fun x => by
    have := congrFun hv.first x
    rw [Pi.sub_apply, cx_diagonal, Pi.zero_apply, zero_sub] at this
    exact this
  have vD : ∀ x, v D x = zl x * i D x := fun x => by
    have := congrFun hv.last x
    rw [cx_diagonal] at this
    exact this
  have P0 : P 0 = -∑ x, zs x * ((i 0 x).re ^ 2 + (i 0 x).im ^ 2) := by
    rw [hP, ← Finset.sum_neg_distrib]
    refine Finset.sum_congr rfl fun x _ => ?_
    rw [v0, Complex.neg_re, Complex.neg_im, Complex.re_ofReal_mul, Complex.im_ofReal_mul]
    ring
  have PD : P D = ∑ x, zl x * ((i D x).re ^ 2 + (i D x).im ^ 2) := by
    rw [hP]
    refine Finset.sum_congr rfl fun x _ => ?_
    rw [vD, Complex.re_ofReal_mul, Complex.im_ofReal_mul]
    ring
  have n0 : ∀ x ∈ Finset.univ, 0 ≤ zs x * ((i 0 x).re ^ 2 + (i 0 x).im ^ 2) := fun x _ => mul_nonneg (hzs x) (by positivity)
  have nD : ∀ x ∈ Finset.univ, 0 ≤ zl x * ((i D x).re ^ 2 + (i D x).im ^ 2) := fun x _ => mul_nonneg (hzl x) (by positivity)
  have s0 := Finset.sum_nonneg n0
  have sD := Finset.sum_nonneg nD
  rw [P0, PD] at anti
  have vanish : ∀ {z : Fin n → ℝ} {X : Fin n → ℂ}, (∀ x, 0 < z x) → (∀ x ∈ Finset.univ, 0 ≤ z x * ((X x).re ^ 2 + (X x).im ^ 2)) →
      ∑ x, z x * ((X x).re ^ 2 + (X x).im ^ 2) = 0 → X = 0 := by
    intro z X hz hn hs
    funext x
    have h := (Finset.sum_eq_zero_iff_of_nonneg hn).1 hs x (Finset.mem_univ x)
    have h2 : (X x).re ^ 2 + (X x).im ^ 2 = 0 := (mul_eq_zero.1 h).resolve_left (hz x).ne'
    refine Complex.ext ?_ ?_
    · show (X x).re = 0
      nlinarith [sq_nonneg (X x).re, sq_nonneg (X x).im]
    · show (X x).im = 0
      nlinarith [sq_nonneg (X x).re, sq_nonneg (X x).im]
  rcases hz with hz | hz
  · have i0 : i 0 = 0 := vanish hz n0 (by linarith)
    refine ⟨?_, i0⟩
    funext x
    rw [v0, i0, Pi.zero_apply, mul_zero, neg_zero]
  · have iD : i D = 0 := vanish hz nD (by linarith)
    have vD0 : v D = 0 := by
      funext x
      rw [vD, iD, Pi.zero_apply, mul_zero]
    have h := wave_unique (A := mvL (perLength ω R L)) (B := mvL (perLength ω G C)) hv.voltage hv.current D ⟨hD.le, le_rfl⟩
    rw [vD0, iD] at h
    have h2 := flow_neg (waveOp (mvL (perLength ω R L)) (mvL (perLength ω G C))) D
    have h3 := congrArg (fun Q => Q (v 0, i 0)) h2
    have h4 : flow (waveOp (mvL (perLength ω R L)) (mvL (perLength ω G C))) (-D)
        (flow (waveOp (mvL (perLength ω R L)) (mvL (perLength ω G C))) D (v 0, i 0)) = (v 0, i 0) := h3
    rw [← h, show ((0 : Fin n → ℂ), (0 : Fin n → ℂ)) = 0 from rfl, map_zero] at h4
    exact ⟨(congrArg Prod.fst h4).symm, (congrArg Prod.snd h4).symm⟩

/-- The solutions of the differential equations. -/
theorem flow_telegraph (w : (Fin n → ℂ) × (Fin n → ℂ)) (A B : Matrix (Fin n) (Fin n) ℂ) (z : ℝ) :
    HasDerivAt (fun z => (flow (waveOp (mvL A) (mvL B)) z w).1) (-(A *ᵥ (flow (waveOp (mvL A) (mvL B)) z w).2)) z ∧
      HasDerivAt (fun z => (flow (waveOp (mvL A) (mvL B)) z w).2) (-(B *ᵥ (flow (waveOp (mvL A) (mvL B)) z w).1)) z := by
  have h := flow_wave (mvL A) (mvL B) w z
  rw [waveOp, blk_apply, ← waveOp] at h
  have h1 := (ContinuousLinearMap.fst ℝ (Fin n → ℂ) (Fin n → ℂ)).hasFDerivAt.comp_hasDerivAt z h
  have h2 := (ContinuousLinearMap.snd ℝ (Fin n → ℂ) (Fin n → ℂ)).hasFDerivAt.comp_hasDerivAt z h
  refine ⟨h1.congr_deriv ?_, h2.congr_deriv ?_⟩
  · simp [mvL_apply]
  · simp [mvL_apply]

theorem telegraph_uniq (hL : Lᵀ = L) (hC : Cᵀ = C) (hR : Dissipative R) (hG : Dissipative G) (hzs : ∀ x, 0 ≤ zs x) (hzl : ∀ x, 0 ≤ zl x)
    (hz : (∀ x, 0 < zs x) ∨ ∀ x, 0 < zl x) (hD : 0 < D) (w : (Fin n → ℂ) × (Fin n → ℂ))
    (h0 : w.1 + mvL (cx (Matrix.diagonal zs)) w.2 = 0)
    (h1 : (flow (waveOp (mvL (perLength ω R L)) (mvL (perLength ω G C))) D w).1 =
      mvL (cx (Matrix.diagonal zl)) (flow (waveOp (mvL (perLength ω R L)) (mvL (perLength ω G C))) D w).2) : w = 0 := by
  have e0 : flow (waveOp (mvL (perLength ω R L)) (mvL (perLength ω G C))) 0 w = w := by rw [flow_zero]; rfl
  have := telegraph_zero (v := fun z => (flow (waveOp (mvL (perLength ω R L)) (mvL (perLength ω G C))) z w).1)
    (i := fun z => (flow (waveOp (mvL (perLength ω R L)) (mvL (perLength ω G C))) z w).2) hL hC hR hG hzs hzl hz hD
    ⟨fun z _ => (flow_telegraph w _ _ z).1.hasDerivWithinAt, fun z _ => (flow_telegraph w _ _ z).2.hasDerivWithinAt, ?_, h1⟩
  · simp only [e0] at this
    exact Prod.ext this.1 this.2
  · simp only [e0]
    rw [zero_sub]
    exact eq_neg_of_add_eq_zero_left h0

/-- **C187.**  The telegrapher's equations of conductors with any symmetric inductances and capacitances, any losses and resistances at the
ends, positive at one of them, have exactly one solution. -/
theorem C187_any_solution (hL : Lᵀ = L) (hC : Cᵀ = C) (hR : Dissipative R) (hG : Dissipative G) (hzs : ∀ x, 0 ≤ zs x) (hzl : ∀ x, 0 ≤ zl x)
    (hz : (∀ x, 0 < zs x) ∨ ∀ x, 0 < zl x) (hD : 0 < D) (E : Fin n → ℂ) :
    ∃ v i, TelegraphN (perLength ω R L) (perLength ω G C) E D (Matrix.diagonal zs) (Matrix.diagonal zl) v i ∧
      ∀ v' i', TelegraphN (perLength ω R L) (perLength ω G C) E D (Matrix.diagonal zs) (Matrix.diagonal zl) v' i' →
        ∀ z ∈ Set.Icc 0 D, v' z = v z ∧ i' z = i z := by
  obtain ⟨M, hM⟩ : ∃ M, M = waveOp (mvL (perLength ω R L)) (mvL (perLength ω G C)) := ⟨_, rfl⟩
  have uniq := telegraph_uniq (ω := ω) hL hC hR hG hzs hzl hz hD
  rw [← hM] at uniq
  obtain ⟨T, hT⟩ : ∃ T : (Fin n → ℂ) × (Fin n → ℂ) →ₗ[ℂ] (Fin n → ℂ) × (Fin n → ℂ),
      ∀ w, T w = (w.1 + mvL (cx (Matrix.diagonal zs)) w.2, (flow M D w).1 - mvL (cx (Matrix.diagonal zl)) (flow M D w).2) := by
    refine ⟨(blk 1 (mvL (cx (Matrix.diagonal zs))) 0 0 + (blk 0 0 1 (-mvL (cx (Matrix.diagonal zl)))).comp (flow M D) :
      (Fin n → ℂ) × (Fin n → ℂ) →L[ℂ] (Fin n → ℂ) × (Fin n → ℂ)), fun w => ?_⟩
    show blk 1 _ 0 0 w + blk 0 0 1 (-_) (flow M D w) = _
    rw [blk_apply, blk_apply]
    simp [sub_eq_add_neg]
  have inj : Function.Injective T := by
    refine LinearMap.ker_eq_bot.1 (LinearMap.ker_eq_bot'.2 fun w hw => ?_)
    rw [hT] at hw
    exact uniq w (congrArg Prod.fst hw) (sub_eq_zero.1 (congrArg Prod.snd hw))
  obtain ⟨w, hw⟩ := LinearMap.injective_iff_surjective.1 inj (E, 0)
  have e0 : flow M 0 w = w := by rw [flow_zero]; rfl
  refine ⟨fun z => (flow M z w).1, fun z => (flow M z w).2, ⟨fun z _ => ?_, fun z _ => ?_, ?_, ?_⟩, fun v' i' h z hzz => ?_⟩
  · rw [hM]; exact (flow_telegraph w _ _ z).1.hasDerivWithinAt
  · rw [hM]; exact (flow_telegraph w _ _ z).2.hasDerivWithinAt
  · rw [hT] at hw
    simp only [e0]
    exact eq_sub_of_add_eq (congrArg Prod.fst hw)
  · rw [hT] at hw
    exact sub_eq_zero.1 (congrArg Prod.snd hw)
  · have sol := wave_unique (A := mvL (perLength ω R L)) (B := mvL (perLength ω G C)) h.voltage h.current
    rw [← hM] at sol
    have e : (v' 0, i' 0) = w := by
      refine inj ?_
      rw [hw, hT, ← sol D ⟨hD.le, le_rfl⟩]
      refine Prod.ext ?_ ?_
      · show v' 0 + cx (Matrix.diagonal zs) *ᵥ i' 0 = E
        rw [h.first, sub_add_cancel]
      · show v' D - cx (Matrix.diagonal zl) *ᵥ i' D = 0
        rw [h.last, sub_self]
    have := sol z hzz
    rw [e] at this
    exact ⟨congrArg Prod.fst this, congrArg Prod.snd this⟩

end

/-- The telegrapher's equations with sources at both ends. -/
structure TelegraphEnds (A B : Matrix (Fin n) (Fin n) ℂ) (E E1 : Fin n → ℂ) (D : ℝ) (Zs Zl : Mat n) (v i : ℝ → Fin n → ℂ) : Prop where
  voltage : ∀ z ∈ Set.Icc 0 D, HasDerivWithinAt v (-(A *ᵥ i z)) (Set.Icc 0 D) z
  current : ∀ z ∈ Set.Icc 0 D, HasDerivWithinAt i (-(B *ᵥ v z)) (Set.Icc 0 D) z
  first : v 0 = E - cx Zs *ᵥ i 0
  last : v D = E1 + cx Zl *ᵥ i D

section

variable {l c r g : Arg} {D : ℝ} {Zs Zl : ZArg} {name : String} {s : ℕ → MTL n p} {dt : ℕ → ℝ} {ω : ℝ} {E : Fin n → ℂ} {S : ℕ → Src n}
  {V I : ℕ → ℕ → Fin n → ℂ}

/-- **C187.**  For more and more cells, and any time steps up to the automatic ones, the amplitudes of the voltages and currents tend to the
solution of the telegrapher's equations, for any matrices and with sources at both ends, which may
tend to their limits. -/
theorem C187_ends_limit {F F1 : ℕ → Fin n → ℂ} {E1 : Fin n → ℂ} (hF : Tendsto F atTop (𝓝 E)) (hF1 : Tendsto F1 atTop (𝓝 E1)) (hD : 0 < D)
    (h : ∀ m > 0, MTL.new p l c r g D [] [m] Zs Zl name = .ok ⟨n, s m⟩) (hl : SPD (l.matrix n)) (hc : SPD (c.matrix n))
    (hr : Dissipative (r.matrix n)) (hg : Dissipative (g.matrix n)) (hzs : ∀ i < n, 0 ≤ Zs.value i) (hzl : ∀ i < n, 0 ≤ Zl.value i)
    (hz : (∀ i < n, 0 < Zs.value i) ∨ ∀ i < n, 0 < Zl.value i) (hdt : ∀ m > 0, 0 < dt m ∧ dt m ≤ (s m).dt)
    (hac : ∀ m > 0, ω * dt m < Real.pi → ({ s m with dt := dt m, vSources := S m } : MTL n p).AC (s m).dt (ω * dt m) (F m) (F1 m) 0 0
      (V m) (I m))
    {v i : ℝ → Fin n → ℂ}
    (hv : TelegraphEnds (perLength ω (r.matrix n) (l.matrix n)) (perLength ω (g.matrix n) (c.matrix n)) E E1 D
      (Zs.diag n) (Zl.diag n) v i) :
    ∀ ε > 0, ∃ M, ∀ m ≥ M, (∀ k ≤ m, ∀ x, ‖V m k x - v (k * D / m) x‖ ≤ ε) ∧
      ∀ k < m, ∀ x, ‖I m k x - i ((k + 1 / 2) * D / m) x‖ ≤ ε := by
  have hdt0 : Tendsto dt atTop (𝓝 0) := squeeze_zero' ((eventually_gt_atTop 0).mono fun m hm => (hdt m hm).1.le)
    ((eventually_gt_atTop 0).mono fun m hm => (hdt m hm).2) (steps_limit hD h)
  have hpos : ∀ᶠ m in atTop, 0 < dt m := (eventually_gt_atTop 0).mono fun m hm => (hdt m hm).1
  have hnyq : ∀ᶠ m in atTop, ω * dt m < Real.pi := by
    have := hdt0.const_mul ω
    rw [mul_zero] at this
    exact this.eventually (gt_mem_nhds Real.pi_pos)
  have good : ∀ᶠ m in atTop, 0 < m ∧ ω * dt m < Real.pi := (eventually_gt_atTop 0).and hnyq
  have contents : ∀ m > 0, (∀ k, (s m).l k + (s m).conn.e k = l.matrix n) ∧ (∀ k, (s m).r k + (s m).conn.d k = r.matrix n) ∧
      (∀ k, (s m).c k = c.matrix n) ∧ (∀ k, (s m).g k = g.matrix n) ∧ (s m).zs = Zs.diag n ∧ (s m).zl = Zl.diag n := by
    intro m hm
    obtain ⟨-, -, -, -, el, ec, er, eg, ezs, ezl, -, -, -, -, econn⟩ := new_ok_contents (h m hm)
    refine ⟨fun k => ?_, fun k => ?_, fun k => by rw [ec], fun k => by rw [eg], ezs, ezl⟩
    · rw [el, econn]; exact add_zero _
    · rw [er, econn]; exact add_zero _
  have lsin : Tendsto (fun m => turn (ω * dt m) / dt m) atTop (𝓝 (ω * Complex.I)) := by
    have := ((Complex.continuous_ofReal.tendsto _).comp (sine_limit (ω := ω) hdt0 hpos)).mul_const Complex.I
    refine this.congr fun m => ?_
    show ((2 * Real.sin (ω * dt m / 2) / dt m : ℝ) : ℂ) * Complex.I = _
    unfold turn
    push_cast
    ring
  have lcos : Tendsto (fun m => ((Real.cos (ω * dt m / 2) : ℝ) : ℂ)) atTop (𝓝 1) := by
    have := (Complex.continuous_ofReal.tendsto _).comp (cosine_limit (ω := ω) hdt0)
    rw [Complex.ofReal_one] at this
    exact this
  have lA : ∀ R L : Mat n, Tendsto (fun m => ((Real.cos (ω * dt m / 2) : ℝ) : ℂ) • mvL (cx R) + (turn (ω * dt m) / dt m) • mvL (cx L)) atTop
      (𝓝 (mvL (perLength ω R L))) := by
    intro R L
    have := (lcos.smul_const (mvL (cx R))).add (lsin.smul_const (mvL (cx L)))
    have e : mvL (perLength ω R L) = (1 : ℂ) • mvL (cx R) + (ω * Complex.I) • mvL (cx L) := by
      ext1 X
      show perLength ω R L *ᵥ X = (1 : ℂ) • (cx R *ᵥ X) + (ω * Complex.I) • (cx L *ᵥ X)
      rw [perLength, add_mulVec, smul_mulVec, one_smul]
    rw [e]
    exact this
  obtain ⟨β, hβ⟩ : ∃ β : ℕ → (Fin n → ℂ) →L[ℂ] Fin n → ℂ, ∀ m, β m = ((D / m / 2 : ℝ) * (turn (ω * dt m) / (s m).dt) : ℂ) • mvL (cx (c.matrix n)) +
      ((D / m / 2 : ℝ) * (Real.cos (ω * dt m / 2) : ℝ) : ℂ) • mvL (cx (g.matrix n)) := ⟨_, fun _ => rfl⟩
  have hh : Tendsto (fun m : ℕ => ((D / m / 2 : ℝ) : ℂ)) atTop (𝓝 0) := by
    have h1 : Tendsto (fun m : ℕ => D / m / 2) atTop (𝓝 0) := by simpa using (tendsto_const_div_atTop_nhds_zero_nat D).div_const 2
    have := (Complex.continuous_ofReal.tendsto _).comp h1
    rw [Complex.ofReal_zero] at this
    exact this
  have lβ : Tendsto β atTop (𝓝 0) := by
    have h1 : Tendsto (fun m : ℕ => ((D / m / 2 : ℝ) * (turn (ω * dt m) / (s m).dt) : ℂ)) atTop (𝓝 0) := by
      have a := (hh.norm).mul lsin.norm
      rw [norm_zero, zero_mul] at a
      refine squeeze_zero_norm' ?_ a
      filter_upwards [eventually_gt_atTop 0] with m hm
      rw [norm_mul]
      refine mul_le_mul_of_nonneg_left ?_ (norm_nonneg _)
      obtain ⟨d0, d1⟩ := hdt m hm
      rw [norm_div, norm_div, Complex.norm_real, Complex.norm_real, Real.norm_of_nonneg d0.le, Real.norm_of_nonneg (d0.le.trans d1)]
      exact div_le_div_of_nonneg_left (norm_nonneg _) d0 d1
    have h2 := hh.mul lcos
    rw [zero_mul] at h2
    have := (h1.smul_const (mvL (cx (c.matrix n)))).add (h2.smul_const (mvL (cx (g.matrix n))))
    have e : (0 : (Fin n → ℂ) →L[ℂ] Fin n → ℂ) = (0 : ℂ) • mvL (cx (c.matrix n)) + (0 : ℂ) • mvL (cx (g.matrix n)) := by
      ext1 X
      show 0 = (0 : ℂ) • (cx (c.matrix n) *ᵥ X) + (0 : ℂ) • (cx (g.matrix n) *ᵥ X)
      rw [zero_smul, zero_smul, add_zero]
    rw [e]
    exact this.congr fun m => (hβ m).symm
  have key := grid_limit (Zs := mvL (cx (Zs.diag n))) (Zl := mvL (cx (Zl.diag n))) (V := V) (I := I) hD (lA (r.matrix n) (l.matrix n))
    (lA (g.matrix n) (c.matrix n)) lβ lcos hF hF1 ?_ ?_ ?_ ?_
    (telegraph_uniq hl.symm hc.symm hr hg (fun x => hzs x x.2) (fun x => hzl x x.2)
      (hz.imp (fun hz x => hz x x.2) fun hz x => hz x x.2) hD) hv.voltage hv.current hv.first hv.last
  · intro ε hε
    obtain ⟨N, hN⟩ := key ε hε
    refine ⟨N, fun m hm => ⟨fun k hk x => ?_, fun k hk x => ?_⟩⟩
    · exact (norm_le_pi_norm (V m k - v (k * D / m)) x).trans ((hN m hm).1 k hk)
    · exact (norm_le_pi_norm (I m k - i ((k + 1 / 2) * D / m)) x).trans ((hN m hm).2 k hk)
  all_goals
    filter_upwards [good] with m hm
    obtain ⟨em, ed, -⟩ := constructed_cells hD hm.1 (h m hm.1)
    obtain ⟨e1, e2, e3, e4, e5, e6⟩ := contents m hm.1
    have ac := hac m hm.1 hm.2
    have d0 : (dt m : ℂ) ≠ 0 := by exact_mod_cast (hdt m hm.1).1.ne'
  · intro k hk
    have e := ac.cell k (by show k < (s m).m; omega)
    simp only [ed k hk, e1, e2] at e
    funext x
    have e := congrFun e x
    simp only [mulVec_smul, Pi.smul_apply, Pi.add_apply, Pi.sub_apply, Pi.neg_apply, Pi.zero_apply, Complex.real_smul, smul_eq_mul,
      smul_zero, sub_zero, add_zero] at e
    show V m (k + 1) x = V m k x - (D / m : ℝ) • (((Real.cos (ω * dt m / 2) : ℝ) : ℂ) * (cx (r.matrix n) *ᵥ I m k) x +
      turn (ω * dt m) / dt m * (cx (l.matrix n) *ᵥ I m k) x)
    rw [Complex.real_smul]
    push_cast at e ⊢
    linear_combination e
  · intro k hk
    have e := ac.node (k + 1) (Nat.succ_pos k) (by show k + 1 < (s m).m; omega)
    simp only [Nat.add_sub_cancel, ed k (by omega), ed (k + 1) hk, e3, e4] at e
    funext x
    have e := congrFun e x
    simp only [mulVec_smul, Pi.smul_apply, Pi.add_apply, Pi.sub_apply, Pi.neg_apply, Pi.zero_apply, Complex.real_smul, smul_eq_mul,
      smul_zero, mulVec_zero, sub_zero, add_zero] at e
    show I m (k + 1) x = I m k x - (D / m : ℝ) • (((Real.cos (ω * dt m / 2) : ℝ) : ℂ) * (cx (g.matrix n) *ᵥ V m (k + 1)) x +
      turn (ω * dt m) / dt m * (cx (c.matrix n) *ᵥ V m (k + 1)) x)
    rw [Complex.real_smul]
    push_cast at e ⊢
    linear_combination e
  · have e := ac.first
    simp only [ed 0 hm.1, e3, e4, e5, Pi.zero_apply, smul_zero, mulVec_zero, add_zero] at e
    rw [← Complex.coe_smul, ← Complex.coe_smul] at e
    rw [e, hβ]
    congr 1
    show cx (Zs.diag n) *ᵥ _ = cx (Zs.diag n) *ᵥ _
    congr 2
    funext x
    show _ = ((D / m / 2 : ℝ) * (turn (ω * dt m) / (s m).dt) : ℂ) * (cx (c.matrix n) *ᵥ V m 0) x +
      ((D / m / 2 : ℝ) * (Real.cos (ω * dt m / 2) : ℝ) : ℂ) * (cx (g.matrix n) *ᵥ V m 0) x
    simp only [mulVec_smul, Pi.smul_apply, Pi.add_apply, Complex.real_smul, smul_eq_mul]
    push_cast
    ring
  · have e := ac.last
    have em' : ({ s m with dt := dt m, vSources := S m } : MTL n p).m = m := em
    rw [em'] at e
    simp only [ed (m - 1) (by omega), e3, e4, e6, Pi.zero_apply, smul_zero, mulVec_zero, add_zero] at e
    rw [sub_eq_add_neg, ← Complex.coe_smul, ← Complex.coe_smul, ← mulVec_neg] at e
    rw [e, hβ]
    congr 1
    show cx (Zl.diag n) *ᵥ _ = cx (Zl.diag n) *ᵥ _
    congr 1
    funext x
    show _ = I m (m - 1) x - (((D / m / 2 : ℝ) * (turn (ω * dt m) / (s m).dt) : ℂ) * (cx (c.matrix n) *ᵥ V m m) x +
      ((D / m / 2 : ℝ) * (Real.cos (ω * dt m / 2) : ℝ) : ℂ) * (cx (g.matrix n) *ᵥ V m m) x)
    simp only [mulVec_smul, Pi.smul_apply, Pi.add_apply, Pi.neg_apply, Complex.real_smul, smul_eq_mul]
    push_cast
    ring

/-- **C187.**  For more and more cells, and any time steps up to the automatic ones, the amplitudes of the voltages and currents tend to the
solution of the telegrapher's equations, for any matrices; the sources may tend to their limit. -/
theorem C187_any_limit {F : ℕ → Fin n → ℂ} (hF : Tendsto F atTop (𝓝 E)) (hD : 0 < D)
    (h : ∀ m > 0, MTL.new p l c r g D [] [m] Zs Zl name = .ok ⟨n, s m⟩) (hl : SPD (l.matrix n)) (hc : SPD (c.matrix n))
    (hr : Dissipative (r.matrix n)) (hg : Dissipative (g.matrix n)) (hzs : ∀ i < n, 0 ≤ Zs.value i) (hzl : ∀ i < n, 0 ≤ Zl.value i)
    (hz : (∀ i < n, 0 < Zs.value i) ∨ ∀ i < n, 0 < Zl.value i) (hdt : ∀ m > 0, 0 < dt m ∧ dt m ≤ (s m).dt)
    (hac : ∀ m > 0, ω * dt m < Real.pi → ({ s m with dt := dt m, vSources := S m } : MTL n p).AC (s m).dt (ω * dt m) (F m) 0 0 0
      (V m) (I m))
    {v i : ℝ → Fin n → ℂ}
    (hv : TelegraphN (perLength ω (r.matrix n) (l.matrix n)) (perLength ω (g.matrix n) (c.matrix n)) E D (Zs.diag n) (Zl.diag n) v i) :
    ∀ ε > 0, ∃ M, ∀ m ≥ M, (∀ k ≤ m, ∀ x, ‖V m k x - v (k * D / m) x‖ ≤ ε) ∧
      ∀ k < m, ∀ x, ‖I m k x - i ((k + 1 / 2) * D / m) x‖ ≤ ε :=
  C187_ends_limit hF tendsto_const_nhds hD h hl hc hr hg hzs hzl hz hdt hac
    ⟨hv.voltage, hv.current, hv.first, by rw [hv.last, zero_add]⟩

/-- **C187** for programs: a line of several conductors with any matrices, sinusoidal sources at its beginning and resistances at an end.
For more and more cells the voltages and currents of its runs settle on the solution of the telegrapher's equations. -/
theorem C187_any_program (hD : 0 < D) (h : ∀ m > 0, MTL.new p l c r g D [] [m] Zs Zl name = .ok ⟨n, s m⟩)
    (hl : SPD (l.matrix n)) (hc : SPD (c.matrix n)) (hr : Dissipative (r.matrix n)) (hg : Dissipative (g.matrix n))
    (hzs : ∀ i < n, 0 ≤ Zs.value i) (hzl : ∀ i < n, 0 ≤ Zl.value i) (hz : (∀ i < n, 0 < Zs.value i) ∨ ∀ i < n, 0 < Zl.value i)
    (hω : 0 < ω) (hdt : ∀ m > 0, 0 < dt m ∧ dt m < (s m).dt) (hS : ∀ m k x, ∀ u < 0, S m k x u = 0)
    (hS0 : ∀ m x, ∀ u ≥ 0, S m 0 x u = (E x * Complex.exp (ω * u * Complex.I)).re) (hS1 : ∀ m > 0, ∀ x u, S m m x u = 0)
    {v i : ℝ → Fin n → ℂ}
    (hv : TelegraphN (perLength ω (r.matrix n) (l.matrix n)) (perLength ω (g.matrix n) (c.matrix n)) E D (Zs.diag n) (Zl.diag n) v i) :
    ∀ ε > 0, ∃ M, ∀ m ≥ M, ∃ J, ∀ (T : ℝ) (t' : MTL n p) (N : ℕ) (tr : ℕ → MTL n p),
      RunTrace { s m with dt := dt m, vSources := S m } T t' N tr → ∀ j ≥ J, j ≤ N → ∀ k ≤ m, ∀ x,
        |(tr j).v k x - (v (k * D / m) x * Complex.exp (ω * (j * dt m - dt m) * Complex.I)).re| ≤ ε ∧ (k < m →
          |(tr j).i k x - (i ((k + 1 / 2) * D / m) x * Complex.exp (ω * (j * dt m - dt m / 2) * Complex.I)).re| ≤ ε) := by
  have hex : ∀ m, ∃ V I : ℕ → Fin n → ℂ, 0 < m → ω * dt m < Real.pi →
      ({ s m with dt := dt m, vSources := S m } : MTL n p).AC (s m).dt (ω * dt m) E 0 0 0 V I ∧
      ({ s m with dt := dt m, vSources := S m } : MTL n p).Approaches
        (fun j k x => (V k x * Complex.exp (ω * (j * dt m - dt m) * Complex.I)).re)
        (fun j k x => (I k x * Complex.exp (ω * (j * dt m - dt m / 2) * Complex.I)).re) := by
    intro m
    by_cases hm : 0 < m ∧ ω * dt m < Real.pi
    · obtain ⟨em, -, hdu⟩ := constructed_cells hD hm.1 (h m hm.1)
      obtain ⟨V, I, hac, -, happ⟩ := C178_program (E0 := E) (E1 := 0) (ω := ω) (h m hm.1) hl hc hr hg hzs hzl hz hdu
        (hdt m hm.1).1 (hdt m hm.1).2 hω.le hm.2 (hS m) (fun x u hu => hS0 m x u hu)
        (fun x u hu => by rw [em, hS1 m hm.1]; simp)
      exact ⟨V, I, fun _ _ => ⟨hac, happ⟩⟩
    · exact ⟨0, 0, fun a b => absurd ⟨a, b⟩ hm⟩
  choose V I hVI using hex
  intro ε hε
  have hdt' : ∀ m > 0, 0 < dt m ∧ dt m ≤ (s m).dt := fun m hm => ⟨(hdt m hm).1, (hdt m hm).2.le⟩
  obtain ⟨M, hM⟩ := C187_any_limit (V := V) (I := I) tendsto_const_nhds hD h hl hc hr hg hzs hzl hz hdt' (fun m hm hn => (hVI m hm hn).1) hv (ε / 2) (by linarith)
  obtain ⟨M', hM'⟩ := eventually_atTop.1 ((steps_limit hD h).eventually (gt_mem_nhds (show 0 < Real.pi / ω by positivity)))
  refine ⟨M + M' + 1, fun m hm => ?_⟩
  have hm0 : 0 < m := by omega
  have hn : ω * dt m < Real.pi := by
    have h1 := hM' m (by omega)
    rw [lt_div_iff₀ hω] at h1
    nlinarith [(hdt m hm0).2]
  obtain ⟨hk, hkI⟩ := hM m (by omega)
  obtain ⟨em, -, -⟩ := constructed_cells hD hm0 (h m hm0)
  obtain ⟨J, hJ⟩ := (hVI m hm0 hn).2 (ε / 2) (by linarith)
  have close : ∀ {r ψ : ℝ} {X Y : ℂ}, |r - (X * Complex.exp (ψ * Complex.I)).re| ≤ ε / 2 → ‖X - Y‖ ≤ ε / 2 →
      |r - (Y * Complex.exp (ψ * Complex.I)).re| ≤ ε := by
    intro r ψ X Y h1 h2
    obtain ⟨e, he⟩ : ∃ e, e = Complex.exp (ψ * Complex.I) := ⟨_, rfl⟩
    have ne : ‖e‖ = 1 := by rw [he, Complex.norm_exp_ofReal_mul_I]
    rw [← he] at h1 ⊢
    have h3 : |(X * e).re - (Y * e).re| ≤ ε / 2 := by
      rw [← Complex.sub_re, ← sub_mul]
      refine (Complex.abs_re_le_norm _).trans ?_
      rw [norm_mul, ne, mul_one]
      exact h2
    calc _ = |(r - (X * e).re) + ((X * e).re - (Y * e).re)| := by congr 1; ring
      _ ≤ _ := (abs_add_le _ _).trans (by linarith)
  refine ⟨J, fun T t' N tr Rn j hj hN k hkm x => ⟨?_, fun hkl => ?_⟩⟩
  · have h1 := (hJ T t' N tr Rn j hj hN).1 k (by show k ≤ (s m).m; omega) x
    beta_reduce at h1
    rw [show (ω * (j * dt m - dt m) : ℂ) = ((ω * (j * dt m - dt m) : ℝ) : ℂ) by push_cast; ring] at h1 ⊢
    exact close h1 (hk k hkm x)
  · have h1 := (hJ T t' N tr Rn j hj hN).2 k (by show k < (s m).m; omega) x
    beta_reduce at h1
    rw [show (ω * (j * dt m - dt m / 2) : ℂ) = ((ω * (j * dt m - dt m / 2) : ℝ) : ℂ) by push_cast; ring] at h1 ⊢
    exact close h1 (hkI k hkl x)

end

/-! ## Non-vacuity -/

/-- Two conductors that are not alike. -/
def unlike (x y z : ℝ) : Arg := .mat 2 2 fun i j => if i = j then (if i = 0 then x else z) else y

theorem unlike_spd {x y z : ℝ} (hx : 0 < x) (h : y ^ 2 < x * z) : SPD ((unlike x y z).matrix 2) := by
  have e0 : (unlike x y z).matrix 2 = !![x, y; y, z] := by
    ext i j
    fin_cases i <;> fin_cases j <;> rfl
  rw [e0]
  refine ⟨?_, fun w hw => ?_⟩
  · ext i j
    fin_cases i <;> fin_cases j <;> rfl
  · have e : x * (w ⬝ᵥ !![x, y; y, z] *ᵥ w) = (x * w 0 + y * w 1) ^ 2 + (x * z - y ^ 2) * w 1 ^ 2 := by
      simp [dotProduct, mulVec, Fin.sum_univ_two]
      ring
    refine (mul_pos_iff_of_pos_left hx).1 ?_
    rw [e]
    by_cases h1 : w 1 = 0
    · have h0 : w 0 ≠ 0 := by
        intro h0
        refine hw (funext fun q => ?_)
        fin_cases q
        · exact h0
        · exact h1
      rw [h1, mul_zero, add_zero]
      have : 0 < (x * w 0) ^ 2 := by positivity
      nlinarith
    · have h2 : 0 < (x * z - y ^ 2) * w 1 ^ 2 := mul_pos (by linarith) (by positivity)
      nlinarith [sq_nonneg (x * w 0 + y * w 1)]

/-- Such lines of all numbers of cells, and the solution they tend to. -/
example : (∃ s : ℕ → MTL 2 0, ∀ m > 0, MTL.new 0 (unlike 2 1 3) (unlike 1 (-1) 5) (.scalar 0) (.scalar 0) 1 [] [m] (.scalar 0) (.scalar 7)
      "unlike" = .ok ⟨2, s m⟩) ∧
    ∀ (ω : ℝ) (E : Fin 2 → ℂ), ∃ v i, TelegraphN (perLength ω ((Arg.scalar 0).matrix 2) ((unlike 2 1 3).matrix 2))
      (perLength ω ((Arg.scalar 0).matrix 2) ((unlike 1 (-1) 5).matrix 2)) E 1 ((ZArg.scalar 0).diag 2) ((ZArg.scalar 7).diag 2) v i := by
  have hL : SPD ((unlike 2 1 3).matrix 2) := unlike_spd (by norm_num) (by norm_num)
  have hC : SPD ((unlike 1 (-1) 5).matrix 2) := unlike_spd (by norm_num) (by norm_num)
  constructor
  · have hex : ∀ m > 0, ∃ s : MTL 2 0, MTL.new 0 (unlike 2 1 3) (unlike 1 (-1) 5) (.scalar 0) (.scalar 0) 1 [] [m] (.scalar 0) (.scalar 7)
        "unlike" = .ok ⟨2, s⟩ := by
      intro m hm
      refine C32_physical_accepted (d := m) "unlike" two_ne_zero (.matrices 2 _ _) .zero .zero (.numbers 0 7)
        hL hC dissipative_zero (fun _ _ => le_rfl) (fun _ _ => by norm_num [ZArg.value]) hm (by simp) rfl (by simp) ⟨0, by simp, ?_⟩
      intro h
      have := congrFun h 2
      simp at this
    choose f hf using hex
    refine ⟨fun m => if h : 0 < m then f m h else f 1 one_pos, fun m hm => ?_⟩
    beta_reduce
    rw [dif_pos (show 0 < m from hm)]
    exact hf m hm
  · intro ω E
    have hz : Dissipative ((Arg.scalar 0).matrix 2) := by
      rw [zero_two]
      intro x
      simp [mulVec, dotProduct]
    obtain ⟨v, i, h, -⟩ := C187_any_solution (ω := ω) (zs := fun _ => 0) (zl := fun _ => 7) hL.symm hC.symm hz hz (fun _ => le_rfl)
      (fun _ => by norm_num) (.inr fun _ => by norm_num) one_pos E
    exact ⟨v, i, h⟩

end Mtln
