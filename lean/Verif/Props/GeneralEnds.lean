import Verif.Props.PulseLimit

/-! # More and more cells: sources at both ends (C187, C188) -/

namespace Mtln

open Matrix Filter Topology

variable {n p : ℕ}

section

variable {L C R G : Mat n} {ω D : ℝ} {zs zl : Fin n → ℝ} {v i : ℝ → Fin n → ℂ}

/-- **C187.**  The telegrapher's equations of conductors with any symmetric inductances and capacitances, any losses and resistances at the
ends, positive at one of them, have exactly one solution with sources at both ends. -/
theorem C187_ends_solution (hL : Lᵀ = L) (hC : Cᵀ = C) (hR : Dissipative R) (hG : Dissipative G) (hzs : ∀ x, 0 ≤ zs x) (hzl : ∀ x, 0 ≤ zl x)
    (hz : (∀ x, 0 < zs x) ∨ ∀ x, 0 < zl x) (hD : 0 < D) (E E1 : Fin n → ℂ) :
    ∃ v i, TelegraphEnds (perLength ω R L) (perLength ω G C) E E1 D (Matrix.diagonal zs) (Matrix.diagonal zl) v i ∧
      ∀ v' i', TelegraphEnds (perLength ω R L) (perLength ω G C) E E1 D (Matrix.diagonal zs) (Matrix.diagonal zl) v' i' →
        ∀ z ∈ Set.Icc 0 D, v' z = v z ∧ i' z = i z := by
  obtain ⟨M, hM⟩ : ∃ M, M = waveOp (mvL (perLength ω R L)) (mvL (perLength ω G C)) := ⟨_, rfl⟩
  have uniq := telegraph_uniq (ω := ω) hL hC hR hG hzs hzl hz hD
  rw [← hM] at uniq
  obtain ⟨T, hT⟩ : ∃ T : (Fin n → ℂ) × (Fin n → ℂ) →ₗ[ℂ] (Fin n → ℂ) × (Fin n → ℂ),
      ∀ w, T w = (w.1 + mvL (cx (Matrix.diagonal zs)) w.2, (flow M D w).1 - mvL (cx (Matrix.diagonal zl)) (flow M D w).2) := by
    refine ⟨(blk 1 (mvL (cx (Matrix.diagonal zs))) 0 0 + (blk 0 0 1 (-mvL (cx (Matrix.diagonal zl)))).comp (flow M D) :
      (Fin n → ℂ) × (Fin n → ℂ) →L[ℂ] (Fin n → ℂ) × (Fin n → ℂ)), fun w => ?_⟩
    show blk 1 _ 0 0 w + blk 0 0 1 (-_) (flow M D w) = _
    rw [blk_apply, blk_apply]
    simp [sub_eq_add_neg]
  have inj : Function.Injective T := by
    refine LinearMap.ker_eq_bot.1 (LinearMap.ker_eq_bot'.2 fun w hw => ?_)
    rw [hT] at hw
    exact uniq w (congrArg Prod.fst hw) (sub_eq_zero.1 (congrArg Prod.snd hw))
  obtain ⟨w, hw⟩ := LinearMap.injective_iff_surjective.1 inj (E, E1)
  have e0 : flow M 0 w = w := by rw [flow_zero]; rfl
  refine ⟨fun z => (flow M z w).1, fun z => (flow M z w).2, ⟨fun z _ => ?_, fun z _ => ?_, ?_, ?_⟩, fun v' i' h z hzz => ?_⟩
  · rw [hM]; exact (flow_telegraph w _ _ z).1.hasDerivWithinAt
  · rw [hM]; exact (flow_telegraph w _ _ z).2.hasDerivWithinAt
  · rw [hT] at hw
    simp only [e0]
    exact eq_sub_of_add_eq (congrArg Prod.fst hw)
  · rw [hT] at hw
    exact eq_add_of_sub_eq (congrArg Prod.snd hw)
  · have sol := wave_unique (A := mvL (perLength ω R L)) (B := mvL (perLength ω G C)) h.voltage h.current
    rw [← hM] at sol
    have e : (v' 0, i' 0) = w := by
      refine inj ?_
      rw [hw, hT, ← sol D ⟨hD.le, le_rfl⟩]
      refine Prod.ext ?_ ?_
      · show v' 0 + cx (Matrix.diagonal zs) *ᵥ i' 0 = E
        rw [h.first, sub_add_cancel]
      · show v' D - cx (Matrix.diagonal zl) *ᵥ i' D = E1
        rw [h.last, add_sub_cancel_right]
    have := sol z hzz
    rw [e] at this
    exact ⟨congrArg Prod.fst this, congrArg Prod.snd this⟩

end

section

variable {l c r g : Arg} {D : ℝ} {Zs Zl : ZArg} {name : String} {s : ℕ → MTL n p} {dt : ℕ → ℝ} {ω t : ℝ} {E E1 : Fin n → ℂ} {S : ℕ → Src n}
  {f f1 : Fin n → ℝ → ℝ}

/-- **C187** for programs: a line of several conductors with any matrices, sinusoidal sources at both ends and resistances at an end.
For more and more cells the voltages and currents of its runs settle on the solution of the telegrapher's equations. -/
theorem C187_ends_program (hD : 0 < D) (h : ∀ m > 0, MTL.new p l c r g D [] [m] Zs Zl name = .ok ⟨n, s m⟩)
    (hl : SPD (l.matrix n)) (hc : SPD (c.matrix n)) (hr : Dissipative (r.matrix n)) (hg : Dissipative (g.matrix n))
    (hzs : ∀ i < n, 0 ≤ Zs.value i) (hzl : ∀ i < n, 0 ≤ Zl.value i) (hz : (∀ i < n, 0 < Zs.value i) ∨ ∀ i < n, 0 < Zl.value i)
    (hω : 0 < ω) (hdt : ∀ m > 0, 0 < dt m ∧ dt m < (s m).dt) (hS : ∀ m k x, ∀ u < 0, S m k x u = 0)
    (hS0 : ∀ m x, ∀ u ≥ 0, S m 0 x u = (E x * Complex.exp (ω * u * Complex.I)).re) (hS1 : ∀ m > 0, ∀ x, ∀ u ≥ 0, S m m x u = (E1 x * Complex.exp (ω * u * Complex.I)).re)
    {v i : ℝ → Fin n → ℂ}
    (hv : TelegraphEnds (perLength ω (r.matrix n) (l.matrix n)) (perLength ω (g.matrix n) (c.matrix n)) E E1 D
      (Zs.diag n) (Zl.diag n) v i) :
    ∀ ε > 0, ∃ M, ∀ m ≥ M, ∃ J, ∀ (T : ℝ) (t' : MTL n p) (N : ℕ) (tr : ℕ → MTL n p),
      RunTrace { s m with dt := dt m, vSources := S m } T t' N tr → ∀ j ≥ J, j ≤ N → ∀ k ≤ m, ∀ x,
        |(tr j).v k x - (v (k * D / m) x * Complex.exp (ω * (j * dt m - dt m) * Complex.I)).re| ≤ ε ∧ (k < m →
          |(tr j).i k x - (i ((k + 1 / 2) * D / m) x * Complex.exp (ω * (j * dt m - dt m / 2) * Complex.I)).re| ≤ ε) := by
  have hex : ∀ m, ∃ V I : ℕ → Fin n → ℂ, 0 < m → ω * dt m < Real.pi →
      ({ s m with dt := dt m, vSources := S m } : MTL n p).AC (s m).dt (ω * dt m) E E1 0 0 V I ∧
      ({ s m with dt := dt m, vSources := S m } : MTL n p).Approaches
        (fun j k x => (V k x * Complex.exp (ω * (j * dt m - dt m) * Complex.I)).re)
        (fun j k x => (I k x * Complex.exp (ω * (j * dt m - dt m / 2) * Complex.I)).re) := by
    intro m
    by_cases hm : 0 < m ∧ ω * dt m < Real.pi
    · obtain ⟨em, -, hdu⟩ := constructed_cells hD hm.1 (h m hm.1)
      obtain ⟨V, I, hac, -, happ⟩ := C178_program (E0 := E) (E1 := E1) (ω := ω) (h m hm.1) hl hc hr hg hzs hzl hz hdu
        (hdt m hm.1).1 (hdt m hm.1).2 hω.le hm.2 (hS m) (fun x u hu => hS0 m x u hu)
        (fun x u hu => by rw [em]; exact hS1 m hm.1 x u hu)
      exact ⟨V, I, fun _ _ => ⟨hac, happ⟩⟩
    · exact ⟨0, 0, fun a b => absurd ⟨a, b⟩ hm⟩
  choose V I hVI using hex
  intro ε hε
  have hdt' : ∀ m > 0, 0 < dt m ∧ dt m ≤ (s m).dt := fun m hm => ⟨(hdt m hm).1, (hdt m hm).2.le⟩
  obtain ⟨M, hM⟩ := C187_ends_limit (V := V) (I := I) tendsto_const_nhds tendsto_const_nhds hD h hl hc hr hg hzs hzl hz hdt' (fun m hm hn => (hVI m hm hn).1) hv (ε / 2) (by linarith)
  obtain ⟨M', hM'⟩ := eventually_atTop.1 ((steps_limit hD h).eventually (gt_mem_nhds (show 0 < Real.pi / ω by positivity)))
  refine ⟨M + M' + 1, fun m hm => ?_⟩
  have hm0 : 0 < m := by omega
  have hn : ω * dt m < Real.pi := by
    have h1 := hM' m (by omega)
    rw [lt_div_iff₀ hω] at h1
    nlinarith [(hdt m hm0).2]
  obtain ⟨hk, hkI⟩ := hM m (by omega)
  obtain ⟨em, -, -⟩ := constructed_cells hD hm0 (h m hm0)
  obtain ⟨J, hJ⟩ := (hVI m hm0 hn).2 (ε / 2) (by linarith)
  have close : ∀ {r ψ : ℝ} {X Y : ℂ}, |r - (X * Complex.exp (ψ * Complex.I)).re| ≤ ε / 2 → ‖X - Y‖ ≤ ε / 2 →
      |r - (Y * Complex.exp (ψ * Complex.I)).re| ≤ ε := by
    intro r ψ X Y h1 h2
    obtain ⟨e, he⟩ : ∃ e, e = Complex.exp (ψ * Complex.I) := ⟨_, rfl⟩
    have ne : ‖e‖ = 1 := by rw [he, Complex.norm_exp_ofReal_mul_I]
    rw [← he] at h1 ⊢
    have h3 : |(X * e).re - (Y * e).re| ≤ ε / 2 := by
      rw [← Complex.sub_re, ← sub_mul]
      refine (Complex.abs_re_le_norm _).trans ?_
      rw [norm_mul, ne, mul_one]
      exact h2
    calc _ = |(r - (X * e).re) + ((X * e).re - (Y * e).re)| := by congr 1; ring
      _ ≤ _ := (abs_add_le _ _).trans (by linarith)
  refine ⟨J, fun T t' N tr Rn j hj hN k hkm x => ⟨?_, fun hkl => ?_⟩⟩
  · have h1 := (hJ T t' N tr Rn j hj hN).1 k (by show k ≤ (s m).m; omega) x
    beta_reduce at h1
    rw [show (ω * (j * dt m - dt m) : ℂ) = ((ω * (j * dt m - dt m) : ℝ) : ℂ) by push_cast; ring] at h1 ⊢
    exact close h1 (hk k hkm x)
  · have h1 := (hJ T t' N tr Rn j hj hN).2 k (by show k < (s m).m; omega) x
    beta_reduce at h1
    rw [show (ω * (j * dt m - dt m / 2) : ℂ) = ((ω * (j * dt m - dt m / 2) : ℝ) : ℂ) by push_cast; ring] at h1 ⊢
    exact close h1 (hkI k hkl x)

/-- **C188.**  A line of conductors with resistances at an end, driven at both ends by continuous pulses.  For
more and more cells the Fourier transforms of the voltages and currents of its runs, sums over the samples times the time step, tend to the
solution of the telegrapher's equations whose sources are the Fourier integrals of the pulses, uniformly over the line. -/
theorem C188_pulse_ends (hD : 0 < D) (h : ∀ m > 0, MTL.new p l c r g D [] [m] Zs Zl name = .ok ⟨n, s m⟩)
    (hl : SPD (l.matrix n)) (hc : SPD (c.matrix n)) (hr : Dissipative (r.matrix n)) (hg : Dissipative (g.matrix n))
    (hzs : ∀ i < n, 0 ≤ Zs.value i) (hzl : ∀ i < n, 0 ≤ Zl.value i) (hz : (∀ i < n, 0 < Zs.value i) ∨ ∀ i < n, 0 < Zl.value i)
    (hω : 0 < ω) (hdt : ∀ m > 0, 0 < dt m ∧ dt m < (s m).dt) (ht : 0 ≤ t) (hS : ∀ m k x, ∀ u < 0, S m k x u = 0)
    (hS' : ∀ m k x, ∀ u > t, S m k x u = 0) (hf : ∀ x, Continuous (f x)) (hf1 : ∀ x, Continuous (f1 x)) (hS0 : ∀ m x u, S m 0 x u = f x u)
    (hS1 : ∀ m > 0, ∀ x u, S m m x u = f1 x u) {v i : ℝ → Fin n → ℂ}
    (hv : TelegraphEnds (perLength ω (r.matrix n) (l.matrix n)) (perLength ω (g.matrix n) (c.matrix n))
      (fun x => ∫ u in (0 : ℝ)..t, Complex.exp (-(ω * u : ℝ) * Complex.I) * (f x u : ℂ))
      (fun x => ∫ u in (0 : ℝ)..t, Complex.exp (-(ω * u : ℝ) * Complex.I) * (f1 x u : ℂ)) D (Zs.diag n) (Zl.diag n) v i) :
    ∀ ε > 0, ∃ M, ∀ m ≥ M, ∃ J, ∀ (T : ℝ) (t' : MTL n p) (N : ℕ) (tr : ℕ → MTL n p),
      RunTrace { s m with dt := dt m, vSources := S m } T t' N tr → J ≤ N → ∀ k ≤ m, ∀ x,
        ‖(dt m : ℂ) * ∑ j ∈ Finset.range (N + 1), Complex.exp (-(ω * (-dt m + j * dt m) : ℝ) * Complex.I) * ((tr j).v k x : ℂ) -
          v (k * D / m) x‖ ≤ ε ∧ (k < m →
        ‖(dt m : ℂ) * ∑ j ∈ Finset.range (N + 1), Complex.exp (-(ω * (-(dt m / 2) + j * dt m) : ℝ) * Complex.I) * ((tr j).i k x : ℂ) -
          i ((k + 1 / 2) * D / m) x‖ ≤ ε) := by
  have hdt' : ∀ m > 0, 0 < dt m ∧ dt m ≤ (s m).dt := fun m hm => ⟨(hdt m hm).1, (hdt m hm).2.le⟩
  have hst := steps_limit hD h
  have hdt0 : Tendsto dt atTop (𝓝 0) := squeeze_zero' ((eventually_gt_atTop 0).mono fun m hm => (hdt m hm).1.le)
    ((eventually_gt_atTop 0).mono fun m hm => (hdt m hm).2.le) hst
  have f0 : ∀ x, ∀ u < 0, f x u = 0 := fun x u hu => by rw [← hS0 0 x u]; exact hS 0 0 x u hu
  have ft : ∀ x, ∀ u > t, f x u = 0 := fun x u hu => by rw [← hS0 0 x u]; exact hS' 0 0 x u hu
  have g0 : ∀ x, ∀ u < 0, f1 x u = 0 := fun x u hu => by rw [← hS1 1 one_pos x u]; exact hS 1 1 x u hu
  have gt : ∀ x, ∀ u > t, f1 x u = 0 := fun x u hu => by rw [← hS1 1 one_pos x u]; exact hS' 1 1 x u hu
  have hex : ∀ m, ∃ (N : ℕ) (V I : ℕ → Fin n → ℂ), (0 < m → ∀ j : ℕ, j > N → ∀ x, f x (-dt m + j * dt m) = 0 ∧ f1 x (-dt m + j * dt m) = 0) ∧
      (0 < m → ω * dt m < Real.pi →
        ({ s m with dt := dt m, vSources := S m } : MTL n p).AC (s m).dt (ω * dt m)
          (fun x => ∑ j ∈ Finset.range (N + 1), Complex.exp (-(ω * (-dt m + j * dt m) : ℝ) * Complex.I) * (f x (-dt m + j * dt m) : ℂ))
          (fun x => ∑ j ∈ Finset.range (N + 1), Complex.exp (-(ω * (-dt m + j * dt m) : ℝ) * Complex.I) * (f1 x (-dt m + j * dt m) : ℂ))
          0 0 V I ∧
        ∀ ε > 0, ∃ J, ∀ (T : ℝ) (t' : MTL n p) (N : ℕ) (tr : ℕ → MTL n p), RunTrace { s m with dt := dt m, vSources := S m } T t' N tr →
          J ≤ N →
          (∀ k ≤ (s m).m, ∀ a, ‖∑ j ∈ Finset.range (N + 1), Complex.exp (-(ω * (-dt m + j * dt m) : ℝ) * Complex.I) *
            ((tr j).v k a : ℂ) - V k a‖ ≤ ε) ∧
          ∀ k < (s m).m, ∀ a, ‖∑ j ∈ Finset.range (N + 1), Complex.exp (-(ω * (-(dt m / 2) + j * dt m) : ℝ) * Complex.I) *
            ((tr j).i k a : ℂ) - I k a‖ ≤ ε) := by
    intro m
    by_cases hm : 0 < m
    · by_cases hn : ω * dt m < Real.pi
      · obtain ⟨em, -, hdu⟩ := constructed_cells hD hm (h m hm)
        obtain ⟨N, hN, V, I, hac, happ⟩ := C180_program (ω := ω) (h m hm) hl hc hr hg hzs hzl hz hdu (hdt m hm).1 (hdt m hm).2 hω.le hn
          (hS m) (hS' m)
        refine ⟨N, V, I, fun _ j hj x => ⟨by rw [← hS0 m]; exact hN j hj 0 x, by rw [← hS1 m hm]; exact hN j hj m x⟩, fun _ _ => ⟨?_, happ⟩⟩
        have hm1 : ∀ x u, S m (s m).m x u = f1 x u := fun x u => by rw [em]; exact hS1 m hm x u
        simp only [hS0, hm1] at hac
        exact hac
      · obtain ⟨K, hK⟩ := exists_nat_gt (t / dt m + 1)
        refine ⟨K, 0, 0, fun _ j hj x => ?_, fun _ h => absurd h hn⟩
        have d0 := (hdt m hm).1
        have hj' : (K : ℝ) < j := by exact_mod_cast hj
        have h2 : t / dt m < j - 1 := by linarith
        rw [div_lt_iff₀ d0] at h2
        have h3 : t < -dt m + j * dt m := by linarith
        exact ⟨ft x _ h3, gt x _ h3⟩
    · exact ⟨0, 0, 0, fun h => absurd h hm, fun h => absurd h hm⟩
  choose N V I hNz hVI using hex
  obtain ⟨F, hF⟩ : ∃ F : ℕ → Fin n → ℂ, ∀ m, F m = (dt m : ℂ) • fun x => ∑ j ∈ Finset.range (N m + 1),
    Complex.exp (-(ω * (-dt m + j * dt m) : ℝ) * Complex.I) * (f x (-dt m + j * dt m) : ℂ) := ⟨_, fun _ => rfl⟩
  have lF : Tendsto F atTop (𝓝 fun x => ∫ u in (0 : ℝ)..t, Complex.exp (-(ω * u : ℝ) * Complex.I) * (f x u : ℂ)) := by
    rw [tendsto_pi_nhds]
    intro x
    have hcont : Continuous fun u : ℝ => Complex.exp (-(ω * u : ℝ) * Complex.I) * (f x u : ℂ) := by
      have := hf x
      fun_prop
    have := riemann (N := N) hcont ht (fun u hu => by simp only [f0 x u hu, Complex.ofReal_zero, mul_zero])
      (fun u hu => by simp only [ft x u hu, Complex.ofReal_zero, mul_zero]) (fun m hm => (hdt m hm).1) hdt0
      (fun m hm j hj => by simp only [(hNz m hm j hj x).1, Complex.ofReal_zero, mul_zero])
    refine this.congr fun m => ?_
    rw [hF]
    rfl
  obtain ⟨F1, hF1⟩ : ∃ F1 : ℕ → Fin n → ℂ, ∀ m, F1 m = (dt m : ℂ) • fun x => ∑ j ∈ Finset.range (N m + 1),
    Complex.exp (-(ω * (-dt m + j * dt m) : ℝ) * Complex.I) * (f1 x (-dt m + j * dt m) : ℂ) := ⟨_, fun _ => rfl⟩
  have lF1 : Tendsto F1 atTop (𝓝 fun x => ∫ u in (0 : ℝ)..t, Complex.exp (-(ω * u : ℝ) * Complex.I) * (f1 x u : ℂ)) := by
    rw [tendsto_pi_nhds]
    intro x
    have hcont : Continuous fun u : ℝ => Complex.exp (-(ω * u : ℝ) * Complex.I) * (f1 x u : ℂ) := by
      have := hf1 x
      fun_prop
    have := riemann (N := N) hcont ht (fun u hu => by simp only [g0 x u hu, Complex.ofReal_zero, mul_zero])
      (fun u hu => by simp only [gt x u hu, Complex.ofReal_zero, mul_zero]) (fun m hm => (hdt m hm).1) hdt0
      (fun m hm j hj => by simp only [(hNz m hm j hj x).2, Complex.ofReal_zero, mul_zero])
    refine this.congr fun m => ?_
    rw [hF1]
    rfl
  intro ε hε
  obtain ⟨M, hM⟩ := C187_ends_limit (V := fun m => (dt m : ℂ) • V m) (I := fun m => (dt m : ℂ) • I m) lF lF1 hD h hl hc hr hg hzs hzl hz hdt' (fun m hm hn => by
      have := (hVI m hm hn).1.scale (dt m : ℂ)
      rw [← hF, ← hF1] at this
      exact this) hv (ε / 2) (by linarith)
  obtain ⟨M', hM'⟩ := eventually_atTop.1 (hst.eventually (gt_mem_nhds (show 0 < Real.pi / ω by positivity)))
  refine ⟨M + M' + 1, fun m hm => ?_⟩
  have hm0 : 0 < m := by omega
  have d0 := (hdt m hm0).1
  have hn : ω * dt m < Real.pi := by
    have h1 := hM' m (by omega)
    rw [lt_div_iff₀ hω] at h1
    nlinarith [(hdt m hm0).2]
  obtain ⟨hk, hkI⟩ := hM m (by omega)
  obtain ⟨em, -, -⟩ := constructed_cells hD hm0 (h m hm0)
  obtain ⟨J, hJ⟩ := (hVI m hm0 hn).2 (ε / (2 * dt m)) (by positivity)
  have close : ∀ {X Y Z : ℂ}, ‖X - Y‖ ≤ ε / (2 * dt m) → ‖(dt m : ℂ) * Y - Z‖ ≤ ε / 2 → ‖(dt m : ℂ) * X - Z‖ ≤ ε := by
    intro X Y Z a b
    have e : (dt m : ℂ) * X - Z = (dt m : ℂ) * (X - Y) + ((dt m : ℂ) * Y - Z) := by ring
    rw [e]
    refine (norm_add_le _ _).trans ?_
    rw [norm_mul, Complex.norm_real, Real.norm_eq_abs, abs_of_pos d0]
    have h3 := mul_le_mul_of_nonneg_left a d0.le
    rw [show dt m * (ε / (2 * dt m)) = ε / 2 by field_simp] at h3
    linarith
  refine ⟨J, fun T t' N tr Rn hN k hkm x => ⟨?_, fun hkl => ?_⟩⟩
  · exact close ((hJ T t' N tr Rn hN).1 k (by omega) x) (hk k hkm x)
  · exact close ((hJ T t' N tr Rn hN).2 k (by omega) x) (hkI k hkl x)

end

/-- Different continuous pulses at the ends. -/
example : ∃ f f1 : ℝ → ℝ, Continuous f ∧ Continuous f1 ∧ (∀ u < 0, f u = 0 ∧ f1 u = 0) ∧ (∀ u > 2, f u = 0 ∧ f1 u = 0) ∧ f 1 = 1 ∧
    f1 1 = -3 := by
  have h1 : ∀ u : ℝ, u < 0 → max 0 (1 - |u - 1|) = 0 := fun u hu => by
    rw [abs_of_neg (by linarith)]
    exact max_eq_left (by linarith)
  have h2 : ∀ u : ℝ, u > 2 → max 0 (1 - |u - 1|) = 0 := fun u hu => by
    rw [abs_of_pos (by linarith)]
    exact max_eq_left (by linarith)
  refine ⟨fun u => max 0 (1 - |u - 1|), fun u => -3 * max 0 (1 - |u - 1|), by fun_prop, by fun_prop, fun u hu => ?_, fun u hu => ?_,
    by norm_num, by norm_num⟩
  · simp [h1 u hu]
  · simp [h2 u hu]

end Mtln
