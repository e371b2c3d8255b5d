import Mathlib.MeasureTheory.Integral.IntervalIntegral.Basic
import Mathlib.MeasureTheory.Integral.DominatedConvergence
import Mathlib.Topology.Order.DenselyOrdered
import Verif.Props.GeneralLimit
import Verif.Props.Homogeneous
import Verif.Props.Spectrum

/-! # More and more cells: the Fourier transforms of the responses to pulses (C188) -/

namespace Mtln

open Matrix Filter Topology

variable {n p : ℕ}

/-- Sums over the samples of a function with bounded support tend to its integral. -/
theorem riemann {g : ℝ → ℂ} (hg : Continuous g) {t : ℝ} (ht : 0 ≤ t) (h0 : ∀ u < 0, g u = 0) (h1 : ∀ u > t, g u = 0) {dt : ℕ → ℝ}
    (hpos : ∀ m > 0, 0 < dt m) (hdt0 : Tendsto dt atTop (𝓝 0)) {N : ℕ → ℕ} (hN : ∀ m > 0, ∀ j : ℕ, j > N m → g (-dt m + j * dt m) = 0) :
    Tendsto (fun m => (dt m : ℂ) * ∑ j ∈ Finset.range (N m + 1), g (-dt m + j * dt m)) atTop (𝓝 (∫ u in (0 : ℝ)..t, g u)) := by
  have cl : IsClosed {u | g u = 0} := isClosed_eq hg continuous_const
  have h0' : ∀ u ≤ 0, g u = 0 := by
    have h2 : closure (Set.Iio (0 : ℝ)) ⊆ {u | g u = 0} := cl.closure_subset_iff.2 fun u hu => h0 u hu
    rw [closure_Iio] at h2
    exact fun u hu => h2 hu
  have h1' : ∀ u ≥ t, g u = 0 := by
    have h2 : closure (Set.Ioi t) ⊆ {u | g u = 0} := cl.closure_subset_iff.2 fun u hu => h1 u hu
    rw [closure_Ioi] at h2
    exact fun u hu => h2 hu
  have comp : HasCompactSupport g := by
    refine HasCompactSupport.intro (isCompact_Icc (a := (0 : ℝ)) (b := t)) fun u hu => ?_
    rw [Set.mem_Icc, not_and_or, not_le, not_le] at hu
    exact hu.elim (h0 u) (h1 u)
  have uc := comp.uniformContinuous_of_continuous hg
  rw [Metric.uniformContinuous_iff] at uc
  have ii : ∀ a b : ℝ, IntervalIntegrable g MeasureTheory.volume a b := fun a b => hg.intervalIntegrable a b
  rw [Metric.tendsto_atTop]
  intro ε hε
  obtain ⟨η, hη⟩ : ∃ η, η = ε / (2 * (t + 3)) := ⟨_, rfl⟩
  have η0 : 0 < η := by rw [hη]; positivity
  obtain ⟨δ, δ0, hδ⟩ := uc η η0
  obtain ⟨M, hM⟩ := eventually_atTop.1 ((hdt0.eventually (gt_mem_nhds (lt_min δ0 one_pos))).and (eventually_gt_atTop 0))
  refine ⟨M, fun m hm => ?_⟩
  obtain ⟨hlt, hm0⟩ := hM m hm
  obtain ⟨q, hq⟩ : ∃ q, q = dt m := ⟨_, rfl⟩
  have q0 : 0 < q := by rw [hq]; exact hpos m hm0
  have hN' := hN m hm0
  rw [← hq] at hlt hN' ⊢
  have qδ : q < δ := lt_of_lt_of_le hlt (min_le_left _ _)
  have q1 : q < 1 := lt_of_lt_of_le hlt (min_le_right _ _)
  obtain ⟨K, hK⟩ : ∃ K, K = ⌈t / q⌉₊ + 1 := ⟨_, rfl⟩
  have k1 : t < K * q := by
    have := Nat.le_ceil (t / q)
    rw [div_le_iff₀ q0] at this
    rw [hK]
    push_cast
    linarith
  have k2 : K * q ≤ t + 2 * q := by
    have := (Nat.ceil_lt_add_one (div_nonneg ht q0.le)).le
    have h3 : (⌈t / q⌉₊ : ℝ) * q ≤ (t / q + 1) * q := mul_le_mul_of_nonneg_right this q0.le
    rw [add_mul, div_mul_cancel₀ _ q0.ne'] at h3
    rw [hK]
    push_cast
    linarith
  have hKz : ∀ j : ℕ, j > K → g (-q + j * q) = 0 := by
    intro j hj
    have : ((K : ℝ) + 1) * q ≤ j * q := mul_le_mul_of_nonneg_right (by exact_mod_cast hj) q0.le
    exact h1 _ (by show t < _; linarith)
  have ext : ∀ L : ℕ, (∀ j : ℕ, j > L → g (-q + j * q) = 0) → ∑ j ∈ Finset.range (L + 1), g (-q + j * q) =
      ∑ j ∈ Finset.range (max (N m) K + 1), g (-q + j * q) ∨ max (N m) K < L := by
    intro L hL
    by_cases hle : L ≤ max (N m) K
    · left
      refine Finset.sum_subset (fun j hj => ?_) fun j _ hj => hL j ?_
      · rw [Finset.mem_range] at hj ⊢
        omega
      · rw [Finset.mem_range] at hj
        omega
    · exact .inr (not_le.1 hle)
  have e1 : ∑ j ∈ Finset.range (N m + 1), g (-q + j * q) = ∑ j ∈ Finset.range (K + 1), g (-q + j * q) :=
    ((ext (N m) hN').resolve_right (not_lt.2 (le_max_left _ _))).trans
      ((ext K hKz).resolve_right (not_lt.2 (le_max_right _ _))).symm
  have zero : ∀ a b : ℝ, (∀ u ∈ Set.uIcc a b, g u = 0) → ∫ u in a..b, g u = 0 := by
    intro a b hz
    rw [intervalIntegral.integral_congr (g := fun _ => (0 : ℂ)) fun u hu => hz u hu, intervalIntegral.integral_zero]
  have e2 : ∑ j ∈ Finset.range (K + 1), ∫ u in (-q + (j : ℝ) * q)..(-q + ((j + 1 : ℕ) : ℝ) * q), g u = ∫ u in (0 : ℝ)..t, g u := by
    rw [intervalIntegral.sum_integral_adjacent_intervals (a := fun j : ℕ => -q + (j : ℝ) * q) fun _ _ => ii _ _]
    have z1 : ∫ u in (-q + ((0 : ℕ) : ℝ) * q)..0, g u = 0 := by
      refine zero _ _ fun u hu => ?_
      rw [Set.uIcc_of_le (by simp; exact q0.le)] at hu
      exact h0' u hu.2
    have z2 : ∫ u in t..(-q + ((K + 1 : ℕ) : ℝ) * q), g u = 0 := by
      refine zero _ _ fun u hu => ?_
      rw [Set.uIcc_of_le (by push_cast; linarith)] at hu
      exact h1' u hu.1
    rw [← intervalIntegral.integral_add_adjacent_intervals (ii _ 0) (ii 0 _), ← intervalIntegral.integral_add_adjacent_intervals (ii 0 t)
      (ii t _), z1, z2, zero_add, add_zero]
  have cell : ∀ j : ℕ, ‖(q : ℂ) * g (-q + j * q) - ∫ u in (-q + (j : ℝ) * q)..(-q + ((j + 1 : ℕ) : ℝ) * q), g u‖ ≤ η * q := by
    intro j
    have len : -q + ((j + 1 : ℕ) : ℝ) * q - (-q + (j : ℝ) * q) = q := by push_cast; ring
    have e3 : (q : ℂ) * g (-q + j * q) = ∫ _ in (-q + (j : ℝ) * q)..(-q + ((j + 1 : ℕ) : ℝ) * q), g (-q + j * q) := by
      rw [intervalIntegral.integral_const, len, Complex.real_smul]
    rw [e3, ← intervalIntegral.integral_sub intervalIntegrable_const (ii _ _)]
    refine (intervalIntegral.norm_integral_le_of_norm_le_const (C := η) fun u hu => ?_).trans ?_
    · rw [← dist_eq_norm]
      refine (hδ ?_).le
      rw [Set.uIoc_of_le (by linarith)] at hu
      rw [Real.dist_eq, abs_lt]
      constructor
      · linarith [hu.2]
      · linarith [hu.1]
    · rw [len, abs_of_pos q0]
  rw [e1, ← e2, dist_eq_norm, Finset.mul_sum, ← Finset.sum_sub_distrib]
  refine lt_of_le_of_lt (norm_sum_le_of_le _ fun j _ => cell j) ?_
  rw [Finset.sum_const, Finset.card_range, nsmul_eq_mul]
  push_cast
  have h3 : ((K : ℝ) + 1) * q ≤ t + 3 := by linarith
  have h4 : η * (t + 3) = ε / 2 := by rw [hη]; field_simp
  nlinarith

/-- Solutions multiplied by a number belong to the sources multiplied by it. -/
theorem MTL.AC.scale {s : MTL n p} {τ θ : ℝ} {E0 E1 : Fin n → ℂ} {V I : ℕ → Fin n → ℂ} (h : s.AC τ θ E0 E1 0 0 V I) (z : ℂ) :
    s.AC τ θ (z • E0) (z • E1) 0 0 (z • V) (z • I) := by
  have e : ∀ X : Fin n → ℂ, turn θ • z • X = z • turn θ • X := fun X => smul_comm _ _ _
  have e' : ∀ (r : ℝ) (X : Fin n → ℂ), r • z • X = z • r • X := fun r X => smul_comm _ _ _
  refine ⟨fun k hk => ?_, fun k h0 hk => ?_, ?_, ?_⟩
  · have a := congrArg (z • ·) (h.cell k hk)
    simp only [Pi.smul_apply, Pi.zero_apply, sub_zero, smul_zero, add_zero, smul_add, smul_neg, smul_sub, e, e', mulVec_smul] at a ⊢
    exact a
  · have a := congrArg (z • ·) (h.node k h0 hk)
    simp only [Pi.smul_apply, Pi.zero_apply, sub_zero, smul_zero, add_zero, smul_add, smul_neg, smul_sub, e, e', mulVec_smul,
      mulVec_zero] at a ⊢
    exact a
  · have a := congrArg (z • ·) h.first
    simp only [Pi.smul_apply, Pi.zero_apply, zero_sub, smul_zero, add_zero, smul_add, smul_neg, smul_sub, e, e', mulVec_smul,
      mulVec_zero, mulVec_add] at a ⊢
    exact a
  · have a := congrArg (z • ·) h.last
    simp only [Pi.smul_apply, Pi.zero_apply, zero_sub, smul_zero, add_zero, smul_add, smul_neg, smul_sub, e, e', mulVec_smul,
      mulVec_zero, mulVec_add, mulVec_neg] at a ⊢
    exact a

section

variable {l c r g : Arg} {D : ℝ} {Zs Zl : ZArg} {name : String} {s : ℕ → MTL n p} {dt : ℕ → ℝ} {ω t : ℝ} {S : ℕ → Src n}
  {f : Fin n → ℝ → ℝ}

/-- **C188.**  A line of conductors with resistances at an end, driven at its beginning by continuous pulses.  For
more and more cells the Fourier transforms of the voltages and currents of its runs, sums over the samples times the time step, tend to the
solution of the telegrapher's equations whose sources are the Fourier integrals of the pulses, uniformly over the line. -/
theorem C188_pulse (hD : 0 < D) (h : ∀ m > 0, MTL.new p l c r g D [] [m] Zs Zl name = .ok ⟨n, s m⟩)
    (hl : SPD (l.matrix n)) (hc : SPD (c.matrix n)) (hr : Dissipative (r.matrix n)) (hg : Dissipative (g.matrix n))
    (hzs : ∀ i < n, 0 ≤ Zs.value i) (hzl : ∀ i < n, 0 ≤ Zl.value i) (hz : (∀ i < n, 0 < Zs.value i) ∨ ∀ i < n, 0 < Zl.value i)
    (hω : 0 < ω) (hdt : ∀ m > 0, 0 < dt m ∧ dt m < (s m).dt) (ht : 0 ≤ t) (hS : ∀ m k x, ∀ u < 0, S m k x u = 0)
    (hS' : ∀ m k x, ∀ u > t, S m k x u = 0) (hf : ∀ x, Continuous (f x)) (hS0 : ∀ m x u, S m 0 x u = f x u)
    (hS1 : ∀ m > 0, ∀ x u, S m m x u = 0) {v i : ℝ → Fin n → ℂ}
    (hv : TelegraphN (perLength ω (r.matrix n) (l.matrix n)) (perLength ω (g.matrix n) (c.matrix n))
      (fun x => ∫ u in (0 : ℝ)..t, Complex.exp (-(ω * u : ℝ) * Complex.I) * (f x u : ℂ)) D (Zs.diag n) (Zl.diag n) v i) :
    ∀ ε > 0, ∃ M, ∀ m ≥ M, ∃ J, ∀ (T : ℝ) (t' : MTL n p) (N : ℕ) (tr : ℕ → MTL n p),
      RunTrace { s m with dt := dt m, vSources := S m } T t' N tr → J ≤ N → ∀ k ≤ m, ∀ x,
        ‖(dt m : ℂ) * ∑ j ∈ Finset.range (N + 1), Complex.exp (-(ω * (-dt m + j * dt m) : ℝ) * Complex.I) * ((tr j).v k x : ℂ) -
          v (k * D / m) x‖ ≤ ε ∧ (k < m →
        ‖(dt m : ℂ) * ∑ j ∈ Finset.range (N + 1), Complex.exp (-(ω * (-(dt m / 2) + j * dt m) : ℝ) * Complex.I) * ((tr j).i k x : ℂ) -
          i ((k + 1 / 2) * D / m) x‖ ≤ ε) := by
  have hdt' : ∀ m > 0, 0 < dt m ∧ dt m ≤ (s m).dt := fun m hm => ⟨(hdt m hm).1, (hdt m hm).2.le⟩
  have hst := steps_limit hD h
  have hdt0 : Tendsto dt atTop (𝓝 0) := squeeze_zero' ((eventually_gt_atTop 0).mono fun m hm => (hdt m hm).1.le)
    ((eventually_gt_atTop 0).mono fun m hm => (hdt m hm).2.le) hst
  have f0 : ∀ x, ∀ u < 0, f x u = 0 := fun x u hu => by rw [← hS0 0 x u]; exact hS 0 0 x u hu
  have f1 : ∀ x, ∀ u > t, f x u = 0 := fun x u hu => by rw [← hS0 0 x u]; exact hS' 0 0 x u hu
  have hex : ∀ m, ∃ (N : ℕ) (V I : ℕ → Fin n → ℂ), (0 < m → ∀ j : ℕ, j > N → ∀ x, f x (-dt m + j * dt m) = 0) ∧
      (0 < m → ω * dt m < Real.pi →
        ({ s m with dt := dt m, vSources := S m } : MTL n p).AC (s m).dt (ω * dt m)
          (fun x => ∑ j ∈ Finset.range (N + 1), Complex.exp (-(ω * (-dt m + j * dt m) : ℝ) * Complex.I) * (f x (-dt m + j * dt m) : ℂ))
          0 0 0 V I ∧
        ∀ ε > 0, ∃ J, ∀ (T : ℝ) (t' : MTL n p) (N : ℕ) (tr : ℕ → MTL n p), RunTrace { s m with dt := dt m, vSources := S m } T t' N tr →
          J ≤ N →
          (∀ k ≤ (s m).m, ∀ a, ‖∑ j ∈ Finset.range (N + 1), Complex.exp (-(ω * (-dt m + j * dt m) : ℝ) * Complex.I) *
            ((tr j).v k a : ℂ) - V k a‖ ≤ ε) ∧
          ∀ k < (s m).m, ∀ a, ‖∑ j ∈ Finset.range (N + 1), Complex.exp (-(ω * (-(dt m / 2) + j * dt m) : ℝ) * Complex.I) *
            ((tr j).i k a : ℂ) - I k a‖ ≤ ε) := by
    intro m
    by_cases hm : 0 < m
    · by_cases hn : ω * dt m < Real.pi
      · obtain ⟨em, -, hdu⟩ := constructed_cells hD hm (h m hm)
        obtain ⟨N, hN, V, I, hac, happ⟩ := C180_program (ω := ω) (h m hm) hl hc hr hg hzs hzl hz hdu (hdt m hm).1 (hdt m hm).2 hω.le hn
          (hS m) (hS' m)
        refine ⟨N, V, I, fun _ j hj x => by rw [← hS0 m]; exact hN j hj 0 x, fun _ _ => ⟨?_, happ⟩⟩
        have e1 : (fun x => ∑ j ∈ Finset.range (N + 1), Complex.exp (-(ω * (-dt m + j * dt m) : ℝ) * Complex.I) *
            (S m (s m).m x (-dt m + j * dt m) : ℂ)) = 0 := by
          funext x
          refine Finset.sum_eq_zero fun j _ => ?_
          rw [em, hS1 m hm, Complex.ofReal_zero, mul_zero]
        rw [e1] at hac
        simp only [hS0] at hac
        exact hac
      · obtain ⟨K, hK⟩ := exists_nat_gt (t / dt m + 1)
        refine ⟨K, 0, 0, fun _ j hj x => f1 x _ ?_, fun _ h => absurd h hn⟩
        have d0 := (hdt m hm).1
        have hj' : (K : ℝ) < j := by exact_mod_cast hj
        have h2 : t / dt m < j - 1 := by linarith
        rw [div_lt_iff₀ d0] at h2
        show t < _
        linarith
    · exact ⟨0, 0, 0, fun h => absurd h hm, fun h => absurd h hm⟩
  choose N V I hNz hVI using hex
  obtain ⟨F, hF⟩ : ∃ F : ℕ → Fin n → ℂ, ∀ m, F m = (dt m : ℂ) • fun x => ∑ j ∈ Finset.range (N m + 1),
    Complex.exp (-(ω * (-dt m + j * dt m) : ℝ) * Complex.I) * (f x (-dt m + j * dt m) : ℂ) := ⟨_, fun _ => rfl⟩
  have lF : Tendsto F atTop (𝓝 fun x => ∫ u in (0 : ℝ)..t, Complex.exp (-(ω * u : ℝ) * Complex.I) * (f x u : ℂ)) := by
    rw [tendsto_pi_nhds]
    intro x
    have hcont : Continuous fun u : ℝ => Complex.exp (-(ω * u : ℝ) * Complex.I) * (f x u : ℂ) := by
      have := hf x
      fun_prop
    have := riemann (N := N) hcont ht (fun u hu => by simp only [f0 x u hu, Complex.ofReal_zero, mul_zero])
      (fun u hu => by simp only [f1 x u hu, Complex.ofReal_zero, mul_zero]) (fun m hm => (hdt m hm).1) hdt0
      (fun m hm j hj => by simp only [hNz m hm j hj x, Complex.ofReal_zero, mul_zero])
    refine this.congr fun m => ?_
    rw [hF]
    rfl
  intro ε hε
  obtain ⟨M, hM⟩ := C187_any_limit (V := fun m => (dt m : ℂ) • V m) (I := fun m => (dt m : ℂ) • I m) lF hD h hl hc hr hg hzs hzl hz hdt' (fun m hm hn => by
      have := (hVI m hm hn).1.scale (dt m : ℂ)
      rw [smul_zero, ← hF] at this
      exact this) hv (ε / 2) (by linarith)
  obtain ⟨M', hM'⟩ := eventually_atTop.1 (hst.eventually (gt_mem_nhds (show 0 < Real.pi / ω by positivity)))
  refine ⟨M + M' + 1, fun m hm => ?_⟩
  have hm0 : 0 < m := by omega
  have d0 := (hdt m hm0).1
  have hn : ω * dt m < Real.pi := by
    have h1 := hM' m (by omega)
    rw [lt_div_iff₀ hω] at h1
    nlinarith [(hdt m hm0).2]
  obtain ⟨hk, hkI⟩ := hM m (by omega)
  obtain ⟨em, -, -⟩ := constructed_cells hD hm0 (h m hm0)
  obtain ⟨J, hJ⟩ := (hVI m hm0 hn).2 (ε / (2 * dt m)) (by positivity)
  have close : ∀ {X Y Z : ℂ}, ‖X - Y‖ ≤ ε / (2 * dt m) → ‖(dt m : ℂ) * Y - Z‖ ≤ ε / 2 → ‖(dt m : ℂ) * X - Z‖ ≤ ε := by
    intro X Y Z a b
    have e : (dt m : ℂ) * X - Z = (dt m : ℂ) * (X - Y) + ((dt m : ℂ) * Y - Z) := by ring
    rw [e]
    refine (norm_add_le _ _).trans ?_
    rw [norm_mul, Complex.norm_real, Real.norm_eq_abs, abs_of_pos d0]
    have h3 := mul_le_mul_of_nonneg_left a d0.le
    rw [show dt m * (ε / (2 * dt m)) = ε / 2 by field_simp] at h3
    linarith
  refine ⟨J, fun T t' N tr Rn hN k hkm x => ⟨?_, fun hkl => ?_⟩⟩
  · exact close ((hJ T t' N tr Rn hN).1 k (by omega) x) (hk k hkm x)
  · exact close ((hJ T t' N tr Rn hN).2 k (by omega) x) (hkI k hkl x)

end

/-- A continuous pulse. -/
example : ∃ f : ℝ → ℝ, Continuous f ∧ (∀ u < 0, f u = 0) ∧ (∀ u > 2, f u = 0) ∧ f 1 = 1 := by
  refine ⟨fun u => max 0 (1 - |u - 1|), by fun_prop, fun u hu => ?_, fun u hu => ?_, by norm_num⟩
  · have : |u - 1| = 1 - u := by rw [abs_of_neg (by linarith)]; ring
    simp only [this]
    exact max_eq_left (by linarith)
  · have : |u - 1| = u - 1 := abs_of_pos (by linarith)
    simp only [this]
    exact max_eq_left (by linarith)

end Mtln
