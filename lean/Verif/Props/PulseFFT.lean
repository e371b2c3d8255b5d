import Verif.Props.MatchedPulse

/-! # More and more cells: the fast Fourier transforms of probes (C188) -/

namespace Mtln

open Matrix Filter Topology

variable {n p : ℕ}

/-- The run of the line without its probes. -/
theorem RunTrace.strip {s s' : MTL n p} {T : ℝ} {N : ℕ} {tr : ℕ → MTL n p} (h : RunTrace s T s' N tr) :
    RunTrace { s with probes := [] } T { s' with probes := [] } N fun j => { tr j with probes := [] } := by
  obtain ⟨lr, cg, h1, h2, h3⟩ := h.start
  refine ⟨h.len, ⟨lr, cg, h1, h2, by rw [h3]; rfl⟩, fun j hj => ?_, by rw [h.final]⟩
  obtain ⟨lr', cg', ps, e1, e2, -, e4⟩ := (step_ok_iff _ _).1 (h.step j hj)
  refine (step_ok_iff _ _).2 ⟨lr', cg', [], e1, e2, rfl, ?_⟩
  rw [e4]
  rfl

section

variable {l c r g : Arg} {D : ℝ} {Zs Zl : ZArg} {name : String} {s : ℕ → MTL n p} {dt : ℕ → ℝ} {ω t : ℝ} {S : ℕ → Src n}
  {f : Fin n → ℝ → ℝ}

/-- **C188, probes.**  Time steps such that the frequency is the fraction `a/P` of the sampling frequency, and runs of multiples of `P`
steps: for more and more cells the fast Fourier transforms of what voltage probes have recorded, times the time step, tend to the solution of
the telegrapher's equations at the nodes of the probes whose sources are the Fourier integrals of the pulses. -/
theorem C188_fft (hD : 0 < D) (h : ∀ m > 0, MTL.new p l c r g D [] [m] Zs Zl name = .ok ⟨n, s m⟩)
    (hl : SPD (l.matrix n)) (hc : SPD (c.matrix n)) (hr : Dissipative (r.matrix n)) (hg : Dissipative (g.matrix n))
    (hzs : ∀ i < n, 0 ≤ Zs.value i) (hzl : ∀ i < n, 0 ≤ Zl.value i) (hz : (∀ i < n, 0 < Zs.value i) ∨ ∀ i < n, 0 < Zl.value i)
    (hω : 0 < ω) (hdt : ∀ m > 0, 0 < dt m ∧ dt m < (s m).dt) (ht : 0 ≤ t) (hS : ∀ m k x, ∀ u < 0, S m k x u = 0)
    (hS' : ∀ m k x, ∀ u > t, S m k x u = 0) (hf : ∀ x, Continuous (f x)) (hS0 : ∀ m x u, S m 0 x u = f x u)
    (hS1 : ∀ m > 0, ∀ x u, S m m x u = 0) {a P : ℕ → ℕ} (haP : ∀ m > 0, a m < P m) (hper : ∀ m > 0, ω * dt m = 2 * Real.pi * a m / P m)
    {v i : ℝ → Fin n → ℂ}
    (hv : TelegraphN (perLength ω (r.matrix n) (l.matrix n)) (perLength ω (g.matrix n) (c.matrix n))
      (fun x => ∫ u in (0 : ℝ)..t, Complex.exp (-(ω * u : ℝ) * Complex.I) * (f x u : ℂ)) D (Zs.diag n) (Zl.diag n) v i) :
    ∀ ε > 0, ∃ M, ∀ m ≥ M, ∃ B, ∀ b ≥ B, ∀ (T : ℝ) (ps : List (Probe n)) (s' : MTL n p), ⌊T / dt m⌋.toNat = P m * b →
      ({ s m with dt := dt m, vSources := S m, probes := ps } : MTL n p).runUntil T = .ok s' →
      ∀ (y : ℕ) (q q' : Probe n) (rows : List (Col n)), ps[y]? = some q → q.type = "voltage" → q.index ≤ m → s'.probes[y]? = some q' →
        q'.val = .rows rows → ∀ x, ‖(dt m : ℂ) * (dft (column rows x)).getD (a m * b) 0 - v (q.index * D / m) x‖ ≤ ε := by
  intro ε hε
  obtain ⟨M, hM⟩ := C188_pulse hD h hl hc hr hg hzs hzl hz hω hdt ht hS hS' hf hS0 hS1 hv ε hε
  refine ⟨M + 1, fun m hm => ?_⟩
  have hm0 : 0 < m := by omega
  obtain ⟨J, hJ⟩ := hM m (by omega)
  refine ⟨J + 1, fun b hb T ps s' hN hrun y q q' rows hq hqt hqi hq' hrows x => ?_⟩
  have hP : 0 < P m := by have := haP m hm0; omega
  have hb0 : 0 < b := by omega
  have d0 := (hdt m hm0).1
  obtain ⟨tr, R, -, hprobes⟩ := C01_run_frames _ s' T hrun
  obtain ⟨-, -, -, hval⟩ := hprobes y q q' hq hq'
  replace hN : ⌊T / ({ s m with dt := dt m, vSources := S m, probes := ps } : MTL n p).dt⌋.toNat = P m * b := hN
  rw [hN] at R hval
  rw [hrows] at hval
  simp only [hqt, if_true, ProbeVal.rows.injEq] at hval
  obtain ⟨hv0, hp0⟩ : (∀ k, (s m).v k = 0) ∧ (s m).probes = [] := by
    obtain ⟨la, ca, ga, ra, zsa, zla, mem, d, -, -, -, -, -, -, -, h8⟩ := new_ok_iff.1 (h m hm0)
    obtain ⟨-, -, -, e⟩ := computeTerminalTerms_ok_iff.1 h8
    rw [e]
    exact ⟨fun _ => rfl, rfl⟩
  have R' := R.strip
  have e0 : ({ s m with dt := dt m, vSources := S m, probes := [] } : MTL n p) = { s m with dt := dt m, vSources := S m } := by
    rw [← hp0]
  have key := (hJ T _ (P m * b) _ (by rw [← e0]; exact R') (by nlinarith) q.index hqi x).1
  have t0 : (tr 0).v q.index x = 0 := by
    obtain ⟨lr, cg, -, -, e⟩ := R.start
    rw [e]
    show (s m).v q.index x = 0
    rw [hv0]
    rfl
  have hab : a m * b < P m * b := Nat.mul_lt_mul_of_pos_right (haP m hm0) hb0
  have lenr : rows.length = P m * b := by rw [hval]; simp
  have hdtc : ω * dt m = 2 * Real.pi * a m / P m := hper m hm0
  have e1 : (dft (column rows x)).getD (a m * b) 0 = ∑ j ∈ Finset.range (P m * b + 1),
      Complex.exp (-(ω * (-dt m + j * dt m) : ℝ) * Complex.I) * ((tr j).v q.index x : ℂ) := by
    unfold dft
    have lenc : (column rows x).length = P m * b := by rw [column, List.length_map, lenr]
    rw [lenc, List.getD_eq_getElem?_getD, List.getElem?_map, List.getElem?_range hab, Finset.sum_range_succ', t0, Complex.ofReal_zero,
      mul_zero, add_zero]
    show ∑ j ∈ _, _ = _
    refine Finset.sum_congr rfl fun j hj => ?_
    have hj : j < P m * b := Finset.mem_range.1 hj
    have e2 : (column rows x).getD j 0 = ((tr (j + 1)).v q.index x : ℂ) := by
      rw [column, hval, List.getD_eq_getElem?_getD, List.getElem?_map, List.getElem?_map, List.getElem?_range hj]
      rfl
    rw [e2, mul_comm]
    congr 2
    rw [show ω * (-dt m + ((j + 1 : ℕ) : ℝ) * dt m) = j * (ω * dt m) by push_cast; ring, hdtc]
    push_cast
    have hPc : (P m : ℂ) ≠ 0 := by exact_mod_cast hP.ne'
    have hbc : (b : ℂ) ≠ 0 := by exact_mod_cast hb0.ne'
    field_simp
  rw [e1]
  exact key

end

/-- Below every automatic time step there are such time steps. -/
example {ω τ : ℝ} (hω : 0 < ω) (hτ : 0 < τ) : ∃ (P : ℕ) (dt : ℝ), 1 < P ∧ 0 < dt ∧ dt < τ ∧ ω * dt = 2 * Real.pi * (1 : ℕ) / P := by
  obtain ⟨P, hP⟩ := exists_nat_gt (max 1 (2 * Real.pi / (ω * τ)))
  have h1 : (1 : ℝ) < P := lt_of_le_of_lt (le_max_left _ _) hP
  have h2 : 2 * Real.pi / (ω * τ) < P := lt_of_le_of_lt (le_max_right _ _) hP
  have p0 : (0 : ℝ) < P := by linarith
  have π0 := Real.pi_pos
  refine ⟨P, 2 * Real.pi / (P * ω), by exact_mod_cast h1, by positivity, ?_, ?_⟩
  · rw [div_lt_iff₀ (by positivity)] at h2 ⊢
    linarith
  · push_cast
    field_simp

end Mtln
