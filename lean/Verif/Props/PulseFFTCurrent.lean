import Verif.Props.PulseFFT

/-! # More and more cells: the fast Fourier transforms of current probes (C188) -/

namespace Mtln

open Matrix Filter Topology

variable {n p : ℕ}

section

variable {l c r g : Arg} {D : ℝ} {Zs Zl : ZArg} {name : String} {s : ℕ → MTL n p} {dt : ℕ → ℝ} {ω t : ℝ} {S : ℕ → Src n}
  {f : Fin n → ℝ → ℝ}

/-- **C188, current probes.**  Time steps such that the frequency is the fraction `a/P` of the sampling frequency, and runs of multiples of `P`
steps: for more and more cells the fast Fourier transforms of what current probes have recorded, times the time step, tend to the currents of the
solution of the telegrapher's equations in the middle of the cells of the probes (the last cell for a probe at the last node), turned by half
a time step. -/
theorem C188_fft_current (hD : 0 < D) (h : ∀ m > 0, MTL.new p l c r g D [] [m] Zs Zl name = .ok ⟨n, s m⟩)
    (hl : SPD (l.matrix n)) (hc : SPD (c.matrix n)) (hr : Dissipative (r.matrix n)) (hg : Dissipative (g.matrix n))
    (hzs : ∀ i < n, 0 ≤ Zs.value i) (hzl : ∀ i < n, 0 ≤ Zl.value i) (hz : (∀ i < n, 0 < Zs.value i) ∨ ∀ i < n, 0 < Zl.value i)
    (hω : 0 < ω) (hdt : ∀ m > 0, 0 < dt m ∧ dt m < (s m).dt) (ht : 0 ≤ t) (hS : ∀ m k x, ∀ u < 0, S m k x u = 0)
    (hS' : ∀ m k x, ∀ u > t, S m k x u = 0) (hf : ∀ x, Continuous (f x)) (hS0 : ∀ m x u, S m 0 x u = f x u)
    (hS1 : ∀ m > 0, ∀ x u, S m m x u = 0) {a P : ℕ → ℕ} (haP : ∀ m > 0, a m < P m) (hper : ∀ m > 0, ω * dt m = 2 * Real.pi * a m / P m)
    {v i : ℝ → Fin n → ℂ}
    (hv : TelegraphN (perLength ω (r.matrix n) (l.matrix n)) (perLength ω (g.matrix n) (c.matrix n))
      (fun x => ∫ u in (0 : ℝ)..t, Complex.exp (-(ω * u : ℝ) * Complex.I) * (f x u : ℂ)) D (Zs.diag n) (Zl.diag n) v i) :
    ∀ ε > 0, ∃ M, ∀ m ≥ M, ∃ B, ∀ b ≥ B, ∀ (T : ℝ) (ps : List (Probe n)) (s' : MTL n p), ⌊T / dt m⌋.toNat = P m * b →
      ({ s m with dt := dt m, vSources := S m, probes := ps } : MTL n p).runUntil T = .ok s' →
      ∀ (y : ℕ) (q q' : Probe n) (rows : List (Col n)), ps[y]? = some q → q.type = "current" → q.index ≤ m → s'.probes[y]? = some q' →
        q'.val = .rows rows → ∀ x, ‖(dt m : ℂ) * (dft (column rows x)).getD (a m * b) 0 -
          Complex.exp ((ω * dt m / 2 : ℝ) * Complex.I) * i (((if q.index = m then q.index - 1 else q.index : ℕ) + 1 / 2) * D / m) x‖ ≤ ε := by
  intro ε hε
  obtain ⟨M, hM⟩ := C188_pulse hD h hl hc hr hg hzs hzl hz hω hdt ht hS hS' hf hS0 hS1 hv ε hε
  refine ⟨M + 1, fun m hm => ?_⟩
  have hm0 : 0 < m := by omega
  obtain ⟨J, hJ⟩ := hM m (by omega)
  refine ⟨J + 1, fun b hb T ps s' hN hrun y q q' rows hq hqt hqi hq' hrows x => ?_⟩
  obtain ⟨k, hk⟩ : ∃ k, k = if q.index = m then q.index - 1 else q.index := ⟨_, rfl⟩
  have hkm : k < m := by rw [hk]; split <;> omega
  rw [← hk]
  have hP : 0 < P m := by have := haP m hm0; omega
  have hb0 : 0 < b := by omega
  have d0 := (hdt m hm0).1
  obtain ⟨tr, R, -, hprobes⟩ := C01_run_frames _ s' T hrun
  obtain ⟨-, -, -, hval⟩ := hprobes y q q' hq hq'
  replace hN : ⌊T / ({ s m with dt := dt m, vSources := S m, probes := ps } : MTL n p).dt⌋.toNat = P m * b := hN
  rw [hN] at R hval
  obtain ⟨em, -, -⟩ := constructed_cells hD hm0 (h m hm0)
  rw [hrows, ProbeVal.rows.injEq] at hval
  replace hval : rows = (List.range (P m * b)).map fun j => (tr (j + 1)).i k := by
    rw [hval, hk]
    refine List.map_congr_left fun j _ => ?_
    rw [if_neg (by rw [hqt]; decide), show ({ s m with dt := dt m, vSources := S m, probes := ps } : MTL n p).m = m from em]
    split <;> rfl
  obtain ⟨hv0, hp0⟩ : (∀ k, (s m).i k = 0) ∧ (s m).probes = [] := by
    obtain ⟨la, ca, ga, ra, zsa, zla, mem, d, -, -, -, -, -, -, -, h8⟩ := new_ok_iff.1 (h m hm0)
    obtain ⟨-, -, -, e⟩ := computeTerminalTerms_ok_iff.1 h8
    rw [e]
    exact ⟨fun _ => rfl, rfl⟩
  have R' := R.strip
  have e0 : ({ s m with dt := dt m, vSources := S m, probes := [] } : MTL n p) = { s m with dt := dt m, vSources := S m } := by
    rw [← hp0]
  have key := (hJ T _ (P m * b) _ (by rw [← e0]; exact R') (by nlinarith) k hkm.le x).2 hkm
  have t0 : (tr 0).i k x = 0 := by
    obtain ⟨lr, cg, -, -, e⟩ := R.start
    rw [e]
    show (s m).i k x = 0
    rw [hv0]
    rfl
  have hab : a m * b < P m * b := Nat.mul_lt_mul_of_pos_right (haP m hm0) hb0
  have lenr : rows.length = P m * b := by rw [hval]; simp
  have hdtc : ω * dt m = 2 * Real.pi * a m / P m := hper m hm0
  have e1 : (dft (column rows x)).getD (a m * b) 0 = Complex.exp ((ω * dt m / 2 : ℝ) * Complex.I) * ∑ j ∈ Finset.range (P m * b + 1),
      Complex.exp (-(ω * (-(dt m / 2) + j * dt m) : ℝ) * Complex.I) * ((tr j).i k x : ℂ) := by
    unfold dft
    have lenc : (column rows x).length = P m * b := by rw [column, List.length_map, lenr]
    rw [lenc, List.getD_eq_getElem?_getD, List.getElem?_map, List.getElem?_range hab, Finset.sum_range_succ', t0, Complex.ofReal_zero,
      mul_zero, add_zero, Finset.mul_sum]
    show ∑ j ∈ _, _ = _
    refine Finset.sum_congr rfl fun j hj => ?_
    have hj : j < P m * b := Finset.mem_range.1 hj
    have e2 : (column rows x).getD j 0 = ((tr (j + 1)).i k x : ℂ) := by
      rw [column, hval, List.getD_eq_getElem?_getD, List.getElem?_map, List.getElem?_map, List.getElem?_range hj]
      rfl
    rw [e2, mul_comm, ← mul_assoc, ← Complex.exp_add]
    congr 2
    have e3 : (ω * dt m / 2 : ℝ) * Complex.I + -(ω * (-(dt m / 2) + ((j + 1 : ℕ) : ℝ) * dt m) : ℝ) * Complex.I =
        -(j * (ω * dt m) : ℝ) * Complex.I := by
      push_cast
      ring
    rw [e3, hdtc]
    push_cast
    have hPc : (P m : ℂ) ≠ 0 := by exact_mod_cast hP.ne'
    have hbc : (b : ℂ) ≠ 0 := by exact_mod_cast hb0.ne'
    field_simp
  rw [e1, mul_left_comm, ← mul_sub, norm_mul, Complex.norm_exp_ofReal_mul_I, one_mul]
  exact key

end

end Mtln
