import Verif.Props.ManagerSpectrum
import Verif.Props.Spectrum
import Verif.Lemmas.PlainAccept

/-! # The fast Fourier transform of what the probes of a manager record: C184 -/

namespace Mtln

open Matrix Filter Topology

variable {n p : ℕ}

/-- Where a run is on the way, and where the shorter run ends. -/
theorem MTLN.run_prefix {M M' : MTLN p} {T dt : ℝ} {tr : ℕ → MTLN p} {N : ℕ} (hdt : 0 < M.runDt dt) (h0 : M.start T dt = .ok (N, tr 0))
    (hs : ∀ j < N, (tr j).step = .ok (tr (j + 1))) {j : ℕ} (hj : j ≤ N) (h : M.runUntil (j * M.runDt dt) dt = .ok M') : (tr j).Twin M' := by
  obtain ⟨M0, e1, e2⟩ := runUntil_iter.1 h
  obtain ⟨M0', e3, e4⟩ := MTLN.start_twin h0 (j * M.runDt dt)
  have hk : ⌊(j : ℝ) * M.runDt dt / M.runDt dt⌋.toNat = j := by
    rw [mul_div_assoc, div_self hdt.ne', mul_one, Int.floor_natCast, Int.toNat_natCast]
  rw [hk] at e1 e2 e3
  rw [e1] at e3
  simp only [Except.ok.injEq, Prod.mk.injEq, true_and] at e3
  subst e3
  have hit : ∀ k i, i + k ≤ N → iterPy MTLN.step k (tr i) = .ok (tr (i + k)) := by
    intro k
    induction k with
    | zero => intro i _; rfl
    | succ k ih =>
      intro i hi
      simp only [iterPy, bind_ok_iff]
      refine ⟨_, hs i (by omega), ?_⟩
      rw [ih _ (by omega), Nat.add_assoc, Nat.add_comm 1 k]
  obtain ⟨M'', f1, f2⟩ := e4.iter (hit j 0 (by omega))
  rw [e2, Except.ok.injEq] at f1
  subst f1
  simpa using f2

/-- **C184, probes.** The fast Fourier transform of the rows that a voltage probe of a bundle has recorded: at the frequencies that are
multiples of `1/(P dt)` it tends to the solution of the circuit of the manager for alternating current with the spectra of the pulses,
when the numbers of steps are multiples of `P`. -/
theorem C184_fft (M : MTLN p) (dt : ℝ) (K P a : ℕ) (haP : a < P) (h0 : M.time = 0) (hdt : 0 < M.runDt dt) (hp : (M.overrideDt dt).Passive)
    (hl : (M.overrideDt dt).Linked) (hm : (M.overrideDt dt).Matched)
    (hs : ∀ b ∈ (M.overrideDt dt).bundles, b.2.Stable) (hd : (M.overrideDt dt).Dissipates) (hst : M.Startable dt) (hr : M.AtRest)
    (heL : ∀ b ∈ (M.overrideDt dt).bundles, ∀ k x, b.2.eL k x = 0)
    (hsrc : (M.overrideDt dt).Sources (PulseFor 0 (M.runDt dt) K)) (hω : Real.sin (2 * Real.pi * a / P) ≠ 0)
    {V I : String → ℕ → ℕ → ℂ}
    (hac : (M.overrideDt dt).AC (2 * Real.pi * a / P) (pulseSpectrum (2 * Real.pi * a / (P * M.runDt dt)) 0 (M.runDt dt) K) V I)
    {x n : ℕ} {b : MTLD n p} (hb : M.bundles[x]? = some ⟨n, b⟩) {y : ℕ} {q : Probe n} (hq : b.probes[y]? = some q)
    (hqt : q.type = "voltage") (hqi : q.index ≤ b.m) (c : Fin n) :
    ∀ ε > 0, ∃ B, ∀ d ≥ B, ∀ (T : ℝ) (M' : MTLN p), ⌊T / M.runDt dt⌋.toNat = P * d → M.runUntil T dt = .ok M' →
      ∀ (b' : MTLD n p) (q' : Probe n) (r : List (Col n)), M'.bundles[x]? = some ⟨n, b'⟩ → b'.probes[y]? = some q' →
        q'.val = .rows r → ‖(dft (column r c)).getD (a * d) 0 - V b.name q.index c‖ ≤ ε := by
  obtain ⟨τ, hτ⟩ : ∃ τ, τ = M.runDt dt := ⟨_, rfl⟩
  obtain ⟨ω, hωd⟩ : ∃ ω, ω = 2 * Real.pi * a / (P * τ) := ⟨_, rfl⟩
  have hP : 0 < P := by omega
  have hPr : (P : ℝ) ≠ 0 := by exact_mod_cast hP.ne'
  have hτ0 : 0 < τ := by rw [hτ]; exact hdt
  have hθ : ω * M.runDt dt = 2 * Real.pi * a / P := by
    rw [← hτ, hωd]
    field_simp
  have hrun : ∀ j : ℕ, ∃ R, M.runUntil (j * M.runDt dt) dt = .ok R := fun j => hst.run _
  choose R hR using hrun
  obtain ⟨bo, hbo, hbox, n1, n2⟩ : ∃ bo : MTLD n p, (⟨n, bo⟩ : AnyBundle p) ∈ (M.overrideDt dt).bundles ∧
      (M.overrideDt dt).bundles[x]? = some ⟨n, bo⟩ ∧ bo.name = b.name ∧ bo.m = b.m := by
    unfold MTLN.overrideDt
    split
    · have hx : (M.bundles.map fun b => (⟨b.1, { b.2 with dt := dt }⟩ : AnyBundle p))[x]? = some ⟨n, { b with dt := dt }⟩ := by
        rw [List.getElem?_map, hb]; rfl
      exact ⟨{ b with dt := dt }, List.mem_of_getElem? hx, hx, rfl, rfl⟩
    · exact ⟨b, List.mem_of_getElem? hb, hb, rfl, rfl⟩
  have key := (C184_spectrum M dt ω K hdt hp hl hm hs hd hst hr heL (by rw [h0]; exact hsrc) (by rw [hθ]; exact hω) (V := V) (I := I)
    (by rw [hθ, h0, hωd, hτ]; exact hac) hR ⟨n, bo⟩ hbo).1 q.index (by rw [n2]; exact hqi) c c.2
  rw [show (⟨n, bo⟩ : AnyBundle p).2.name = b.name from n1] at key
  intro ε hε
  obtain ⟨J, hJ⟩ := Metric.tendsto_atTop.1 key ε hε
  refine ⟨J + 1, fun d hdJ T M' hN hrunT b' q' r hb' hq' hr' => ?_⟩
  have hPd : J ≤ P * d := by nlinarith
  have hlim := (hJ (P * d) hPd).le
  rw [dist_eq_norm] at hlim
  obtain ⟨M0, tr, s0, t0, t1, tstep, hfr⟩ := C02_run_frames M M' T dt hrunT
  rw [hN] at s0 t1 tstep
  obtain ⟨f, f1, -, f2⟩ := hfr x n b hb
  rw [hN] at f1 f2
  have fb : f (P * d) = b' := by
    have := f1 (P * d) le_rfl
    rw [t1, hb'] at this
    simpa using this.symm
  obtain ⟨-, -, -, hval⟩ := f2 y q q' hq (by rw [fb]; exact hq')
  rw [hr'] at hval
  simp only [hqt, if_true, ProbeVal.rows.injEq] at hval
  have hRt : ∀ j, (R j).dt = τ ∧ (R j).time = j * τ := by
    intro j
    obtain ⟨-, -, m1, m2⟩ := C02_time_step M (R j) _ dt (hR j)
    refine ⟨by rw [m1, hτ], ?_⟩
    rw [m2, h0, zero_add, ← hτ, mul_div_assoc, div_self hτ0.ne', mul_one, Int.floor_natCast, Int.toNat_natCast]
  have hRv : ∀ j ≤ P * d, nodeV (R j).bundles b.name q.index c = (f j).v q.index c := by
    intro j hj
    have tw := MTLN.run_prefix hdt (by rw [t0]; exact s0) tstep hj (hR j)
    obtain ⟨b1, g1, pr, -, rfl⟩ := forall₂_get tw.bundles (f1 j hj)
    have free := MTLN.run_free (hR j)
    obtain ⟨b2, g2, v, i, phi, pr', lr, cg, rfl⟩ := forall₂_get free hbox
    rw [g1] at g2
    have hname : (f j).name = b.name := by
      have e := congrArg (fun b : AnyBundle p => b.2.name) (Option.some.inj g2)
      exact e.trans n1
    have hnd : ((R j).bundles.map fun b => b.2.name).Nodup := by rw [names_free free]; exact hp.names
    have := nodeV_eq hnd (List.mem_of_getElem? g1) q.index c
    rw [← this, ← hname]
  have hR0 : nodeV (R 0).bundles b.name q.index c = 0 := by
    have hN : (M.overrideDt dt).Damped dt := ⟨M.override_twice dt, hst.override, hdt, hp, hm, hs, hd⟩
    have hw := hN.wave_rest hl (hr.override dt) (true, b.name, q.index, c)
    have hR' : (M.overrideDt dt).runUntil ((0 : ℕ) * (M.overrideDt dt).dt) dt = .ok (R 0) := (M.run_override _ dt).trans (hR 0)
    rw [MTLN.wave_eq hR'] at hw
    exact hw
  have hd0 : 0 < d := by omega
  have hab : a * d < P * d := Nat.mul_lt_mul_of_pos_right haP hd0
  have lenr : r.length = P * d := by rw [hval]; simp
  have e1 : (dft (column r c)).getD (a * d) 0 = ∑ j ∈ Finset.range (P * d + 1),
      Complex.exp ((-(ω * ((R j).time - (R j).dt)) : ℝ) * Complex.I) * (nodeV (R j).bundles b.name q.index c : ℂ) := by
    unfold dft
    have lenc : (column r c).length = P * d := by rw [column, List.length_map, lenr]
    rw [lenc, List.getD_eq_getElem?_getD, List.getElem?_map, List.getElem?_range hab, Finset.sum_range_succ', hR0, Complex.ofReal_zero,
      mul_zero, add_zero]
    show ∑ j ∈ _, _ = _
    refine Finset.sum_congr rfl fun j hj => ?_
    have hj : j < P * d := Finset.mem_range.1 hj
    have e2 : (column r c).getD j 0 = ((f (j + 1)).v q.index c : ℂ) := by
      rw [column, hval, List.getD_eq_getElem?_getD, List.getElem?_map, List.getElem?_map, List.getElem?_range hj]
      rfl
    rw [e2, mul_comm, hRv (j + 1) (by omega), (hRt _).1, (hRt _).2]
    congr 2
    rw [hωd]
    push_cast
    have hPc : (P : ℂ) ≠ 0 := by exact_mod_cast hP.ne'
    have hdc : (d : ℂ) ≠ 0 := by exact_mod_cast hd0.ne'
    have htc : (τ : ℂ) ≠ 0 := by exact_mod_cast hτ0.ne'
    field_simp
    ring
  rw [e1]
  exact hlim

end Mtln
