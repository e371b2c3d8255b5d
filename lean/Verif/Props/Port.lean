import Verif.Lemmas.Fourier
import Verif.Lemmas.Run
import Verif.Props.ProbeApi

/-! # Ports and scattering parameters: C79, C80, C98, C99 -/

namespace Mtln

open Complex

variable {n p : ℕ}

/-! ## What a successful call means -/

theorem averaged_length (x : List ℂ) : (averaged x).length = x.length := by
  cases x <;> simp [averaged]

theorem averaged_getD (x : List ℂ) (t : ℕ) (ht : t < x.length) :
    (averaged x).getD t 0 = (x.getD (t - 1) 0 + x.getD t 0) / 2 := by
  cases x with
  | nil => simp at ht
  | cons a x =>
    have h1 : t < (a :: a :: x).length := by simp at ht ⊢; omega
    have hz : ((a :: a :: x).zip (a :: x))[t]? = some ((a :: a :: x)[t], (a :: x)[t]) := by
      rw [List.getElem?_zip_eq_some]
      exact ⟨List.getElem?_eq_getElem h1, List.getElem?_eq_getElem ht⟩
    have h2 : (averaged (a :: x)).getD t 0 = ((a :: a :: x)[t] + (a :: x)[t]) / 2 := by
      simp only [averaged, List.head?_cons, Option.toList_some, List.singleton_append, List.getD, List.getElem?_map, hz,
        Option.map_some, Option.getD_some]
    rw [h2]
    congr 2
    · cases t with
      | zero => simp
      | succ t =>
        have : t < (a :: x).length := by simp at ht ⊢; omega
        simp only [List.getElem_cons_succ, Nat.add_sub_cancel, List.getD, List.getElem?_eq_getElem this,
          Option.getD_some]
    · simp only [List.getD, List.getElem?_eq_getElem ht, Option.getD_some]

/-- The spectra of a port: the transforms of the mean of the two voltages and of the averaged current. -/
theorem spectra_ok {P : Port n} {c : Fin n} {f : List ℝ} {v i : List ℂ} (h : P.spectra c = .ok (f, v, i)) :
    ∃ r0 r1 ri : List (Col n), P.v0.val = .rows r0 ∧ P.v1.val = .rows r1 ∧ P.i0.val = .rows ri ∧
      r0.length = r1.length ∧ r0 ≠ [] ∧ ri ≠ [] ∧ 2 ≤ P.v1.t.length ∧ 1 ≤ P.v0.t.length ∧
      P.v1.t.getD 1 0 - P.v0.t.getD 0 0 ≠ 0 ∧
      f = fftshift (fftfreq P.v0.t.length (P.v1.t.getD 1 0 - P.v0.t.getD 0 0)) ∧
      v = fftshift (dft (meanOf (column r0 c) (column r1 c))) ∧ i = fftshift (dft (averaged (column ri c))) := by
  unfold Port.spectra at h
  obtain ⟨_, h1, h⟩ := bind_ok_iff.1 h
  obtain ⟨_, h2, h⟩ := bind_ok_iff.1 h
  rw [raiseIf_ok_iff] at h1 h2
  split at h
  · rename_i r0 r1 ri e0 e1 e2
    obtain ⟨_, h3, h⟩ := bind_ok_iff.1 h
    obtain ⟨_, h4, h⟩ := bind_ok_iff.1 h
    obtain ⟨_, h5, h⟩ := bind_ok_iff.1 h
    rw [raiseIf_ok_iff] at h3 h4 h5
    obtain ⟨rfl, hvi⟩ := Prod.mk.inj (Except.ok.inj h)
    obtain ⟨rfl, rfl⟩ := Prod.mk.inj hvi
    have hl : r0.length = r1.length := not_not.1 h4
    have hc : (column r0 c).length = (column r1 c).length := by simp [column, hl]
    refine ⟨r0, r1, ri, e0, e1, e2, hl, fun e => h3 (Or.inl e), h5, by omega, by omega, h2, rfl, ?_, rfl⟩
    rw [← dft_mean _ _ hc]
    unfold meanOf
    rw [fftshift_zip _ _ (by rw [length_dft, length_dft, hc]), fftshift_map]
  · exact absurd h (by simp)

/-- The sign of the current that enters the line at a terminal: `1` at the position `0`, else `-1`. -/
noncomputable def inward (x : ℝ) : ℂ := by classical exact if x = 0 then 1 else -1

/-- What a successful `get_incident_and_reflected_power_wave` means. -/
theorem waves_ok {P : Port n} {c : Fin n} {f : List ℝ} {a b : List ℂ} (h : P.waves c = .ok (f, a, b)) :
    ∃ (v i : List ℂ) (x : ℝ), P.spectra c = .ok (f, v, i) ∧ P.position = .float x ∧ 0 < P.z0 c ∧
      v.length = i.length ∧
      a = (v.zip i).map (fun vi => 1 / 2 * (vi.1 + P.z0 c * (inward x * vi.2)) / (Real.sqrt (P.z0 c) : ℂ)) ∧
      b = (v.zip i).map (fun vi => 1 / 2 * (vi.1 - P.z0 c * (inward x * vi.2)) / (Real.sqrt (P.z0 c) : ℂ)) := by
  unfold Port.waves at h
  obtain ⟨_, h1, h⟩ := bind_ok_iff.1 h
  obtain ⟨⟨f', v, i⟩, h2, h⟩ := bind_ok_iff.1 h
  obtain ⟨term, h3, h⟩ := bind_ok_iff.1 h
  obtain ⟨_, h4, h⟩ := bind_ok_iff.1 h
  rw [pyAssert_ok_iff] at h1
  rw [raiseIf_ok_iff] at h4
  push Not at h4
  obtain ⟨hf, hab⟩ := Prod.mk.inj (Except.ok.inj h)
  subst hf
  obtain ⟨rfl, rfl⟩ := Prod.mk.inj hab
  unfold Port.getTerminal at h3
  split at h3
  · rename_i x hx
    injection h3 with h3
    have hi : (if term = "L" then i.map (fun x => -x) else i) = i.map fun y => inward x * y := by
      rw [← h3]
      unfold inward
      by_cases hx0 : x = 0
      · simp [hx0]
      · simp [hx0]
    simp only at h4 ⊢
    rw [hi] at h4 ⊢
    have hl : v.length = i.length := by simpa using h4.2
    refine ⟨v, i, x, h2, hx, lt_of_le_of_ne h4.1 (Ne.symm h1), hl, ?_, ?_⟩
    · rw [List.zip_map_right, List.map_map]; rfl
    · rw [List.zip_map_right, List.map_map]; rfl
  · exact absurd h3 (by simp)
  · exact absurd h3 (by simp)

/-! ## C79 -/

/-- The relation of the waves of one frequency to voltage and (inward) current. -/
structure PowerWaves (z0 : ℝ) (v i a b : ℂ) : Prop where
  voltage : v = Real.sqrt z0 * (a + b)
  current : i = (a - b) / Real.sqrt z0
  power : ‖a‖ ^ 2 - ‖b‖ ^ 2 = (v * (starRingEnd ℂ) i).re
  matched : v = z0 * i ↔ b = 0
  fed : v = -(z0 * i) ↔ a = 0

theorem powerWaves_of {z0 : ℝ} (hz : 0 < z0) (v i : ℂ) :
    PowerWaves z0 v i (1 / 2 * (v + z0 * i) / (Real.sqrt z0 : ℂ)) (1 / 2 * (v - z0 * i) / (Real.sqrt z0 : ℂ)) := by
  have hs : (Real.sqrt z0 : ℂ) ≠ 0 := by exact_mod_cast (Real.sqrt_pos.2 hz).ne'
  have hsq : (Real.sqrt z0 : ℂ) * Real.sqrt z0 = z0 := by exact_mod_cast Real.mul_self_sqrt hz.le
  constructor
  · field_simp; ring
  · field_simp
    rw [← hsq]
    ring
  · have hn : ∀ w : ℂ, ‖w‖ ^ 2 = w.re * w.re + w.im * w.im := fun w => by rw [← normSq_eq_norm_sq, normSq_apply]
    have hd : ∀ w : ℂ, ‖1 / 2 * w / (Real.sqrt z0 : ℂ)‖ ^ 2 = (w.re * w.re + w.im * w.im) / (4 * z0) := by
      intro w
      rw [norm_div, norm_mul, div_pow, mul_pow, hn w, norm_real, Real.norm_of_nonneg (Real.sqrt_nonneg _),
        Real.sq_sqrt hz.le]
      norm_num
      ring
    rw [hd, hd]
    simp
    field_simp
    ring
  · constructor
    · intro h; rw [h]; simp
    · intro h
      rw [div_eq_zero_iff, or_iff_left hs, mul_eq_zero] at h
      exact sub_eq_zero.1 (h.resolve_left (by norm_num))
  · constructor
    · intro h; rw [h]; simp
    · intro h
      rw [div_eq_zero_iff, or_iff_left hs, mul_eq_zero] at h
      exact eq_neg_of_add_eq_zero_left (h.resolve_left (by norm_num))

/-- **C79** Whenever the waves of a port can be read, they are defined at every frequency of the spectra and satisfy
`v = √z0 (a + b)` and `i = (a - b) / √z0`, where `i` is the current into the line; their powers differ by the real power;
nothing is reflected exactly if `v = z0 i`, and nothing comes in exactly if `v = -z0 i`. -/
theorem C79_waves_partial {P : Port n} {c : Fin n} {f : List ℝ} {a b : List ℂ} (h : P.waves c = .ok (f, a, b)) :
    ∃ (v i : List ℂ) (x : ℝ), P.spectra c = .ok (f, v, i) ∧ P.position = .float x ∧
      v.length = i.length ∧ a.length = v.length ∧ b.length = v.length ∧
      ∀ k < v.length, PowerWaves (P.z0 c) (v.getD k 0) (inward x * i.getD k 0) (a.getD k 0) (b.getD k 0) := by
  obtain ⟨v, i, x, h1, h2, h3, h4, rfl, rfl⟩ := waves_ok h
  refine ⟨v, i, x, h1, h2, h4, by simp [h4], by simp [h4], ?_⟩
  intro k hk
  have hk' : k < i.length := h4 ▸ hk
  have hz : (v.zip i)[k]? = some (v[k], i[k]) := by
    rw [List.getElem?_zip_eq_some]
    exact ⟨List.getElem?_eq_getElem hk, List.getElem?_eq_getElem hk'⟩
  simp only [List.getD, List.getElem?_map, hz, Option.map_some, Option.getD_some, List.getElem?_eq_getElem hk,
    List.getElem?_eq_getElem hk']
  exact powerWaves_of h3 _ _

theorem sum_sub_eq {α : Type} (l : List α) (f g : α → ℝ) (h : ∀ x ∈ l, f x = g x) : (l.map f).sum = (l.map g).sum := by
  rw [List.map_congr_left h]

/-- **C79** The energy balance: over all frequencies the power of the incident waves minus that of the reflected waves
is `N` times the sum over the `N` recorded times of mean voltage times averaged current into the line. -/
theorem C79_energy_partial {P : Port n} {c : Fin n} {f : List ℝ} {a b : List ℂ} (h : P.waves c = .ok (f, a, b)) :
    ∃ (r0 r1 ri : List (Col n)) (x : ℝ), P.v0.val = .rows r0 ∧ P.v1.val = .rows r1 ∧ P.i0.val = .rows ri ∧
      P.position = .float x ∧ r0.length = r1.length ∧ r0.length = ri.length ∧
      ((a.zip b).map fun ab => ‖ab.1‖ ^ 2 - ‖ab.2‖ ^ 2).sum =
        r0.length * ∑ t ∈ Finset.range r0.length, (r0.getD t 0 c + r1.getD t 0 c) / 2 *
          ((inward x).re * ((ri.getD (t - 1) 0 c + ri.getD t 0 c) / 2)) := by
  obtain ⟨v, i, x, h1, h2, h3, h4, rfl, rfl⟩ := waves_ok h
  obtain ⟨r0, r1, ri, e0, e1, ei, hl, hr0, hri, -, -, -, -, rfl, rfl⟩ := spectra_ok h1
  have hli : r0.length = ri.length := by
    rw [length_fftshift, length_fftshift, length_dft, length_dft, averaged_length] at h4
    simpa [meanOf, column, hl] using h4
  refine ⟨r0, r1, ri, x, e0, e1, ei, h2, hl, hli, ?_⟩
  set V := meanOf (column r0 c) (column r1 c) with hV
  set J := averaged (column ri c) with hJ
  have hVl : V.length = r0.length := by simp [hV, meanOf, column, hl]
  have hJl : J.length = r0.length := by rw [hJ, averaged_length, hli]; simp [column]
  have hzip : (fftshift (dft V)).zip (fftshift (dft J)) = fftshift ((dft V).zip (dft J)) :=
    fftshift_zip _ _ (by rw [length_dft, length_dft, hVl, hJl])
  have hinr : (inward x : ℂ) = ((inward x).re : ℂ) := by
    unfold inward; split_ifs <;> simp
  rw [hzip, List.zip_map', List.map_map]
  have hpw : ∀ vi : ℂ × ℂ, ((fun ab : ℂ × ℂ => ‖ab.1‖ ^ 2 - ‖ab.2‖ ^ 2) ∘ fun vi : ℂ × ℂ =>
      (1 / 2 * (vi.1 + P.z0 c * (inward x * vi.2)) / (Real.sqrt (P.z0 c) : ℂ),
        1 / 2 * (vi.1 - P.z0 c * (inward x * vi.2)) / (Real.sqrt (P.z0 c) : ℂ))) vi =
      (inward x).re * (vi.1 * (starRingEnd ℂ) vi.2).re := by
    intro vi
    have := (powerWaves_of h3 vi.1 (inward x * vi.2)).power
    simp only [Function.comp]
    rw [this, map_mul, hinr, conj_ofReal, ← mul_assoc, mul_comm vi.1, mul_assoc, re_ofReal_mul, ofReal_re]
  rw [List.map_congr_left (fun vi _ => hpw vi), ((fftshift_perm _).map _).sum_eq]
  have hre : ∀ (l : List (ℂ × ℂ)), (l.map fun vi => (inward x).re * (vi.1 * (starRingEnd ℂ) vi.2).re).sum =
      (inward x).re * ((l.map fun ab => ab.1 * (starRingEnd ℂ) ab.2).sum).re := by
    intro l
    induction l with
    | nil => simp
    | cons vi l ih => simp only [List.map_cons, List.sum_cons, ih, add_re]; ring
  rw [hre, dft_parseval V J (by rw [hVl, hJl]), hVl]
  have hs : ((V.zip J).map fun ab => ab.1 * (starRingEnd ℂ) ab.2).sum = ((∑ t ∈ Finset.range r0.length,
      (r0.getD t 0 c + r1.getD t 0 c) / 2 * ((ri.getD (t - 1) 0 c + ri.getD t 0 c) / 2) : ℝ) : ℂ) := by
    have gen : ∀ (x y : List ℂ), x.length = y.length → ((x.zip y).map fun ab => ab.1 * (starRingEnd ℂ) ab.2).sum =
        ∑ j ∈ Finset.range x.length, x.getD j 0 * (starRingEnd ℂ) (y.getD j 0) := by
      intro x
      induction x with
      | nil => intro y _; simp
      | cons a x ih =>
        intro y hy
        cases y with
        | nil => simp at hy
        | cons b y =>
          simp only [List.zip_cons_cons, List.map_cons, List.sum_cons, List.length_cons]
          rw [ih y (by simpa using hy), Finset.sum_range_succ']
          simp only [List.getD_cons_succ, List.getD_cons_zero]
          ring
    rw [gen V J (by rw [hVl, hJl]), hVl, ofReal_sum]
    refine Finset.sum_congr rfl fun t ht => ?_
    rw [Finset.mem_range] at ht
    have col : ∀ (r : List (Col n)) (t : ℕ), t < r.length → (column r c).getD t 0 = ((r.getD t 0 c : ℝ) : ℂ) := by
      intro r t ht
      simp [column, List.getD, List.getElem?_eq_getElem ht]
    have hv : V.getD t 0 = (((r0.getD t 0 c + r1.getD t 0 c) / 2 : ℝ) : ℂ) := by
      have ht1 : t < (column r0 c).length := by simpa [column] using ht
      have ht2 : t < (column r1 c).length := by simpa [column, ← hl] using ht
      have hz : ((column r0 c).zip (column r1 c))[t]? = some ((column r0 c)[t], (column r1 c)[t]) := by
        rw [List.getElem?_zip_eq_some]
        exact ⟨List.getElem?_eq_getElem ht1, List.getElem?_eq_getElem ht2⟩
      have c0 := col r0 t ht
      have c1 := col r1 t (hl ▸ ht)
      simp only [List.getD, List.getElem?_eq_getElem ht1, Option.getD_some] at c0
      simp only [List.getD, List.getElem?_eq_getElem ht2, Option.getD_some] at c1
      rw [hV]
      simp only [meanOf, List.getD, List.getElem?_map, hz, Option.map_some, Option.getD_some]
      rw [c0, c1]
      push_cast
      simp [List.getD]
    have hj : J.getD t 0 = (((ri.getD (t - 1) 0 c + ri.getD t 0 c) / 2 : ℝ) : ℂ) := by
      rw [hJ, averaged_getD _ _ (by simpa [column, ← hli] using ht), col ri t (by omega), col ri (t - 1) (by omega)]
      push_cast
      ring
    rw [hv, hj, conj_ofReal]
    push_cast
    ring
  rw [hs]
  have : ((r0.length : ℂ) * ((∑ t ∈ Finset.range r0.length,
      (r0.getD t 0 c + r1.getD t 0 c) / 2 * ((ri.getD (t - 1) 0 c + ri.getD t 0 c) / 2) : ℝ) : ℂ)).re =
      r0.length * ∑ t ∈ Finset.range r0.length,
      (r0.getD t 0 c + r1.getD t 0 c) / 2 * ((ri.getD (t - 1) 0 c + ri.getD t 0 c) / 2) := by
    rw [← ofReal_natCast, ← ofReal_mul, ofReal_re]
  rw [this, Finset.mul_sum, Finset.mul_sum, Finset.mul_sum]
  refine Finset.sum_congr rfl fun t _ => ?_
  ring

/-- **C79 is false of the code** for every port made of probes of a line: their positions are arrays, and comparing an
array with `0.0` has no truth value, so the waves cannot be read. -/
theorem C79_refuted (v0 v1 i0 : Probe n) (z0 : Mat n) (c : Fin n) : ¬ ∃ r, (Port.new v0 v1 i0 z0).waves c = .ok r := by
  rintro ⟨⟨f, a, b⟩, h⟩
  obtain ⟨v, i, x, -, h2, -⟩ := waves_ok h
  exact absurd h2 (by simp [Port.new])

/-- A port whose waves can be read: one conductor, one sample, the probe `v0` built with the position `0.0`. -/
noncomputable def demoPort : Port 1 where
  v0 := ⟨"voltage", [0, 1], .rows [fun _ => 1], 0, 0, 1, 1⟩
  v1 := ⟨"voltage", [0, 1], .rows [fun _ => 1], 0, 0, 1, 1⟩
  i0 := ⟨"current", [0, 1], .rows [fun _ => 1], 0, 0, 1, 1⟩
  z0 := fun _ => 1
  position := .float 0

/-- **C79, non-vacuity**: voltage 1 and current 1 at the reference impedance 1 are an incident wave alone. -/
theorem C79_example : ∃ f, demoPort.waves 0 = .ok (f, [1], [0]) := by
  refine ⟨fftshift (fftfreq 2 1), ?_⟩
  have hs : demoPort.spectra 0 = .ok (fftshift (fftfreq 2 1), [1], [1]) := by
    simp [Port.spectra, demoPort, bind, Except.bind, raiseIf, column, averaged, meanOf, dft, fftshift]
  simp only [Port.waves, hs, Port.getTerminal, bind, Except.bind]
  have : ¬ ((1 : ℝ) < 0) := by norm_num
  simp [demoPort, pyAssert, raiseIf, this]
  norm_num

/-! ## C80 -/

/-- **C80 is false of the code**: no port probe can be added to any line. -/
theorem C80_refuted (s : MTL n p) (terminal : ℕ) : ¬ ∃ s', s.addPortProbe terminal = .ok s' := by
  rintro ⟨s', h⟩
  unfold MTL.addPortProbe at h
  split_ifs at h

/-- **C80, the reason**: the missing attribute at both terminals. -/
theorem C80_refuted_attribute (s : MTL n p) {terminal : ℕ} (h : terminal ≤ 1) :
    s.addPortProbe terminal = .error .AttributeError := by
  unfold MTL.addPortProbe
  rw [if_pos (by omega)]

/-- **C80, the part that holds**: on a line whose coordinates do not decrease, the three probes of a port can be added
one by one, at two neighbouring nodes and between them. -/
theorem C80_probes_partial (s : MTL n p) (hm : ∀ k < s.m, ∀ j, s.u k j ≤ s.u (k + 1) j) (k : ℕ) (hk : k < s.m) :
    ∃ s', (do
      let s ← s.addProbe (.array (s.u k)) "voltage"
      let s ← s.addProbe (.array (s.u (k + 1))) "voltage"
      s.addProbe (.array fun j => (s.u k j + s.u (k + 1) j) / 2) "current") = .ok s' := by
  have mono : ∀ a b, a ≤ b → b ≤ s.m → ∀ j, s.u a j ≤ s.u b j := by
    intro a b hab
    induction b, hab using Nat.le_induction with
    | base => intro _ j; exact le_rfl
    | succ b _ ih => intro hb j; exact (ih (by omega) j).trans (hm b (by omega) j)
  have h0 : ∀ a ≤ s.m, ∀ j, s.u 0 j ≤ s.u a j ∧ s.u a j ≤ s.u s.m j :=
    fun a ha j => ⟨mono 0 a (by omega) ha j, mono a s.m ha le_rfl j⟩
  obtain ⟨s1, h1⟩ : ∃ s1 : MTL n p, s1 = { s with probes := s.probes ++ [Probe.new (s.u k) "voltage" s.dt s.u s.m] } :=
    ⟨_, rfl⟩
  have e1 : s.addProbe (.array (s.u k)) "voltage" = .ok s1 := addProbe_ok_iff.2 ⟨h0 k (by omega), h1⟩
  obtain ⟨s2, h2⟩ : ∃ s2 : MTL n p, s2 = { s1 with probes := s1.probes ++
    [Probe.new (s1.u (k + 1)) "voltage" s1.dt s1.u s1.m] } := ⟨_, rfl⟩
  have u1 : s1.u = s.u := by rw [h1]
  have m1 : s1.m = s.m := by rw [h1]
  have u2 : s2.u = s.u := by rw [h2, u1]
  have m2 : s2.m = s.m := by rw [h2, m1]
  have e2 : s1.addProbe (.array (s1.u (k + 1))) "voltage" = .ok s2 := by
    refine addProbe_ok_iff.2 ⟨?_, h2⟩
    rw [u1, m1]
    exact h0 (k + 1) (by omega)
  obtain ⟨s3, h3⟩ : ∃ s3 : MTL n p, s3 = { s2 with probes := s2.probes ++
    [Probe.new (fun j => (s2.u k j + s2.u (k + 1) j) / 2) "current" s2.dt s2.u s2.m] } := ⟨_, rfl⟩
  have e3 : s2.addProbe (.array fun j => (s2.u k j + s2.u (k + 1) j) / 2) "current" = .ok s3 := by
    refine addProbe_ok_iff.2 ⟨?_, h3⟩
    rw [u2, m2]
    intro j
    obtain ⟨a1, a2⟩ := h0 k (by omega) j
    obtain ⟨b1, b2⟩ := h0 (k + 1) (by omega) j
    exact ⟨by simp only [Pos.toV3]; linarith, by simp only [Pos.toV3]; linarith⟩
  refine ⟨s3, ?_⟩
  show (s.addProbe (.array (s.u k)) "voltage").bind _ = _
  rw [e1]
  show (s1.addProbe (.array (s1.u (k + 1))) "voltage").bind _ = _
  rw [e2]
  exact e3

/-! ## C98 -/

theorem fftfreq_shift (N : ℕ) (hN : 1 ≤ N) (d : ℝ) :
    fftshift (fftfreq N d) = (List.range N).map fun k : ℕ => ((k : ℝ) - (N / 2 : ℕ)) / (N * d) := by
  have hl : (fftfreq N d).length = N := by simp [fftfreq]; omega
  unfold fftshift
  rw [hl]
  have h1 : N - N / 2 = ((List.range ((N - 1) / 2 + 1)).map fun k : ℕ => (k : ℝ) / (N * d)).length := by
    simp; omega
  unfold fftfreq
  rw [h1, List.drop_left, List.take_left]
  have h2 : N = N / 2 + ((N - 1) / 2 + 1) := by omega
  conv_rhs => rw [show List.range N = List.range (N / 2 + ((N - 1) / 2 + 1)) by rw [← h2]]
  rw [List.range_add (n := N / 2), List.map_append, List.map_map]
  congr 1
  refine List.map_congr_left fun k _ => ?_
  simp only [Function.comp]
  push_cast
  ring

/-- **C98** The spectra are labelled with their frequencies: entry `k` of the frequencies is `(k - ⌊N/2⌋) / (N dt)`, and
entry `k` of the shifted transform of a record of `N` samples is the sum of the samples times
`exp (-2πi f_k (j dt))`. -/
theorem C98_labels (x : List ℂ) (d : ℝ) (hd : d ≠ 0) (k : ℕ) (hk : k < x.length) :
    (fftshift (fftfreq x.length d)).getD k 0 = ((k : ℝ) - (x.length / 2 : ℕ)) / (x.length * d) ∧
    (fftshift (dft x)).getD k 0 = ∑ j ∈ Finset.range x.length,
      x.getD j 0 * exp (-(2 * Real.pi * I * ((fftshift (fftfreq x.length d)).getD k 0 : ℝ) * (j * d))) := by
  have hN : (x.length : ℂ) ≠ 0 := by exact_mod_cast (by omega : x.length ≠ 0)
  have hdc : (d : ℂ) ≠ 0 := by exact_mod_cast hd
  have hf : (fftshift (fftfreq x.length d)).getD k 0 = ((k : ℝ) - (x.length / 2 : ℕ)) / (x.length * d) := by
    rw [fftfreq_shift _ (by omega)]
    simp [List.getD, List.getElem?_range hk]
  refine ⟨hf, ?_⟩
  rw [hf]
  have hs := fftshift_getElem? (dft x) k (by rwa [length_dft])
  rw [length_dft] at hs
  set q := (k + (x.length - x.length / 2)) % x.length with hq
  have hql : q < x.length := Nat.mod_lt _ (by omega)
  simp only [List.getD]
  rw [hs, dft_getElem? x q hql, Option.getD_some]
  refine Finset.sum_congr rfl fun j _ => ?_
  congr 1
  obtain ⟨w, hw⟩ : ∃ w : ℤ, (q : ℤ) = k - (x.length / 2 : ℕ) + x.length * w := by
    refine ⟨1 - (k + (x.length - x.length / 2)) / x.length, ?_⟩
    have h1 := Nat.mod_add_div (k + (x.length - x.length / 2)) x.length
    rw [← hq] at h1
    have h2 : ((q : ℤ)) + x.length * ((k + (x.length - x.length / 2) : ℕ) / x.length : ℕ) =
        ((k + (x.length - x.length / 2) : ℕ) : ℤ) := by exact_mod_cast h1
    have h3 : x.length / 2 ≤ x.length := Nat.div_le_self _ _
    push_cast [Nat.cast_sub h3] at h2 ⊢
    linarith
  have hwc : (q : ℂ) = k - (x.length / 2 : ℕ) + x.length * w := by exact_mod_cast congrArg (Int.cast (R := ℂ)) hw
  rw [hwc, exp_eq_exp_iff_exists_int]
  refine ⟨-(j * w), ?_⟩
  push_cast
  field_simp
  ring

/-- **C98** for a port: the three lists have the same lengths and the frequencies are those of the time step between the
first two samples. -/
theorem C98_port {P : Port n} {c : Fin n} {f : List ℝ} {v i : List ℂ} (h : P.spectra c = .ok (f, v, i)) :
    f = (List.range P.v0.t.length).map fun k : ℕ => ((k : ℝ) - (P.v0.t.length / 2 : ℕ)) /
      (P.v0.t.length * (P.v1.t.getD 1 0 - P.v0.t.getD 0 0)) := by
  obtain ⟨r0, r1, ri, -, -, -, -, -, -, -, h1, -, rfl, -⟩ := spectra_ok h
  exact fftfreq_shift _ h1 _

/-- **C98, non-vacuity**: the constant record has only the frequency zero. -/
theorem C98_example : (fftshift (fftfreq 2 1)) = [-1 / 2, 0] ∧ fftshift (dft [1, 1]) = [0, 2] := by
  constructor
  · rw [fftfreq_shift 2 (by norm_num)]
    simp [List.range_succ]
  · have : exp (-(2 * Real.pi * I / 2)) = -1 := by
      rw [show (-(2 * Real.pi * I / 2) : ℂ) = -(Real.pi * I) by ring, exp_neg, exp_pi_mul_I]; norm_num
    simp [fftshift, dft, List.range_succ, Finset.sum_range_succ, this]
    norm_num

/-! ## C99 -/

/-- **C99 is false of the code**: the extraction fails for every line. -/
theorem C99_refuted (line : MTL n p) (fMin fMax T : ℝ) (p1 p2 : String × ℕ) :
    ¬ ∃ r, extract2pNetwork line fMin fMax T p1 p2 = .ok r := by
  rintro ⟨r, h⟩
  unfold extract2pNetwork at h
  obtain ⟨_, -, h⟩ := bind_ok_iff.1 h
  obtain ⟨_, -, h⟩ := bind_ok_iff.1 h
  obtain ⟨_, h, -⟩ := bind_ok_iff.1 h
  exact absurd h (by simp [getSolvedProbesFromLine])

/-- Which error that is: equal ports fail the assertion, the frequency zero divides by zero, and everything else asks the line for
the attribute `x` it has not. -/
theorem C99_refuted_attribute (line : MTL n p) (fMin fMax T : ℝ) (p1 p2 : String × ℕ) :
    (p1 = p2 → extract2pNetwork line fMin fMax T p1 p2 = .error .AssertionError) ∧
    (p1 ≠ p2 → fMax = 0 → extract2pNetwork line fMin fMax T p1 p2 = .error .ZeroDivisionError) ∧
    (p1 ≠ p2 → fMax ≠ 0 → extract2pNetwork line fMin fMax T p1 p2 = .error .AttributeError) := by
  refine ⟨fun h => ?_, fun h h0 => ?_, fun h h0 => ?_⟩ <;> unfold extract2pNetwork pyAssert raiseIf
  · rw [if_neg (by simp [h])]; rfl
  · rw [if_pos h, if_pos h0]; rfl
  · rw [if_pos h, if_neg h0]; rfl

/-- **C99, the part that holds**: the assembly.  If in a first run the waves at one frequency satisfy `b = S a` with the
first port fed and no wave coming into the second port, and in a second run `b' = S a'` with the second port fed and no
wave coming into the first one, the combined quotients are the matrix `S`. -/
theorem C99_assembly_partial (S : Matrix (Fin 2) (Fin 2) ℂ) {a1 b1 a2 b2 a1' b1' a2' b2' : ℂ}
    (h1 : b1 = S 0 0 * a1 + S 0 1 * a2) (h2 : b2 = S 1 0 * a1 + S 1 1 * a2)
    (h1' : b1' = S 0 0 * a1' + S 0 1 * a2') (h2' : b2' = S 1 0 * a1' + S 1 1 * a2')
    (ha1 : a1 ≠ 0) (ha2 : a2 = 0) (ha1' : a1' = 0) (ha2' : a2' ≠ 0) :
    combineRuns (quotients a1 b1 a2 b2) (quotients a2' b2' a1' b1') = S.map some := by
  subst h1 h2 h1' h2' ha2 ha1'
  ext x y
  fin_cases x <;> fin_cases y <;> simp [combineRuns, quotients, quot, ha1, ha2']

/-- **C99** In a run with nothing coming into the second port, the quotients by its wave are `nan` or infinite: the second column of
one run is never usable, and the result needs the first column of another one. -/
theorem C99_undefined_partial (a1 b1 b2 : ℂ) (ha1 : a1 ≠ 0) (x y : Fin 2) :
    quotients a1 b1 0 b2 x y = none ↔ y = 1 := by
  fin_cases x <;> fin_cases y <;> simp [quotients, quot, ha1]

/-- **C99** A wave coming into the second port in the first run shows in the result: the error of the first entry is
`S₁₂ a₂ / a₁`. -/
theorem C99_mismatch_partial (S : Matrix (Fin 2) (Fin 2) ℂ) {a1 b1 a2 b2 : ℂ}
    (h1 : b1 = S 0 0 * a1 + S 0 1 * a2) (ha1 : a1 ≠ 0) (s2 : Matrix (Fin 2) (Fin 2) (Option ℂ)) :
    combineRuns (quotients a1 b1 a2 b2) s2 0 0 = some (S 0 0 + S 0 1 * a2 / a1) := by
  subst h1
  simp [combineRuns, quotients, quot, ha1]
  field_simp

/-- **C99** The frequencies and the matrices of the result belong together: both lists keep the same entries, those in
the band, in their order. -/
theorem C99_band_partial {α : Type} (f : List ℝ) (s : List α) (h : f.length = s.length) (fMin fMax : ℝ) :
    (band f f fMin fMax).length = (band f s fMin fMax).length ∧
    ∀ x y, (x, y) ∈ (band f f fMin fMax).zip (band f s fMin fMax) → (x, y) ∈ f.zip s ∧ fMin ≤ x ∧ x < fMax := by
  classical
  have key : ∀ (f : List ℝ) (s : List α), f.length = s.length →
      (band f f fMin fMax).zip (band f s fMin fMax) = (f.zip s).filter (fun x => fMin ≤ x.1 ∧ x.1 < fMax) ∧
      (band f f fMin fMax).length = (band f s fMin fMax).length := by
    intro f
    induction f with
    | nil => intro s _; simp [band]
    | cons x f ih =>
      intro s hs
      cases s with
      | nil => simp at hs
      | cons y s =>
        obtain ⟨i1, i2⟩ := ih s (by simpa using hs)
        unfold band at i1 i2 ⊢
        by_cases hx : fMin ≤ x ∧ x < fMax
        · simp only [List.zip_cons_cons, List.filter_cons, hx, and_self, decide_true, if_true, List.map_cons,
            List.length_cons]
          exact ⟨by rw [i1], by rw [i2]⟩
        · simp only [List.zip_cons_cons, List.filter_cons, hx, decide_false]
          exact ⟨i1, i2⟩
  obtain ⟨k1, k2⟩ := key f s h
  refine ⟨k2, ?_⟩
  intro x y hxy
  rw [k1, List.mem_filter] at hxy
  simpa using hxy

end Mtln
