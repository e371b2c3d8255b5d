import Verif.Props.Exact

/-! # Steady states: C131, C132 -/

namespace Mtln

open Matrix Finset

variable {n p : ℕ}

/-! ## C131 -/

/-- The connectors are lumped resistances and inductances. -/
structure MTL.Lumped (s : MTL n p) : Prop where
  q1 : ∀ k < s.m, s.conn.q1sum k = 0
  q2 : ∀ k < s.m, s.conn.q2sum k = 0
  q3 : ∀ k < s.m, ∀ a b, s.conn.q3 k a b = none

/-- The circuit for direct current: the resistances of the cells, the conductances of the nodes, and the two ends with their
resistances and the voltages `V0` and `V1`. -/
structure MTL.DC (s : MTL n p) (V0 V1 : Col n) (v i : ℕ → Col n) : Prop where
  cell : ∀ k < s.m, v (k + 1) - v k = -(s.dun k • ((s.r k + s.conn.d k) *ᵥ i k))
  node : ∀ k, 0 < k → k < s.m → i k - i (k - 1) = -(((s.dun (k - 1) + s.dun k) / 2) • (s.g k *ᵥ v k))
  first : v 0 = V0 - s.zs *ᵥ (i 0 + (s.dun 0 / 2) • (s.g 0 *ᵥ v 0))
  last : v s.m = V1 + s.zl *ᵥ (i (s.m - 1) - (s.dun (s.m - 1) / 2) • (s.g s.m *ᵥ v s.m))

/-- The excitation does not change in time: constant voltages at the ends, no fields. -/
structure MTL.Constant (s : MTL n p) (V0 V1 : Col n) : Prop where
  first : ∀ x t, s.vSources 0 x t = V0 x
  last : ∀ x t, s.vSources s.m x t = V1 x
  eL : ∀ k x t, s.eL k x t = 0
  eT : ∀ k x t, s.eT k x t = 0

section

variable {s s' : MTL n p} {T : ℝ} {N : ℕ} {tr : ℕ → MTL n p} {V0 V1 : Col n}

theorem half_twice (x : Col n) : (1 / 2 : ℝ) • (x + x) = x := by
  rw [← two_smul ℝ x, smul_smul]; norm_num

/-- When the voltages of the ends and of the inner nodes stay the same in a step. -/
theorem steady_nodes (R : RunTrace s T s' N tr) (hT : s.TermConsistent) (hm : 0 < s.m) (hc : s.Constant V0 V1) {j : ℕ} (hj : j < N) :
    ((tr (j + 1)).v 0 = (tr j).v 0 ↔
      (tr j).v 0 = V0 - s.zs *ᵥ ((tr j).i 0 + (s.dun 0 / 2) • (s.g 0 *ᵥ (tr j).v 0))) ∧
    ((tr (j + 1)).v s.m = (tr j).v s.m ↔
      (tr j).v s.m = V1 + s.zl *ᵥ ((tr j).i (s.m - 1) - (s.dun (s.m - 1) / 2) • (s.g s.m *ᵥ (tr j).v s.m))) ∧
    ∀ k, 0 < k → k < s.m → ((tr (j + 1)).v k = (tr j).v k ↔
      (tr j).i k - (tr j).i (k - 1) = -(((s.dun (k - 1) + s.dun k) / 2) • (s.g k *ᵥ (tr j).v k))) := by
  have e1 := C09_terminal_equations R hT hm j hj
  have e2 := fun k h0 hk => C08_voltage_equation R j hj k h0 hk ((tr j).v k)
  have hV0 : ∀ t, (fun a => s.vSources 0 a t) = V0 := fun t => funext fun a => hc.first a t
  have hV1 : ∀ t, (fun a => s.vSources s.m a t) = V1 := fun t => funext fun a => hc.last a t
  have z : (fun _ : Fin n => (0 : ℝ)) = 0 := rfl
  have two : ∀ {a b c : Col n}, a + a = (b + b) - c ↔ a = b - (1 / 2 : ℝ) • c := by
    intro a b c
    constructor
    · intro h
      have := congrArg (fun x => (1 / 2 : ℝ) • x) h
      simp only [smul_sub] at this
      rwa [half_twice, half_twice] at this
    · intro h
      funext x
      have := congrFun h x
      simp at this ⊢
      linarith
  have f1 : ((tr (j + 1)).v 0 = (tr j).v 0) ↔
      (tr j).v 0 = V0 - s.zs *ᵥ ((tr j).i 0 + (s.dun 0 / 2) • (s.g 0 *ᵥ (tr j).v 0)) := by
    rw [eq_comm, ← (e1 _).1]
    unfold TerminalEq
    simp only [hc.eT, sub_self, hV0, z, mulVec_zero, smul_zero, add_zero]
    rw [two, ← mulVec_smul]
    have : (1 / 2 : ℝ) • ((2 : ℝ) • (tr j).i 0 + (s.dun 0 / 2) • s.g 0 *ᵥ ((tr j).v 0 + (tr j).v 0)) =
        (tr j).i 0 + (s.dun 0 / 2) • s.g 0 *ᵥ (tr j).v 0 := by
      rw [smul_add, smul_smul, smul_comm (1 / 2 : ℝ), ← mulVec_smul, half_twice]
      norm_num
    rw [this]
  have f2 : ((tr (j + 1)).v s.m = (tr j).v s.m) ↔
      (tr j).v s.m = V1 + s.zl *ᵥ ((tr j).i (s.m - 1) - (s.dun (s.m - 1) / 2) • (s.g s.m *ᵥ (tr j).v s.m)) := by
    rw [eq_comm, ← (e1 _).2]
    unfold TerminalEq
    simp only [hc.eT, sub_self, hV1, z, mulVec_zero, smul_zero, add_zero]
    rw [two, ← mulVec_smul]
    have : (1 / 2 : ℝ) • ((2 : ℝ) • -(tr j).i (s.m - 1) + (s.dun (s.m - 1) / 2) • s.g s.m *ᵥ ((tr j).v s.m + (tr j).v s.m)) =
        -((tr j).i (s.m - 1) - (s.dun (s.m - 1) / 2) • s.g s.m *ᵥ (tr j).v s.m) := by
      rw [smul_add, smul_smul, smul_comm (1 / 2 : ℝ), ← mulVec_smul, half_twice]
      norm_num
      rw [add_comm, sub_eq_add_neg]
    rw [this, mulVec_neg, sub_neg_eq_add]
  have f3 : ∀ k, 0 < k → k < s.m → ((tr (j + 1)).v k = (tr j).v k ↔
      (tr j).i k - (tr j).i (k - 1) = -(((s.dun (k - 1) + s.dun k) / 2) • (s.g k *ᵥ (tr j).v k))) := by
    intro k h0 hk
    rw [eq_comm, ← e2 k h0 hk]
    unfold VoltageEq
    simp only [hc.eT, sub_self, z, mulVec_zero, smul_zero, add_zero, zero_add, sub_zero]
    rw [← mulVec_smul, half_twice]
    constructor
    · intro h; rw [h, neg_neg]
    · intro h; rw [h, neg_neg]
  exact ⟨f1, f2, f3⟩

/-- Nothing changes in a step exactly if the values solve the circuit. -/
theorem C131_step_iff (R : RunTrace s T s' N tr) (hT : s.TermConsistent) (hm : 0 < s.m) (hl : s.Lumped)
    (hc : s.Constant V0 V1) {j : ℕ} (hj : j < N) :
    ((∀ k ≤ s.m, (tr (j + 1)).v k = (tr j).v k) ∧ ∀ k < s.m, (tr (j + 1)).i k = (tr j).i k) ↔
      s.DC V0 V1 (tr j).v (tr j).i := by
  have e3 := fun k hk => C07_current_equation R j hj k hk ((tr j).i k)
  have z : (fun _ : Fin n => (0 : ℝ)) = 0 := rfl
  obtain ⟨f1, f2, f3⟩ := steady_nodes R hT hm hc hj
  have f4 : ∀ k < s.m, ((tr (j + 1)).i k = (tr j).i k ↔
      (tr (j + 1)).v (k + 1) - (tr (j + 1)).v k = -(s.dun k • ((s.r k + s.conn.d k) *ᵥ (tr j).i k))) := by
    intro k hk
    rw [eq_comm, ← e3 k hk]
    unfold CurrentEq
    have hh : (fun a : Fin n => (∑ σ, ∑ b, (s.conn.q3 k a b).val σ * (tr j).phi k b σ).re) = 0 := by
      funext a
      simp [hl.q3 k hk, QEntry.val]
    rw [hh, hl.q1 k hk, hl.q2 k hk]
    simp only [hc.eT, hc.eL, sub_self, z, mulVec_zero, zero_mulVec, smul_zero, add_zero, zero_add, sub_zero]
    rw [← mulVec_smul, half_twice]
    constructor
    · intro h; rw [h, neg_neg]
    · intro h; rw [h, neg_neg]
  constructor
  · rintro ⟨hv, hi⟩
    refine ⟨fun k hk => ?_, fun k h0 hk => (f3 k h0 hk).1 (hv k hk.le), f1.1 (hv 0 (by omega)), f2.1 (hv _ le_rfl)⟩
    have := (f4 k hk).1 (hi k hk)
    rwa [hv k hk.le, hv (k + 1) hk] at this
  · intro h
    have hv : ∀ k ≤ s.m, (tr (j + 1)).v k = (tr j).v k := by
      intro k hk
      rcases Nat.eq_zero_or_pos k with rfl | h0
      · exact f1.2 h.first
      · rcases Nat.lt_or_ge k s.m with hlt | hge
        · exact (f3 k h0 hlt).2 (h.node k h0 hlt)
        · obtain rfl : k = s.m := by omega
          exact f2.2 h.last
    exact ⟨hv, fun k hk => (f4 k hk).2 (by rw [hv k hk.le, hv (k + 1) hk]; exact h.cell k hk)⟩

theorem MTL.DC.congr (hm : 0 < s.m) {v i v' i' : ℕ → Col n} (h : s.DC V0 V1 v i) (hv : ∀ k ≤ s.m, v' k = v k)
    (hi : ∀ k < s.m, i' k = i k) : s.DC V0 V1 v' i' := by
  refine ⟨fun k hk => ?_, fun k h0 hk => ?_, ?_, ?_⟩
  · rw [hv k hk.le, hv (k + 1) hk, hi k hk]; exact h.cell k hk
  · rw [hi k hk, hi (k - 1) (by omega), hv k hk.le]; exact h.node k h0 hk
  · rw [hv 0 (by omega), hi 0 hm]; exact h.first
  · rw [hv _ le_rfl, hi _ (by omega)]; exact h.last

/-- **C131** A line with constant sources and lumped connectors stays as it is, through a run of any duration, exactly if its
voltages and currents solve the circuit for direct current. -/
theorem C131_steady (R : RunTrace s T s' N tr) (hT : s.TermConsistent) (hm : 0 < s.m) (hl : s.Lumped) (hc : s.Constant V0 V1)
    (hN : 0 < N) :
    (∀ j ≤ N, (∀ k ≤ s.m, (tr j).v k = s.v k) ∧ ∀ k < s.m, (tr j).i k = s.i k) ↔ s.DC V0 V1 s.v s.i := by
  obtain ⟨hv0, hi0⟩ : (tr 0).v = s.v ∧ (tr 0).i = s.i := by
    obtain ⟨lr, cg, -, -, h⟩ := R.start
    rw [h]
    exact ⟨rfl, rfl⟩
  constructor
  · intro h
    obtain ⟨a, b⟩ := h 1 hN
    have := (C131_step_iff R hT hm hl hc hN).1 ⟨fun k hk => by rw [hv0]; exact a k hk, fun k hk => by rw [hi0]; exact b k hk⟩
    rwa [hv0, hi0] at this
  · intro h j
    induction j with
    | zero => exact fun _ => ⟨fun k _ => by rw [hv0], fun k _ => by rw [hi0]⟩
    | succ j ih =>
      intro hj
      obtain ⟨a, b⟩ := ih (by omega)
      obtain ⟨a', b'⟩ := (C131_step_iff R hT hm hl hc (j := j) (by omega)).2 (h.congr hm a b)
      exact ⟨fun k hk => (a' k hk).trans (a k hk), fun k hk => (b' k hk).trans (b k hk)⟩

/-- **C131** Without conductances the circuit is a series circuit: one current, driven by the difference of the voltages of the
ends through all resistances. -/
theorem C131_series (hm : 0 < s.m) (hg : ∀ k ≤ s.m, s.g k = 0) (v i : ℕ → Col n) :
    s.DC V0 V1 v i ↔ ∃ I : Col n, (∀ k < s.m, i k = I) ∧
      (∀ k ≤ s.m, v k = V0 - (s.zs + ∑ q ∈ range k, s.dun q • (s.r q + s.conn.d q)) *ᵥ I) ∧
      (s.zs + s.zl + ∑ q ∈ range s.m, s.dun q • (s.r q + s.conn.d q)) *ᵥ I = V0 - V1 := by
  have sum_succ : ∀ k (I : Col n), (s.zs + ∑ q ∈ range (k + 1), s.dun q • (s.r q + s.conn.d q)) *ᵥ I =
      (s.zs + ∑ q ∈ range k, s.dun q • (s.r q + s.conn.d q)) *ᵥ I + s.dun k • ((s.r k + s.conn.d k) *ᵥ I) := by
    intro k I
    rw [sum_range_succ, ← add_assoc, add_mulVec, smul_mulVec]
  constructor
  · intro h
    have hi : ∀ k < s.m, i k = i 0 := by
      intro k
      induction k with
      | zero => exact fun _ => rfl
      | succ k ih =>
        intro hk
        have := h.node (k + 1) (by omega) hk
        rw [hg _ hk.le, zero_mulVec, smul_zero, neg_zero, sub_eq_zero] at this
        rw [this]
        exact ih (by omega)
    have hv : ∀ k ≤ s.m, v k = V0 - (s.zs + ∑ q ∈ range k, s.dun q • (s.r q + s.conn.d q)) *ᵥ i 0 := by
      intro k
      induction k with
      | zero =>
        intro _
        have := h.first
        rw [hg 0 (by omega), zero_mulVec, smul_zero, add_zero] at this
        rw [this]
        simp
      | succ k ih =>
        intro hk
        have h1 := h.cell k hk
        rw [hi k hk] at h1
        rw [sum_succ, ← sub_sub, ← ih (by omega), sub_eq_add_neg, ← h1]
        abel
    refine ⟨i 0, hi, hv, ?_⟩
    have h1 := h.last
    rw [hg _ le_rfl, zero_mulVec, smul_zero, sub_zero, hi _ (by omega), hv _ le_rfl] at h1
    have e : (s.zs + s.zl + ∑ q ∈ range s.m, s.dun q • (s.r q + s.conn.d q)) *ᵥ i 0 =
        (s.zs + ∑ q ∈ range s.m, s.dun q • (s.r q + s.conn.d q)) *ᵥ i 0 + s.zl *ᵥ i 0 := by
      rw [← add_mulVec]
      congr 1
      abel
    rw [e, sub_eq_iff_eq_add.1 h1]
    abel
  · rintro ⟨I, hi, hv, hI⟩
    refine ⟨fun k hk => ?_, fun k h0 hk => ?_, ?_, ?_⟩
    · rw [hv k hk.le, hv (k + 1) hk, hi k hk, sum_succ]
      abel
    · rw [hi k hk, hi _ (by omega), hg k hk.le]
      simp
    · rw [hv 0 (by omega), hi 0 hm, hg 0 (by omega)]
      simp
    · rw [hv _ le_rfl, hi _ (by omega), hg _ le_rfl, zero_mulVec, smul_zero, sub_zero]
      have e : (s.zs + s.zl + ∑ q ∈ range s.m, s.dun q • (s.r q + s.conn.d q)) *ᵥ I =
          (s.zs + ∑ q ∈ range s.m, s.dun q • (s.r q + s.conn.d q)) *ᵥ I + s.zl *ᵥ I := by
        rw [← add_mulVec]
        congr 1
        abel
      rw [e] at hI
      have : V0 = V1 + ((s.zs + ∑ q ∈ range s.m, s.dun q • (s.r q + s.conn.d q)) *ᵥ I + s.zl *ᵥ I) := by
        rw [hI]; abel
      rw [this]
      abel

end

/-! ## C132 -/

section

variable {τ ρ : ℝ} {m : ℕ} {E t0 dt : ℝ}

/-- The step of height `E` at `t0`. -/
noncomputable def stepSource (E t0 : ℝ) (t : ℝ) : ℝ := if t0 ≤ t then E else 0

theorem stepSource_before (t : ℝ) (h : t < t0) : stepSource E t0 t = 0 := if_neg (not_le.2 h)

theorem launched_limit (hdt : 0 < dt) (hm : 0 < m) (hρ : |ρ| < 1) (q : ℕ) (n : ℤ) (hn : 2 * m * ((q : ℤ) - 1) < n) :
    |launched τ ρ m (stepSource E t0) t0 dt n - τ * E / (1 - ρ)| ≤ |ρ| ^ q * |τ * E / (1 - ρ)| := by
  have h1 : (1 : ℝ) - ρ ≠ 0 := by
    have := (abs_lt.1 hρ).2
    linarith
  have hrec : ∀ n : ℤ, 0 < n → launched τ ρ m (stepSource E t0) t0 dt n - τ * E / (1 - ρ) =
      ρ * (launched τ ρ m (stepSource E t0) t0 dt (n - 2 * m) - τ * E / (1 - ρ)) := by
    intro n hn
    rw [launched_step hdt hm stepSource_before]
    have : stepSource E t0 (t0 + (n - 1) * dt) = E := by
      apply if_pos
      have : (1 : ℝ) ≤ n := by exact_mod_cast hn
      nlinarith
    rw [this]
    field_simp
    ring
  have base : ∀ b : ℕ, ∀ n : ℤ, n ≤ b →
      |launched τ ρ m (stepSource E t0) t0 dt n - τ * E / (1 - ρ)| ≤ |τ * E / (1 - ρ)| := by
    intro b
    induction b with
    | zero =>
      intro n hn
      rw [launched_nonpos hdt stepSource_before (by simpa using hn), zero_sub, abs_neg]
    | succ b ih =>
      intro n hn
      rcases le_or_gt n 0 with h0 | h0
      · rw [launched_nonpos hdt stepSource_before h0, zero_sub, abs_neg]
      · rw [hrec n h0, abs_mul]
        have := ih (n - 2 * m) (by push_cast at hn; omega)
        calc |ρ| * _ ≤ 1 * |τ * E / (1 - ρ)| := by gcongr
          _ = _ := one_mul _
  induction q generalizing n with
  | zero =>
    rw [pow_zero, one_mul]
    exact base n.toNat n (Int.self_le_toNat n)
  | succ q ih =>
    have hn' : 0 < n := by
      have : (0 : ℤ) ≤ 2 * m * q := by positivity
      push_cast at hn
      nlinarith
    rw [hrec n hn', abs_mul, pow_succ', mul_assoc]
    gcongr
    apply ih
    push_cast at hn
    linarith

end

/-- **C132** The response to a step at the source converges to the voltage divider: after `q` round trips voltages and currents
differ from those of the direct current circuit by at most the `q`-th power of the product of the reflection coefficients,
times a constant. -/
theorem C132_settles {s s' : MTL 1 p} {T : ℝ} {N : ℕ} {tr : ℕ → MTL 1 p} (R : RunTrace s T s' N tr) {d L C Zs Zl E : ℝ}
    (hi : s.Ideal d L C Zs Zl (stepSource E s.time)) (hr : s.AtRest) (hpos : 0 < Zs + Zl) {Z ρs ρl : ℝ}
    (hZ : Z = Real.sqrt (L / C)) (hρs : ρs = (Zs - Z) / (Zs + Z)) (hρl : ρl = (Zl - Z) / (Zl + Z)) :
    |ρs * ρl| < 1 ∧ ∀ q j : ℕ, 2 * s.m * q < j → j ≤ N →
      (∀ k ≤ s.m, |(tr j).v k 0 - E * (Zl / (Zs + Zl))| ≤ |ρs * ρl| ^ q * (2 * |E * (Z + Zl) / (2 * (Zs + Zl))|)) ∧
      (∀ k < s.m, |Z * ((tr j).i k 0 - E / (Zs + Zl))| ≤ |ρs * ρl| ^ q * (2 * |E * (Z + Zl) / (2 * (Zs + Zl))|)) := by
  obtain ⟨hZ0, -, -⟩ := hi.impedance hZ
  have hs := hi.zs_nonneg
  have hl := hi.zl_nonneg
  have hdt := hi.dt_pos
  have hm := hi.cells
  have b1 : |ρs| ≤ 1 := by
    rw [hρs, abs_div, abs_of_pos (by linarith : 0 < Zs + Z), div_le_one (by linarith), abs_le]
    constructor <;> linarith
  have b2 : |ρl| ≤ 1 := by
    rw [hρl, abs_div, abs_of_pos (by linarith : 0 < Zl + Z), div_le_one (by linarith), abs_le]
    constructor <;> linarith
  have strict : ∀ x : ℝ, 0 < x → |(x - Z) / (x + Z)| < 1 := by
    intro x hx
    rw [abs_div, abs_of_pos (by linarith : 0 < x + Z), div_lt_one (by linarith), abs_lt]
    constructor <;> linarith
  have hρ : |ρs * ρl| < 1 := by
    rw [abs_mul]
    rcases hs.lt_or_eq with h | h
    · have := strict Zs h
      rw [← hρs] at this
      nlinarith [abs_nonneg ρs, abs_nonneg ρl]
    · have := strict Zl (by linarith)
      rw [← hρl] at this
      nlinarith [abs_nonneg ρs, abs_nonneg ρl]
  have hone : 1 - ρs * ρl ≠ 0 := by
    have := (abs_lt.1 hρ).2
    linarith
  have hlim : Z / (Z + Zs) * E / (1 - ρs * ρl) = E * (Z + Zl) / (2 * (Zs + Zl)) := by
    have e : 1 - ρs * ρl = 2 * Z * (Zs + Zl) / ((Zs + Z) * (Zl + Z)) := by
      rw [hρs, hρl]
      field_simp
      ring
    rw [e]
    field_simp
    ring
  refine ⟨hρ, fun q j hq hj => ?_⟩
  obtain ⟨hv, hw⟩ := C129_bounce R hi hr stepSource_before hZ hρs hρl j hj
  set B := E * (Z + Zl) / (2 * (Zs + Zl)) with hB
  have lim : ∀ n : ℤ, 2 * s.m * ((q : ℤ) - 1) < n →
      |launched (Z / (Z + Zs)) (ρs * ρl) s.m (stepSource E s.time) s.time s.dt n - B| ≤ |ρs * ρl| ^ q * |B| := by
    intro n hn
    have := launched_limit (τ := Z / (Z + Zs)) (ρ := ρs * ρl) (E := E) (t0 := s.time) hdt hm hρ q n hn
    rwa [hlim] at this
  have hq' : 2 * (s.m : ℤ) * q < j := by exact_mod_cast hq
  have eV : E * (Zl / (Zs + Zl)) = B + ρl * B := by
    rw [hB, hρl]
    field_simp
    ring
  have eI : Z * (E / (Zs + Zl)) = B - ρl * B := by
    rw [hB, hρl]
    field_simp
    ring
  refine ⟨fun k hk => ?_, fun k hk => ?_⟩
  · have l1 := lim ((j : ℤ) - k) (by linarith [hq', (by exact_mod_cast hk : (k : ℤ) ≤ s.m)])
    have l2 := lim ((j : ℤ) + k - 2 * s.m) (by linarith [hq', (by positivity : (0 : ℤ) ≤ k)])
    rw [hv k hk, eV]
    set x := launched (Z / (Z + Zs)) (ρs * ρl) s.m (stepSource E s.time) s.time s.dt ((j : ℤ) - k)
    set y := launched (Z / (Z + Zs)) (ρs * ρl) s.m (stepSource E s.time) s.time s.dt ((j : ℤ) + k - 2 * s.m)
    calc |x + ρl * y - (B + ρl * B)| = |(x - B) + ρl * (y - B)| := by congr 1; ring
      _ ≤ |x - B| + |ρl| * |y - B| := by rw [← abs_mul]; exact abs_add_le _ _
      _ ≤ |ρs * ρl| ^ q * |B| + 1 * (|ρs * ρl| ^ q * |B|) := by gcongr
      _ = _ := by ring
  · have l1 := lim ((j : ℤ) - k) (by linarith [hq', (by exact_mod_cast hk.le : (k : ℤ) ≤ s.m)])
    have l2 := lim ((j : ℤ) + k + 1 - 2 * s.m) (by linarith [hq', (by positivity : (0 : ℤ) ≤ k)])
    rw [mul_sub, hw k hk, eI]
    set x := launched (Z / (Z + Zs)) (ρs * ρl) s.m (stepSource E s.time) s.time s.dt ((j : ℤ) - k)
    set y := launched (Z / (Z + Zs)) (ρs * ρl) s.m (stepSource E s.time) s.time s.dt ((j : ℤ) + k + 1 - 2 * s.m)
    calc |x - ρl * y - (B - ρl * B)| = |(x - B) - ρl * (y - B)| := by congr 1; ring
      _ ≤ |x - B| + |ρl| * |y - B| := by rw [← abs_mul]; exact abs_sub _ _
      _ ≤ |ρs * ρl| ^ q * |B| + 1 * (|ρs * ρl| ^ q * |B|) := by gcongr
      _ = _ := by ring

/-! ## Non-vacuity -/

/-- The demo line with two volts at its beginning, one volt and one ampere everywhere. -/
noncomputable def demoSteady : MTL 1 0 :=
  { demoBare 0 with
    vSources := fun k _ _ => if k = 0 then 2 else 0
    v := fun _ _ => 1
    i := fun _ _ => 1 }

/-- Non-vacuity of C131: this line is in the steady state of its circuit and runs. -/
example : demoSteady.TermConsistent ∧ 0 < demoSteady.m ∧ demoSteady.Lumped ∧
    demoSteady.Constant (fun _ => 2) 0 ∧ demoSteady.DC (fun _ => 2) 0 demoSteady.v demoSteady.i ∧
    ∃ s', demoSteady.runUntil 3 = .ok s' := by
  have hT := demo_termConsistent 0
  refine ⟨⟨hT.1, hT.2, hT.3, hT.4, hT.5, hT.6⟩, by simp [demoSteady, demoBare], ⟨?_, ?_, ?_⟩, ⟨?_, ?_, ?_, ?_⟩, ?_, ?_⟩
  · intro k _; simp [demoSteady, demoBare, Disp.new]
  · intro k _; simp [demoSteady, demoBare, Disp.new]
  · intro k _ a b; simp [demoSteady, demoBare, Disp.new]
  · intro x t; simp [demoSteady]
  · intro x t; simp [demoSteady, demoBare]
  · intro k x t; simp [demoSteady, demoBare]
  · intro k x t; simp [demoSteady, demoBare]
  · refine (C131_series (by simp [demoSteady, demoBare]) (by simp [demoSteady, demoBare]) _ _).2 ⟨fun _ => 1, ?_, ?_, ?_⟩
    · intro k _; rfl
    · intro k _
      funext x
      simp [demoSteady, demoBare, Disp.new]
      norm_num
    · funext x
      simp [demoSteady, demoBare, Disp.new, add_mulVec]
      norm_num
  · exact (runUntil_success_iff 3 _).2 ⟨by simp [demoSteady, demoBare], demo_lr 0, demo_cg 0, Or.inr (by simp [demoSteady, demoBare])⟩

/-- Non-vacuity of C132: the demo line with a step at its beginning. -/
example : ∃ s : MTL 1 0, s.Ideal 1 1 1 1 1 (stepSource 5 s.time) ∧ s.AtRest ∧ ∀ T, ∃ s', s.runUntil T = .ok s' := by
  obtain ⟨hi, hr, h0, hp, -, -⟩ := constructed_ideal (p := 0) (D := 2) (m := 2) one_pos one_pos two_pos zero_le_one zero_le_one
    (by norm_num) demoBare_constructed (stepSource 5 0)
  have e : (2 : ℝ) / (2 : ℕ) = 1 := by norm_num
  rw [e] at hi
  refine ⟨_, hi, hr, fun T => hi.runs (by
    show ∀ q ∈ (demoBare 0).probes, _
    rw [hp]
    simp) T⟩

end Mtln
