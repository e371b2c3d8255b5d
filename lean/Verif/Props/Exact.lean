import Verif.Props.Equations
import Verif.Props.LineApi
import Verif.Lemmas.Straight
import Mathlib.Analysis.Calculus.MeanValue
import Mathlib.Analysis.Calculus.Deriv.Prod
import Mathlib.Analysis.SpecialFunctions.SmoothTransition
import Mathlib.Topology.Algebra.InfiniteSum.NatInt
import Mathlib.Topology.Algebra.InfiniteSum.Ring

/-! # Exact propagation at the automatic time step: C129, C130 -/

namespace Mtln

open Matrix Finset

variable {p : ℕ}

/-! ## The bounce diagram -/

/-- The wave that has left the source after `n` steps: every round trip of `2 m` steps adds a copy, multiplied by the two
reflection coefficients (`ρ` is their product). -/
noncomputable def launched (τ ρ : ℝ) (m : ℕ) (Vs : ℝ → ℝ) (t0 dt : ℝ) (n : ℤ) : ℝ :=
  τ * ∑ r ∈ range (n.toNat + 1), ρ ^ r * Vs (t0 + (n - 1 - 2 * m * r) * dt)

section

variable {τ ρ : ℝ} {m : ℕ} {Vs : ℝ → ℝ} {t0 dt : ℝ}

/-- More terms do not change the sum. -/
theorem launched_sum (hdt : 0 < dt) (hm : 0 < m) (hV : ∀ t < t0, Vs t = 0) (n : ℤ) {K : ℕ} (hK : n.toNat + 1 ≤ K) :
    launched τ ρ m Vs t0 dt n = τ * ∑ r ∈ range K, ρ ^ r * Vs (t0 + (n - 1 - 2 * m * r) * dt) := by
  unfold launched
  congr 1
  refine sum_subset (range_subset_range.2 hK) fun r _ hr => ?_
  have hr' : n.toNat + 1 ≤ r := by simpa using hr
  rw [hV, mul_zero]
  have h1 : (n : ℤ) ≤ n.toNat := Int.self_le_toNat n
  have h2 : (n : ℝ) + 1 ≤ r := by
    have : (n : ℤ) + 1 ≤ r := by omega
    exact_mod_cast this
  have h3 : (1 : ℝ) ≤ m := by exact_mod_cast hm
  have h4 : (r : ℝ) ≤ 2 * m * r := by nlinarith [Nat.cast_nonneg (α := ℝ) r]
  nlinarith

theorem launched_nonpos (hdt : 0 < dt) (hV : ∀ t < t0, Vs t = 0) {n : ℤ} (hn : n ≤ 0) : launched τ ρ m Vs t0 dt n = 0 := by
  unfold launched
  rw [Int.toNat_of_nonpos hn]
  simp only [zero_add, range_one, sum_singleton, pow_zero, one_mul, Nat.cast_zero, mul_zero, sub_zero]
  rw [hV, mul_zero]
  have : (n : ℝ) ≤ 0 := by exact_mod_cast hn
  nlinarith

theorem launched_step (hdt : 0 < dt) (hm : 0 < m) (hV : ∀ t < t0, Vs t = 0) (n : ℤ) :
    launched τ ρ m Vs t0 dt n = τ * Vs (t0 + (n - 1) * dt) + ρ * launched τ ρ m Vs t0 dt (n - 2 * m) := by
  rw [launched_sum hdt hm hV n (K := n.toNat + 1 + 1) (by omega),
    launched_sum hdt hm hV (n - 2 * m) (K := n.toNat + 1) (by omega), sum_range_succ']
  rw [mul_add, add_comm]
  congr 1
  · simp
  · rw [mul_left_comm]
    congr 1
    rw [mul_sum]
    refine sum_congr rfl fun r _ => ?_
    rw [pow_succ]
    have : t0 + ((n : ℝ) - 1 - 2 * m * ((r + 1 : ℕ) : ℝ)) * dt = t0 + (((n - 2 * m : ℤ) : ℝ) - 1 - 2 * m * r) * dt := by
      push_cast
      ring
    rw [this]
    ring

end

/-- The recurrences of the voltages and of the currents, times the wave impedance, and their solution. -/
theorem bounce_solution {N m : ℕ} (hm : 0 < m) {v w : ℕ → ℕ → ℝ} {Z Zs Zl t0 dt : ℝ} {Vs : ℝ → ℝ} (hZ : 0 < Z) (hs : 0 ≤ Zs)
    (hl : 0 ≤ Zl) (hdt : 0 < dt) (hV : ∀ t < t0, Vs t = 0) (v0 : ∀ k ≤ m, v 0 k = 0) (w0 : ∀ k < m, w 0 k = 0)
    (hv : ∀ j < N, ∀ k, 0 < k → k < m → v (j + 1) k = v j k - (w j k - w j (k - 1)))
    (hw : ∀ j < N, ∀ k < m, w (j + 1) k = w j k - (v (j + 1) (k + 1) - v (j + 1) k))
    (hS : ∀ j < N, Z * (v (j + 1) 0 + v j 0) = Z * (Vs (t0 + j * dt) + Vs (t0 + j * dt - dt)) -
      Zs * (2 * w j 0 + (v (j + 1) 0 - v j 0)))
    (hL : ∀ j < N, Z * (v (j + 1) m + v j m) = - (Zl * (-(2 * w j (m - 1)) + (v (j + 1) m - v j m)))) :
    ∀ j ≤ N,
      (∀ k ≤ m, v j k = launched (Z / (Z + Zs)) ((Zs - Z) / (Zs + Z) * ((Zl - Z) / (Zl + Z))) m Vs t0 dt ((j : ℤ) - k) +
        (Zl - Z) / (Zl + Z) *
          launched (Z / (Z + Zs)) ((Zs - Z) / (Zs + Z) * ((Zl - Z) / (Zl + Z))) m Vs t0 dt ((j : ℤ) + k - 2 * m)) ∧
      (∀ k < m, w j k = launched (Z / (Z + Zs)) ((Zs - Z) / (Zs + Z) * ((Zl - Z) / (Zl + Z))) m Vs t0 dt ((j : ℤ) - k) -
        (Zl - Z) / (Zl + Z) *
          launched (Z / (Z + Zs)) ((Zs - Z) / (Zs + Z) * ((Zl - Z) / (Zl + Z))) m Vs t0 dt ((j : ℤ) + k + 1 - 2 * m)) := by
  set ρl := (Zl - Z) / (Zl + Z) with hρl
  set ρs := (Zs - Z) / (Zs + Z) with hρs
  set e := launched (Z / (Z + Zs)) (ρs * ρl) m Vs t0 dt with he
  have e0 : ∀ n : ℤ, n ≤ 0 → e n = 0 := fun n hn => launched_nonpos hdt hV hn
  have estep : ∀ n : ℤ, (Zs + Z) * e n = Z * Vs (t0 + (n - 1) * dt) + (Zs - Z) * (ρl * e (n - 2 * m)) := by
    intro n
    have h1 : e n = Z / (Z + Zs) * Vs (t0 + (n - 1) * dt) + ρs * ρl * e (n - 2 * m) := launched_step hdt hm hV n
    have h2 : ρs * (Zs + Z) = Zs - Z := by rw [hρs]; field_simp
    have h3 : Z / (Z + Zs) * (Zs + Z) = Z := by rw [add_comm Zs Z]; field_simp
    calc (Zs + Z) * e n = (Z / (Z + Zs) * (Zs + Z)) * Vs (t0 + (n - 1) * dt) + (ρs * (Zs + Z)) * (ρl * e (n - 2 * m)) := by
          rw [h1]; ring
      _ = _ := by rw [h2, h3]
  have hρ : ρl * (Zl + Z) = Zl - Z := by rw [hρl]; field_simp
  clear_value e ρl ρs
  intro j
  induction j with
  | zero =>
    intro _
    refine ⟨fun k hk => ?_, fun k hk => ?_⟩
    · rw [v0 k hk, e0 _ (by omega), e0 _ (by omega)]; ring
    · rw [w0 k hk, e0 _ (by omega), e0 _ (by omega)]; ring
  | succ j ih =>
    intro hj
    obtain ⟨iv, iw⟩ := ih (by omega)
    have key : ∀ k ≤ m, v (j + 1) k = e (((j + 1 : ℕ) : ℤ) - k) + ρl * e (((j + 1 : ℕ) : ℤ) + k - 2 * m) := by
      intro k hk
      rcases Nat.eq_zero_or_pos k with rfl | hk0
      · have h1 := hS j (by omega)
        have h2 := iv 0 (by omega)
        have h3 := iw 0 hm
        have h4 := estep (j + 1)
        have h5 := estep j
        simp only [Nat.cast_zero, sub_zero, add_zero, Nat.cast_add, Nat.cast_one] at h2 h3 ⊢
        have t1 : t0 + (((j + 1 : ℤ) : ℝ) - 1) * dt = t0 + j * dt := by push_cast; ring
        have t2 : t0 + (((j : ℤ) : ℝ) - 1) * dt = t0 + j * dt - dt := by push_cast; ring
        rw [t1] at h4
        rw [t2] at h5
        have hpos : Zs + Z ≠ 0 := by positivity
        apply mul_left_cancel₀ hpos
        rw [h2, h3] at h1
        generalize e (j + 1) = a at *
        generalize e j = b at *
        generalize e (j + 1 - 2 * m) = c at *
        generalize e (j - 2 * m) = d at *
        generalize Vs (t0 + j * dt) = x at *
        generalize Vs (t0 + j * dt - dt) = y at *
        linear_combination h1 - h4 - h5
      · rcases Nat.lt_or_ge k m with hkm | hkm
        · rw [hv j (by omega) k hk0 hkm, iv k hk, iw k hkm, iw (k - 1) (by omega)]
          have c1 : ((k - 1 : ℕ) : ℤ) = k - 1 := by omega
          rw [c1]
          have a1 : ((j : ℤ) - (k - 1)) = ((j + 1 : ℕ) : ℤ) - k := by push_cast; ring
          have a2 : ((j : ℤ) + (k - 1) + 1 - 2 * m) = (j : ℤ) + k - 2 * m := by ring
          have a3 : ((j : ℤ) + k + 1 - 2 * m) = ((j + 1 : ℕ) : ℤ) + k - 2 * m := by push_cast; ring
          rw [a1, a2, a3]
          ring
        · obtain rfl : k = m := by omega
          have h1 := hL j (by omega)
          have h2 := iv k le_rfl
          have h3 := iw (k - 1) (by omega)
          have c1 : ((k - 1 : ℕ) : ℤ) = k - 1 := by omega
          rw [c1] at h3
          have a1 : ((j : ℤ) - (k - 1)) = ((j + 1 : ℕ) : ℤ) - k := by push_cast; ring
          have a2 : ((j : ℤ) + (k - 1) + 1 - 2 * k) = (j : ℤ) - k := by ring
          have a3 : ((j : ℤ) + k - 2 * k) = (j : ℤ) - k := by ring
          have a4 : (((j + 1 : ℕ) : ℤ) + k - 2 * k) = ((j + 1 : ℕ) : ℤ) - k := by ring
          rw [a1, a2] at h3
          rw [a3] at h2
          rw [a4]
          have hpos : Zl + Z ≠ 0 := by positivity
          apply mul_left_cancel₀ hpos
          rw [h2, h3] at h1
          generalize e (((j + 1 : ℕ) : ℤ) - k) = a at *
          generalize e ((j : ℤ) - k) = b at *
          linear_combination h1 - (a + b) * hρ
    refine ⟨key, fun k hk => ?_⟩
    rw [hw j (by omega) k hk, iw k hk, key k hk.le, key (k + 1) hk]
    have a1 : (((j + 1 : ℕ) : ℤ) - ((k + 1 : ℕ) : ℤ)) = (j : ℤ) - k := by push_cast; ring
    have a2 : (((j + 1 : ℕ) : ℤ) + ((k + 1 : ℕ) : ℤ) - 2 * m) = ((j + 1 : ℕ) : ℤ) + k + 1 - 2 * m := by push_cast; ring
    have a3 : ((j : ℤ) + k + 1 - 2 * m) = ((j + 1 : ℕ) : ℤ) + k - 2 * m := by push_cast; ring
    rw [a1, a2, a3]
    ring

/-! ## C129 -/

/-- A lossless uniform line of one conductor without connectors and external fields, with a voltage source at its beginning,
at the Courant time step. -/
structure MTL.Ideal (s : MTL 1 p) (d L C Zs Zl : ℝ) (Vs : ℝ → ℝ) : Prop where
  cells : 0 < s.m
  d_pos : 0 < d
  L_pos : 0 < L
  C_pos : 0 < C
  dun : ∀ k < s.m, s.dun k = d
  l : ∀ k < s.m, s.l k = L • 1
  c : ∀ k ≤ s.m, s.c k = C • 1
  r : ∀ k < s.m, s.r k = 0
  g : ∀ k ≤ s.m, s.g k = 0
  conn : s.conn = Disp.new s.dt
  zs : s.zs = Zs • 1
  zl : s.zl = Zl • 1
  zs_nonneg : 0 ≤ Zs
  zl_nonneg : 0 ≤ Zl
  source : s.vSources 0 0 = Vs
  load : ∀ t, s.vSources s.m 0 t = 0
  eL : ∀ k x t, s.eL k x t = 0
  eT : ∀ k x t, s.eT k x t = 0
  courant : s.dt = d * Real.sqrt (L * C)
  terms : s.TermConsistent

/-- The four recurrences of such a line, for the voltages and for the currents times the wave impedance. -/
structure Waves (N m : ℕ) (Z Zs Zl t0 dt : ℝ) (Vs : ℝ → ℝ) (v w : ℕ → ℕ → ℝ) : Prop where
  v0 : ∀ k ≤ m, v 0 k = 0
  w0 : ∀ k < m, w 0 k = 0
  inner : ∀ j < N, ∀ k, 0 < k → k < m → v (j + 1) k = v j k - (w j k - w j (k - 1))
  cell : ∀ j < N, ∀ k < m, w (j + 1) k = w j k - (v (j + 1) (k + 1) - v (j + 1) k)
  first : ∀ j < N, Z * (v (j + 1) 0 + v j 0) = Z * (Vs (t0 + j * dt) + Vs (t0 + j * dt - dt)) -
    Zs * (2 * w j 0 + (v (j + 1) 0 - v j 0))
  last : ∀ j < N, Z * (v (j + 1) m + v j m) = - (Zl * (-(2 * w j (m - 1)) + (v (j + 1) m - v j m)))

/-- They determine all values. -/
theorem Waves.unique {N m : ℕ} {Z Zs Zl t0 dt : ℝ} {Vs : ℝ → ℝ} {v w v' w' : ℕ → ℕ → ℝ} (hm : 0 < m) (hZ : 0 < Z)
    (hs : 0 ≤ Zs) (hl : 0 ≤ Zl) (h : Waves N m Z Zs Zl t0 dt Vs v w) (h' : Waves N m Z Zs Zl t0 dt Vs v' w') :
    ∀ j ≤ N, (∀ k ≤ m, v j k = v' j k) ∧ ∀ k < m, w j k = w' j k := by
  intro j
  induction j with
  | zero => exact fun _ => ⟨fun k hk => by rw [h.v0 k hk, h'.v0 k hk], fun k hk => by rw [h.w0 k hk, h'.w0 k hk]⟩
  | succ j ih =>
    intro hj
    obtain ⟨iv, iw⟩ := ih (by omega)
    have key : ∀ k ≤ m, v (j + 1) k = v' (j + 1) k := by
      intro k hk
      rcases Nat.eq_zero_or_pos k with rfl | hk0
      · have h1 := h.first j (by omega)
        have h2 := h'.first j (by omega)
        rw [iv 0 hk, iw 0 hm] at h1
        have hpos : Zs + Z ≠ 0 := by positivity
        apply mul_left_cancel₀ hpos
        linear_combination h1 - h2
      · rcases Nat.lt_or_ge k m with hkm | hkm
        · rw [h.inner j (by omega) k hk0 hkm, h'.inner j (by omega) k hk0 hkm, iv k hk, iw k hkm, iw (k - 1) (by omega)]
        · obtain rfl : k = m := by omega
          have h1 := h.last j (by omega)
          have h2 := h'.last j (by omega)
          rw [iv k hk, iw (k - 1) (by omega)] at h1
          have hpos : Zl + Z ≠ 0 := by positivity
          apply mul_left_cancel₀ hpos
          linear_combination h1 - h2
    refine ⟨key, fun k hk => ?_⟩
    rw [h.cell j (by omega) k hk, h'.cell j (by omega) k hk, iw k hk, key k hk.le, key (k + 1) hk]

theorem MTL.Ideal.dt_pos {s : MTL 1 p} {d L C Zs Zl : ℝ} {Vs : ℝ → ℝ} (hi : s.Ideal d L C Zs Zl Vs) : 0 < s.dt := by
  have hL := hi.L_pos
  have hC := hi.C_pos
  have hd := hi.d_pos
  rw [hi.courant]
  positivity

theorem MTL.Ideal.impedance {s : MTL 1 p} {d L C Zs Zl Z : ℝ} {Vs : ℝ → ℝ} (hi : s.Ideal d L C Zs Zl Vs)
    (hZ : Z = Real.sqrt (L / C)) : 0 < Z ∧ s.dt = d * (C * Z) ∧ s.dt * Z = d * L := by
  have hL := hi.L_pos
  have hC := hi.C_pos
  have h1 : s.dt = d * (C * Z) := by
    rw [hi.courant, hZ]
    congr 1
    rw [Real.sqrt_div hL.le, Real.sqrt_mul hL.le]
    have := Real.mul_self_sqrt hC.le
    field_simp
    rw [sq, this]
  refine ⟨by rw [hZ]; positivity, h1, ?_⟩
  rw [h1, hZ]
  have : Real.sqrt (L / C) * Real.sqrt (L / C) = L / C := Real.mul_self_sqrt (by positivity)
  calc d * (C * Real.sqrt (L / C)) * Real.sqrt (L / C) = d * (C * (Real.sqrt (L / C) * Real.sqrt (L / C))) := by ring
    _ = d * L := by rw [this]; field_simp

/-- A run of such a line makes waves. -/
theorem MTL.Ideal.recurrences {s s' : MTL 1 p} {T : ℝ} {N : ℕ} {tr : ℕ → MTL 1 p} (R : RunTrace s T s' N tr) {d L C Zs Zl Z : ℝ}
    {Vs : ℝ → ℝ} (hi : s.Ideal d L C Zs Zl Vs) (hZ : Z = Real.sqrt (L / C)) {v w : ℕ → ℕ → ℝ}
    (hv : v = fun j k => (tr j).v k 0) (hw : w = fun j k => Z * (tr j).i k 0) :
    (∀ j < N, ∀ k, 0 < k → k < s.m → v (j + 1) k = v j k - (w j k - w j (k - 1))) ∧
    (∀ j < N, ∀ k < s.m, w (j + 1) k = w j k - (v (j + 1) (k + 1) - v (j + 1) k)) ∧
    (∀ j < N, Z * (v (j + 1) 0 + v j 0) = Z * (Vs (s.time + j * s.dt) + Vs (s.time + j * s.dt - s.dt)) -
      Zs * (2 * w j 0 + (v (j + 1) 0 - v j 0))) ∧
    (∀ j < N, Z * (v (j + 1) s.m + v j s.m) = - (Zl * (-(2 * w j (s.m - 1)) + (v (j + 1) s.m - v j s.m)))) := by
  subst hv hw
  have hC := hi.C_pos
  have hd := hi.d_pos
  have hdt := hi.dt_pos
  obtain ⟨hZ0, hZC, hZL⟩ := hi.impedance hZ
  refine ⟨?_, ?_, ?_, ?_⟩
  · intro j hj k h0 hk
    have h := congrFun ((C08_voltage_equation R j hj k h0 hk _).2 rfl) 0
    rw [hi.dun k hk, hi.dun (k - 1) (by omega), hi.c k hk.le, hi.g k hk.le] at h
    simp [hi.eT, smul_mulVec] at h
    have h' : d * (C * ((tr (j + 1)).v k 0 - (tr j).v k 0)) = -(s.dt * ((tr j).i k 0 - (tr j).i (k - 1) 0)) := by
      field_simp at h ⊢
      linarith
    rw [hZC] at h'
    have : d * C ≠ 0 := by positivity
    apply mul_left_cancel₀ this
    linear_combination h'
  · intro j hj k hk
    have h := congrFun ((C07_current_equation R j hj k hk _).2 rfl) 0
    rw [hi.dun k hk, hi.l k hk, hi.r k hk, hi.conn] at h
    simp [hi.eT, hi.eL, smul_mulVec, Disp.new, QEntry.val] at h
    have h' : d * (L * ((tr (j + 1)).i k 0 - (tr j).i k 0)) = -(s.dt * ((tr (j + 1)).v (k + 1) 0 - (tr (j + 1)).v k 0)) := by
      field_simp at h ⊢
      linarith
    apply mul_left_cancel₀ hdt.ne'
    linear_combination h' + ((tr (j + 1)).i k 0 - (tr j).i k 0) * hZL
  · intro j hj
    have h := congrFun ((C09_terminal_equations R hi.terms hi.cells j hj _).1.2 rfl) 0
    rw [hi.dun 0 hi.cells, hi.c 0 (by omega), hi.g 0 (by omega), hi.zs] at h
    simp [hi.eT, smul_mulVec, hi.source] at h
    have hq : d / s.dt * (C * ((tr (j + 1)).v 0 0 - (tr j).v 0 0)) * Z = (tr (j + 1)).v 0 0 - (tr j).v 0 0 := by
      rw [hZC]; field_simp
    linear_combination Z * h - Zs * hq
  · intro j hj
    have h := congrFun ((C09_terminal_equations R hi.terms hi.cells j hj _).2.2 rfl) 0
    rw [hi.dun (s.m - 1) (by have := hi.cells; omega), hi.c s.m le_rfl, hi.g s.m le_rfl, hi.zl] at h
    simp [hi.eT, smul_mulVec, hi.load] at h
    have hq : d / s.dt * (C * ((tr (j + 1)).v s.m 0 - (tr j).v s.m 0)) * Z = (tr (j + 1)).v s.m 0 - (tr j).v s.m 0 := by
      rw [hZC]; field_simp
    linear_combination Z * h - Zl * hq

theorem MTL.Ideal.waves {s s' : MTL 1 p} {T : ℝ} {N : ℕ} {tr : ℕ → MTL 1 p} (R : RunTrace s T s' N tr) {d L C Zs Zl Z : ℝ}
    {Vs : ℝ → ℝ} (hi : s.Ideal d L C Zs Zl Vs) (hr : s.AtRest) (hZ : Z = Real.sqrt (L / C)) :
    Waves N s.m Z Zs Zl s.time s.dt Vs (fun j k => (tr j).v k 0) (fun j k => Z * (tr j).i k 0) := by
  obtain ⟨hstart, hvi⟩ : (∀ k, (tr 0).v k = 0) ∧ ∀ k, (tr 0).i k = 0 := by
    obtain ⟨lr, cg, -, -, h⟩ := R.start
    rw [h]
    exact ⟨hr.v, hr.i⟩
  obtain ⟨a, b, c, e⟩ := hi.recurrences R hZ rfl rfl
  exact ⟨fun k _ => by simp [hstart], fun k _ => by simp [hvi], a, b, c, e⟩

/-- **C129** Such a line, at rest before the source begins, carries exactly the waves of the bounce diagram: with the wave
impedance `Z = √(L/C)` and the reflection coefficients `(Zs - Z)/(Zs + Z)` and `(Zl - Z)/(Zl + Z)` the voltage of node `k` after
`j` steps is that of a wave that travels one cell per step, and of its reflections at the two ends. -/
theorem C129_bounce {s s' : MTL 1 p} {T : ℝ} {N : ℕ} {tr : ℕ → MTL 1 p} (R : RunTrace s T s' N tr) {d L C Zs Zl : ℝ}
    {Vs : ℝ → ℝ} (hi : s.Ideal d L C Zs Zl Vs) (hr : s.AtRest) (hV : ∀ t < s.time, Vs t = 0) {Z ρs ρl : ℝ}
    (hZ : Z = Real.sqrt (L / C)) (hρs : ρs = (Zs - Z) / (Zs + Z)) (hρl : ρl = (Zl - Z) / (Zl + Z)) :
    ∀ j ≤ N,
      (∀ k ≤ s.m, (tr j).v k 0 = launched (Z / (Z + Zs)) (ρs * ρl) s.m Vs s.time s.dt ((j : ℤ) - k) +
        ρl * launched (Z / (Z + Zs)) (ρs * ρl) s.m Vs s.time s.dt ((j : ℤ) + k - 2 * s.m)) ∧
      (∀ k < s.m, Z * (tr j).i k 0 = launched (Z / (Z + Zs)) (ρs * ρl) s.m Vs s.time s.dt ((j : ℤ) - k) -
        ρl * launched (Z / (Z + Zs)) (ρs * ρl) s.m Vs s.time s.dt ((j : ℤ) + k + 1 - 2 * s.m)) := by
  obtain ⟨hZ0, -, -⟩ := hi.impedance hZ
  have W := hi.waves R hr hZ
  rw [hρs, hρl]
  exact bounce_solution (N := N) (m := s.m) hi.cells hZ0 hi.zs_nonneg hi.zl_nonneg hi.dt_pos hV W.v0 W.w0 W.inner W.cell
    W.first W.last

/-- The wave that leaves the source, in terms of the source: the first passage, before any reflection comes back. -/
theorem launched_first {τ ρ : ℝ} {m : ℕ} {Vs : ℝ → ℝ} {t0 dt : ℝ} (hdt : 0 < dt) (hm : 0 < m) (hV : ∀ t < t0, Vs t = 0)
    {n : ℤ} (hn : n ≤ 2 * m) : launched τ ρ m Vs t0 dt n = τ * Vs (t0 + (n - 1) * dt) := by
  rw [launched_step hdt hm hV, launched_nonpos hdt hV (by omega)]
  simp

/-- **C129** A line terminated by its wave impedance absorbs the wave: every node sees the divided source voltage once, as many
steps later as it is cells away from the source. -/
theorem C129_matched {s s' : MTL 1 p} {T : ℝ} {N : ℕ} {tr : ℕ → MTL 1 p} (R : RunTrace s T s' N tr) {d L C Zs : ℝ}
    {Vs : ℝ → ℝ} (hi : s.Ideal d L C Zs (Real.sqrt (L / C)) Vs) (hr : s.AtRest) (hV : ∀ t < s.time, Vs t = 0)
    {j : ℕ} (hj : j ≤ N) {k : ℕ} (hk : k ≤ s.m) :
    (tr j).v k 0 = Real.sqrt (L / C) / (Real.sqrt (L / C) + Zs) * Vs (s.time + (j - 1 - k) * s.dt) := by
  have h := (C129_bounce R hi hr hV rfl rfl rfl j hj).1 k hk
  rw [h]
  simp only [sub_self, zero_div, zero_mul, add_zero, mul_zero]
  rw [launched_step hi.dt_pos hi.cells hV]
  push_cast
  rw [zero_mul, add_zero]
  congr 3
  ring

/-! ## The telegrapher's equations -/

/-- A classical solution of the telegrapher's equations of a lossless line of length `D` between a source with internal
resistance `Zs` and a resistance `Zl`, at rest before `t0`. -/
structure Telegrapher (L C D Zs Zl t0 : ℝ) (Vs : ℝ → ℝ) (v i : ℝ → ℝ → ℝ) : Prop where
  contV : ContinuousOn (fun q : ℝ × ℝ => v q.1 q.2) (Set.Icc 0 D ×ˢ Set.univ)
  contI : ContinuousOn (fun q : ℝ × ℝ => i q.1 q.2) (Set.Icc 0 D ×ˢ Set.univ)
  eqs : ∀ x t, 0 < x → x < D → ∃ vx vt ix it : ℝ,
    HasFDerivAt (fun q : ℝ × ℝ => v q.1 q.2) (vx • ContinuousLinearMap.fst ℝ ℝ ℝ + vt • ContinuousLinearMap.snd ℝ ℝ ℝ) (x, t) ∧
    HasFDerivAt (fun q : ℝ × ℝ => i q.1 q.2) (ix • ContinuousLinearMap.fst ℝ ℝ ℝ + it • ContinuousLinearMap.snd ℝ ℝ ℝ) (x, t) ∧
    vx + L * it = 0 ∧ ix + C * vt = 0
  source : ∀ t, v 0 t = Vs t - Zs * i 0 t
  load : ∀ t, v D t = Zl * i D t
  rest : ∀ x t, 0 ≤ x → x ≤ D → t < t0 → v x t = 0 ∧ i x t = 0

/-- Along a line of the plane of slope `σ / √(L C)` the combination `v + σ Z i` does not change. -/
theorem Telegrapher.characteristic {L C D Zs Zl t0 : ℝ} {Vs : ℝ → ℝ} {v i : ℝ → ℝ → ℝ} (h : Telegrapher L C D Zs Zl t0 Vs v i)
    (hL : 0 < L) (hC : 0 < C) {σ : ℝ} (hσ : σ * σ = 1) {x t δ : ℝ} (hδ : 0 < δ) (hx : 0 ≤ x) (hxD : x ≤ D)
    (hy : 0 ≤ x + σ * δ) (hyD : x + σ * δ ≤ D) :
    v (x + σ * δ) (t + δ * Real.sqrt (L * C)) + σ * Real.sqrt (L / C) * i (x + σ * δ) (t + δ * Real.sqrt (L * C)) =
      v x t + σ * Real.sqrt (L / C) * i x t := by
  have hpm : σ = 1 ∨ σ = -1 := by
    have : (σ - 1) * (σ + 1) = 0 := by linear_combination hσ
    rcases mul_eq_zero.1 this with h | h
    · left; linarith
    · right; linarith
  have hin : ∀ s ∈ Set.Ioo 0 δ, 0 < x + σ * s ∧ x + σ * s < D := by
    rintro s ⟨h1, h2⟩
    rcases hpm with rfl | rfl <;> constructor <;> linarith
  have hin' : ∀ s ∈ Set.Icc 0 δ, 0 ≤ x + σ * s ∧ x + σ * s ≤ D := by
    rintro s ⟨h1, h2⟩
    rcases hpm with rfl | rfl <;> constructor <;> linarith
  set f : ℝ → ℝ := fun s => v (x + σ * s) (t + s * Real.sqrt (L * C)) +
    σ * Real.sqrt (L / C) * i (x + σ * s) (t + s * Real.sqrt (L * C)) with hf
  have hpath : Continuous fun s : ℝ => ((x + σ * s, t + s * Real.sqrt (L * C)) : ℝ × ℝ) := by fun_prop
  have hmaps : Set.MapsTo (fun s : ℝ => ((x + σ * s, t + s * Real.sqrt (L * C)) : ℝ × ℝ)) (Set.Icc 0 δ)
      (Set.Icc 0 D ×ˢ Set.univ) := fun s hs => ⟨hin' s hs, trivial⟩
  have hc : ContinuousOn f (Set.Icc 0 δ) :=
    (h.contV.comp hpath.continuousOn hmaps).add
      (continuousOn_const.mul (h.contI.comp hpath.continuousOn hmaps))
  have hLC : Real.sqrt (L / C) * (C * Real.sqrt (L * C)) = L * C := by
    rw [Real.sqrt_div hL.le, Real.sqrt_mul hL.le]
    have h1 := Real.mul_self_sqrt hC.le
    have h2 := Real.mul_self_sqrt hL.le
    field_simp
    rw [sq, h2]
  have hzc : Real.sqrt (L / C) * C = Real.sqrt (L * C) := by
    rw [Real.sqrt_div hL.le, Real.sqrt_mul hL.le]
    have h1 := Real.mul_self_sqrt hC.le
    field_simp
    rw [sq, h1]
  have hzl : Real.sqrt (L / C) * Real.sqrt (L * C) = L := by
    have hC0 := hC.ne'
    have : C * (Real.sqrt (L / C) * Real.sqrt (L * C)) = C * L := by linear_combination hLC
    exact mul_left_cancel₀ hC0 this
  have hd : ∀ s ∈ Set.Ioo 0 δ, HasDerivAt f 0 s := by
    intro s hs
    obtain ⟨g1, g2⟩ := hin s hs
    obtain ⟨vx, vt, ix, it, dv, di, e1, e2⟩ := h.eqs (x + σ * s) (t + s * Real.sqrt (L * C)) g1 g2
    have hp : HasDerivAt (fun s : ℝ => ((x + σ * s, t + s * Real.sqrt (L * C)) : ℝ × ℝ)) (σ, Real.sqrt (L * C)) s := by
      refine HasDerivAt.prodMk ?_ ?_
      · simpa using ((hasDerivAt_id s).const_mul σ).const_add x
      · simpa using ((hasDerivAt_id s).mul_const (Real.sqrt (L * C))).const_add t
    have d1 := dv.comp_hasDerivAt s hp
    have d2 := di.comp_hasDerivAt s hp
    have d3 := d1.add (d2.const_mul (σ * Real.sqrt (L / C)))
    refine d3.congr_deriv ?_
    simp only [_root_.add_apply, _root_.smul_apply, ContinuousLinearMap.coe_fst',
      ContinuousLinearMap.coe_snd', smul_eq_mul]
    have hx' : vx = -(L * it) := by linarith
    have hi' : ix = -(C * vt) := by linarith
    rw [hx', hi']
    linear_combination (-(σ * σ) * vt) * hzc + σ * it * hzl - (Real.sqrt (L * C) * vt) * hσ
  obtain ⟨s, hs, e⟩ := exists_hasDerivAt_eq_slope f (fun _ => 0) hδ hc hd
  have hz : f δ - f 0 = 0 := by
    rw [sub_zero, eq_comm, div_eq_zero_iff] at e
    rcases e with e | e
    · exact e
    · exact absurd e hδ.ne'
  have h0 : f 0 = v x t + σ * Real.sqrt (L / C) * i x t := by simp [hf]
  rw [← h0, ← sub_eq_zero]
  exact hz

/-- A solution of the telegrapher's equations in the integrated sense: along the lines of the plane of slopes `± √(L C)` the
combinations `v ± Z i` do not change.  The functions need not be differentiable, nor continuous. -/
structure Mild (L C D Zs Zl t0 : ℝ) (Vs : ℝ → ℝ) (v i : ℝ → ℝ → ℝ) : Prop where
  characteristic : ∀ σ x t δ : ℝ, (σ = 1 ∨ σ = -1) → 0 < δ → 0 ≤ x → x ≤ D → 0 ≤ x + σ * δ → x + σ * δ ≤ D →
    v (x + σ * δ) (t + δ * Real.sqrt (L * C)) + σ * Real.sqrt (L / C) * i (x + σ * δ) (t + δ * Real.sqrt (L * C)) =
      v x t + σ * Real.sqrt (L / C) * i x t
  source : ∀ t, v 0 t = Vs t - Zs * i 0 t
  load : ∀ t, v D t = Zl * i D t
  rest : ∀ x t, 0 ≤ x → x ≤ D → t < t0 → v x t = 0 ∧ i x t = 0

/-- Classical solutions are solutions in the integrated sense. -/
theorem Telegrapher.mild {L C D Zs Zl t0 : ℝ} {Vs : ℝ → ℝ} {v i : ℝ → ℝ → ℝ} (h : Telegrapher L C D Zs Zl t0 Vs v i)
    (hL : 0 < L) (hC : 0 < C) : Mild L C D Zs Zl t0 Vs v i := by
  refine ⟨fun σ x t δ hσ hδ h1 h2 h3 h4 => h.characteristic hL hC ?_ hδ h1 h2 h3 h4, h.source, h.load, h.rest⟩
  rcases hσ with rfl | rfl <;> norm_num

/-- A solution, sampled at the nodes at whole steps and in the middle of the cells at half steps, makes the same
waves. -/
theorem Mild.waves {L C d Zs Zl t0 dt : ℝ} {m : ℕ} {Vs : ℝ → ℝ} {v i : ℝ → ℝ → ℝ}
    (h : Mild L C (m * d) Zs Zl t0 Vs v i) (hm : 0 < m) (hL : 0 < L) (hC : 0 < C) (hd : 0 < d)
    (hdt : dt = d * Real.sqrt (L * C)) (N : ℕ) :
    Waves N m (Real.sqrt (L / C)) Zs Zl t0 dt Vs (fun j k => v (k * d) (t0 + (j - 1) * dt))
      (fun j k => Real.sqrt (L / C) * i ((k + 1 / 2) * d) (t0 + (j - 1 / 2) * dt)) := by
  set Z := Real.sqrt (L / C) with hZ
  have hdt0 : 0 < dt := by rw [hdt]; positivity
  have hm1 : (1 : ℝ) ≤ m := by exact_mod_cast hm
  -- the four half steps
  have up : ∀ (k : ℕ), k < m → ∀ t, v ((k + 1 / 2) * d) (t + dt / 2) + Z * i ((k + 1 / 2) * d) (t + dt / 2) =
      v (k * d) t + Z * i (k * d) t := by
    intro k hk t
    have hk' : (k : ℝ) + 1 ≤ m := by exact_mod_cast hk
    have := h.characteristic 1 (k * d) t (d / 2) (by norm_num) (by positivity)
      (by positivity) (by nlinarith) (by positivity) (by nlinarith)
    have e1 : (k : ℝ) * d + 1 * (d / 2) = (k + 1 / 2) * d := by ring
    have e2 : t + d / 2 * Real.sqrt (L * C) = t + dt / 2 := by rw [hdt]; ring
    rw [e1, e2] at this
    simpa using this
  have down : ∀ (k : ℕ), k < m → ∀ t, v ((k + 1 / 2) * d) (t + dt / 2) - Z * i ((k + 1 / 2) * d) (t + dt / 2) =
      v ((k + 1 : ℕ) * d) t - Z * i ((k + 1 : ℕ) * d) t := by
    intro k hk t
    have hk' : (k : ℝ) + 1 ≤ m := by exact_mod_cast hk
    have := h.characteristic (-1) ((k + 1 : ℕ) * d) t (d / 2) (by norm_num) (by positivity)
      (by positivity) (by push_cast; nlinarith) (by push_cast; nlinarith [mul_nonneg (Nat.cast_nonneg (α := ℝ) k) hd.le])
      (by push_cast; nlinarith)
    have e1 : ((k + 1 : ℕ) : ℝ) * d + -1 * (d / 2) = (k + 1 / 2) * d := by push_cast; ring
    have e2 : t + d / 2 * Real.sqrt (L * C) = t + dt / 2 := by rw [hdt]; ring
    rw [e1, e2] at this
    linear_combination this
  have up' : ∀ (k : ℕ), k < m → ∀ t, v ((k + 1 : ℕ) * d) (t + dt / 2) + Z * i ((k + 1 : ℕ) * d) (t + dt / 2) =
      v ((k + 1 / 2) * d) t + Z * i ((k + 1 / 2) * d) t := by
    intro k hk t
    have hk' : (k : ℝ) + 1 ≤ m := by exact_mod_cast hk
    have := h.characteristic 1 ((k + 1 / 2) * d) t (d / 2) (by norm_num) (by positivity)
      (by positivity) (by nlinarith) (by positivity) (by nlinarith)
    have e1 : ((k : ℝ) + 1 / 2) * d + 1 * (d / 2) = (k + 1 : ℕ) * d := by push_cast; ring
    have e2 : t + d / 2 * Real.sqrt (L * C) = t + dt / 2 := by rw [hdt]; ring
    rw [e1, e2] at this
    simpa using this
  have down' : ∀ (k : ℕ), k < m → ∀ t, v (k * d) (t + dt / 2) - Z * i (k * d) (t + dt / 2) =
      v ((k + 1 / 2) * d) t - Z * i ((k + 1 / 2) * d) t := by
    intro k hk t
    have hk' : (k : ℝ) + 1 ≤ m := by exact_mod_cast hk
    have := h.characteristic (-1) ((k + 1 / 2) * d) t (d / 2) (by norm_num) (by positivity)
      (by positivity) (by nlinarith) (by nlinarith [mul_nonneg (Nat.cast_nonneg (α := ℝ) k) hd.le])
      (by nlinarith)
    have e1 : ((k : ℝ) + 1 / 2) * d + -1 * (d / 2) = k * d := by ring
    have e2 : t + d / 2 * Real.sqrt (L * C) = t + dt / 2 := by rw [hdt]; ring
    rw [e1, e2] at this
    linear_combination this
  refine ⟨?_, ?_, ?_, ?_, ?_, ?_⟩
  · intro k hk
    have hk' : (k : ℝ) ≤ m := by exact_mod_cast hk
    exact (h.rest _ _ (by positivity) (by nlinarith) (by push_cast; nlinarith)).1
  · intro k hk
    have hk' : (k : ℝ) + 1 ≤ m := by exact_mod_cast hk
    show Z * _ = 0
    rw [(h.rest _ _ (by positivity) (by nlinarith) (by push_cast; nlinarith)).2, mul_zero]
  · intro j _ k h0 hk
    obtain ⟨k, rfl⟩ : ∃ q, k = q + 1 := ⟨k - 1, by omega⟩
    have a1 := up (k + 1) hk (t0 + (j - 1) * dt)
    have a2 := down k (by omega) (t0 + (j - 1) * dt)
    have a3 := up' k (by omega) (t0 + (j - 1 / 2) * dt)
    have a4 := down' (k + 1) hk (t0 + (j - 1 / 2) * dt)
    have t1 : t0 + ((j : ℝ) - 1) * dt + dt / 2 = t0 + (j - 1 / 2) * dt := by ring
    have t2 : t0 + ((j : ℝ) - 1 / 2) * dt + dt / 2 = t0 + (((j + 1 : ℕ) : ℝ) - 1) * dt := by push_cast; ring
    rw [t1] at a1 a2
    rw [t2] at a3 a4
    simp only [Nat.add_sub_cancel]
    linear_combination (a1 + a2 + a3 + a4) / 2
  · intro j _ k hk
    have a1 := up' k hk (t0 + (j - 1 / 2) * dt)
    have a2 := down' k hk (t0 + (j - 1 / 2) * dt)
    have a3 := up k hk (t0 + (((j + 1 : ℕ) : ℝ) - 1) * dt)
    have a4 := down k hk (t0 + (((j + 1 : ℕ) : ℝ) - 1) * dt)
    have t1 : t0 + ((j : ℝ) - 1 / 2) * dt + dt / 2 = t0 + (((j + 1 : ℕ) : ℝ) - 1) * dt := by push_cast; ring
    have t2 : t0 + (((j + 1 : ℕ) : ℝ) - 1) * dt + dt / 2 = t0 + (((j + 1 : ℕ) : ℝ) - 1 / 2) * dt := by push_cast; ring
    rw [t1] at a1 a2
    rw [t2] at a3 a4
    linear_combination (a1 - a2 + a3 - a4) / 2
  · intro j _
    have a1 := up 0 hm (t0 + (j - 1) * dt)
    have a2 := down' 0 hm (t0 + (j - 1 / 2) * dt)
    have s1 := h.source (t0 + j * dt)
    have s2 := h.source (t0 + j * dt - dt)
    have t1 : t0 + ((j : ℝ) - 1) * dt + dt / 2 = t0 + (j - 1 / 2) * dt := by ring
    have t2 : t0 + ((j : ℝ) - 1 / 2) * dt + dt / 2 = t0 + j * dt := by ring
    have t3 : t0 + (j : ℝ) * dt - dt = t0 + (j - 1) * dt := by ring
    have t4 : t0 + (((j + 1 : ℕ) : ℝ) - 1) * dt = t0 + j * dt := by push_cast; ring
    rw [t1] at a1
    rw [t2] at a2
    rw [t3] at s2 ⊢
    simp only [Nat.cast_zero, zero_mul] at a1 a2 ⊢
    rw [t4]
    linear_combination Z * (s1 + s2) + Zs * (a1 + a2)
  · intro j _
    obtain ⟨q, rfl⟩ : ∃ q, m = q + 1 := ⟨m - 1, by omega⟩
    have a1 := down q (by omega) (t0 + (j - 1) * dt)
    have a2 := up' q (by omega) (t0 + (j - 1 / 2) * dt)
    have s1 := h.load (t0 + j * dt)
    have s2 := h.load (t0 + (j - 1) * dt)
    have t1 : t0 + ((j : ℝ) - 1) * dt + dt / 2 = t0 + (j - 1 / 2) * dt := by ring
    have t2 : t0 + ((j : ℝ) - 1 / 2) * dt + dt / 2 = t0 + j * dt := by ring
    have t4 : t0 + (((j + 1 : ℕ) : ℝ) - 1) * dt = t0 + j * dt := by push_cast; ring
    rw [t1] at a1
    rw [t2] at a2
    simp only [Nat.add_sub_cancel]
    rw [t4]
    linear_combination Z * (s1 + s2) + Zl * (a1 + a2)

/-- **C129** At the automatic time step the scheme is exact: the voltages of the nodes are those of any solution of the
telegrapher's equations with the same source and terminations, one time step before the time of the line, the currents those
in the middle of the cells half a step before it. -/
theorem C129_mild {s s' : MTL 1 p} {T : ℝ} {N : ℕ} {tr : ℕ → MTL 1 p} (R : RunTrace s T s' N tr) {d L C Zs Zl : ℝ}
    {Vs : ℝ → ℝ} (hi : s.Ideal d L C Zs Zl Vs) (hr : s.AtRest) {v i : ℝ → ℝ → ℝ}
    (ht : Mild L C (s.m * d) Zs Zl s.time Vs v i) :
    ∀ j ≤ N, (∀ k ≤ s.m, (tr j).v k 0 = v (k * d) (s.time + (j - 1) * s.dt)) ∧
      ∀ k < s.m, (tr j).i k 0 = i ((k + 1 / 2) * d) (s.time + (j - 1 / 2) * s.dt) := by
  obtain ⟨hZ, -, -⟩ := hi.impedance rfl
  intro j hj
  obtain ⟨h1, h2⟩ := Waves.unique hi.cells hZ hi.zs_nonneg hi.zl_nonneg (hi.waves R hr rfl)
    (ht.waves hi.cells hi.L_pos hi.C_pos hi.d_pos hi.courant N) j hj
  exact ⟨h1, fun k hk => mul_left_cancel₀ hZ.ne' (h2 k hk)⟩

/-- **C129** In particular they are those of any classical solution. -/
theorem C129_exact {s s' : MTL 1 p} {T : ℝ} {N : ℕ} {tr : ℕ → MTL 1 p} (R : RunTrace s T s' N tr) {d L C Zs Zl : ℝ}
    {Vs : ℝ → ℝ} (hi : s.Ideal d L C Zs Zl Vs) (hr : s.AtRest) {v i : ℝ → ℝ → ℝ}
    (ht : Telegrapher L C (s.m * d) Zs Zl s.time Vs v i) :
    ∀ j ≤ N, (∀ k ≤ s.m, (tr j).v k 0 = v (k * d) (s.time + (j - 1) * s.dt)) ∧
      ∀ k < s.m, (tr j).i k 0 = i ((k + 1 / 2) * d) (s.time + (j - 1 / 2) * s.dt) :=
  C129_mild R hi hr (ht.mild hi.L_pos hi.C_pos)

/-! ## The solution -/

/-- The wave that leaves the source: the divided source voltage and its images, one for each time the wave has come back. -/
noncomputable def sent (τ ρ α : ℝ) (Vs : ℝ → ℝ) (t : ℝ) : ℝ := ∑' n : ℕ, ρ ^ n * (α * Vs (t - n * τ))

theorem sent_early {τ ρ α t0 : ℝ} {Vs : ℝ → ℝ} (hτ : 0 < τ) (hV : ∀ t < t0, Vs t = 0) {t : ℝ} (ht : t < t0) :
    sent τ ρ α Vs t = 0 := by
  unfold sent
  have : ∀ n : ℕ, ρ ^ n * (α * Vs (t - n * τ)) = 0 := by
    intro n
    rw [hV _ (by nlinarith [mul_nonneg (Nat.cast_nonneg (α := ℝ) n) hτ.le]), mul_zero, mul_zero]
  simp [this]

theorem sent_step {τ ρ α t0 : ℝ} {Vs : ℝ → ℝ} (hτ : 0 < τ) (hV : ∀ t < t0, Vs t = 0) (t : ℝ) :
    sent τ ρ α Vs t = α * Vs t + ρ * sent τ ρ α Vs (t - τ) := by
  unfold sent
  have hs : Summable fun n : ℕ => ρ ^ n * (α * Vs (t - n * τ)) := by
    obtain ⟨N, hN⟩ := exists_nat_gt ((t - t0) / τ)
    refine summable_of_finite_support ((Set.finite_lt_nat N).subset fun n hn => ?_)
    by_contra hc
    have hc' : (N : ℝ) ≤ n := by exact_mod_cast not_lt.1 hc
    rw [div_lt_iff₀ hτ] at hN
    refine hn ?_
    show ρ ^ n * (α * Vs (t - n * τ)) = 0
    rw [hV _ (by nlinarith), mul_zero, mul_zero]
  rw [hs.tsum_eq_zero_add, ← tsum_mul_left]
  congr 1
  · simp
  · refine tsum_congr fun n => ?_
    have : t - ((n + 1 : ℕ) : ℝ) * τ = t - τ - n * τ := by push_cast; ring
    rw [this]
    ring

/-- The voltages of the exact solution: the wave that leaves the source and the wave that comes back. -/
noncomputable def exactV (L C D Zs Zl : ℝ) (Vs : ℝ → ℝ) (x t : ℝ) : ℝ :=
  let Z := Real.sqrt (L / C)
  let f := sent (2 * D * Real.sqrt (L * C)) ((Zs - Z) / (Zs + Z) * ((Zl - Z) / (Zl + Z))) (Z / (Z + Zs)) Vs
  f (t - x * Real.sqrt (L * C)) + (Zl - Z) / (Zl + Z) * f (t - (2 * D - x) * Real.sqrt (L * C))

/-- The currents of the exact solution. -/
noncomputable def exactI (L C D Zs Zl : ℝ) (Vs : ℝ → ℝ) (x t : ℝ) : ℝ :=
  let Z := Real.sqrt (L / C)
  let f := sent (2 * D * Real.sqrt (L * C)) ((Zs - Z) / (Zs + Z) * ((Zl - Z) / (Zl + Z))) (Z / (Z + Zs)) Vs
  (f (t - x * Real.sqrt (L * C)) - (Zl - Z) / (Zl + Z) * f (t - (2 * D - x) * Real.sqrt (L * C))) / Z

/-- **C129** Every source that is off before `t0` has a solution, a sum of finitely many images at each time. -/
theorem C129_solution {L C D Zs Zl t0 : ℝ} {Vs : ℝ → ℝ} (hL : 0 < L) (hC : 0 < C) (hD : 0 < D) (hs : 0 ≤ Zs) (hl : 0 ≤ Zl)
    (hV : ∀ t < t0, Vs t = 0) : Mild L C D Zs Zl t0 Vs (exactV L C D Zs Zl Vs) (exactI L C D Zs Zl Vs) := by
  have hZ : 0 < Real.sqrt (L / C) := Real.sqrt_pos.2 (div_pos hL hC)
  have hτ : 0 < Real.sqrt (L * C) := Real.sqrt_pos.2 (mul_pos hL hC)
  unfold exactV exactI
  obtain ⟨Z, eZ⟩ : ∃ Z, Z = Real.sqrt (L / C) := ⟨_, rfl⟩
  obtain ⟨τ, eτ⟩ : ∃ τ, τ = Real.sqrt (L * C) := ⟨_, rfl⟩
  rw [← eZ] at hZ ⊢
  rw [← eτ] at hτ ⊢
  obtain ⟨f, ef⟩ : ∃ f, f = sent (2 * D * τ) ((Zs - Z) / (Zs + Z) * ((Zl - Z) / (Zl + Z))) (Z / (Z + Zs)) Vs := ⟨_, rfl⟩
  have hDτ : 0 < 2 * D * τ := by positivity
  have f0 : ∀ t < t0, f t = 0 := fun t ht => by rw [ef]; exact sent_early hDτ hV ht
  have fs : ∀ t, f t = Z / (Z + Zs) * Vs t + (Zs - Z) / (Zs + Z) * ((Zl - Z) / (Zl + Z)) * f (t - 2 * D * τ) := fun t => by
    rw [ef]; exact sent_step hDτ hV t
  simp only [← ef]
  have h1 : Zs + Z ≠ 0 := by positivity
  have h2 : Zl + Z ≠ 0 := by positivity
  have h3 : Z + Zs ≠ 0 := by positivity
  refine ⟨?_, ?_, ?_, ?_⟩
  · rintro σ x t δ (rfl | rfl) - - - - -
    · rw [← eZ, ← eτ]
      have e1 : t + δ * τ - (x + 1 * δ) * τ = t - x * τ := by ring
      rw [e1]
      field_simp
      ring
    · rw [← eZ, ← eτ]
      have e1 : t + δ * τ - (2 * D - (x + -1 * δ)) * τ = t - (2 * D - x) * τ := by ring
      rw [e1]
      field_simp
      ring
  · intro t
    have e1 : t - 0 * τ = t := by ring
    have e2 : t - (2 * D - 0) * τ = t - 2 * D * τ := by ring
    rw [e1, e2, fs t]
    field_simp
    ring
  · intro t
    have e1 : t - (2 * D - D) * τ = t - D * τ := by ring
    rw [e1]
    field_simp
    ring
  · intro x t hx hxD ht
    rw [f0 (t - x * τ) (by nlinarith), f0 (t - (2 * D - x) * τ) (by nlinarith)]
    simp

/-- **C129** The solution is unique. -/
theorem C129_unique {L C D Zs Zl t0 : ℝ} {Vs : ℝ → ℝ} {v i v' i' : ℝ → ℝ → ℝ} (hL : 0 < L) (hC : 0 < C) (hD : 0 < D)
    (hs : 0 ≤ Zs) (hl : 0 ≤ Zl) (h : Mild L C D Zs Zl t0 Vs v i) (h' : Mild L C D Zs Zl t0 Vs v' i') {x : ℝ} (hx : 0 ≤ x)
    (hxD : x ≤ D) (t : ℝ) : v x t = v' x t ∧ i x t = i' x t := by
  have hZ : 0 < Real.sqrt (L / C) := Real.sqrt_pos.2 (div_pos hL hC)
  have hτ : 0 < Real.sqrt (L * C) := Real.sqrt_pos.2 (mul_pos hL hC)
  obtain ⟨c, c'⟩ := And.intro h.characteristic h'.characteristic
  obtain ⟨Z, eZ⟩ : ∃ Z, Z = Real.sqrt (L / C) := ⟨_, rfl⟩
  obtain ⟨τ, eτ⟩ : ∃ τ, τ = Real.sqrt (L * C) := ⟨_, rfl⟩
  rw [← eZ] at hZ
  rw [← eτ] at hτ
  rw [← eZ, ← eτ] at c c'
  have h1 : Zs + Z ≠ 0 := by positivity
  have h2 : Zl + Z ≠ 0 := by positivity
  -- the difference
  obtain ⟨a, ea⟩ : ∃ a : ℝ → ℝ → ℝ, a = fun x t => v x t - v' x t := ⟨_, rfl⟩
  obtain ⟨b, eb⟩ : ∃ b : ℝ → ℝ → ℝ, b = fun x t => i x t - i' x t := ⟨_, rfl⟩
  have up : ∀ x t δ, 0 ≤ δ → 0 ≤ x → x + δ ≤ D → a (x + δ) (t + δ * τ) + Z * b (x + δ) (t + δ * τ) = a x t + Z * b x t := by
    intro x t δ hδ h3 h4
    rcases hδ.eq_or_lt with rfl | hδ
    · simp
    have q := c 1 x t δ (.inl rfl) hδ h3 (by linarith) (by linarith) (by linarith)
    have q' := c' 1 x t δ (.inl rfl) hδ h3 (by linarith) (by linarith) (by linarith)
    rw [one_mul] at q q'
    rw [ea, eb]
    linear_combination q - q'
  have dn : ∀ x t δ, 0 ≤ δ → 0 ≤ x → x + δ ≤ D → a x (t + δ * τ) - Z * b x (t + δ * τ) = a (x + δ) t - Z * b (x + δ) t := by
    intro x t δ hδ h3 h4
    rcases hδ.eq_or_lt with rfl | hδ
    · simp
    have q := c (-1) (x + δ) t δ (.inr rfl) hδ (by linarith) h4 (by linarith) (by linarith)
    have q' := c' (-1) (x + δ) t δ (.inr rfl) hδ (by linarith) h4 (by linarith) (by linarith)
    have e1 : x + δ + -1 * δ = x := by ring
    rw [e1] at q q'
    rw [ea, eb]
    linear_combination q - q'
  have src : ∀ t, a 0 t = -Zs * b 0 t := by
    intro t
    rw [ea, eb]
    linear_combination h.source t - h'.source t
  have ld : ∀ t, a D t = Zl * b D t := by
    intro t
    rw [ea, eb]
    linear_combination h.load t - h'.load t
  have z0 : ∀ t < t0, a 0 t = 0 ∧ b 0 t = 0 := by
    intro t ht
    rw [ea, eb]
    simp [(h.rest 0 t le_rfl hD.le ht).1, (h.rest 0 t le_rfl hD.le ht).2, (h'.rest 0 t le_rfl hD.le ht).1,
      (h'.rest 0 t le_rfl hD.le ht).2]
  have far : ∀ t, (a 0 t = 0 ∧ b 0 t = 0) → a D (t + D * τ) = 0 ∧ b D (t + D * τ) = 0 := by
    rintro t ⟨e1, e2⟩
    have q := up 0 t D hD.le le_rfl (by linarith)
    rw [zero_add, e1, e2, ld] at q
    have : b D (t + D * τ) = 0 := by
      have : (Zl + Z) * b D (t + D * τ) = 0 := by linear_combination q
      exact (mul_eq_zero.1 this).resolve_left h2
    exact ⟨by rw [ld, this, mul_zero], this⟩
  have near : ∀ t, (a D t = 0 ∧ b D t = 0) → a 0 (t + D * τ) = 0 ∧ b 0 (t + D * τ) = 0 := by
    rintro t ⟨e1, e2⟩
    have q := dn 0 t D hD.le le_rfl (by linarith)
    rw [zero_add, e1, e2, src] at q
    have : b 0 (t + D * τ) = 0 := by
      have : (Zs + Z) * b 0 (t + D * τ) = 0 := by linear_combination -q
      exact (mul_eq_zero.1 this).resolve_left h1
    exact ⟨by rw [src, this, mul_zero], this⟩
  have all : ∀ N : ℕ, ∀ t < t0 + N * (2 * D * τ), a 0 t = 0 ∧ b 0 t = 0 := by
    intro N
    induction N with
    | zero => intro t ht; exact z0 t (by simpa using ht)
    | succ N ih =>
      intro t ht
      have q := near _ (far _ (ih (t - 2 * D * τ) (by push_cast at ht; linarith)))
      have e1 : t - 2 * D * τ + D * τ + D * τ = t := by ring
      rwa [e1] at q
  have zero : ∀ t, a 0 t = 0 ∧ b 0 t = 0 := by
    intro t
    have hDτ : 0 < 2 * D * τ := by positivity
    obtain ⟨N, hN⟩ := exists_nat_gt ((t - t0) / (2 * D * τ))
    rw [div_lt_iff₀ hDτ] at hN
    exact all N t (by linarith)
  have q1 := up 0 (t - x * τ) x hx le_rfl (by linarith)
  have q2 := dn 0 t x hx le_rfl (by linarith)
  have e1 : t - x * τ + x * τ = t := by ring
  rw [zero_add, e1, (zero _).1, (zero _).2] at q1
  rw [zero_add, (zero _).1, (zero _).2] at q2
  have e2 : a x t = 0 := by linarith
  have e3 : b x t = 0 := by
    have : Z * b x t = 0 := by linarith
    exact (mul_eq_zero.1 this).resolve_left hZ.ne'
  rw [ea] at e2
  rw [eb] at e3
  exact ⟨sub_eq_zero.1 e2, sub_eq_zero.1 e3⟩

/-! ## From the constructor to the probes -/

/-- A line made by the constructor from numbers, with a source at its beginning, is such a line, at rest at time zero. -/
theorem constructed_ideal {L C D Zs Zl : ℝ} {m : ℕ} {name : String} {s : MTL 1 p} (hL : 0 < L) (hC : 0 < C) (hD : 0 < D)
    (hs : 0 ≤ Zs) (hl : 0 ≤ Zl) (hm : 0 < m)
    (h : MTL.new p (.scalar L) (.scalar C) (.scalar 0) (.scalar 0) D [] [m] (.scalar Zs) (.scalar Zl) name = .ok ⟨1, s⟩)
    (Vs : ℝ → ℝ) :
    (s.addVoltageSource (.list ![0, 0, 0]) 0 Vs).Ideal (D / m) L C Zs Zl Vs ∧
      (s.addVoltageSource (.list ![0, 0, 0]) 0 Vs).AtRest ∧ s.time = 0 ∧ s.probes = [] ∧ s.m = m ∧
      ∀ k ≤ m, s.u k = ![0, 0, k * (D / m)] := by
  obtain ⟨-, -, -, -, el, ec, er, eg, ezs, ezl, -, -, -, hdun, hconn⟩ := new_ok_contents h
  obtain ⟨em, eu, edu, eu0, -⟩ := straight_mesh (a := ![0, 0, 0]) (b := ![0, 0, D]) hm rfl h
  have hm' : (0 : ℝ) < m := by exact_mod_cast hm
  have hd : 0 < D / m := by positivity
  have hdu : ∀ k < s.m, s.dun k = D / m := by
    intro k hk
    rw [hdun]
    show norm3 (s.du k) = _
    rw [edu k (by omega)]
    unfold norm3
    simp
    rw [Real.sqrt_sq hd.le]
  have hu : ∀ k ≤ m, s.u k = ![0, 0, k * (D / m)] := by
    intro k hk
    rw [eu k hk]
    funext j
    fin_cases j <;> simp
  obtain ⟨la, ca, ga, ra, zsa, zla, mem, dt, h1, h2, h3, h4, h5, h6, h7, h8⟩ := new_ok_iff.1 h
  obtain ⟨-, -, -, e⟩ := computeTerminalTerms_ok_iff.1 h8
  have evs : s.vSources = fun _ _ _ => 0 := by rw [e]; rfl
  have eeL : s.eL = fun _ _ _ => 0 := by rw [e]; rfl
  have eeT : s.eT = fun _ _ _ => 0 := by rw [e]; rfl
  have etime : s.time = 0 := by rw [e]; rfl
  have eprobes : s.probes = [] := by rw [e]; rfl
  have ev : s.v = fun _ => 0 := by rw [e]; rfl
  have ei : s.i = fun _ => 0 := by rw [e]; rfl
  have ephi : s.phi = fun _ _ => 0 := by rw [e]; rfl
  have hcou : s.dt = D / m * Real.sqrt (L * C) := by
    obtain ⟨k, hk, -, -, q⟩ := C21_one_conductor h
    rw [q, hdu k hk]
  have mat : ∀ x : ℝ, (Arg.scalar x).matrix 1 = x • (1 : Mat 1) := by
    intro x
    ext a b
    fin_cases a; fin_cases b
    simp [Arg.matrix]
  have zmat : ∀ x : ℝ, Matrix.diagonal (fun i : Fin 1 => (ZArg.scalar x).value i) = x • (1 : Mat 1) := by
    intro x
    ext a b
    fin_cases a; fin_cases b
    simp [ZArg.value]
  have hnear : nearest s.u s.m (Pos.list ![0, 0, 0]).toV3 = 0 := by
    obtain ⟨-, -, q⟩ := C25_nearest s.u s.m (Pos.list ![0, 0, 0]).toV3
    by_contra hne
    have := q 0 (Nat.pos_of_ne_zero hne)
    rw [eu0] at this
    have h0 : norm3 ((![0, 0, 0] : V3) - (Pos.list ![0, 0, 0]).toV3) = 0 := norm3_eq_zero.2 (by simp [Pos.toV3])
    rw [h0] at this
    exact absurd this (not_lt.2 (norm3_nonneg _))
  refine ⟨⟨?_, hd, hL, hC, hdu, ?_, ?_, ?_, ?_, hconn, ?_, ?_, hs, hl, ?_, ?_, ?_, ?_, hcou, ?_⟩, ⟨?_, ?_, ?_⟩, etime, eprobes, em, hu⟩
  · show 0 < s.m
    omega
  · intro k _
    show s.l k = _
    rw [el, mat]
  · intro k _
    show s.c k = _
    rw [ec, mat]
  · intro k _
    show s.r k = _
    rw [er, mat, zero_smul]
  · intro k _
    show s.g k = _
    rw [eg, mat, zero_smul]
  · show s.zs = _
    rw [ezs, zmat]
  · show s.zl = _
    rw [ezl, zmat]
  · simp [MTL.addVoltageSource, hnear]
  · intro t
    have : s.m ≠ 0 := by omega
    simp [MTL.addVoltageSource, hnear, this, evs]
  · intro k x t
    show s.eL k x t = 0
    rw [eeL]
  · intro k x t
    show s.eT k x t = 0
    rw [eeT]
  · have := C09_constructed_consistent _ _ _ _ _ _ _ _ _ _ _ h
    exact ⟨this.1, this.2, this.3, this.4, this.5, this.6⟩
  · intro k
    show s.v k = 0
    rw [ev]
  · intro k
    show s.i k = 0
    rw [ei]
  · intro k x
    show s.phi k x = 0
    rw [ephi]

/-- Runs of such lines without probes of unknown type succeed. -/
theorem MTL.Ideal.runs {s : MTL 1 p} {d L C Zs Zl : ℝ} {Vs : ℝ → ℝ} (hi : s.Ideal d L C Zs Zl Vs)
    (hp : ∀ q ∈ s.probes, q.type = "voltage" ∨ q.type = "current") (T : ℝ) : ∃ s', s.runUntil T = .ok s' := by
  have hdt := hi.dt_pos
  have hd := hi.d_pos
  have hL := hi.L_pos
  have hC := hi.C_pos
  have hnn : ∀ k < s.m, 0 < s.dun k := fun k hk => by rw [hi.dun k hk]; exact hd
  refine (C01_run_succeeds_iff s T).2 ⟨hdt.ne', ?_, ?_, Or.inr hp⟩
  · intro k hk
    rw [hi.l k hk, hi.r k hk, hi.conn, hi.dun k hk, det_fin_one]
    simp [Disp.new]
    exact ⟨hd.ne', hdt.ne', hL.ne'⟩
  · intro k hk
    rw [hi.c k hk, hi.g k hk, det_fin_one]
    have hnl : 0 < nodalLength s.m s.dun k := by
      have h1 := hi.cells
      unfold nodalLength
      split_ifs with h2 h3
      · exact hnn 0 h1
      · have := hnn k h3
        have := hnn (k - 1) (by omega)
        positivity
      · exact hnn _ (by omega)
    simp
    exact ⟨hnl.ne', hdt.ne', hC.ne'⟩

/-- **C129** From the arguments of the constructor: for all positive inductances, capacitances and lengths, all non-negative
resistances and all numbers of cells the line is built, runs, and carries the values of the exact solution at its nodes. -/
theorem C129_program {L C D Zs Zl : ℝ} {m : ℕ} (name : String) (hL : 0 < L) (hC : 0 < C) (hD : 0 < D)
    (hs : 0 ≤ Zs) (hl : 0 ≤ Zl) (hm : 0 < m) {Vs : ℝ → ℝ} {v i : ℝ → ℝ → ℝ} (ht : Mild L C D Zs Zl 0 Vs v i) (T : ℝ) :
    ∃ s s' : MTL 1 p, ∃ N tr,
      MTL.new p (.scalar L) (.scalar C) (.scalar 0) (.scalar 0) D [] [m] (.scalar Zs) (.scalar Zl) name = .ok ⟨1, s⟩ ∧
      (s.addVoltageSource (.list ![0, 0, 0]) 0 Vs).runUntil T = .ok s' ∧
      RunTrace (s.addVoltageSource (.list ![0, 0, 0]) 0 Vs) T s' N tr ∧ s.dt = D / m * Real.sqrt (L * C) ∧
      N = ⌊T / s.dt⌋.toNat ∧
      ∀ j ≤ N, (∀ k ≤ m, (tr j).v k 0 = v (k * (D / m)) ((j - 1) * s.dt)) ∧
        ∀ k < m, (tr j).i k 0 = i ((k + 1 / 2) * (D / m)) ((j - 1 / 2) * s.dt) := by
  have hm' : (0 : ℝ) < m := by exact_mod_cast hm
  obtain ⟨s, h⟩ : ∃ s : MTL 1 p,
      MTL.new p (.scalar L) (.scalar C) (.scalar 0) (.scalar 0) D [] [m] (.scalar Zs) (.scalar Zl) name = .ok ⟨1, s⟩ := by
    refine C32_physical_accepted (d := m) name one_ne_zero (.floats L C) .zero .zero (.numbers Zs Zl)
      (spd_one hL) (spd_one hC) dissipative_zero (fun _ _ => hs) (fun _ _ => hl) hm (by simp) rfl (by simp) ⟨0, by simp, ?_⟩
    intro h
    have := congrFun h 2
    simp at this
    exact hD.ne this
  obtain ⟨hi, hr, h0, hp, hsm, -⟩ := constructed_ideal hL hC hD hs hl hm h Vs
  obtain ⟨s', hrun⟩ := hi.runs (by
    show ∀ q ∈ s.probes, _
    rw [hp]
    simp) T
  obtain ⟨tr, R, -, -⟩ := C01_run_frames _ _ _ hrun
  have hDm : ((s.addVoltageSource (.list ![0, 0, 0]) 0 Vs).m : ℝ) * (D / m) = D := by
    show (s.m : ℝ) * _ = _
    rw [hsm]
    field_simp
  have ht' : Mild L C (((s.addVoltageSource (.list ![0, 0, 0]) 0 Vs).m : ℝ) * (D / m)) Zs Zl
      (s.addVoltageSource (.list ![0, 0, 0]) 0 Vs).time Vs v i := by
    rw [hDm]
    show Mild L C D Zs Zl s.time Vs v i
    rw [h0]
    exact ht
  refine ⟨s, s', _, tr, h, hrun, R, hi.courant, rfl, fun j hj => ?_⟩
  obtain ⟨a, b⟩ := C129_mild R hi hr ht' j hj
  have et : (s.addVoltageSource (.list ![0, 0, 0]) 0 Vs).time = 0 := h0
  have em : (s.addVoltageSource (.list ![0, 0, 0]) 0 Vs).m = m := hsm
  refine ⟨fun k hk => ?_, fun k hk => ?_⟩
  · rw [a k (by rw [em]; exact hk), et, zero_add]
    rfl
  · rw [b k (by rw [em]; exact hk), et, zero_add]
    rfl

/-! ## C130 -/

/-- **C130** (what holds) The value of a voltage probe with time stamp `t` is the exact voltage at `t - dt`; that of a current
probe the exact current in the middle of the cell at `t - dt`. -/
theorem C130_delay_partial {s s' : MTL 1 p} {T : ℝ} (h : s.runUntil T = .ok s') {d L C Zs Zl : ℝ}
    {Vs : ℝ → ℝ} (hi : s.Ideal d L C Zs Zl Vs) (hr : s.AtRest) {v i : ℝ → ℝ → ℝ}
    (ht : Mild L C (s.m * d) Zs Zl s.time Vs v i) {a : ℕ} {q q' : Probe 1} (hq : s.probes[a]? = some q)
    (hq' : s'.probes[a]? = some q') (hidx : q.index ≤ s.m) (hdt : q.dt = s.dt) :
    (q.type = "voltage" → q'.val = .rows (q'.t.map fun t _ => v (q.index * d) (t - s.dt))) ∧
    (q.type = "current" → q.index < s.m → q'.val = .rows (q'.t.map fun t _ => i ((q.index + 1 / 2) * d) (t - s.dt))) := by
  obtain ⟨tr, R, -, hpr⟩ := C01_run_frames _ _ _ h
  obtain ⟨-, -, e1, e2⟩ := hpr a q q' hq hq'
  have ex := C129_mild R hi hr ht
  rw [e1, e2]
  refine ⟨fun hv => ?_, fun hc hlt => ?_⟩
  · simp only [hv, if_true, List.map_map]
    congr 1
    refine List.map_congr_left fun j hj => ?_
    have hj' := List.mem_range.1 hj
    funext x
    obtain rfl : x = 0 := Subsingleton.elim _ _
    rw [(ex (j + 1) (by omega)).1 _ hidx]
    simp only [Function.comp]
    congr 1
    push_cast
    ring
  · have hne : ¬ q.type = "voltage" := by rw [hc]; decide
    simp only [hne, if_false, List.map_map, if_neg hlt.ne]
    congr 1
    refine List.map_congr_left fun j hj => ?_
    have hj' := List.mem_range.1 hj
    funext x
    obtain rfl : x = 0 := Subsingleton.elim _ _
    rw [(ex (j + 1) (by omega)).2 _ hlt]
    simp only [Function.comp]
    congr 1
    rw [hdt]
    push_cast
    ring

/-- The exact waves of a smooth source on a matched line with `L = C = 1`. -/
theorem demoSmooth_telegrapher (D : ℝ) :
    Telegrapher 1 1 D 1 1 0 expNegInvGlue (fun x t => expNegInvGlue (t - x) / 2) (fun x t => expNegInvGlue (t - x) / 2) := by
  have hc : ContDiff ℝ 1 expNegInvGlue := expNegInvGlue.contDiff
  have hcont : Continuous fun q : ℝ × ℝ => expNegInvGlue (q.2 - q.1) / 2 :=
    ((hc.continuous.comp (continuous_snd.sub continuous_fst)).div_const 2)
  refine ⟨hcont.continuousOn, hcont.continuousOn, ?_, ?_, ?_, ?_⟩
  · intro x t _ _
    have hd : HasDerivAt expNegInvGlue (deriv expNegInvGlue (t - x)) (t - x) :=
      ((hc.differentiable (by norm_num)) (t - x)).hasDerivAt
    have h2 : HasFDerivAt (fun q : ℝ × ℝ => q.2 - q.1) (ContinuousLinearMap.snd ℝ ℝ ℝ - ContinuousLinearMap.fst ℝ ℝ ℝ) (x, t) :=
      (hasFDerivAt_snd).sub hasFDerivAt_fst
    have h3 := (hd.comp_hasFDerivAt (x, t) h2).mul_const (1 / 2 : ℝ)
    have key : HasFDerivAt (fun q : ℝ × ℝ => expNegInvGlue (q.2 - q.1) / 2)
        ((-(deriv expNegInvGlue (t - x) / 2)) • ContinuousLinearMap.fst ℝ ℝ ℝ +
          (deriv expNegInvGlue (t - x) / 2) • ContinuousLinearMap.snd ℝ ℝ ℝ) (x, t) := by
      have h4 := h3.congr_fderiv (g' := (-(deriv expNegInvGlue (t - x) / 2)) • ContinuousLinearMap.fst ℝ ℝ ℝ +
          (deriv expNegInvGlue (t - x) / 2) • ContinuousLinearMap.snd ℝ ℝ ℝ) (by ext <;> simp <;> ring)
      refine h4.congr_of_eventuallyEq (Filter.Eventually.of_forall fun q => ?_)
      simp only [Function.comp]
      ring
    exact ⟨_, _, _, _, key, key, by ring, by ring⟩
  · intro t
    simp
    ring
  · intro t
    ring
  · intro x t hx _ htt
    have : expNegInvGlue (t - x) = 0 := expNegInvGlue.zero_of_nonpos (by linarith)
    simp [this]

theorem MTL.Ideal.withProbes {s : MTL 1 p} {d L C Zs Zl : ℝ} {Vs : ℝ → ℝ} (hi : s.Ideal d L C Zs Zl Vs) (P : List (Probe 1)) :
    ({ s with probes := P } : MTL 1 p).Ideal d L C Zs Zl Vs :=
  ⟨hi.cells, hi.d_pos, hi.L_pos, hi.C_pos, hi.dun, hi.l, hi.c, hi.r, hi.g, hi.conn, hi.zs, hi.zl, hi.zs_nonneg, hi.zl_nonneg,
    hi.source, hi.load, hi.eL, hi.eT, hi.courant, ⟨hi.terms.1, hi.terms.2,
      hi.terms.3, hi.terms.4, hi.terms.5, hi.terms.6⟩⟩

/-- The demo line with a smooth source and a voltage probe at its beginning. -/
noncomputable def demoSmooth : MTL 1 0 :=
  { (demoBare 0).addVoltageSource (.list ![0, 0, 0]) 0 expNegInvGlue with
    probes := [{ type := "voltage", t := [], val := .empty, position := ![0, 0, 0], index := 0, dt := 1, currentFrame := 0 }] }

theorem demoSmooth_ideal : demoSmooth.Ideal 1 1 1 1 1 expNegInvGlue ∧ demoSmooth.AtRest := by
  obtain ⟨hi, hr, -, -, -, -⟩ := constructed_ideal (p := 0) (D := 2) (m := 2) one_pos one_pos two_pos zero_le_one zero_le_one
    (by norm_num) demoBare_constructed expNegInvGlue
  have e : (2 : ℝ) / (2 : ℕ) = 1 := by norm_num
  rw [e] at hi
  exact ⟨hi.withProbes _, ⟨hr.v, hr.i, hr.phi⟩⟩

theorem demoSmooth_runs (T : ℝ) : ∃ s', demoSmooth.runUntil T = .ok s' :=
  demoSmooth_ideal.1.runs (by simp [demoSmooth]) T

/-- **C130** is false of the code: on the demo line, matched at both ends and fed by a smooth source, a voltage probe at the
beginning stamps a value with the time `1`, which is not the exact voltage at that time. -/
theorem C130_refuted : ∃ (s s' : MTL 1 0) (v i : ℝ → ℝ → ℝ) (q q' : Probe 1) (t : ℝ) (w : Col 1),
    s.Ideal 1 1 1 1 1 expNegInvGlue ∧ s.AtRest ∧ Telegrapher 1 1 (s.m * 1) 1 1 s.time expNegInvGlue v i ∧
    s.runUntil 1 = .ok s' ∧ s.probes[0]? = some q ∧ s'.probes[0]? = some q' ∧ q.type = "voltage" ∧
    q'.t = [t] ∧ q'.val = .rows [w] ∧ w 0 ≠ v (q.index * 1) t := by
  obtain ⟨hi, hr⟩ := demoSmooth_ideal
  obtain ⟨s', hs'⟩ := demoSmooth_runs 1
  have ht : Telegrapher 1 1 (demoSmooth.m * 1) 1 1 demoSmooth.time expNegInvGlue (fun x t => expNegInvGlue (t - x) / 2)
      (fun x t => expNegInvGlue (t - x) / 2) := demoSmooth_telegrapher _
  obtain ⟨tr, R, hlen, hpr⟩ := C01_run_frames _ _ _ hs'
  have hdt : demoSmooth.dt = 1 := rfl
  have ht0 : demoSmooth.time = 0 := rfl
  have hl1 : s'.probes.length = 1 := by rw [hlen]; rfl
  obtain ⟨q', hq'⟩ : ∃ q', s'.probes[0]? = some q' := ⟨s'.probes[0], List.getElem?_eq_getElem (by omega)⟩
  obtain ⟨-, -, e1, -⟩ := hpr 0 _ q' rfl hq'
  have hval := (C130_delay_partial hs' hi hr (ht.mild hi.L_pos hi.C_pos) (a := 0) rfl hq' (Nat.zero_le _) rfl).1 rfl
  have e1' : q'.t = [1] := by
    rw [e1, hdt, ht0]
    simp
  rw [e1'] at hval
  refine ⟨demoSmooth, s', _, _, _, q', 1, _, hi, hr, ht, hs', rfl, hq', rfl, e1', hval, ?_⟩
  rw [hdt]
  have : 0 < expNegInvGlue 1 := expNegInvGlue.pos_of_pos one_pos
  simp
  linarith

/-- Non-vacuity of C129: the demo line is such a line, runs, and there is an exact solution. -/
example : demoSmooth.Ideal 1 1 1 1 1 expNegInvGlue ∧ demoSmooth.AtRest ∧ (∀ T, ∃ s', demoSmooth.runUntil T = .ok s') ∧
    Telegrapher 1 1 (demoSmooth.m * 1) 1 1 demoSmooth.time expNegInvGlue (fun x t => expNegInvGlue (t - x) / 2)
      (fun x t => expNegInvGlue (t - x) / 2) :=
  ⟨demoSmooth_ideal.1, demoSmooth_ideal.2, demoSmooth_runs, demoSmooth_telegrapher _⟩

end Mtln
