import Verif.Lemmas.Energy
import Verif.Lemmas.Stability

/-! # Energy of the error of a scheme with residuals -/

namespace Mtln

open Matrix

variable {n p : ℕ}

/-- `e, ε` and `e', ε'` satisfy the equations of one step without excitation up to residuals: `ρ` in the cells, `η` at the
inner nodes and `σ`, `σ'` in the currents at the two ends, whose coefficients belong to the time step `τ`. -/
structure MTL.ErrorStep (s : MTL n p) (τ : ℝ) (e ε e' ε' ρ η : Grid n) (σ σ' : Col n) : Prop where
  cell : ∀ k < s.m, s.dun k • ((1 / s.dt) • (s.l k *ᵥ (ε' k - ε k)) + (1 / 2 : ℝ) • (s.r k *ᵥ (ε' k + ε k))) =
    -(e' (k + 1) - e' k) + s.dun k • ρ k
  node : ∀ k, 0 < k → k < s.m → ((s.dun (k - 1) + s.dun k) / 2) • ((1 / s.dt) • (s.c k *ᵥ (e' k - e k)) +
    (1 / 2 : ℝ) • (s.g k *ᵥ (e' k + e k))) = -(ε k - ε (k - 1)) + ((s.dun (k - 1) + s.dun k) / 2) • η k
  first : e' 0 + e 0 = -(s.zs *ᵥ ((2 : ℝ) • ε 0 + (s.dun 0 / τ) • (s.c 0 *ᵥ (e' 0 - e 0)) +
    (s.dun 0 / 2) • (s.g 0 *ᵥ (e' 0 + e 0)) + (2 : ℝ) • σ))
  last : e' s.m + e s.m = -(s.zl *ᵥ (-((2 : ℝ) • ε (s.m - 1)) + (s.dun (s.m - 1) / τ) • (s.c s.m *ᵥ (e' s.m - e s.m)) +
    (s.dun (s.m - 1) / 2) • (s.g s.m *ᵥ (e' s.m + e s.m)) + (2 : ℝ) • σ'))

theorem current_error {du dt : ℝ} {L R : Mat n} {x i dV ρ : Col n} (hdt : 0 < dt) (hdu : 0 ≤ du)
    (hL : Lᵀ = L) (hR : Dissipative R)
    (h : du • ((1 / dt) • (L *ᵥ (x - i)) + (1 / 2 : ℝ) • (R *ᵥ (x + i))) = -dV + du • ρ) :
    du * (x ⬝ᵥ (L *ᵥ x)) - du * (i ⬝ᵥ (L *ᵥ i)) ≤ -(dt * ((x + i) ⬝ᵥ dV)) + dt * (du * ((x + i) ⬝ᵥ ρ)) := by
  have h2 := congrArg (fun w => dt * ((x + i) ⬝ᵥ w)) h
  simp only [dotProduct_smul, dotProduct_add, dotProduct_neg, dot_diff_of_symm hL, smul_eq_mul] at h2
  have := mul_nonneg hdu (hR (x + i))
  have h3 : dt * (du * (1 / dt * (x ⬝ᵥ L *ᵥ x - i ⬝ᵥ L *ᵥ i))) = du * (x ⬝ᵥ L *ᵥ x - i ⬝ᵥ L *ᵥ i) := by field_simp
  nlinarith

/-- With a symmetric dissipative impedance the residual of a terminal costs a quadratic term only. -/
theorem terminal_error {du dt τ : ℝ} {Z C G : Mat n} {x v I σ : Col n} (hdt : 0 < dt) (hτ : 0 < τ) (hdu : 0 ≤ du)
    (hC : Cᵀ = C) (hG : Dissipative G) (hZs : Zᵀ = Z) (hZ : Dissipative Z)
    (e : x + v = -(Z *ᵥ ((2 : ℝ) • I + (du / τ) • (C *ᵥ (x - v)) + (du / 2) • (G *ᵥ (x + v)) + (2 : ℝ) • σ))) :
    du / 2 * (dt / τ * (x ⬝ᵥ (C *ᵥ x) - v ⬝ᵥ (C *ᵥ v))) ≤ -(dt * ((x + v) ⬝ᵥ I)) + dt / 2 * (σ ⬝ᵥ (Z *ᵥ σ)) := by
  set J : Col n := (2 : ℝ) • I + (du / τ) • (C *ᵥ (x - v)) + (du / 2) • (G *ᵥ (x + v)) with hJ
  have h1 : J ⬝ᵥ (x + v) ≤ σ ⬝ᵥ (Z *ᵥ σ) := by
    rw [e]
    have h0 := hZ (J + σ)
    have hs : σ ⬝ᵥ (Z *ᵥ J) = J ⬝ᵥ (Z *ᵥ σ) := by
      rw [dotProduct_mulVec, ← mulVec_transpose, hZs, dotProduct_comm]
    simp only [mulVec_add, dotProduct_add, add_dotProduct, hs] at h0
    simp only [mulVec_add, dotProduct_neg, dotProduct_add, mulVec_smul, dotProduct_smul, smul_eq_mul]
    linarith
  rw [dotProduct_comm, hJ] at h1
  simp only [dotProduct_smul, dotProduct_add, dot_diff_of_symm hC, smul_eq_mul] at h1
  have h2 := mul_nonneg hdu (hG (x + v))
  have h3 : dt * (du / τ * (x ⬝ᵥ C *ᵥ x - v ⬝ᵥ C *ᵥ v)) = du * (dt / τ * (x ⬝ᵥ C *ᵥ x - v ⬝ᵥ C *ᵥ v)) := by field_simp
  nlinarith [mul_nonneg hdt.le h2]

/-- Data for which errors do not grow by themselves. -/
structure MTL.Lossy (s : MTL n p) : Prop where
  cells : 0 < s.m
  dt_pos : 0 < s.dt
  dun : ∀ k < s.m, 0 < s.dun k
  l : ∀ k < s.m, (s.l k)ᵀ = s.l k
  c : ∀ k ≤ s.m, (s.c k)ᵀ = s.c k
  r : ∀ k < s.m, Dissipative (s.r k)
  g : ∀ k ≤ s.m, Dissipative (s.g k)
  zs : Dissipative s.zs
  zl : Dissipative s.zl
  zsT : s.zsᵀ = s.zs
  zlT : s.zlᵀ = s.zl
  e : ∀ k < s.m, s.conn.e k = 0

/-- Work of the residuals at the nodes. -/
noncomputable def MTL.nodeWork (s : MTL n p) (e e' η : Grid n) (σ σ' : Col n) (k : ℕ) : ℝ :=
  if k = 0 then σ ⬝ᵥ (s.zs *ᵥ σ) / s.dun 0
  else if k = s.m then σ' ⬝ᵥ (s.zl *ᵥ σ') / s.dun (s.m - 1)
  else (e' k + e k) ⬝ᵥ η k

/-- The energy of the error grows at most by the work of the residuals. -/
theorem error_energy {s : MTL n p} (hp : s.Lossy) {τ : ℝ} (hτ : 0 < τ) {e ε e' ε' ρ η : Grid n} {σ σ' : Col n}
    (h : s.ErrorStep τ e ε e' ε' ρ η σ σ') :
    MTL.energyW { s with v := e', i := ε' } (s.endWeight τ) ≤ MTL.energyW { s with v := e, i := ε } (s.endWeight τ) +
      s.dt * ∑ k ∈ Finset.range s.m, s.dun k * ((ε' k + ε k) ⬝ᵥ ρ k) +
      s.dt * ∑ k ∈ Finset.range s.m, s.dun k / 2 * (s.nodeWork e e' η σ σ' k + s.nodeWork e e' η σ σ' (k + 1)) := by
  have hdt := hp.dt_pos
  obtain ⟨M, hM⟩ : ∃ M, s.m = M + 1 := ⟨s.m - 1, by have := hp.cells; omega⟩
  have hcell : ∀ k < s.m, s.dun k * (ε' k ⬝ᵥ (s.l k *ᵥ ε' k)) - s.dun k * (ε k ⬝ᵥ (s.l k *ᵥ ε k))
      ≤ -(s.dt * ((ε' k + ε k) ⬝ᵥ (e' (k + 1) - e' k))) + s.dt * (s.dun k * ((ε' k + ε k) ⬝ᵥ ρ k)) := fun k hk =>
    current_error hdt (hp.dun k hk).le (hp.l k hk) (hp.r k hk) (h.cell k hk)
  set w := s.endWeight τ with hw
  have hwend : ∀ k, k = 0 ∨ k = s.m → w k = s.dt / τ := fun k h => by
    rw [hw]; unfold MTL.endWeight; rw [if_pos h]
  have hwin : ∀ k, 0 < k → k < s.m → w k = 1 := fun k h h' => by
    rw [hw]; unfold MTL.endWeight; rw [if_neg (by omega)]
  set β := s.nodeWork e e' η σ σ' with hβ
  set A : ℕ → ℝ := fun k => w k * (e' k ⬝ᵥ (s.c k *ᵥ e' k) - e k ⬝ᵥ (s.c k *ᵥ e k)) - s.dt * β k with hA
  set P : ℕ → ℝ := fun k => (e' k + e k) ⬝ᵥ ε k with hP
  set Q : ℕ → ℝ := fun k => (e' (k + 1) + e (k + 1)) ⬝ᵥ ε k with hQ
  have hleft : s.dun 0 / 2 * A 0 ≤ -(s.dt * P 0) := by
    have h1 := terminal_error hdt hτ (hp.dun 0 hp.cells).le (hp.c 0 (by omega)) (hp.g 0 (by omega)) hp.zsT hp.zs h.first
    have hβ0 : β 0 = σ ⬝ᵥ (s.zs *ᵥ σ) / s.dun 0 := by rw [hβ]; unfold MTL.nodeWork; rw [if_pos rfl]
    have hd := (hp.dun 0 hp.cells).ne'
    have e1 : s.dun 0 / 2 * A 0 = s.dun 0 / 2 * (s.dt / τ * (e' 0 ⬝ᵥ (s.c 0 *ᵥ e' 0) - e 0 ⬝ᵥ (s.c 0 *ᵥ e 0))) -
        s.dt / 2 * (σ ⬝ᵥ (s.zs *ᵥ σ)) := by
      simp only [hA, hβ0, hwend 0 (Or.inl rfl)]; field_simp
    rw [e1]
    linarith
  have hright : s.dun M / 2 * A (M + 1) ≤ s.dt * Q M := by
    have hm1 : s.m - 1 = M := by omega
    have h1 := terminal_error (I := -ε (s.m - 1)) (σ := σ') (x := e' s.m) (v := e s.m) hdt hτ (hp.dun (s.m - 1) (by omega)).le (hp.c s.m le_rfl) (hp.g s.m le_rfl)
      hp.zlT hp.zl (by rw [smul_neg]; exact h.last)
    have hβ0 : β s.m = σ' ⬝ᵥ (s.zl *ᵥ σ') / s.dun M := by
      rw [hβ]; unfold MTL.nodeWork; rw [if_neg (by omega), if_pos rfl, hm1]
    have hd := (hp.dun M (by omega)).ne'
    rw [hm1] at h1
    have e1 : s.dun M / 2 * A (M + 1) = s.dun M / 2 * (s.dt / τ * (e' s.m ⬝ᵥ (s.c s.m *ᵥ e' s.m) - e s.m ⬝ᵥ (s.c s.m *ᵥ e s.m))) -
        s.dt / 2 * (σ' ⬝ᵥ (s.zl *ᵥ σ')) := by
      rw [← hM]
      simp only [hA, hβ0, hwend s.m (Or.inr rfl)]; field_simp
    rw [e1]
    simp only [dotProduct_neg] at h1
    have e2 : Q M = (e' s.m + e s.m) ⬝ᵥ ε M := by rw [hM]
    rw [e2]
    linarith
  have hint : ∀ k, 0 < k → k ≤ M → (s.dun (k - 1) + s.dun k) / 2 * A k ≤ -(s.dt * (P k - Q (k - 1))) := by
    intro k h0 hk
    have hkm : k < s.m := by omega
    have hpos : 0 ≤ (s.dun (k - 1) + s.dun k) / 2 := by
      have := hp.dun (k - 1) (by omega)
      have := hp.dun k hkm
      linarith
    have h3 := current_error hdt hpos (hp.c k hkm.le) (hp.g k hkm.le) (h.node k h0 hkm)
    have hk1 : k - 1 + 1 = k := by omega
    have hβ0 : β k = (e' k + e k) ⬝ᵥ η k := by
      rw [hβ]; unfold MTL.nodeWork; rw [if_neg (by omega), if_neg (by omega)]
    simp only [hA, hP, hQ, hk1, hβ0, hwin k h0 hkm, one_mul]
    rw [dotProduct_sub] at h3
    linarith
  have hn := node_sum hleft hint hright
  rw [← hM] at hn
  have hcs := Finset.sum_le_sum fun k (hk : k ∈ Finset.range s.m) => hcell k (Finset.mem_range.1 hk)
  unfold MTL.energyW MTL.electric MTL.magnetic
  dsimp only
  rw [Finset.sum_sub_distrib, Finset.sum_add_distrib] at hcs
  have mag : ∀ j : Grid n, ∑ k ∈ Finset.range s.m, s.dun k * (j k ⬝ᵥ ((s.l k + s.conn.e k) *ᵥ j k)) =
      ∑ k ∈ Finset.range s.m, s.dun k * (j k ⬝ᵥ (s.l k *ᵥ j k)) := fun j =>
    Finset.sum_congr rfl fun k hk => by rw [hp.e k (Finset.mem_range.1 hk), add_zero]
  rw [mag, mag]
  have e1 : ∑ k ∈ Finset.range s.m, s.dun k / 2 * (A k + A (k + 1))
      = ∑ k ∈ Finset.range s.m, s.dun k / 2 * (w k * (e' k ⬝ᵥ (s.c k *ᵥ e' k)) + w (k + 1) * (e' (k + 1) ⬝ᵥ (s.c (k + 1) *ᵥ e' (k + 1))))
        - ∑ k ∈ Finset.range s.m, s.dun k / 2 * (w k * (e k ⬝ᵥ (s.c k *ᵥ e k)) + w (k + 1) * (e (k + 1) ⬝ᵥ (s.c (k + 1) *ᵥ e (k + 1))))
        - s.dt * ∑ k ∈ Finset.range s.m, s.dun k / 2 * (β k + β (k + 1)) := by
    rw [Finset.mul_sum, ← Finset.sum_sub_distrib, ← Finset.sum_sub_distrib]
    refine Finset.sum_congr rfl fun k _ => ?_
    simp only [hA]; ring
  have e2 : s.dt * ∑ k ∈ Finset.range s.m, (Q k - P k)
      + ∑ k ∈ Finset.range s.m, -(s.dt * ((ε' k + ε k) ⬝ᵥ (e' (k + 1) - e' k)))
      = s.dt * ∑ k ∈ Finset.range s.m, ε k ⬝ᵥ (e (k + 1) - e k)
        - s.dt * ∑ k ∈ Finset.range s.m, ε' k ⬝ᵥ (e' (k + 1) - e' k) := by
    simp only [Finset.mul_sum, ← Finset.sum_sub_distrib, ← Finset.sum_add_distrib]
    refine Finset.sum_congr rfl fun k _ => ?_
    simp only [hP, hQ, dotProduct_comm _ (ε k), dotProduct_sub, add_dotProduct]
    ring
  have e3 : ∑ k ∈ Finset.range s.m, s.dt * (s.dun k * ((ε' k + ε k) ⬝ᵥ ρ k)) =
      s.dt * ∑ k ∈ Finset.range s.m, s.dun k * ((ε' k + ε k) ⬝ᵥ ρ k) := by rw [Finset.mul_sum]
  rw [e1] at hn
  rw [e3] at hcs
  linarith

/-! ## Bounds of the work -/

theorem dot_le_components {x ρ : Col n} {q r : ℝ} (hx : ∀ a, |x a| ≤ q) (hr : ∀ a, |ρ a| ≤ r) (hq : 0 ≤ q) :
    x ⬝ᵥ ρ ≤ n * q * r := by
  unfold dotProduct
  calc ∑ a, x a * ρ a ≤ ∑ _a : Fin n, q * r := Finset.sum_le_sum fun a _ => by
        calc x a * ρ a ≤ |x a * ρ a| := le_abs_self _
          _ = |x a| * |ρ a| := abs_mul _ _
          _ ≤ q * r := mul_le_mul (hx a) (hr a) (abs_nonneg _) hq
    _ = n * q * r := by simp; ring

/-- Cauchy–Schwarz with equal weights. -/
theorem weighted_sum_le {m : ℕ} {d : ℝ} (hd : 0 ≤ d) (q : ℕ → ℝ) :
    ∑ k ∈ Finset.range m, d * q k ≤ Real.sqrt (m * d) * Real.sqrt (∑ k ∈ Finset.range m, d * q k ^ 2) := by
  have h := Finset.sum_mul_sq_le_sq_mul_sq (Finset.range m) (fun _ => Real.sqrt d) (fun k => Real.sqrt d * q k)
  have e1 : ∑ k ∈ Finset.range m, Real.sqrt d * (Real.sqrt d * q k) = ∑ k ∈ Finset.range m, d * q k :=
    Finset.sum_congr rfl fun k _ => by rw [← mul_assoc, Real.mul_self_sqrt hd]
  have e2 : ∑ k ∈ Finset.range m, Real.sqrt d ^ 2 = m * d := by simp [Real.sq_sqrt hd]
  have e3 : ∑ k ∈ Finset.range m, (Real.sqrt d * q k) ^ 2 = ∑ k ∈ Finset.range m, d * q k ^ 2 :=
    Finset.sum_congr rfl fun k _ => by rw [mul_pow, Real.sq_sqrt hd]
  rw [e1, e2, e3] at h
  rw [← Real.sqrt_mul (by positivity)]
  exact Real.le_sqrt_of_sq_le h

/-- How roots grow. -/
theorem sqrt_growth {E : ℕ → ℝ} {a b : ℝ} {N : ℕ} (ha : 0 ≤ a) (hb : 0 ≤ b) (hE : ∀ j ≤ N, 0 ≤ E j)
    (h : ∀ j < N, E (j + 1) ≤ E j + a * (Real.sqrt (E (j + 1)) + Real.sqrt (E j)) + b) :
    ∀ j ≤ N, Real.sqrt (E j) ≤ Real.sqrt (E 0 + j * b) + j * a := by
  intro j
  induction j with
  | zero => intro _; simp
  | succ j ih =>
    intro hj
    have h1 := ih (by omega)
    have h2 := h j (by omega)
    set y' := Real.sqrt (E (j + 1))
    set y := Real.sqrt (E j)
    have hy' : y' ^ 2 = E (j + 1) := Real.sq_sqrt (hE _ hj)
    have hy : y ^ 2 = E j := Real.sq_sqrt (hE _ (by omega))
    have hy0 : 0 ≤ y := Real.sqrt_nonneg _
    have hE0 := hE 0 (by omega)
    set c := Real.sqrt (E 0 + j * b)
    set c' := Real.sqrt (E 0 + ((j + 1 : ℕ) : ℝ) * b)
    have hc : c ^ 2 = E 0 + j * b := Real.sq_sqrt (by positivity)
    have hc' : c' ^ 2 = E 0 + (j + 1) * b := by
      rw [Real.sq_sqrt (by positivity)]; push_cast; ring
    have hc0 : 0 ≤ c := Real.sqrt_nonneg _
    have hcc : c ≤ c' := Real.sqrt_le_sqrt (by push_cast; nlinarith)
    have hc1 : 0 ≤ c' := Real.sqrt_nonneg _
    have hj0 : (0 : ℝ) ≤ j := Nat.cast_nonneg j
    have hd : 0 ≤ (j : ℝ) * a + a / 2 := by positivity
    have key : (y' - a / 2) ^ 2 ≤ (c' + (j * a + a / 2)) ^ 2 := by
      have k1 : (y + a / 2) ^ 2 ≤ (c + (j * a + a / 2)) ^ 2 := by
        apply pow_le_pow_left₀ (by positivity)
        linarith
      have k2 : (c + (j * a + a / 2)) ^ 2 + b ≤ (c' + (j * a + a / 2)) ^ 2 := by
        nlinarith [mul_le_mul_of_nonneg_right hcc hd]
      nlinarith
    have := abs_le_of_sq_le_sq key (by positivity)
    push_cast
    linarith [le_abs_self (y' - a / 2)]

end Mtln
