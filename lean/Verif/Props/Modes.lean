import Mathlib.LinearAlgebra.Matrix.IsDiag
import Verif.Props.Telegraph
import Verif.Props.Units

/-! # Lines of several conductors in the sinusoidal steady state: one line for each mode (C187) -/

namespace Mtln

open Matrix Filter Topology

variable {n p : ℕ}

/-- In the new variables all matrices of the line are diagonal. -/
structure MTL.HasModes (s : MTL n p) (U : NewVars n) : Prop where
  l : ∀ k < s.m, (U.imp (s.l k + s.conn.e k)).IsDiag
  r : ∀ k < s.m, (U.imp (s.r k + s.conn.d k)).IsDiag
  c : ∀ k ≤ s.m, (U.adm (s.c k)).IsDiag
  g : ∀ k ≤ s.m, (U.adm (s.g k)).IsDiag
  zs : (U.imp s.zs).IsDiag
  zl : (U.imp s.zl).IsDiag

/-- The line of one conductor that belongs to a mode. -/
noncomputable def MTL.modeLine (s : MTL n p) (U : NewVars n) (x : Fin n) : MTL 1 p where
  name := s.name
  m := s.m
  u := s.u
  du := s.du
  dun := s.dun
  l := fun k => U.imp (s.l k + s.conn.e k) x x • 1
  c := fun k => U.adm (s.c k) x x • 1
  r := fun k => U.imp (s.r k + s.conn.d k) x x • 1
  g := fun k => U.adm (s.g k) x x • 1
  zs := U.imp s.zs x x • 1
  zl := U.imp s.zl x x • 1
  dt := s.dt
  time := s.time
  v := 0
  i := 0
  phi := 0
  probes := []
  conn := Disp.new s.dt
  vSources := 0
  eL := 0
  eT := 0
  left1 := 0
  left2 := 0
  right1 := 0
  right2 := 0
  lr := none
  cg := none

theorem cx_mul_vec (A B : Mat n) (X : Fin n → ℂ) : cx A *ᵥ (cx B *ᵥ X) = cx (A * B) *ᵥ X := by
  rw [mulVec_mulVec]
  congr 1
  ext i j
  simp [cx, Matrix.mul_apply]

theorem cx_one_vec (X : Fin n → ℂ) : cx (1 : Mat n) *ᵥ X = X := by
  have : cx (1 : Mat n) = 1 := by
    ext i j
    by_cases h : i = j <;> simp [cx, h, Matrix.one_apply]
  rw [this, one_mulVec]

theorem cx_diag {A : Mat n} (h : A.IsDiag) (X : Fin n → ℂ) (x : Fin n) : (cx A *ᵥ X) x = A x x * X x := by
  show ∑ y, (A x y : ℂ) * X y = _
  rw [Finset.sum_eq_single x]
  · intro y _ hy
    rw [h (Ne.symm hy), Complex.ofReal_zero, zero_mul]
  · simp

/-- The voltages, and the currents, of a mode. -/
noncomputable def NewVars.mv (U : NewVars n) (x : Fin n) : (Fin n → ℂ) →ₗ[ℂ] ℂ where
  toFun X := (cx U.a *ᵥ X) x
  map_add' X Y := by rw [mulVec_add, Pi.add_apply]
  map_smul' c X := by rw [mulVec_smul, Pi.smul_apply, RingHom.id_apply]

noncomputable def NewVars.mi (U : NewVars n) (x : Fin n) : (Fin n → ℂ) →ₗ[ℂ] ℂ where
  toFun X := (cx U.b *ᵥ X) x
  map_add' X Y := by rw [mulVec_add, Pi.add_apply]
  map_smul' c X := by rw [mulVec_smul, Pi.smul_apply, RingHom.id_apply]

section

variable {U : NewVars n}

theorem NewVars.mv_imp {A : Mat n} (h : (U.imp A).IsDiag) (X : Fin n → ℂ) (x : Fin n) : U.mv x (cx A *ᵥ X) = U.imp A x x * U.mi x X := by
  show (cx U.a *ᵥ (cx A *ᵥ X)) x = _ * (cx U.b *ᵥ X) x
  rw [← cx_diag h, cx_mul_vec, cx_mul_vec, show U.imp A * U.b = U.a * A by rw [NewVars.imp, Matrix.mul_assoc, U.bi_b, Matrix.mul_one]]

theorem NewVars.mi_adm {A : Mat n} (h : (U.adm A).IsDiag) (X : Fin n → ℂ) (x : Fin n) : U.mi x (cx A *ᵥ X) = U.adm A x x * U.mv x X := by
  show (cx U.b *ᵥ (cx A *ᵥ X)) x = _ * (cx U.a *ᵥ X) x
  rw [← cx_diag h, cx_mul_vec, cx_mul_vec, show U.adm A * U.a = U.b * A by rw [NewVars.adm, Matrix.mul_assoc, U.ai_a, Matrix.mul_one]]

/-- The voltages are the sums of those of the modes. -/
theorem NewVars.mv_sum (U : NewVars n) (X : Fin n → ℂ) (x : Fin n) : X x = ∑ y, (U.a⁻¹ x y : ℂ) * U.mv y X := by
  have : X = cx U.a⁻¹ *ᵥ (cx U.a *ᵥ X) := by rw [cx_mul_vec, U.ai_a, cx_one_vec]
  exact congrFun this x

theorem NewVars.mi_sum (U : NewVars n) (X : Fin n → ℂ) (x : Fin n) : X x = ∑ y, (U.b⁻¹ x y : ℂ) * U.mi y X := by
  have : X = cx U.b⁻¹ *ᵥ (cx U.b *ᵥ X) := by rw [cx_mul_vec, U.bi_b, cx_one_vec]
  exact congrFun this x

theorem NewVars.mv_ext {X Y : Fin n → ℂ} : X = Y ↔ ∀ x, U.mv x X = U.mv x Y :=
  ⟨fun h _ => h ▸ rfl, fun h => funext fun x => by rw [U.mv_sum X, U.mv_sum Y]; simp only [h]⟩

theorem NewVars.mi_ext {X Y : Fin n → ℂ} : X = Y ↔ ∀ x, U.mi x X = U.mi x Y :=
  ⟨fun h _ => h ▸ rfl, fun h => funext fun x => by rw [U.mi_sum X, U.mi_sum Y]; simp only [h]⟩

theorem NewVars.mv_real (c : ℝ) (X : Fin n → ℂ) (x : Fin n) : U.mv x (c • X) = c * U.mv x X := by
  rw [show c • X = (c : ℂ) • X by ext; simp, map_smul, smul_eq_mul]

theorem NewVars.mi_real (c : ℝ) (X : Fin n → ℂ) (x : Fin n) : U.mi x (c • X) = c * U.mi x X := by
  rw [show c • X = (c : ℂ) • X by ext; simp, map_smul, smul_eq_mul]

theorem one_ext {X Y : Fin 1 → ℂ} : X = Y ↔ X 0 = Y 0 :=
  ⟨fun h => h ▸ rfl, fun h => funext fun x => by rw [Subsingleton.elim x 0]; exact h⟩

variable {s : MTL n p} {τ θ : ℝ} {E0 E1 : Fin n → ℂ} {F H V I : ℕ → Fin n → ℂ}

/-- **C187.**  The circuit for alternating current of a line whose matrices have common modes falls into the circuits of one line of one
conductor for each mode. -/
theorem C187_modes (h : s.HasModes U) : s.AC τ θ E0 E1 F H V I ↔
    ∀ x, (s.modeLine U x).AC τ θ (fun _ => U.mv x E0) (fun _ => U.mv x E1) (fun k _ => U.mv x (F k)) (fun k _ => U.mv x (H k))
      (fun k _ => U.mv x (V k)) fun k _ => U.mi x (I k) := by
  have e0 : ∀ k x, (s.modeLine U x).l k + (s.modeLine U x).conn.e k = U.imp (s.l k + s.conn.e k) x x • 1 := fun k x => add_zero _
  have d0 : ∀ k x, (s.modeLine U x).r k + (s.modeLine U x).conn.d k = U.imp (s.r k + s.conn.d k) x x • 1 := fun k x => add_zero _
  have c0 : ∀ k x, (s.modeLine U x).c k = U.adm (s.c k) x x • 1 := fun _ _ => rfl
  have g0 : ∀ k x, (s.modeLine U x).g k = U.adm (s.g k) x x • 1 := fun _ _ => rfl
  have zs0 : ∀ x, (s.modeLine U x).zs = U.imp s.zs x x • 1 := fun _ => rfl
  have zl0 : ∀ x, (s.modeLine U x).zl = U.imp s.zl x x • 1 := fun _ => rfl
  have m0 : ∀ x, (s.modeLine U x).m = s.m := fun _ => rfl
  have dun0 : ∀ x, (s.modeLine U x).dun = s.dun := fun _ => rfl
  have dt0 : ∀ x, (s.modeLine U x).dt = s.dt := fun _ => rfl
  have cell : ∀ k < s.m, (s.dun k • ((1 / s.dt) • (cx (s.l k + s.conn.e k) *ᵥ (turn θ • I k)) +
      Real.cos (θ / 2) • (cx (s.r k + s.conn.d k) *ᵥ I k)) = -(V (k + 1) - V k) - (F (k + 1) - F k) + s.dun k • (Real.cos (θ / 2) • H k)) ↔
      ∀ x, (s.dun k * (1 / s.dt * (U.imp (s.l k + s.conn.e k) x x * (turn θ * U.mi x (I k))) +
        Real.cos (θ / 2) * (U.imp (s.r k + s.conn.d k) x x * U.mi x (I k))) : ℂ) =
        -(U.mv x (V (k + 1)) - U.mv x (V k)) - (U.mv x (F (k + 1)) - U.mv x (F k)) + s.dun k * (Real.cos (θ / 2) * U.mv x (H k)) := by
    intro k hk
    rw [NewVars.mv_ext (U := U)]
    refine forall_congr' fun x => ?_
    simp only [NewVars.mv_real, map_add, map_sub, map_neg, NewVars.mv_imp (h.l k hk), NewVars.mv_imp (h.r k hk), map_smul, smul_eq_mul]
    push_cast
    rfl
  have node : ∀ k ≤ s.m, (((s.dun (k - 1) + s.dun k) / 2) • ((1 / s.dt) • (cx (s.c k) *ᵥ (turn θ • V k)) +
      Real.cos (θ / 2) • (cx (s.g k) *ᵥ V k)) = -(I k - I (k - 1)) - ((s.dun (k - 1) + s.dun k) / 2) •
      ((1 / s.dt) • (cx (s.c k) *ᵥ (turn θ • F k)) + (1 / 2 : ℝ) • (cx (s.g k) *ᵥ (turn θ • F k)))) ↔
      ∀ x, (((s.dun (k - 1) + s.dun k) / 2) * (1 / s.dt * (U.adm (s.c k) x x * (turn θ * U.mv x (V k))) +
        Real.cos (θ / 2) * (U.adm (s.g k) x x * U.mv x (V k))) : ℂ) = -(U.mi x (I k) - U.mi x (I (k - 1))) -
        ((s.dun (k - 1) + s.dun k) / 2) * (1 / s.dt * (U.adm (s.c k) x x * (turn θ * U.mv x (F k))) +
          1 / 2 * (U.adm (s.g k) x x * (turn θ * U.mv x (F k)))) := by
    intro k hk
    rw [NewVars.mi_ext (U := U)]
    refine forall_congr' fun x => ?_
    simp only [NewVars.mi_real, map_add, map_sub, map_neg, NewVars.mi_adm (h.c k hk), NewVars.mi_adm (h.g k hk), map_smul, smul_eq_mul]
    push_cast
    rfl
  have ends : ∀ {z : Mat n} {k q : ℕ} {E J : Fin n → ℂ}, (U.imp z).IsDiag → k ≤ s.m →
      ((Real.cos (θ / 2) • V k = Real.cos (θ / 2) • E - cx z *ᵥ (J + (s.dun q / 2) • ((1 / τ) • (cx (s.c k) *ᵥ (turn θ • V k)) +
        Real.cos (θ / 2) • (cx (s.g k) *ᵥ V k) + (1 / s.dt) • (cx (s.c k) *ᵥ (turn θ • F k))))) ↔
      ∀ x, (Real.cos (θ / 2) * U.mv x (V k) : ℂ) = Real.cos (θ / 2) * U.mv x E - U.imp z x x * (U.mi x J +
        s.dun q / 2 * (1 / τ * (U.adm (s.c k) x x * (turn θ * U.mv x (V k))) + Real.cos (θ / 2) * (U.adm (s.g k) x x * U.mv x (V k)) +
          1 / s.dt * (U.adm (s.c k) x x * (turn θ * U.mv x (F k)))))) := by
    intro z k q E J hz hk
    rw [NewVars.mv_ext (U := U)]
    refine forall_congr' fun x => ?_
    simp only [NewVars.mv_real, NewVars.mi_real, map_add, map_sub, map_neg, NewVars.mv_imp hz, NewVars.mi_adm (h.c k hk),
      NewVars.mi_adm (h.g k hk), map_smul, smul_eq_mul]
    push_cast
    rfl
  constructor
  · intro hac x
    refine ⟨fun k hk => ?_, fun k h0 hk => ?_, ?_, ?_⟩
    · have := (cell k hk).1 (hac.cell k hk) x
      rw [one_ext, e0, d0, dun0, dt0]
      simp only [Pi.smul_apply, Pi.add_apply, Pi.sub_apply, Pi.neg_apply, cx_scalar, Complex.real_smul, smul_eq_mul]
      push_cast at this ⊢
      exact this
    · have := (node k (le_of_lt hk)).1 (hac.node k h0 hk) x
      rw [one_ext, c0, g0, dun0, dt0]
      simp only [Pi.smul_apply, Pi.add_apply, Pi.sub_apply, Pi.neg_apply, cx_scalar, Complex.real_smul, smul_eq_mul]
      push_cast at this ⊢
      exact this
    · have := (ends (q := 0) h.zs (Nat.zero_le _)).1 hac.first x
      rw [one_ext, c0, g0, zs0, dun0, dt0]
      simp only [Pi.smul_apply, Pi.add_apply, Pi.sub_apply, Pi.neg_apply, cx_scalar, Complex.real_smul, smul_eq_mul]
      push_cast at this ⊢
      exact this
    · have := (ends (q := s.m - 1) h.zl le_rfl).1 hac.last x
      rw [one_ext, m0, c0, g0, zl0, dun0, dt0]
      simp only [Pi.smul_apply, Pi.add_apply, Pi.sub_apply, Pi.neg_apply, cx_scalar, Complex.real_smul, smul_eq_mul]
      rw [map_neg] at this
      push_cast at this ⊢
      exact this
  · intro hac
    refine ⟨fun k hk => (cell k hk).2 fun x => ?_, fun k h0 hk => (node k hk.le).2 fun x => ?_,
      (ends (q := 0) h.zs (Nat.zero_le _)).2 fun x => ?_, (ends (q := s.m - 1) h.zl le_rfl).2 fun x => ?_⟩
    · have := (hac x).cell k hk
      rw [one_ext, e0, d0, dun0, dt0] at this
      simp only [Pi.smul_apply, Pi.add_apply, Pi.sub_apply, Pi.neg_apply, cx_scalar, Complex.real_smul, smul_eq_mul] at this
      push_cast at this ⊢
      exact this
    · have := (hac x).node k h0 hk
      rw [one_ext, c0, g0, dun0, dt0] at this
      simp only [Pi.smul_apply, Pi.add_apply, Pi.sub_apply, Pi.neg_apply, cx_scalar, Complex.real_smul, smul_eq_mul] at this
      push_cast at this ⊢
      exact this
    · have := (hac x).first
      rw [one_ext, c0, g0, zs0, dun0, dt0] at this
      simp only [Pi.smul_apply, Pi.add_apply, Pi.sub_apply, Pi.neg_apply, cx_scalar, Complex.real_smul, smul_eq_mul] at this
      push_cast at this ⊢
      exact this
    · have := (hac x).last
      rw [one_ext, m0, c0, g0, zl0, dun0, dt0] at this
      simp only [Pi.smul_apply, Pi.add_apply, Pi.sub_apply, Pi.neg_apply, cx_scalar, Complex.real_smul, smul_eq_mul] at this
      rw [map_neg]
      push_cast at this ⊢
      exact this

end

end Mtln
