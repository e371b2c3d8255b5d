import Verif.Props.Relax

/-! # States that return after a period -/

namespace Mtln

open Matrix

variable {n p : ℕ}

/-- The voltages at the nodes and the currents in the cells of the line agree. -/
structure MTL.SameInside (s t : MTL n p) : Prop where
  v : ∀ k ≤ s.m, t.v k = s.v k
  i : ∀ k < s.m, t.i k = s.i k

/-- From the time `t` on the sources at the two ends and the external fields repeat after the time `Θ`. -/
structure MTL.PeriodicFrom (s : MTL n p) (t Θ : ℝ) : Prop where
  first : ∀ x, ∀ u ≥ t, s.vSources 0 x (u + Θ) = s.vSources 0 x u
  last : ∀ x, ∀ u ≥ t, s.vSources s.m x (u + Θ) = s.vSources s.m x u
  eL : ∀ k x, ∀ u ≥ t, s.eL k x (u + Θ) = s.eL k x u
  eT : ∀ k x, ∀ u ≥ t, s.eT k x (u + Θ) = s.eT k x u

/-- The samples that a step uses agree. -/
structure SameSamples (m : ℕ) (a b : Sampled n) : Prop where
  n0 : b.vNow 0 = a.vNow 0
  p0 : b.vPrev 0 = a.vPrev 0
  n1 : b.vNow m = a.vNow m
  p1 : b.vPrev m = a.vPrev m
  eLNow : b.eLNow = a.eLNow
  eLPrev : b.eLPrev = a.eLPrev
  eTNow : b.eTNow = a.eTNow
  eTPrev : b.eTPrev = a.eTPrev

/-- Without dispersive connectors the fields inside the line after a step depend on the fields inside the line before it and on
the samples only. -/
theorem inside_step (lr : LR n) (cg : CG n) {s t : MTL n p} (h : s.SameMedium t) (hp : s.Passive) (hi : s.SameInside t)
    (hs : SameSamples s.m s.sample t.sample) : (s.advanceFields lr cg).SameInside (t.advanceFields lr cg) := by
  have hm := hp.cells
  have hm' : 0 < t.m := by rw [h.m]; exact hm
  have hv : ∀ k ≤ s.m, (t.advanceFields lr cg).v k = (s.advanceFields lr cg).v k := by
    intro k hk
    rcases Nat.eq_zero_or_pos k with rfl | hk0
    · rw [advanceFields_v_left _ _ _ hm, advanceFields_v_left _ _ _ hm', h.left1, h.left2, h.zs, h.dun, h.dt, h.c, hs.n0, hs.p0,
        hs.eTNow, hs.eTPrev, hi.v 0 hk, hi.i 0 hm]
    · rcases lt_or_eq_of_le hk with hlt | heq
      · rw [advanceFields_v_interior _ _ _ _ hk0 hlt, advanceFields_v_interior _ _ _ _ hk0 (by rw [h.m]; exact hlt), hs.eTNow,
          hs.eTPrev, hi.v k hk, hi.i k hlt, hi.i (k - 1) (by omega)]
      · subst heq
        have := advanceFields_v_right lr cg t hm'
        rw [h.m] at this
        rw [advanceFields_v_right _ _ _ hm, this, h.right1, h.right2, h.zl, h.dun, h.dt, h.c, hs.n1, hs.p1, hs.eTNow, hs.eTPrev,
          hi.v s.m hk, hi.i (s.m - 1) (by omega)]
  refine ⟨hv, fun k hk => ?_⟩
  have hk : k < s.m := hk
  have none : ∀ x : Memory n p, s.conn.q3phi x k = 0 := by
    intro x
    funext a
    simp [Disp.q3phi, hp.q3 k hk, QEntry.val, poleSum]
  rw [advanceFields_i _ _ _ _ hk, advanceFields_i _ _ _ _ (by rw [h.m]; exact hk), hv k hk.le, hv (k + 1) hk, hs.eTNow, hs.eLNow,
    hs.eLPrev, hi.i k hk, h.dun, h.conn, none, none]

theorem inside_iterate (lr : LR n) (cg : CG n) {s t : MTL n p} (h : s.SameMedium t) (hp : s.Passive) (hi : s.SameInside t)
    (hs : ∀ j : ℕ, SameSamples s.m (sampleSources s.vSources s.eL s.eT (s.time + j * s.dt) s.dt)
      (sampleSources t.vSources t.eL t.eT (t.time + j * t.dt) t.dt)) (j : ℕ) :
    ((MTL.advanceFields lr cg)^[j] s).SameInside ((MTL.advanceFields lr cg)^[j] t) := by
  induction j with
  | zero => exact hi
  | succ j ih =>
    rw [Function.iterate_succ_apply', Function.iterate_succ_apply']
    refine inside_step lr cg (h.iterate j) (hp.congr (iterate_advanceFields_config lr cg s j)) ih ?_
    rw [iterate_sample, iterate_sample, (iterate_advanceFields_config lr cg s j).m]
    exact hs j

theorem SameSamples.refl {m : ℕ} (a : Sampled n) : SameSamples m a a := ⟨rfl, rfl, rfl, rfl, rfl, rfl, rfl, rfl⟩

/-- The samples repeat with the sources. -/
theorem periodic_samples {s : MTL n p} {t : ℝ} {P : ℕ} (hper : s.PeriodicFrom t (P * s.dt)) (hdt : 0 < s.dt) {u : ℝ}
    (hu : t ≤ u - s.dt) : SameSamples s.m (sampleSources s.vSources s.eL s.eT u s.dt)
      (sampleSources s.vSources s.eL s.eT (u + P * s.dt) s.dt) := by
  have e1 : u + P * s.dt - s.dt = u - s.dt + P * s.dt := by ring
  have e2 : u + P * s.dt + s.dt / 2 = u + s.dt / 2 + P * s.dt := by ring
  have e3 : u + P * s.dt - s.dt / 2 = u - s.dt / 2 + P * s.dt := by ring
  refine ⟨?_, ?_, ?_, ?_, ?_, ?_, ?_, ?_⟩
  · funext x; exact hper.first x u (by linarith)
  · funext x; simp only [sampleSources]; rw [e1]; exact hper.first x _ hu
  · funext x; exact hper.last x u (by linarith)
  · funext x; simp only [sampleSources]; rw [e1]; exact hper.last x _ hu
  · funext k x; simp only [sampleSources]; rw [e2]; exact hper.eL k x _ (by linarith)
  · funext k x; simp only [sampleSources]; rw [e3]; exact hper.eL k x _ (by linarith)
  · funext k x; exact hper.eT k x u (by linarith)
  · funext k x; simp only [sampleSources]; rw [e1]; exact hper.eT k x _ hu

/-! ## The free motion as a linear map -/

/-- The line without sources and fields, in another state. -/
def MTL.freed (s : MTL n p) (v i : Grid n) : MTL n p :=
  { s with v := v, i := i, phi := fun _ _ _ => 0, vSources := fun _ _ _ => 0, eL := fun _ _ _ => 0, eT := fun _ _ _ => 0 }

/-- Voltages and currents inside a line of `m` cells. -/
abbrev Inside (n m : ℕ) := (Fin (m + 1) → Col n) × (Fin m → Col n)

theorem freed_medium (s : MTL n p) (v i : Grid n) : s.SameMedium (s.freed v i) :=
  ⟨rfl, rfl, rfl, rfl, rfl, rfl, rfl, rfl, rfl, rfl, rfl, rfl, rfl, rfl⟩

theorem freed_between (s : MTL n p) (v i v' i' : Grid n) : (s.freed v i).SameMedium (s.freed v' i') :=
  ⟨rfl, rfl, rfl, rfl, rfl, rfl, rfl, rfl, rfl, rfl, rfl, rfl, rfl, rfl⟩

theorem freed_unexcited (s : MTL n p) (v i : Grid n) : (s.freed v i).Unexcited := ⟨fun _ _ _ => rfl, fun _ _ _ => rfl, fun _ _ _ => rfl⟩

theorem MTL.Passive.freed {s : MTL n p} (hp : s.Passive) (v i : Grid n) : (s.freed v i).Passive :=
  ⟨hp.cells, hp.dt_pos, hp.dun, hp.l, hp.c, hp.r, hp.g, hp.zs, hp.zl, hp.q1, hp.q2, hp.q3⟩

theorem MTL.Regular.freed {s : MTL n p} {C : Mat n} (hr : s.Regular C) (v i : Grid n) : (s.freed v i).Regular C :=
  ⟨hr.c, hr.c_spd, hr.l_spd, hr.e, hr.dun⟩

theorem MTL.TermFor.freed {s : MTL n p} {τ : ℝ} (ht : s.TermFor τ) (v i : Grid n) : (s.freed v i).TermFor τ :=
  ⟨ht.det_left, ht.det_right, ht.left1, ht.left2, ht.right1, ht.right2⟩

/-- `P` steps without sources and fields. -/
noncomputable def freeMap (s : MTL n p) (lr : LR n) (cg : CG n) (P : ℕ) : Inside n s.m →ₗ[ℝ] Inside n s.m where
  toFun w := (fun k => ((MTL.advanceFields lr cg)^[P] (s.freed (extend w.1) (extend w.2))).v k,
    fun k => ((MTL.advanceFields lr cg)^[P] (s.freed (extend w.1) (extend w.2))).i k)
  map_add' x y := by
    have h : StateComb 1 1 ((MTL.advanceFields lr cg)^[P] (s.freed (extend x.1) (extend x.2)))
        ((MTL.advanceFields lr cg)^[P] (s.freed (extend y.1) (extend y.2)))
        ((MTL.advanceFields lr cg)^[P] (s.freed (extend (x + y).1) (extend (x + y).2))) := by
      refine iterate_comb lr cg P (freed_between _ _ _ _ _) (freed_between _ _ _ _ _) rfl rfl ⟨?_, ?_, ?_⟩ ⟨?_, ?_, ?_⟩
      · intro k a u; simp [MTL.freed]
      · intro k a u; simp [MTL.freed]
      · intro k a u; simp [MTL.freed]
      · intro k a; simp [MTL.freed, extend_add]
      · intro k a; simp [MTL.freed, extend_add]
      · intro k a u; simp [MTL.freed]
    refine Prod.ext (funext fun k => funext fun a => ?_) (funext fun k => funext fun a => ?_)
    · have := h.v k a; simpa using this
    · have := h.i k a; simpa using this
  map_smul' c x := by
    have h : StateComb c 0 ((MTL.advanceFields lr cg)^[P] (s.freed (extend x.1) (extend x.2)))
        ((MTL.advanceFields lr cg)^[P] (s.freed (extend x.1) (extend x.2)))
        ((MTL.advanceFields lr cg)^[P] (s.freed (extend (c • x).1) (extend (c • x).2))) := by
      refine iterate_comb lr cg P (freed_between _ _ _ _ _) (freed_between _ _ _ _ _) rfl rfl ⟨?_, ?_, ?_⟩ ⟨?_, ?_, ?_⟩
      · intro k a u; simp [MTL.freed]
      · intro k a u; simp [MTL.freed]
      · intro k a u; simp [MTL.freed]
      · intro k a; simp [MTL.freed, extend_smul]
      · intro k a; simp [MTL.freed, extend_smul]
      · intro k a u; simp [MTL.freed]
    refine Prod.ext (funext fun k => funext fun a => ?_) (funext fun k => funext fun a => ?_)
    · have := h.v k a; simpa using this
    · have := h.i k a; simpa using this

/-- The states whose voltages at the ends no short keeps. -/
def endSpace (s : MTL n p) : Submodule ℝ (Inside n s.m) where
  carrier := { w | (Absorbing s.zs ∨ ∃ u, w.1 0 = s.zs *ᵥ u) ∧ (Absorbing s.zl ∨ ∃ u, w.1 (Fin.last s.m) = s.zl *ᵥ u) }
  zero_mem' := ⟨Or.inr ⟨0, by simp⟩, Or.inr ⟨0, by simp⟩⟩
  add_mem' := by
    rintro a b ⟨a0, a1⟩ ⟨b0, b1⟩
    refine ⟨?_, ?_⟩
    · rcases a0 with h | ⟨u, hu⟩
      · exact Or.inl h
      · rcases b0 with h | ⟨w, hw⟩
        · exact Or.inl h
        · exact Or.inr ⟨u + w, by rw [Prod.fst_add, Pi.add_apply, hu, hw, mulVec_add]⟩
    · rcases a1 with h | ⟨u, hu⟩
      · exact Or.inl h
      · rcases b1 with h | ⟨w, hw⟩
        · exact Or.inl h
        · exact Or.inr ⟨u + w, by rw [Prod.fst_add, Pi.add_apply, hu, hw, mulVec_add]⟩
  smul_mem' := by
    rintro c a ⟨a0, a1⟩
    refine ⟨a0.imp_right ?_, a1.imp_right ?_⟩
    · rintro ⟨u, hu⟩
      exact ⟨c • u, by rw [Prod.smul_fst, Pi.smul_apply, hu, mulVec_smul]⟩
    · rintro ⟨u, hu⟩
      exact ⟨c • u, by rw [Prod.smul_fst, Pi.smul_apply, hu, mulVec_smul]⟩

theorem extend_at {m : ℕ} (v : Fin m → Col n) (k : Fin m) : extend v k = v k := by
  unfold extend
  rw [dif_pos k.2]

theorem compatible_iff {Z : Mat n} (hZ : Absorbing Z ∨ Zᵀ = Z) (v : Col n) :
    Compatible Z v ↔ Absorbing Z ∨ ∃ u, v = Z *ᵥ u := by
  constructor
  · rintro (h | ⟨-, h⟩)
    · exact Or.inl h
    · exact Or.inr h
  · rintro (h | h)
    · exact Or.inl h
    · rcases hZ with h' | h'
      · exact Or.inl h'
      · exact Or.inr ⟨h', h⟩

section

variable {s : MTL n p} {C : Mat n} {d τ : ℝ} {lr : LR n} {cg : CG n} {P : ℕ}

theorem mem_endSpace (hs : Absorbing s.zs ∨ s.zsᵀ = s.zs) (hl : Absorbing s.zl ∨ s.zlᵀ = s.zl) (w : Inside n s.m) :
    w ∈ endSpace s ↔ Compatible s.zs (extend w.1 0) ∧ Compatible s.zl (extend w.1 s.m) := by
  have e0 : extend w.1 0 = w.1 0 := extend_at w.1 0
  have e1 : extend w.1 s.m = w.1 (Fin.last s.m) := extend_at w.1 (Fin.last s.m)
  rw [compatible_iff hs, compatible_iff hl, e0, e1]
  rfl

/-- No free motion returns after a period, apart from rest. -/
theorem free_returns (hp : s.Passive) (hr : s.Regular C) (hτ : s.dt ≤ τ) (ht : s.TermFor τ)
    (hauto : maxTimestep s.m s.dun s.l s.c = .ok d) (hlt : s.dt * τ < d ^ 2) (ha : Absorbing s.zs ∨ Absorbing s.zl)
    (hlr : updateLr s.m s.dt s.dun s.l s.r s.conn = .ok lr) (hcg : updateCg s.m s.dt s.dun s.c s.g = .ok cg) (hP : 0 < P)
    {w : Inside n s.m} (hw : freeMap s lr cg P w = w) (h0 : Compatible s.zs (extend w.1 0))
    (h1 : Compatible s.zl (extend w.1 s.m)) : w = 0 := by
  obtain ⟨z, hz⟩ : ∃ z, z = s.freed (extend w.1) (extend w.2) := ⟨_, rfl⟩
  obtain ⟨x, hx⟩ : ∃ x : ℕ → Grid n, x = fun j => ((MTL.advanceFields lr cg)^[j] z).v := ⟨_, rfl⟩
  obtain ⟨y, hy⟩ : ∃ y : ℕ → Grid n, y = fun j => ((MTL.advanceFields lr cg)^[j] z).i := ⟨_, rfl⟩
  have hx0 : x 0 = extend w.1 := by rw [hx, hz]; rfl
  have hy0 : y 0 = extend w.2 := by rw [hy, hz]; rfl
  have eP : z.SameInside ((MTL.advanceFields lr cg)^[P] z) := by
    rw [hz]
    refine ⟨fun k hk => ?_, fun k hk => ?_⟩
    · have hk : k < s.m + 1 := Nat.lt_succ_of_le hk
      have := congrFun (congrArg Prod.fst hw) ⟨k, hk⟩
      exact this.trans (extend_at w.1 ⟨k, hk⟩).symm
    · have := congrFun (congrArg Prod.snd hw) ⟨k, hk⟩
      exact this.trans (extend_at w.2 ⟨k, hk⟩).symm
  have again : ∀ q, z.SameInside ((MTL.advanceFields lr cg)^[q * P] z) := by
    intro q
    induction q with
    | zero => simpa using ⟨fun _ _ => rfl, fun _ _ => rfl⟩
    | succ q ih =>
      have hcf := iterate_advanceFields_config lr cg z P
      have hmed : z.SameMedium ((MTL.advanceFields lr cg)^[P] z) := ⟨hcf.m, hcf.dun, hcf.l, hcf.c, hcf.r, hcf.g, hcf.zs, hcf.zl,
        hcf.dt, hcf.conn, hcf.left1, hcf.left2, hcf.right1, hcf.right2⟩
      have := inside_iterate lr cg hmed (by rw [hz]; exact hp.freed _ _) eP (by
        intro j
        rw [hcf.vSources, hcf.eL, hcf.eT, hz]
        exact ⟨rfl, rfl, rfl, rfl, rfl, rfl, rfl, rfl⟩) (q * P)
      have e : (q + 1) * P = q * P + P := by ring
      rw [e, Function.iterate_add_apply]
      have hm : ((MTL.advanceFields lr cg)^[q * P] z).m = z.m := (iterate_advanceFields_config lr cg z (q * P)).m
      exact ⟨fun k hk => (this.v k (by rw [hm]; exact hk)).trans (ih.v k hk),
        fun k hk => (this.i k (by rw [hm]; exact hk)).trans (ih.i k hk)⟩
  have hzm : z.m = s.m := by rw [hz]; rfl
  have die := oscillations_die (s := z) (τ := τ) (C := C) (d := d)
    (x := fun j => ((MTL.advanceFields lr cg)^[j] z).v) (y := fun j => ((MTL.advanceFields lr cg)^[j] z).i)
    (by rw [hz]; exact hp.freed _ _) (by rw [hz]; exact hr.freed _ _)
    (by rw [hz]; exact hτ) (by rw [hz]; exact hauto) (by rw [hz]; exact hlt)
    (fun j => free_orbit (by rw [hz]; exact hp.freed _ _) (by rw [hz]; exact freed_unexcited _ _ _)
      (by rw [hz]; exact ht.freed _ _) (by rw [hz]; exact hlr) (by rw [hz]; exact hcg) j) (by rw [hz]; exact ha)
    (by rw [hz]; exact h0) (by rw [hz]; exact h1)
  have small : ∀ ε > 0, (∀ k ≤ s.m, ∀ a, |extend w.1 k a| ≤ ε) ∧ ∀ k < s.m, ∀ a, |extend w.2 k a| ≤ ε := by
    intro ε hε
    obtain ⟨J, hJ⟩ := die ε hε
    obtain ⟨a, b⟩ := hJ (J * P) (Nat.le_mul_of_pos_right J hP)
    have hq := again J
    rw [hzm] at a b
    refine ⟨fun k hk x => ?_, fun k hk x => ?_⟩
    · have := a k hk x
      rw [hq.v k (by rw [hzm]; exact hk), hz] at this
      exact this
    · have := b k hk x
      rw [hq.i k (by rw [hzm]; exact hk), hz] at this
      exact this
  have zero : ∀ r : ℝ, (∀ ε > 0, |r| ≤ ε) → r = 0 := fun r h => abs_eq_zero.1 (le_antisymm (le_of_forall_pos_le_add fun ε hε => by
    simpa using h ε hε) (abs_nonneg r))
  refine Prod.ext (funext fun k => funext fun a => ?_) (funext fun k => funext fun a => ?_)
  · rw [← extend_at w.1 k]
    exact zero _ fun ε hε => (small ε hε).1 k (by omega) a
  · rw [← extend_at w.2 k]
    exact zero _ fun ε hε => (small ε hε).2 k k.2 a

/-- What the free motion returns stays among the states whose voltages no short keeps. -/
theorem freeMap_mem (hp : s.Passive) (hτ : τ ≠ 0) (ht : s.TermFor τ) (hs : Absorbing s.zs ∨ s.zsᵀ = s.zs)
    (hl : Absorbing s.zl ∨ s.zlᵀ = s.zl) {w : Inside n s.m} (hw : w ∈ endSpace s) : freeMap s lr cg P w ∈ endSpace s := by
  obtain ⟨h0, h1⟩ := (mem_endSpace hs hl w).1 hw
  obtain ⟨z, hz⟩ : ∃ z, z = s.freed (extend w.1) (extend w.2) := ⟨_, rfl⟩
  have zero : ∀ (v : Col n), (v - fun _ => (0 : ℝ)) = v := fun v => sub_zero v
  have key := ends_compatible (s := z) (lr := lr) (cg := cg) (by rw [hz]; exact hp.cells) hτ (by rw [hz]; exact ht.freed _ _)
    (by rw [hz]; simp only [MTL.freed, zero]; exact h0) (by rw [hz]; simp only [MTL.freed, zero]; exact h1) P
  refine (mem_endSpace hs hl _).2 ?_
  have e0 : extend (freeMap s lr cg P w).1 0 = ((MTL.advanceFields lr cg)^[P] z).v 0 := by
    rw [hz]; exact extend_at (freeMap s lr cg P w).1 0
  have e1 : extend (freeMap s lr cg P w).1 s.m = ((MTL.advanceFields lr cg)^[P] z).v s.m := by
    rw [hz]; exact extend_at (freeMap s lr cg P w).1 (Fin.last s.m)
  rw [e0, e1]
  rw [show z.vSources = fun _ _ _ => 0 by rw [hz]; rfl] at key
  simp only [zero] at key
  rw [show z.zs = s.zs by rw [hz]; rfl, show z.zl = s.zl by rw [hz]; rfl, show z.m = s.m by rw [hz]; rfl] at key
  exact key

/-- The change that a period leaves can be any state whose voltages no short keeps. -/
theorem free_change (hp : s.Passive) (hr : s.Regular C) (hτ : s.dt ≤ τ) (ht : s.TermFor τ)
    (hauto : maxTimestep s.m s.dun s.l s.c = .ok d) (hlt : s.dt * τ < d ^ 2) (ha : Absorbing s.zs ∨ Absorbing s.zl)
    (hlr : updateLr s.m s.dt s.dun s.l s.r s.conn = .ok lr) (hcg : updateCg s.m s.dt s.dun s.c s.g = .ok cg) (hP : 0 < P)
    (hs : Absorbing s.zs ∨ s.zsᵀ = s.zs) (hl : Absorbing s.zl ∨ s.zlᵀ = s.zl) {b : Inside n s.m} (hb : b ∈ endSpace s) :
    ∃ w ∈ endSpace s, w - freeMap s lr cg P w = b := by
  have hτ0 : τ ≠ 0 := (lt_of_lt_of_le hp.dt_pos hτ).ne'
  obtain ⟨A, hA⟩ : ∃ A : endSpace s →ₗ[ℝ] endSpace s,
      A = LinearMap.id - (freeMap s lr cg P).restrict fun w hw => freeMap_mem hp hτ0 ht hs hl hw := ⟨_, rfl⟩
  have inj : Function.Injective A := by
    rw [injective_iff_map_eq_zero]
    rintro ⟨w, hw⟩ h
    rw [hA] at h
    have h' : w - freeMap s lr cg P w = 0 := congrArg Subtype.val h
    obtain ⟨h0, h1⟩ := (mem_endSpace hs hl w).1 hw
    exact Subtype.ext (free_returns hp hr hτ ht hauto hlt ha hlr hcg hP (sub_eq_zero.1 h').symm h0 h1)
  obtain ⟨⟨w, hw⟩, h⟩ := LinearMap.injective_iff_surjective.1 inj ⟨b, hb⟩
  rw [hA] at h
  exact ⟨w, hw, congrArg Subtype.val h⟩

end

end Mtln
