import Verif.Lemmas.Periodic
import Mathlib.Analysis.SpecialFunctions.Trigonometric.Basic

/-! # The steady state of periodic sources: C170 -/

namespace Mtln

open Matrix

variable {n p : ℕ}

section

variable {s t : MTL n p} {C : Mat n} {d τ : ℝ} {lr : LR n} {cg : CG n} {P : ℕ}

/-- Lines with the same data, sources, fields and clock forget their initial states. -/
theorem forget_fields (hp : s.Passive) (hr : s.Regular C) (hτ : s.dt ≤ τ) (ht : s.TermFor τ)
    (hauto : maxTimestep s.m s.dun s.l s.c = .ok d) (hlt : s.dt * τ < d ^ 2) (ha : Absorbing s.zs ∨ Absorbing s.zl)
    (hlr : updateLr s.m s.dt s.dun s.l s.r s.conn = .ok lr) (hcg : updateCg s.m s.dt s.dun s.c s.g = .ok cg)
    (hst : s.SameMedium t) (htime : t.time = s.time) (hS : t.vSources = s.vSources) (hL : t.eL = s.eL) (hT : t.eT = s.eT)
    (h0 : Compatible s.zs (s.v 0 - t.v 0)) (h1 : Compatible s.zl (s.v s.m - t.v s.m)) :
    ∀ ε > 0, ∃ J, ∀ j ≥ J, (∀ k ≤ s.m, ∀ a, |((MTL.advanceFields lr cg)^[j] s).v k a - ((MTL.advanceFields lr cg)^[j] t).v k a| ≤ ε) ∧
      ∀ k < s.m, ∀ a, |((MTL.advanceFields lr cg)^[j] s).i k a - ((MTL.advanceFields lr cg)^[j] t).i k a| ≤ ε := by
  obtain ⟨z, hz⟩ : ∃ z : MTL n p, z = { s with
      v := fun k => s.v k - t.v k
      i := fun k => s.i k - t.i k
      phi := fun k x σ => s.phi k x σ - t.phi k x σ
      vSources := fun _ _ _ => 0
      eL := fun _ _ _ => 0
      eT := fun _ _ _ => 0 } := ⟨_, rfl⟩
  have hsz : s.SameMedium z := by rw [hz]; exact ⟨rfl, rfl, rfl, rfl, rfl, rfl, rfl, rfl, rfl, rfl, rfl, rfl, rfl, rfl⟩
  have comb : ∀ j, StateComb 1 (-1) ((MTL.advanceFields lr cg)^[j] s) ((MTL.advanceFields lr cg)^[j] t)
      ((MTL.advanceFields lr cg)^[j] z) := by
    intro j
    refine iterate_comb lr cg j hst hsz htime (by rw [hz]) ⟨?_, ?_, ?_⟩ ⟨?_, ?_, ?_⟩
    · intro k x u; rw [hz, hS]; simp
    · intro k x u; rw [hz, hL]; simp
    · intro k x u; rw [hz, hT]; simp
    · intro k x; rw [hz]; simp [sub_eq_add_neg]
    · intro k x; rw [hz]; simp [sub_eq_add_neg]
    · intro k x σ; rw [hz]; simp [sub_eq_add_neg]
  have hpz : z.Passive := by
    rw [hz]; exact ⟨hp.cells, hp.dt_pos, hp.dun, hp.l, hp.c, hp.r, hp.g, hp.zs, hp.zl, hp.q1, hp.q2, hp.q3⟩
  have hxz : z.Unexcited := by rw [hz]; exact ⟨fun _ _ _ => rfl, fun _ _ _ => rfl, fun _ _ _ => rfl⟩
  have hrz : z.Regular C := by rw [hz]; exact ⟨hr.c, hr.c_spd, hr.l_spd, hr.e, hr.dun⟩
  have htz : z.TermFor τ := by rw [hz]; exact ⟨ht.det_left, ht.det_right, ht.left1, ht.left2, ht.right1, ht.right2⟩
  have die := oscillations_die (s := z) (τ := τ) (C := C) (d := d)
    (x := fun j => ((MTL.advanceFields lr cg)^[j] z).v) (y := fun j => ((MTL.advanceFields lr cg)^[j] z).i) hpz hrz
    (by rw [hz]; exact hτ) (by rw [hz]; exact hauto) (by rw [hz]; exact hlt)
    (fun j => free_orbit hpz hxz htz (by rw [hz]; exact hlr) (by rw [hz]; exact hcg) j) (by rw [hz]; exact ha)
    (by rw [hz]; exact h0) (by rw [hz]; exact h1)
  intro ε hε
  obtain ⟨J, hJ⟩ := die ε hε
  refine ⟨J, fun j hj => ?_⟩
  obtain ⟨a, b⟩ := hJ j hj
  rw [hsz.m] at a b
  refine ⟨fun k hk x => ?_, fun k hk x => ?_⟩
  · have := a k hk x
    simp only [(comb j).v k x, one_mul, neg_mul, ← sub_eq_add_neg] at this
    exact this
  · have := b k hk x
    simp only [(comb j).i k x, one_mul, neg_mul, ← sub_eq_add_neg] at this
    exact this

theorem Compatible.diff {Z : Mat n} {a b c : Col n} (ha : Compatible Z (a - c)) (hb : Compatible Z (b - c)) : Compatible Z (a - b) := by
  rcases ha with h | ⟨hs, u, hu⟩
  · exact Or.inl h
  · rcases hb with h | ⟨-, w, hw⟩
    · exact Or.inl h
    · exact Or.inr ⟨hs, u - w, by rw [mulVec_sub, ← hu, ← hw]; abel⟩

theorem Compatible.sym {Z : Mat n} {a : Col n} (h : Compatible Z a) : Absorbing Z ∨ Zᵀ = Z := h.imp_right And.left

/-- Some state returns after a period. -/
theorem some_returns (hp : s.Passive) (hr : s.Regular C) (hτ : s.dt ≤ τ) (ht : s.TermFor τ)
    (hauto : maxTimestep s.m s.dun s.l s.c = .ok d) (hlt : s.dt * τ < d ^ 2) (ha : Absorbing s.zs ∨ Absorbing s.zl)
    (hlr : updateLr s.m s.dt s.dun s.l s.r s.conn = .ok lr) (hcg : updateCg s.m s.dt s.dun s.c s.g = .ok cg) (hP : 0 < P)
    (hper : s.PeriodicFrom (s.time - s.dt) (P * s.dt))
    (h0 : Compatible s.zs (s.v 0 - fun x => s.vSources 0 x (s.time - s.dt)))
    (h1 : Compatible s.zl (s.v s.m - fun x => s.vSources s.m x (s.time - s.dt))) :
    ∃ u : MTL n p, (∃ v i, u = { s with v := v, i := i }) ∧ u.SameInside ((MTL.advanceFields lr cg)^[P] u) ∧
      Compatible s.zs (u.v 0 - fun x => s.vSources 0 x (s.time - s.dt)) ∧
      Compatible s.zl (u.v s.m - fun x => s.vSources s.m x (s.time - s.dt)) := by
  have hτ0 : τ ≠ 0 := (lt_of_lt_of_le hp.dt_pos hτ).ne'
  obtain ⟨y, hy⟩ : ∃ y, y = (MTL.advanceFields lr cg)^[P] s := ⟨_, rfl⟩
  obtain ⟨b, hb⟩ : ∃ b : Inside n s.m, b = (fun k => y.v k.1 - s.v k.1, fun k => y.i k.1 - s.i k.1) := ⟨_, rfl⟩
  obtain ⟨c0, c1⟩ := ends_compatible (lr := lr) (cg := cg) hp.cells hτ0 ht h0 h1 P
  have e : s.time + P * s.dt - s.dt = s.time - s.dt + P * s.dt := by ring
  rw [e, ← hy] at c0 c1
  simp only [hper.first _ _ le_rfl] at c0
  simp only [hper.last _ _ le_rfl] at c1
  have hbm : b ∈ endSpace s := by
    refine (mem_endSpace h0.sym h1.sym b).2 ⟨?_, ?_⟩
    · have : extend b.1 0 = y.v 0 - s.v 0 := by rw [hb]; exact extend_at _ 0
      rw [this]
      exact c0.diff h0
    · have : extend b.1 s.m = y.v s.m - s.v s.m := by rw [hb]; exact extend_at _ (Fin.last s.m)
      rw [this]
      exact c1.diff h1
  obtain ⟨w, hw, hwb⟩ := free_change hp hr hτ ht hauto hlt ha hlr hcg hP h0.sym h1.sym hbm
  obtain ⟨w0, w1⟩ := (mem_endSpace h0.sym h1.sym w).1 hw
  obtain ⟨u, hu⟩ : ∃ u : MTL n p, u = { s with v := s.v + extend w.1, i := s.i + extend w.2 } := ⟨_, rfl⟩
  have comb : StateComb 1 1 ((MTL.advanceFields lr cg)^[P] s) ((MTL.advanceFields lr cg)^[P] (s.freed (extend w.1) (extend w.2)))
      ((MTL.advanceFields lr cg)^[P] u) := by
    refine iterate_comb lr cg P (freed_medium _ _ _) (by rw [hu]; exact ⟨rfl, rfl, rfl, rfl, rfl, rfl, rfl, rfl, rfl, rfl, rfl, rfl,
      rfl, rfl⟩) rfl (by rw [hu]) ⟨?_, ?_, ?_⟩ ⟨?_, ?_, ?_⟩
    · intro k a u; simp [hu, MTL.freed]
    · intro k a u; simp [hu, MTL.freed]
    · intro k a u; simp [hu, MTL.freed]
    · intro k a; simp [hu, MTL.freed]
    · intro k a; simp [hu, MTL.freed]
    · intro k a u; simp [hu, MTL.freed]
  have back : ∀ Z : Mat n, ∀ a x c : Col n, Compatible Z (a - c) → Compatible Z x → Compatible Z (a + x - c) := by
    rintro Z a x c (h | ⟨hs, q, hq⟩) h'
    · exact Or.inl h
    · rcases h' with h | ⟨-, r, hr⟩
      · exact Or.inl h
      · exact Or.inr ⟨hs, q + r, by rw [mulVec_add, ← hq, ← hr]; abel⟩
  refine ⟨u, ⟨_, _, hu⟩, ⟨fun k hk => ?_, fun k hk => ?_⟩, ?_, ?_⟩
  · have hk : k < s.m + 1 := by rw [hu] at hk; exact Nat.lt_succ_of_le hk
    funext a
    have h := comb.v k a
    have h2 := congrFun (congrFun (congrArg Prod.fst hwb) ⟨k, hk⟩) a
    rw [hb] at h2
    have h3 : extend w.1 k a = w.1 ⟨k, hk⟩ a := congrFun (extend_at w.1 ⟨k, hk⟩) a
    have h4 : (freeMap s lr cg P w).1 ⟨k, hk⟩ a =
      ((MTL.advanceFields lr cg)^[P] (s.freed (extend w.1) (extend w.2))).v k a := rfl
    simp only [Prod.fst_sub, Pi.sub_apply] at h2
    rw [h, ← hy]
    show _ = u.v k a
    rw [hu]
    show _ = s.v k a + extend w.1 k a
    rw [h3]
    rw [h4] at h2
    linarith
  · have hk : k < s.m := by rw [hu] at hk; exact hk
    funext a
    have h := comb.i k a
    have h2 := congrFun (congrFun (congrArg Prod.snd hwb) ⟨k, hk⟩) a
    rw [hb] at h2
    have h3 : extend w.2 k a = w.2 ⟨k, hk⟩ a := congrFun (extend_at w.2 ⟨k, hk⟩) a
    have h4 : (freeMap s lr cg P w).2 ⟨k, hk⟩ a =
      ((MTL.advanceFields lr cg)^[P] (s.freed (extend w.1) (extend w.2))).i k a := rfl
    simp only [Prod.snd_sub, Pi.sub_apply] at h2
    rw [h, ← hy]
    show _ = u.i k a
    rw [hu]
    show _ = s.i k a + extend w.2 k a
    rw [h3]
    rw [h4] at h2
    linarith
  · rw [hu]; exact back _ _ _ _ h0 w0
  · rw [hu]; exact back _ _ _ _ h1 w1

theorem MTL.SameInside.trans {a b c : MTL n p} (hm : b.m = a.m) (h : a.SameInside b) (h' : b.SameInside c) : a.SameInside c :=
  ⟨fun k hk => (h'.v k (by rw [hm]; exact hk)).trans (h.v k hk), fun k hk => (h'.i k (by rw [hm]; exact hk)).trans (h.i k hk)⟩

/-- If a state returns after a period, so do all later ones. -/
theorem returns_always {u : MTL n p} (hp : u.Passive) (hper : u.PeriodicFrom (u.time - u.dt) (P * u.dt))
    (h : u.SameInside ((MTL.advanceFields lr cg)^[P] u)) (j : ℕ) :
    ((MTL.advanceFields lr cg)^[j % P] u).SameInside ((MTL.advanceFields lr cg)^[j] u) := by
  have hcf := iterate_advanceFields_config lr cg u P
  have hmed : u.SameMedium ((MTL.advanceFields lr cg)^[P] u) := ⟨hcf.m, hcf.dun, hcf.l, hcf.c, hcf.r, hcf.g, hcf.zs, hcf.zl,
    hcf.dt, hcf.conn, hcf.left1, hcf.left2, hcf.right1, hcf.right2⟩
  have one : ∀ j, ((MTL.advanceFields lr cg)^[j] u).SameInside ((MTL.advanceFields lr cg)^[j + P] u) := by
    intro j
    rw [Function.iterate_add_apply]
    refine inside_iterate lr cg hmed hp h (fun j => ?_) j
    rw [hcf.vSources, hcf.eL, hcf.eT, hcf.dt, iterate_advanceFields_time]
    have e : u.time + P * u.dt + j * u.dt = u.time + j * u.dt + P * u.dt := by ring
    rw [e]
    refine periodic_samples hper hp.dt_pos ?_
    have : (0 : ℝ) ≤ j * u.dt := mul_nonneg (Nat.cast_nonneg j) hp.dt_pos.le
    linarith
  have many : ∀ q r, ((MTL.advanceFields lr cg)^[r] u).SameInside ((MTL.advanceFields lr cg)^[r + P * q] u) := by
    intro q r
    induction q with
    | zero => exact ⟨fun _ _ => rfl, fun _ _ => rfl⟩
    | succ q ih =>
      have e : r + P * (q + 1) = r + P * q + P := by ring
      rw [e]
      refine MTL.SameInside.trans ?_ ih (one _)
      rw [(iterate_advanceFields_config lr cg u _).m, (iterate_advanceFields_config lr cg u _).m]
  have := many (j / P) (j % P)
  rwa [Nat.mod_add_div] at this

/-- `V` and `I` are the voltages and currents at all steps of a steady state of period `P`: they repeat, and from the step `q` on
the code follows them. -/
structure MTL.Steady (s : MTL n p) (P q : ℕ) (V I : ℕ → Grid n) : Prop where
  repV : ∀ j, V (j + P) = V j
  repI : ∀ j, I (j + P) = I j
  follows : ∀ (T : ℝ) (s' : MTL n p) (N : ℕ) (tr : ℕ → MTL n p),
    RunTrace { s with v := V q, i := I q, time := s.time + q * s.dt } T s' N tr → ∀ j ≤ N,
      (∀ k ≤ s.m, (tr j).v k = V (q + j) k) ∧ ∀ k < s.m, (tr j).i k = I (q + j) k

/-- The runs of `t` approach `V` and `I`. -/
def MTL.Approaches (t : MTL n p) (V I : ℕ → Grid n) : Prop :=
  ∀ ε > 0, ∃ J, ∀ (T : ℝ) (t' : MTL n p) (N : ℕ) (tr : ℕ → MTL n p), RunTrace t T t' N tr → ∀ j ≥ J, j ≤ N →
    (∀ k ≤ t.m, ∀ a, |(tr j).v k a - V j k a| ≤ ε) ∧ ∀ k < t.m, ∀ a, |(tr j).i k a - I j k a| ≤ ε

/-- **C170** With sources and fields that repeat after `P` time steps, from some time on, a line with an end that absorbs power
has a steady state of that period, and the runs from every initial state whose voltages at the ends no short keeps approach it. -/
theorem C170_periodic {t₀ : ℝ} (hp : s.Passive) (hr : s.Regular C) (hτ : s.dt ≤ τ) (ht : s.TermFor τ)
    (hauto : maxTimestep s.m s.dun s.l s.c = .ok d) (hlt : s.dt * τ < d ^ 2) (ha : Absorbing s.zs ∨ Absorbing s.zl)
    (hs : Absorbing s.zs ∨ s.zsᵀ = s.zs) (hl : Absorbing s.zl ∨ s.zlᵀ = s.zl) (hP : 0 < P)
    (hper : s.PeriodicFrom t₀ (P * s.dt)) :
    ∃ (q : ℕ) (V I : ℕ → Grid n), t₀ ≤ s.time + q * s.dt - s.dt ∧ s.Steady P q V I ∧ ∀ v i phi,
      Compatible s.zs (v 0 - fun x => s.vSources 0 x (s.time - s.dt)) →
      Compatible s.zl (v s.m - fun x => s.vSources s.m x (s.time - s.dt)) →
      ({ s with v := v, i := i, phi := phi } : MTL n p).Approaches V I := by
  have hdt := hp.dt_pos
  have hτ0 : τ ≠ 0 := (lt_of_lt_of_le hdt hτ).ne'
  obtain ⟨q, hq⟩ := exists_nat_ge ((t₀ - s.time + s.dt) / s.dt)
  rw [div_le_iff₀ hdt] at hq
  have hq' : t₀ ≤ s.time + q * s.dt - s.dt := by linarith
  by_cases hok : (∃ lr, updateLr s.m s.dt s.dun s.l s.r s.conn = .ok lr) ∧ ∃ cg, updateCg s.m s.dt s.dun s.c s.g = .ok cg
  swap
  · refine ⟨q, fun _ => 0, fun _ => 0, hq', ⟨fun _ => rfl, fun _ => rfl, fun T s' N tr R => ?_⟩, fun v i phi _ _ ε _ =>
      ⟨0, fun T s' N tr R => ?_⟩⟩
    · obtain ⟨lr, cg, hlr, hcg, -⟩ := R.closed
      exact absurd ⟨⟨lr, hlr⟩, cg, hcg⟩ hok
    · obtain ⟨lr, cg, hlr, hcg, -⟩ := R.closed
      exact absurd ⟨⟨lr, hlr⟩, cg, hcg⟩ hok
  obtain ⟨⟨lr, hlr⟩, cg, hcg⟩ := hok
  -- the line at the step `q`, with the voltages of the sources at its ends
  obtain ⟨b, hb⟩ : ∃ b : MTL n p, b = { s with
      time := s.time + q * s.dt
      v := fun k x => s.vSources k x (s.time + q * s.dt - s.dt) } := ⟨_, rfl⟩
  have hbp : b.Passive := by
    rw [hb]; exact ⟨hp.cells, hp.dt_pos, hp.dun, hp.l, hp.c, hp.r, hp.g, hp.zs, hp.zl, hp.q1, hp.q2, hp.q3⟩
  have hbr : b.Regular C := by rw [hb]; exact ⟨hr.c, hr.c_spd, hr.l_spd, hr.e, hr.dun⟩
  have hbt : b.TermFor τ := by rw [hb]; exact ⟨ht.det_left, ht.det_right, ht.left1, ht.left2, ht.right1, ht.right2⟩
  have zeroC : ∀ Z : Mat n, (Absorbing Z ∨ Zᵀ = Z) → Compatible Z 0 := fun Z h =>
    h.imp_right fun h => ⟨h, 0, by rw [mulVec_zero]⟩
  obtain ⟨u, ⟨v₁, i₁, hu⟩, hret, c0, c1⟩ := some_returns (s := b) (P := P) hbp hbr (by rw [hb]; exact hτ) hbt
    (by rw [hb]; exact hauto) (by rw [hb]; exact hlt) (by rw [hb]; exact ha) (lr := lr) (cg := cg) (by rw [hb]; exact hlr)
    (by rw [hb]; exact hcg) hP (by
      rw [hb]
      exact ⟨fun x w hw => hper.first x w (hq'.trans hw), fun x w hw => hper.last x w (hq'.trans hw),
        fun k x w hw => hper.eL k x w (hq'.trans hw), fun k x w hw => hper.eT k x w (hq'.trans hw)⟩)
    (by rw [hb]; simpa using zeroC _ hs) (by rw [hb]; simpa using zeroC _ hl)
  have hum : u.m = s.m := by rw [hu, hb]
  have hut : u.time = s.time + q * s.dt := by rw [hu, hb]
  have hup : u.Passive := by
    rw [hu, hb]; exact ⟨hp.cells, hp.dt_pos, hp.dun, hp.l, hp.c, hp.r, hp.g, hp.zs, hp.zl, hp.q1, hp.q2, hp.q3⟩
  have hper' : u.PeriodicFrom (u.time - u.dt) (P * u.dt) := by
    rw [hu, hb]
    exact ⟨fun x w hw => hper.first x w (hq'.trans hw), fun x w hw => hper.last x w (hq'.trans hw),
      fun k x w hw => hper.eL k x w (hq'.trans hw), fun k x w hw => hper.eT k x w (hq'.trans hw)⟩
  have always := returns_always (lr := lr) (cg := cg) hup hper' hret
  obtain ⟨P', rfl⟩ := Nat.exists_eq_succ_of_ne_zero hP.ne'
  have idx : ∀ j, (q + j + P' * q) % (P' + 1) = j % (P' + 1) := by
    intro j
    have : q + j + P' * q = j + (P' + 1) * q := by ring
    rw [this, Nat.add_mul_mod_self_left]
  obtain ⟨V, hV⟩ : ∃ V : ℕ → Grid n, V = fun j => ((MTL.advanceFields lr cg)^[(j + P' * q) % (P' + 1)] u).v := ⟨_, rfl⟩
  obtain ⟨I, hI⟩ : ∃ I : ℕ → Grid n, I = fun j => ((MTL.advanceFields lr cg)^[(j + P' * q) % (P' + 1)] u).i := ⟨_, rfl⟩
  have hVq : ∀ j, ∀ k ≤ s.m, ((MTL.advanceFields lr cg)^[j] u).v k = V (q + j) k := by
    intro j k hk
    simp only [hV]
    rw [idx]
    exact (always j).v k (by rw [(iterate_advanceFields_config lr cg u _).m, hum]; exact hk)
  have hIq : ∀ j, ∀ k < s.m, ((MTL.advanceFields lr cg)^[j] u).i k = I (q + j) k := by
    intro j k hk
    simp only [hI]
    rw [idx]
    exact (always j).i k (by rw [(iterate_advanceFields_config lr cg u _).m, hum]; exact hk)
  refine ⟨q, V, I, hq', ⟨fun j => ?_, fun j => ?_, fun T s' N tr R j hj => ?_⟩, fun v i phi d0 d1 ε hε => ?_⟩
  · simp only [hV]
    rw [show j + (P' + 1) + P' * q = j + P' * q + (P' + 1) by ring, Nat.add_mod_right]
  · simp only [hI]
    rw [show j + (P' + 1) + P' * q = j + P' * q + (P' + 1) by ring, Nat.add_mod_right]
  · have e := R.fields hlr hcg j hj
    have same := inside_iterate (s := u) (t := { s with v := V q, i := I q, time := s.time + q * s.dt }) lr cg
      (by rw [hu, hb]; exact ⟨rfl, rfl, rfl, rfl, rfl, rfl, rfl, rfl, rfl, rfl, rfl, rfl, rfl, rfl⟩) hup
      ⟨fun k hk => (hVq 0 k (by rw [← hum]; exact hk)).symm, fun k hk => (hIq 0 k (by rw [← hum]; exact hk)).symm⟩
      (fun j => by rw [hu, hb]; exact SameSamples.refl _) j
    have hmj := (iterate_advanceFields_config lr cg u j).m
    refine ⟨fun k hk => ?_, fun k hk => ?_⟩
    · rw [← hVq j k hk, e]
      exact same.v k (by rw [hmj, hum]; exact hk)
    · rw [← hIq j k hk, e]
      exact same.i k (by rw [hmj, hum]; exact hk)
  · obtain ⟨z, hz⟩ : ∃ z : MTL n p, z = { s with v := v, i := i, phi := phi } := ⟨_, rfl⟩
    have hzc := iterate_advanceFields_config lr cg z q
    have hzp : z.Passive := by
      rw [hz]; exact ⟨hp.cells, hp.dt_pos, hp.dun, hp.l, hp.c, hp.r, hp.g, hp.zs, hp.zl, hp.q1, hp.q2, hp.q3⟩
    have hzr : z.Regular C := by rw [hz]; exact ⟨hr.c, hr.c_spd, hr.l_spd, hr.e, hr.dun⟩
    have hzt : z.TermFor τ := by rw [hz]; exact ⟨ht.det_left, ht.det_right, ht.left1, ht.left2, ht.right1, ht.right2⟩
    obtain ⟨g0, g1⟩ := ends_compatible (s := z) (lr := lr) (cg := cg) hzp.cells hτ0 hzt (by rw [hz]; exact d0) (by rw [hz]; exact d1) q
    obtain ⟨y, hy⟩ : ∃ y, y = (MTL.advanceFields lr cg)^[q] z := ⟨_, rfl⟩
    rw [← hy] at hzc g0 g1
    have hyt : y.time = z.time + q * z.dt := by rw [hy, iterate_advanceFields_time]
    have hyr : y.Regular C := ⟨by rw [hzc.m, hzc.c]; exact hzr.c, hzr.c_spd, by rw [hzc.m, hzc.l]; exact hzr.l_spd,
      by rw [hzc.m, hzc.conn]; exact hzr.e, by rw [hzc.m, hzc.dun]; exact hzr.dun⟩
    have close := forget_fields (s := y) (t := u) (C := C) (d := d) (τ := τ) (lr := lr) (cg := cg) (hzp.congr hzc) hyr
      (by rw [hzc.dt, hz]; exact hτ) (hzt.congr hzc) (by rw [hzc.m, hzc.dun, hzc.l, hzc.c, hz]; exact hauto)
      (by rw [hzc.dt, hz]; exact hlt) (by rw [hzc.zs, hzc.zl, hz]; exact ha)
      (by rw [hzc.m, hzc.dt, hzc.dun, hzc.l, hzc.r, hzc.conn, hz]; exact hlr)
      (by rw [hzc.m, hzc.dt, hzc.dun, hzc.c, hzc.g, hz]; exact hcg)
      (by
        constructor
        · rw [hzc.m, hu, hb, hz]
        · rw [hzc.dun, hu, hb, hz]
        · rw [hzc.l, hu, hb, hz]
        · rw [hzc.c, hu, hb, hz]
        · rw [hzc.r, hu, hb, hz]
        · rw [hzc.g, hu, hb, hz]
        · rw [hzc.zs, hu, hb, hz]
        · rw [hzc.zl, hu, hb, hz]
        · rw [hzc.dt, hu, hb, hz]
        · rw [hzc.conn, hu, hb, hz]
        · rw [hzc.left1, hu, hb, hz]
        · rw [hzc.left2, hu, hb, hz]
        · rw [hzc.right1, hu, hb, hz]
        · rw [hzc.right2, hu, hb, hz])
      (by rw [hyt, hu, hb, hz]) (by rw [hzc.vSources, hu, hb, hz]) (by rw [hzc.eL, hu, hb, hz]) (by rw [hzc.eT, hu, hb, hz])
      (by
        rw [hzc.zs]
        refine g0.diff ?_
        rw [hb] at c0
        rw [hz]
        exact c0)
      (by
        rw [hzc.zl, hzc.m]
        refine g1.diff ?_
        rw [hb] at c1
        rw [hz]
        exact c1)
      ε hε
    obtain ⟨J, hJ⟩ := close
    refine ⟨q + J, fun T t' N tr R j hj hN => ?_⟩
    obtain ⟨r, rfl⟩ := Nat.exists_eq_add_of_le hj
    rw [← hz] at R
    obtain ⟨a1, a2⟩ := hJ (J + r) (by omega)
    have e := R.fields (lr := lr) (cg := cg) (by rw [hz]; exact hlr) (by rw [hz]; exact hcg) _ hN
    have e2 : (MTL.advanceFields lr cg)^[J + r] y = (MTL.advanceFields lr cg)^[q + J + r] z := by
      rw [hy, ← Function.iterate_add_apply]
      congr 1
      omega
    have hym : y.m = s.m := by rw [hzc.m, hz]
    rw [e2, hym] at a1 a2
    rw [e]
    refine ⟨fun k hk x => ?_, fun k hk x => ?_⟩
    · have := a1 k hk x
      rw [hVq (J + r) k hk, ← add_assoc] at this
      exact this
    · have := a2 k hk x
      rw [hIq (J + r) k hk, ← add_assoc] at this
      exact this

/-- **C170** There is only one steady state: what the runs of a line approach, with whatever period, is the same. -/
theorem C170_unique {P' : ℕ} {V I V' I' : ℕ → Grid n} (hdt : 0 < s.dt) (hP : 0 < P) (hP' : 0 < P')
    (hrun : ∀ T, ∃ s', s.runUntil T = .ok s') (hV : ∀ j, V (j + P) = V j) (hI : ∀ j, I (j + P) = I j)
    (hV' : ∀ j, V' (j + P') = V' j) (hI' : ∀ j, I' (j + P') = I' j) (h : s.Approaches V I) (h' : s.Approaches V' I') (j : ℕ) :
    (∀ k ≤ s.m, V j k = V' j k) ∧ ∀ k < s.m, I j k = I' j k := by
  have rep : ∀ (X : ℕ → Grid n) (Q : ℕ), (∀ j, X (j + Q) = X j) → ∀ r, X (j + r * Q) = X j := by
    intro X Q hX r
    induction r with
    | zero => simp
    | succ r ih => rw [show j + (r + 1) * Q = j + r * Q + Q by ring, hX, ih]
  have close : ∀ ε > 0, (∀ k ≤ s.m, ∀ a, |V j k a - V' j k a| ≤ ε) ∧ ∀ k < s.m, ∀ a, |I j k a - I' j k a| ≤ ε := by
    intro ε hε
    obtain ⟨J, hJ⟩ := h (ε / 2) (by linarith)
    obtain ⟨J', hJ'⟩ := h' (ε / 2) (by linarith)
    obtain ⟨r, hr⟩ : ∃ r, r = J + J' := ⟨_, rfl⟩
    obtain ⟨M, hM⟩ : ∃ M, M = j + r * (P * P') := ⟨_, rfl⟩
    have big : r ≤ M := by
      rw [hM]
      have : r * 1 ≤ r * (P * P') := Nat.mul_le_mul_left r (Nat.mul_pos hP hP')
      omega
    obtain ⟨s', hs'⟩ := hrun (M * s.dt)
    obtain ⟨-, N, tr, R⟩ := (runUntil_ok_iff _ _ _).1 hs'
    have hN : N = M := by
      rw [R.len, mul_div_cancel_right₀ _ hdt.ne']
      simp
    have e1 : V M = V j := by rw [hM, show j + r * (P * P') = j + (r * P') * P by ring, rep V P hV]
    have e2 : I M = I j := by rw [hM, show j + r * (P * P') = j + (r * P') * P by ring, rep I P hI]
    have e3 : V' M = V' j := by rw [hM, show j + r * (P * P') = j + (r * P) * P' by ring, rep V' P' hV']
    have e4 : I' M = I' j := by rw [hM, show j + r * (P * P') = j + (r * P) * P' by ring, rep I' P' hI']
    obtain ⟨a1, a2⟩ := hJ _ _ _ _ R M (by omega) (by omega)
    obtain ⟨b1, b2⟩ := hJ' _ _ _ _ R M (by omega) (by omega)
    rw [e1] at a1
    rw [e2] at a2
    rw [e3] at b1
    rw [e4] at b2
    refine ⟨fun k hk a => ?_, fun k hk a => ?_⟩
    · have x1 := abs_le.1 (a1 k hk a)
      have x2 := abs_le.1 (b1 k hk a)
      exact abs_le.2 ⟨by linarith, by linarith⟩
    · have x1 := abs_le.1 (a2 k hk a)
      have x2 := abs_le.1 (b2 k hk a)
      exact abs_le.2 ⟨by linarith, by linarith⟩
  have zero : ∀ r r' : ℝ, (∀ ε > 0, |r - r'| ≤ ε) → r = r' := fun r r' h => sub_eq_zero.1 (abs_eq_zero.1 (le_antisymm
    (le_of_forall_pos_le_add fun ε hε => by simpa using h ε hε) (abs_nonneg _)))
  exact ⟨fun k hk => funext fun a => zero _ _ fun ε hε => (close ε hε).1 k hk a,
    fun k hk => funext fun a => zero _ _ fun ε hε => (close ε hε).2 k hk a⟩

end

/-! ## From the constructor -/

/-- **C170** for programs: a line from the constructor with resistances at one end, a time step below the automatic one, and
sources that begin after the start and repeat after a whole number of time steps from some time on.  Its run approaches a
steady state of that period. -/
theorem C170_program {l c r g : Arg} {length : ℝ} {positions : List V3} {ndiv : List ℕ} {Zs Zl : ZArg} {name : String} {s : MTL n p}
    (h : MTL.new p l c r g length positions ndiv Zs Zl name = .ok ⟨n, s⟩) (hl : SPD (l.matrix n)) (hc : SPD (c.matrix n))
    (hr : Dissipative (r.matrix n)) (hg : Dissipative (g.matrix n)) (hzs : ∀ i < n, 0 ≤ Zs.value i)
    (hzl : ∀ i < n, 0 ≤ Zl.value i) (hz : (∀ i < n, 0 < Zs.value i) ∨ ∀ i < n, 0 < Zl.value i)
    (hdu : ∀ k < s.m, s.du k ≠ 0) {dt t : ℝ} (hdt : 0 < dt) (hlt : dt < s.dt) {S : Src n} {P : ℕ} (hP : 0 < P)
    (hS : ∀ k x, ∀ u < 0, S k x u = 0) (hS0 : ∀ x, ∀ u ≥ t, S 0 x (u + P * dt) = S 0 x u)
    (hS1 : ∀ x, ∀ u ≥ t, S s.m x (u + P * dt) = S s.m x u) :
    ∃ q V I, ({ s with dt := dt, vSources := S } : MTL n p).Steady P q V I ∧
      ({ s with dt := dt, vSources := S } : MTL n p).Approaches V I := by
  obtain ⟨-, -, -, -, -, -, -, -, ezs, ezl, -⟩ := new_ok_contents h
  obtain ⟨hp, hR, ht, hauto⟩ := constructed_physical h hl hc hr hg hzs hzl hdu
  obtain ⟨hv, htime, heL, heT⟩ : (∀ k, s.v k = 0) ∧ s.time = 0 ∧ (∀ k x u, s.eL k x u = 0) ∧ ∀ k x u, s.eT k x u = 0 := by
    obtain ⟨la, ca, ga, ra, zsa, zla, mem, d, -, -, -, -, -, -, -, h8⟩ := new_ok_iff.1 h
    obtain ⟨-, -, -, rfl⟩ := computeTerminalTerms_ok_iff.1 h8
    exact ⟨fun _ => rfl, rfl, fun _ _ _ => rfl, fun _ _ _ => rfl⟩
  have ha : Absorbing s.zs ∨ Absorbing s.zl := by
    rw [ezs, ezl]
    exact hz.imp absorbing_diagonal absorbing_diagonal
  have zero : ∀ k, (s.v k - fun x => S k x (s.time - dt)) = 0 := by
    intro k
    funext x
    rw [Pi.sub_apply, hv, htime, hS k x _ (by linarith)]
    simp
  obtain ⟨q, V, I, -, hst, happ⟩ := C170_periodic (s := { s with dt := dt, vSources := S }) (C := c.matrix n) (d := s.dt) (τ := s.dt)
    (t₀ := t) (P := P) ⟨hp.cells, hdt, hp.dun, hp.l, hp.c, hp.r, hp.g, hp.zs, hp.zl, hp.q1, hp.q2, hp.q3⟩
    ⟨hR.c, hR.c_spd, hR.l_spd, hR.e, hR.dun⟩ hlt.le
    ⟨ht.det_left, ht.det_right, ht.left1, ht.left2, ht.right1, ht.right2⟩ hauto (by show dt * s.dt < s.dt ^ 2; nlinarith) ha
    (by show Absorbing s.zs ∨ _; rw [ezs]; exact Or.inr (diagonal_transpose _))
    (by show Absorbing s.zl ∨ _; rw [ezl]; exact Or.inr (diagonal_transpose _)) hP
    ⟨hS0, hS1, fun k x u _ => by simp only [heL], fun k x u _ => by simp only [heT]⟩
  refine ⟨q, V, I, hst, happ s.v s.i s.phi ?_ ?_⟩
  · show Compatible s.zs (s.v 0 - fun x => S 0 x (s.time - dt))
    rw [ezs]
    exact compatible_diagonal (zero 0)
  · show Compatible s.zl (s.v s.m - fun x => S s.m x (s.time - dt))
    rw [ezl]
    exact compatible_diagonal (zero s.m)

/-! ## Non-vacuity -/

/-- A sine that begins at time zero. -/
noncomputable def sineSource (E Θ : ℝ) (t : ℝ) : ℝ := if 0 ≤ t then E * Real.sin (2 * Real.pi * (t / Θ)) else 0

theorem sineSource_repeats {E Θ : ℝ} (hΘ : 0 < Θ) (u : ℝ) (hu : 0 ≤ u) : sineSource E Θ (u + Θ) = sineSource E Θ u := by
  unfold sineSource
  rw [if_pos hu, if_pos (by linarith), show 2 * Real.pi * ((u + Θ) / Θ) = 2 * Real.pi * (u / Θ) + 2 * Real.pi by field_simp,
    Real.sin_add_two_pi]

/-- Non-vacuity of C170: the demo line with half of its time step and a sine of twenty steps at its beginning; its run
approaches a steady state of that period. -/
example : ∃ s : MTL 1 0, MTL.new 0 (.scalar 1) (.scalar 1) (.scalar 0) (.scalar 0) 2 [] [2] (.scalar 1) (.scalar 1) "demo" = .ok ⟨1, s⟩ ∧
    (∃ q V I, ({ s with dt := 1 / 2 * s.dt, vSources := fun k _ u => if k = 0 then sineSource 5 (20 * (1 / 2 * s.dt)) u else 0 } :
        MTL 1 0).Steady 20 q V I ∧
      ({ s with dt := 1 / 2 * s.dt, vSources := fun k _ u => if k = 0 then sineSource 5 (20 * (1 / 2 * s.dt)) u else 0 } :
        MTL 1 0).Approaches V I) ∧
    ∀ T, ∃ s' N tr, RunTrace { s with dt := 1 / 2 * s.dt, vSources := fun k _ u =>
      (if k = 0 then sineSource 5 (20 * (1 / 2 * s.dt)) u else 0) } T s' N tr := by
  obtain ⟨s, hs⟩ := demoLine_accepted (p := 0)
  have hdu := demoLine_cells hs
  obtain ⟨hU, -, -, -, hdt, -, -, hpr⟩ := constructed_uniform two_pos two_pos hs
    (Vs := fun t _ => sineSource 5 (20 * (1 / 2 * s.dt)) t) (Vl := fun _ _ => 0)
    (S := fun k _ u => if k = 0 then sineSource 5 (20 * (1 / 2 * s.dt)) u else 0)
    (fun t a => by simp) (fun t a => by simp) (q := 1 / 2) (by norm_num)
  have runs := hU.runs two_pos (line_data (spd_one one_pos) (spd_one one_pos) dissipative_zero dissipative_zero
    (fun _ _ => zero_le_one) (fun _ _ => zero_le_one)) (by
      show ∀ q ∈ s.probes, _
      rw [hpr]
      simp)
  refine ⟨s, hs, ?_, fun T => ?_⟩
  · have hΘ : 0 < 20 * (1 / 2 * s.dt) := by linarith
    refine C170_program (t := 0) hs (spd_one one_pos) (spd_one one_pos) dissipative_zero dissipative_zero
      (fun _ _ => zero_le_one) (fun _ _ => zero_le_one) (Or.inl fun _ _ => one_pos) hdu (by linarith) (by linarith) (by norm_num)
      ?_ ?_ ?_
    · intro k x u hu
      simp only [sineSource, if_neg (not_le.2 hu), ite_self]
    · intro x u hu
      have := sineSource_repeats (E := 5) hΘ u hu
      simpa using this
    · intro x u hu
      have := sineSource_repeats (E := 5) hΘ u hu
      push_cast
      split_ifs
      · exact this
      · rfl
  · obtain ⟨s', h'⟩ := runs T
    obtain ⟨-, N, tr, R⟩ := (runUntil_ok_iff _ _ _).1 h'
    exact ⟨s', N, tr, R⟩

end Mtln
