import Mathlib.Tactic.Ring
import Mathlib.Tactic.Linarith
import Mathlib.Tactic.NormNum
import Mathlib.Tactic.FieldSimp
import Mathlib.Tactic.IntervalCases
import Mathlib.Tactic.LinearCombination
import Mathlib.Tactic.Module
import Verif.Spec.Run

/-! # Runs of `MTL` as traces -/

namespace Mtln

variable {n p : ℕ}

theorem bind_ok_iff {α β : Type} {x : Py α} {f : α → Py β} {b : β} :
    (x >>= f) = .ok b ↔ ∃ a, x = .ok a ∧ f a = .ok b := by
  cases x with
  | error e => simp [bind, Except.bind]
  | ok a => simp [bind, Except.bind]

theorem raiseIf_ok_iff {b : Prop} [Decidable b] {e : PyErr} {u : Unit} :
    raiseIf b e = .ok u ↔ ¬ b := by
  unfold raiseIf; split <;> simp_all

theorem pyAssert_ok_iff {b : Prop} [Decidable b] {u : Unit} : pyAssert b = .ok u ↔ b := by
  unfold pyAssert; split <;> simp_all

theorem iterPy_ok_iff {α : Type} (f : α → Py α) (N : ℕ) (a b : α) :
    iterPy f N a = .ok b ↔
      ∃ tr : ℕ → α, tr 0 = a ∧ tr N = b ∧ ∀ j < N, f (tr j) = .ok (tr (j + 1)) := by
  induction N generalizing a with
  | zero =>
    constructor
    · intro h
      refine ⟨fun _ => a, rfl, ?_, by simp⟩
      simpa [iterPy] using h
    · rintro ⟨tr, h0, hN, -⟩
      simp [iterPy, ← h0, ← hN]
  | succ N ih =>
    constructor
    · intro h
      obtain ⟨a', ha', hrest⟩ := bind_ok_iff.1 h
      obtain ⟨tr, h0, hN, hs⟩ := (ih a').1 hrest
      refine ⟨fun j => Nat.casesOn j a tr, rfl, hN, ?_⟩
      intro j hj
      cases j with
      | zero => simpa [h0] using ha'
      | succ j => exact hs j (by omega)
    · rintro ⟨tr, h0, hN, hs⟩
      refine bind_ok_iff.2 ⟨tr 1, ?_, ?_⟩
      · rw [← h0]; exact hs 0 (by omega)
      · exact (ih (tr 1)).2 ⟨fun j => tr (j + 1), rfl, hN, fun j hj => hs (j + 1) (by omega)⟩

theorem iterPy_add {α : Type} (f : α → Py α) (M N : ℕ) (a : α) :
    iterPy f (M + N) a = iterPy f M a >>= iterPy f N := by
  induction M generalizing a with
  | zero => simp [iterPy, bind, Except.bind]
  | succ M ih =>
    rw [Nat.succ_add]
    show f a >>= iterPy f (M + N) = (f a >>= iterPy f M) >>= iterPy f N
    cases f a with
    | error e => rfl
    | ok a' => exact ih a'

/-- A trace of one function is determined by its start. -/
theorem trace_unique {α : Type*} (f : α → Py α) (N : ℕ) (tr tr' : ℕ → α) (h0 : tr 0 = tr' 0)
    (h : ∀ j < N, f (tr j) = .ok (tr (j + 1))) (h' : ∀ j < N, f (tr' j) = .ok (tr' (j + 1))) :
    ∀ j ≤ N, tr j = tr' j := by
  intro j
  induction j with
  | zero => intro _; exact h0
  | succ j ih =>
    intro hj
    have e := ih (by omega)
    have h1 := h j (by omega)
    have h2 := h' j (by omega)
    rw [e, h2] at h1
    exact (Except.ok.inj h1).symm

/-- Unfolding a successful run into its trace. -/
theorem runUntil_ok_iff (T : ℝ) (s s' : MTL n p) :
    s.runUntil T = .ok s' ↔ s.dt ≠ 0 ∧ ∃ N tr, RunTrace s T s' N tr := by
  unfold MTL.runUntil timeRangeLen
  by_cases hdt : s.dt = 0
  · simp [hdt, bind, Except.bind]
  · simp only [hdt, if_false]
    constructor
    · intro h
      refine ⟨hdt, ?_⟩
      obtain ⟨N, hN, h⟩ := bind_ok_iff.1 h
      obtain ⟨s1, h1, h⟩ := bind_ok_iff.1 h
      obtain ⟨s2, h2, h⟩ := bind_ok_iff.1 h
      have hN' : N = ⌊T / s.dt⌋.toNat := by injection hN with hN; exact hN.symm
      obtain ⟨lr, hlr, e1⟩ := bind_ok_iff.1 h1
      obtain ⟨cg, hcg, e2⟩ := bind_ok_iff.1 h2
      injection e1 with e1
      injection e2 with e2
      subst e1
      subst e2
      obtain ⟨tr, h0, hf, hs⟩ := (iterPy_ok_iff _ _ _ _).1 h
      exact ⟨N, tr, hN', ⟨lr, cg, hlr, hcg, h0⟩, hs, hf⟩
    · rintro ⟨-, N, tr, hlen, ⟨lr, cg, hlr, hcg, h0⟩, hs, hf⟩
      refine bind_ok_iff.2 ⟨N, by rw [hlen], ?_⟩
      refine bind_ok_iff.2 ⟨{ s with lr := some lr }, ?_, ?_⟩
      · unfold MTL.updateLrTerms; rw [hlr]; rfl
      refine bind_ok_iff.2 ⟨{ s with lr := some lr, cg := some cg }, ?_, ?_⟩
      · unfold MTL.updateCgTerms; rw [hcg]; rfl
      exact (iterPy_ok_iff _ _ _ _).2 ⟨tr, h0, hf, hs⟩

/-- Unfolding one successful step. -/
theorem step_ok_iff (s s' : MTL n p) :
    s.step = .ok s' ↔ ∃ lr cg ps, s.lr = some lr ∧ s.cg = some cg ∧
      updateProbes s.m (s.time + s.dt) (s.advanceFields lr cg).v (s.advanceFields lr cg).i s.probes = .ok ps ∧
      s' = { s.advanceFields lr cg with probes := ps } := by
  unfold MTL.step
  constructor
  · intro h
    split at h
    · rename_i lr cg hlr hcg
      obtain ⟨ps, hps, h⟩ := bind_ok_iff.1 h
      injection h with h
      exact ⟨lr, cg, ps, hlr, hcg, hps, h.symm⟩
    · simp at h
  · rintro ⟨lr, cg, ps, hlr, hcg, hps, rfl⟩
    rw [hlr, hcg]
    exact bind_ok_iff.2 ⟨ps, hps, rfl⟩

theorem MTL.SameConfig.refl (s : MTL n p) : s.SameConfig s := by constructor <;> rfl

theorem MTL.SameConfig.trans {a b c : MTL n p} (h : a.SameConfig b) (h' : b.SameConfig c) :
    a.SameConfig c := by
  constructor
  · rw [h'.m, h.m]
  · rw [h'.u, h.u]
  · rw [h'.du, h.du]
  · rw [h'.dun, h.dun]
  · rw [h'.l, h.l]
  · rw [h'.c, h.c]
  · rw [h'.r, h.r]
  · rw [h'.g, h.g]
  · rw [h'.zs, h.zs]
  · rw [h'.zl, h.zl]
  · rw [h'.dt, h.dt]
  · rw [h'.conn, h.conn]
  · rw [h'.vSources, h.vSources]
  · rw [h'.eL, h.eL]
  · rw [h'.eT, h.eT]
  · rw [h'.left1, h.left1]
  · rw [h'.left2, h.left2]
  · rw [h'.right1, h.right1]
  · rw [h'.right2, h.right2]

theorem step_sameConfig {s s' : MTL n p} (h : s.step = .ok s') : s.SameConfig s' := by
  obtain ⟨lr, cg, ps, -, -, -, rfl⟩ := (step_ok_iff _ _).1 h
  constructor <;> rfl

theorem step_coeffs {s s' : MTL n p} (h : s.step = .ok s') : s'.lr = s.lr ∧ s'.cg = s.cg := by
  obtain ⟨lr, cg, ps, -, -, -, rfl⟩ := (step_ok_iff _ _).1 h
  exact ⟨rfl, rfl⟩

theorem step_time {s s' : MTL n p} (h : s.step = .ok s') : s'.time = s.time + s.dt := by
  obtain ⟨lr, cg, ps, -, -, -, rfl⟩ := (step_ok_iff _ _).1 h
  rfl

theorem MTL.SameConfig.fresh {s s' : MTL n p} (h : s.SameConfig s') (hc : s'.lr = s.lr ∧ s'.cg = s.cg)
    {lr : LR n} {cg : CG n} (hf : s.Fresh lr cg) : s'.Fresh lr cg := by
  refine ⟨by rw [hc.1, hf.lr_eq], by rw [hc.2, hf.cg_eq], ?_, ?_⟩
  · rw [h.m, h.dt, h.dun, h.l, h.r, h.conn]; exact hf.lr_ok
  · rw [h.m, h.dt, h.dun, h.c, h.g]; exact hf.cg_ok

/-- Facts about every state of a run. -/
theorem RunTrace.state {s s' : MTL n p} {T : ℝ} {N : ℕ} {tr : ℕ → MTL n p}
    (h : RunTrace s T s' N tr) :
    ∃ lr cg, updateLr s.m s.dt s.dun s.l s.r s.conn = .ok lr ∧
      updateCg s.m s.dt s.dun s.c s.g = .ok cg ∧
      ∀ j ≤ N, s.SameConfig (tr j) ∧ (tr j).Fresh lr cg ∧ (tr j).time = s.time + j * s.dt := by
  obtain ⟨lr, cg, hlr, hcg, h0⟩ := h.start
  refine ⟨lr, cg, hlr, hcg, ?_⟩
  intro j
  induction j with
  | zero =>
    intro _
    rw [h0]
    refine ⟨by constructor <;> rfl, ⟨rfl, rfl, hlr, hcg⟩, by simp⟩
  | succ j ih =>
    intro hj
    obtain ⟨c1, f1, t1⟩ := ih (by omega)
    have hs := h.step j (by omega)
    have c2 := step_sameConfig hs
    refine ⟨c1.trans c2, c2.fresh (step_coeffs hs) f1, ?_⟩
    rw [step_time hs, t1, c1.dt]
    push_cast
    ring

/-- The fields after a step from a fresh state. -/
theorem MTL.Fresh.step_fields {s s' : MTL n p} {lr : LR n} {cg : CG n} (hf : s.Fresh lr cg)
    (h : s.step = .ok s') :
    s'.v = (s.advanceFields lr cg).v ∧ s'.i = (s.advanceFields lr cg).i ∧
      s'.phi = (s.advanceFields lr cg).phi := by
  obtain ⟨lr', cg', ps, h1, h2, -, rfl⟩ := (step_ok_iff _ _).1 h
  rw [hf.lr_eq] at h1
  rw [hf.cg_eq] at h2
  injection h1 with h1
  injection h2 with h2
  subst h1
  subst h2
  exact ⟨rfl, rfl, rfl⟩

end Mtln

namespace Mtln

variable {n p : ℕ}

/-- The fields of a run are those of the iterated field update; probes and coefficients do not
influence them. -/
theorem iterate_advanceFields_with (lr : LR n) (cg : CG n) (s : MTL n p) (a : Option (LR n))
    (b : Option (CG n)) (ps : List (Probe n)) (j : ℕ) :
    (MTL.advanceFields lr cg)^[j] { s with lr := a, cg := b, probes := ps } =
      { (MTL.advanceFields lr cg)^[j] s with lr := a, cg := b, probes := ps } := by
  induction j generalizing s with
  | zero => rfl
  | succ j ih =>
    rw [Function.iterate_succ_apply, Function.iterate_succ_apply]
    exact ih (MTL.advanceFields lr cg s)

theorem iterate_advanceFields_probes (lr : LR n) (cg : CG n) (s : MTL n p) (j : ℕ) :
    ((MTL.advanceFields lr cg)^[j] s).probes = s.probes := by
  induction j generalizing s with
  | zero => rfl
  | succ j ih => rw [Function.iterate_succ_apply, ih]; rfl

theorem iterate_advanceFields_config (lr : LR n) (cg : CG n) (s : MTL n p) (j : ℕ) :
    s.SameConfig ((MTL.advanceFields lr cg)^[j] s) := by
  induction j generalizing s with
  | zero => exact MTL.SameConfig.refl s
  | succ j ih =>
    rw [Function.iterate_succ_apply]
    refine MTL.SameConfig.trans ?_ (ih _)
    constructor <;> rfl

theorem iterate_advanceFields_time (lr : LR n) (cg : CG n) (s : MTL n p) (j : ℕ) :
    ((MTL.advanceFields lr cg)^[j] s).time = s.time + j * s.dt := by
  induction j generalizing s with
  | zero => simp
  | succ j ih =>
    rw [Function.iterate_succ_apply, ih]
    show s.time + s.dt + j * s.dt = _
    push_cast; ring

/-- Closed form of the states of a run. -/
theorem RunTrace.closed {s s' : MTL n p} {T : ℝ} {N : ℕ} {tr : ℕ → MTL n p}
    (h : RunTrace s T s' N tr) :
    ∃ lr cg, updateLr s.m s.dt s.dun s.l s.r s.conn = .ok lr ∧
      updateCg s.m s.dt s.dun s.c s.g = .ok cg ∧
      ∀ j ≤ N, tr j = { (MTL.advanceFields lr cg)^[j] s with
        lr := some lr, cg := some cg, probes := (tr j).probes } := by
  obtain ⟨lr, cg, hlr, hcg, h0⟩ := h.start
  refine ⟨lr, cg, hlr, hcg, ?_⟩
  intro j
  induction j with
  | zero => intro _; rw [h0]; rfl
  | succ j ih =>
    intro hj
    have e := ih (by omega)
    obtain ⟨lr', cg', ps, h1, h2, -, he⟩ := (step_ok_iff _ _).1 (h.step j (by omega))
    rw [e] at h1 h2
    injection h1 with h1
    injection h2 with h2
    subst h1
    subst h2
    rw [he, Function.iterate_succ_apply', e]
    rfl

theorem RunTrace.fields {s s' : MTL n p} {T : ℝ} {N : ℕ} {tr : ℕ → MTL n p}
    (h : RunTrace s T s' N tr) {lr : LR n} {cg : CG n}
    (hlr : updateLr s.m s.dt s.dun s.l s.r s.conn = .ok lr)
    (hcg : updateCg s.m s.dt s.dun s.c s.g = .ok cg) (j : ℕ) (hj : j ≤ N) :
    tr j = { (MTL.advanceFields lr cg)^[j] s with
        lr := some lr, cg := some cg, probes := (tr j).probes } := by
  obtain ⟨lr', cg', hlr', hcg', hc⟩ := h.closed
  rw [hlr] at hlr'
  rw [hcg] at hcg'
  injection hlr' with e1
  injection hcg' with e2
  subst e1
  subst e2
  exact hc j hj

end Mtln
