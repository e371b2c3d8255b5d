import Verif.Spec.Manager
import Verif.Lemmas.ManagerRun
import Verif.Lemmas.Relational
import Mathlib.Tactic.Module

/-! # Superposition of managers -/

namespace Mtln

open Matrix

variable {n p N S : ℕ}

theorem mapPy_all3 {α : Type} {R R' : α → α → α → Prop} {f₁ f₂ f₃ : α → Py α}
    (h : ∀ a b c a' b' c', R a b c → f₁ a = .ok a' → f₂ b = .ok b' → f₃ c = .ok c' → R' a' b' c') :
    ∀ {l₁ l₂ l₃ l₁' l₂' l₃' : List α}, All3 R l₁ l₂ l₃ → mapPy f₁ l₁ = .ok l₁' → mapPy f₂ l₂ = .ok l₂' →
      mapPy f₃ l₃ = .ok l₃' → All3 R' l₁' l₂' l₃'
  | _, _, _, _, _, _, .nil, h1, h2, h3 => by
    simp only [mapPy, Except.ok.injEq] at h1 h2 h3
    subst h1; subst h2; subst h3
    exact .nil
  | _, _, _, _, _, _, .cons hr hl, h1, h2, h3 => by
    simp only [mapPy, bind_ok_iff, Except.ok.injEq] at h1 h2 h3
    obtain ⟨a, e1, l1, f1, rfl⟩ := h1
    obtain ⟨b, e2, l2, f2, rfl⟩ := h2
    obtain ⟨c, e3, l3, f3, rfl⟩ := h3
    exact .cons (h _ _ _ _ _ _ hr e1 e2 e3) (mapPy_all3 h hl f1 f2 f3)

theorem All3.mono {α : Type} {R R' : α → α → α → Prop} (h : ∀ {a b c}, R a b c → R' a b c) {l₁ l₂ l₃ : List α}
    (hl : All3 R l₁ l₂ l₃) : All3 R' l₁ l₂ l₃ := by
  induction hl with
  | nil => exact .nil
  | cons hr _ ih => exact .cons (h hr) ih

theorem All3.diag {α : Type} {R : α → α → α → Prop} {l : List α} (h : ∀ a ∈ l, R a a a) : All3 R l l l := by
  induction l with
  | nil => exact .nil
  | cons a l ih => exact .cons (h a (List.mem_cons_self ..)) (ih fun b hb => h b (List.mem_cons_of_mem _ hb))

theorem All3.mem {α : Type} {R : α → α → α → Prop} {l₁ l₂ l₃ : List α} (h : All3 R l₁ l₂ l₃) : ∀ c ∈ l₃, ∃ a b, R a b c := by
  induction h with
  | nil => simp
  | cons hr _ ih =>
    intro c hc
    rcases List.mem_cons.1 hc with rfl | hc
    · exact ⟨_, _, hr⟩
    · exact ih c hc

theorem All3.append {α : Type} {R : α → α → α → Prop} {l₁ l₂ l₃ k₁ k₂ k₃ : List α} (h : All3 R l₁ l₂ l₃)
    (hk : All3 R k₁ k₂ k₃) : All3 R (l₁ ++ k₁) (l₂ ++ k₂) (l₃ ++ k₃) := by
  induction h with
  | nil => exact hk
  | cons hr _ ih => exact .cons hr ih

theorem All3.flatMap {α β : Type} {R : α → α → α → Prop} {R' : β → β → β → Prop} {f : α → List β}
    (hf : ∀ {a b c}, R a b c → All3 R' (f a) (f b) (f c)) {l₁ l₂ l₃ : List α} (h : All3 R l₁ l₂ l₃) :
    All3 R' (l₁.flatMap f) (l₂.flatMap f) (l₃.flatMap f) := by
  induction h with
  | nil => exact .nil
  | cons hr _ ih => exact (hf hr).append ih

theorem All3.ofFn {α : Type} {R : α → α → α → Prop} : ∀ {N : ℕ} {f g h : Fin N → α}, (∀ a, R (f a) (g a) (h a)) →
    All3 R (List.ofFn f) (List.ofFn g) (List.ofFn h)
  | 0, f, g, h, _ => by simp only [List.ofFn_zero]; exact .nil
  | N + 1, f, g, h, hR => by
    simp only [List.ofFn_succ]
    exact .cons (hR 0) (All3.ofFn fun a => hR a.succ)

/-! ## Writes -/

/-- Three assignments to the same entry. -/
def WriteComb (a b : ℝ) (w₁ w₂ w₃ : Write) : Prop :=
  w₂.target = w₁.target ∧ w₃.target = w₁.target ∧ w₃.value = a * w₁.value + b * w₂.value

theorem hit_comb {a b : ℝ} {ws₁ ws₂ ws₃ : List Write} (h : All3 (WriteComb a b) ws₁ ws₂ ws₃) :
    ∀ {s₁ s₂ s₃ : MTLD n p}, s₂.name = s₁.name → s₃.name = s₁.name → s₂.m = s₁.m → s₃.m = s₁.m →
      (∀ k x, s₃.v k x = a * s₁.v k x + b * s₂.v k x) →
      ∀ k x, (s₃.hit ws₃).v k x = a * (s₁.hit ws₁).v k x + b * (s₂.hit ws₂).v k x := by
  induction h with
  | nil => intro s₁ s₂ s₃ _ _ _ _ h; exact h
  | @cons w₁ w₂ w₃ ws₁ ws₂ ws₃ hw _ ih =>
    intro s₁ s₂ s₃ n2 n3 m2 m3 h
    simp only [MTLD.hit_cons]
    refine ih ?_ ?_ ?_ ?_ ?_
    · simp only [Write.on_name, n2]
    · simp only [Write.on_name, n3]
    · simp only [Write.on_m, m2]
    · simp only [Write.on_m, m3]
    · intro k x
      obtain ⟨t2, t3, hv⟩ := hw
      by_cases hc : w₁.target.At s₁ k x
      · have h2 : w₂.target.At s₂ k x := by rw [t2]; unfold End.At at *; rw [n2, m2]; exact hc
        have h3 : w₃.target.At s₃ k x := by rw [t3]; unfold End.At at *; rw [n3, m3]; exact hc
        rw [(w₁.on_v s₁ k x).1 hc, (w₂.on_v s₂ k x).1 h2, (w₃.on_v s₃ k x).1 h3, hv]
      · have h2 : ¬ w₂.target.At s₂ k x := by rw [t2]; unfold End.At at *; rw [n2, m2]; exact hc
        have h3 : ¬ w₃.target.At s₃ k x := by rw [t3]; unfold End.At at *; rw [n3, m3]; exact hc
        rw [(w₁.on_v s₁ k x).2 hc, (w₂.on_v s₂ k x).2 h2, (w₃.on_v s₃ k x).2 h3, h]

/-! ## Bundles -/

/-- Superposition with coefficients computed. -/
structure MTLD.CombReady (a b : ℝ) (s₁ s₂ s₃ : MTLD n p) : Prop extends MTLD.Comb a b s₁ s₂ s₃ where
  lr₂ : s₂.lr = s₁.lr
  lr₃ : s₃.lr = s₁.lr
  cg₂ : s₂.cg = s₁.cg
  cg₃ : s₃.cg = s₁.cg

/-- The same for bundles of some size. -/
inductive BundleReady (a b : ℝ) : AnyBundle p → AnyBundle p → AnyBundle p → Prop
  | mk {n : ℕ} {s₁ s₂ s₃ : MTLD n p} : MTLD.CombReady a b s₁ s₂ s₃ → BundleReady a b ⟨n, s₁⟩ ⟨n, s₂⟩ ⟨n, s₃⟩

theorem advanceVoltage_comb {m : ℕ} {cg : CG n} {a b : ℝ} {S₁ S₂ S₃ : Sampled n} {v₁ v₂ v₃ i₁ i₂ i₃ : Grid n}
    (eTN : ∀ k, S₃.eTNow k = a • S₁.eTNow k + b • S₂.eTNow k)
    (eTP : ∀ k, S₃.eTPrev k = a • S₁.eTPrev k + b • S₂.eTPrev k)
    (hv : ∀ k, v₃ k = a • v₁ k + b • v₂ k) (hi : ∀ k, i₃ k = a • i₁ k + b • i₂ k) (k : ℕ) :
    advanceVoltage m cg S₃ v₃ i₃ k = a • advanceVoltage m cg S₁ v₁ i₁ k + b • advanceVoltage m cg S₂ v₂ i₂ k := by
  unfold advanceVoltage
  split
  · simp only [eTN, eTP, hv, hi, mulVec_add, mulVec_sub, mulVec_smul]
    module
  · exact hv k

theorem advanceCurrent_comb {m : ℕ} {lr : LR n} {dun : ℕ → ℝ} {a b : ℝ} {S₁ S₂ S₃ : Sampled n}
    {q₁ q₂ q₃ v₁ v₂ v₃ i₁ i₂ i₃ : Grid n}
    (eTN : ∀ k, S₃.eTNow k = a • S₁.eTNow k + b • S₂.eTNow k)
    (eLN : ∀ k, S₃.eLNow k = a • S₁.eLNow k + b • S₂.eLNow k)
    (eLP : ∀ k, S₃.eLPrev k = a • S₁.eLPrev k + b • S₂.eLPrev k)
    (hq : ∀ k, q₃ k = a • q₁ k + b • q₂ k)
    (hv : ∀ k, v₃ k = a • v₁ k + b • v₂ k) (hi : ∀ k, i₃ k = a • i₁ k + b • i₂ k) (k : ℕ) :
    advanceCurrent m lr dun q₃ S₃ v₃ i₃ k =
      a • advanceCurrent m lr dun q₁ S₁ v₁ i₁ k + b • advanceCurrent m lr dun q₂ S₂ v₂ i₂ k := by
  unfold advanceCurrent
  split
  · simp only [eTN, eLN, eLP, hq, hv, hi, mulVec_add, mulVec_sub, mulVec_smul, smul_add, smul_sub]
    module
  · exact hi k

theorem MTLD.fieldsWith_v (lr : LR n) (cg : CG n) (time dt : ℝ) (ws : List Write) (b : MTLD n p) :
    (b.fieldsWith lr cg time dt ws).v =
      (({ b with v := advanceVoltage b.m cg (b.sample time dt) b.v b.i } : MTLD n p).hit ws).v := rfl

theorem MTLD.fieldsWith_i (lr : LR n) (cg : CG n) (time dt : ℝ) (ws : List Write) (b : MTLD n p) :
    (b.fieldsWith lr cg time dt ws).i = advanceCurrent b.m lr b.dun (b.tz.q3phi b.phi) (b.sample time dt)
      (b.fieldsWith lr cg time dt ws).v b.i := rfl

theorem MTLD.fieldsWith_phi (lr : LR n) (cg : CG n) (time dt : ℝ) (ws : List Write) (b : MTLD n p) :
    (b.fieldsWith lr cg time dt ws).phi = b.tz.updatePhi b.phi (b.fieldsWith lr cg time dt ws).i
      (b.fieldsWith lr cg time dt ws).i := rfl

theorem MTLD.CombReady.stepWith {a b time dt : ℝ} {ws₁ ws₂ ws₃ : List Write}
    (hw : All3 (WriteComb a b) ws₁ ws₂ ws₃) {s₁ s₂ s₃ s₁' s₂' s₃' : MTLD n p} (h : MTLD.CombReady a b s₁ s₂ s₃)
    (h₁ : s₁.stepWith time dt ws₁ = .ok s₁') (h₂ : s₂.stepWith time dt ws₂ = .ok s₂')
    (h₃ : s₃.stepWith time dt ws₃ = .ok s₃') : MTLD.CombReady a b s₁' s₂' s₃' := by
  obtain ⟨lr, cg, l1, c1, -, rfl⟩ := MTLD.stepWith_ok_iff.1 h₁
  obtain ⟨lr2, cg2, l2, c2, -, rfl⟩ := MTLD.stepWith_ok_iff.1 h₂
  obtain ⟨lr3, cg3, l3, c3, -, rfl⟩ := MTLD.stepWith_ok_iff.1 h₃
  obtain rfl : lr2 = lr := by rw [h.lr₂, l1] at l2; exact (Option.some.inj l2).symm
  obtain rfl : lr3 = lr2 := by rw [h.lr₃, l1] at l3; exact (Option.some.inj l3).symm
  obtain rfl : cg2 = cg := by rw [h.cg₂, c1] at c2; exact (Option.some.inj c2).symm
  obtain rfl : cg3 = cg2 := by rw [h.cg₃, c1] at c3; exact (Option.some.inj c3).symm
  have hv : ∀ k, s₃.v k = a • s₁.v k + b • s₂.v k := fun k => vec_comb.1 (h.v k)
  have hi : ∀ k, s₃.i k = a • s₁.i k + b • s₂.i k := fun k => vec_comb.1 (h.i k)
  have eTN : ∀ k, (s₃.sample time dt).eTNow k = a • (s₁.sample time dt).eTNow k + b • (s₂.sample time dt).eTNow k :=
    fun k => vec_comb.1 fun x => h.eT k x _
  have eTP : ∀ k, (s₃.sample time dt).eTPrev k = a • (s₁.sample time dt).eTPrev k + b • (s₂.sample time dt).eTPrev k :=
    fun k => vec_comb.1 fun x => h.eT k x _
  have eLN : ∀ k, (s₃.sample time dt).eLNow k = a • (s₁.sample time dt).eLNow k + b • (s₂.sample time dt).eLNow k :=
    fun k => vec_comb.1 fun x => h.eL k x _
  have eLP : ∀ k, (s₃.sample time dt).eLPrev k = a • (s₁.sample time dt).eLPrev k + b • (s₂.sample time dt).eLPrev k :=
    fun k => vec_comb.1 fun x => h.eL k x _
  have hq : ∀ k, s₃.tz.q3phi s₃.phi k = a • s₁.tz.q3phi s₁.phi k + b • s₂.tz.q3phi s₂.phi k := by
    intro k
    rw [h.hw₂.tz, h.hw₃.tz]
    exact q3phi_comb _ k (h.phi k)
  have v1 : ∀ k x, (s₃.fieldsWith lr3 cg3 time dt ws₃).v k x =
      a * (s₁.fieldsWith lr3 cg3 time dt ws₁).v k x + b * (s₂.fieldsWith lr3 cg3 time dt ws₂).v k x := by
    simp only [MTLD.fieldsWith_v]
    refine hit_comb hw h.hw₂.name h.hw₃.name h.hw₂.m h.hw₃.m ?_
    intro k
    refine vec_comb.2 ?_
    show advanceVoltage s₃.m _ _ _ _ k = a • advanceVoltage s₁.m _ _ _ _ k + b • advanceVoltage s₂.m _ _ _ _ k
    rw [h.hw₂.m, h.hw₃.m]
    exact advanceVoltage_comb eTN eTP hv hi k
  have i1 : ∀ k x, (s₃.fieldsWith lr3 cg3 time dt ws₃).i k x =
      a * (s₁.fieldsWith lr3 cg3 time dt ws₁).i k x + b * (s₂.fieldsWith lr3 cg3 time dt ws₂).i k x := by
    intro k
    refine vec_comb.2 ?_
    rw [MTLD.fieldsWith_i, MTLD.fieldsWith_i, MTLD.fieldsWith_i]
    rw [h.hw₂.m, h.hw₃.m, h.hw₂.dun, h.hw₃.dun]
    exact advanceCurrent_comb eTN eLN eLP hq (fun k => vec_comb.1 (v1 k)) hi k
  refine ⟨⟨⟨h.hw₂.name, h.hw₂.m, h.hw₂.dun, h.hw₂.l, h.hw₂.c, h.hw₂.r, h.hw₂.g, h.hw₂.dt, h.hw₂.tz⟩,
    ⟨h.hw₃.name, h.hw₃.m, h.hw₃.dun, h.hw₃.l, h.hw₃.c, h.hw₃.r, h.hw₃.g, h.hw₃.dt, h.hw₃.tz⟩, v1, i1, ?_, h.eL, h.eT⟩,
    h.lr₂, h.lr₃, h.cg₂, h.cg₃⟩
  intro k x σ
  simp only [MTLD.fieldsWith_phi]
  rw [h.hw₂.tz, h.hw₃.tz]
  exact updatePhi_comb _ k (h.phi k) (i1 k) x σ

/-! ## Networks -/

/-- Superposition with matrices computed. -/
structure Network.CombReady (a b : ℝ) (s₁ s₂ s₃ : Network N S) : Prop extends Network.Comb a b s₁ s₂ s₃ where
  t₂ : s₂.terms = s₁.terms
  t₃ : s₃.terms = s₁.terms

/-- The same for networks of some size. -/
inductive LevelReady (a b : ℝ) : ℕ × AnyNetwork → ℕ × AnyNetwork → ℕ × AnyNetwork → Prop
  | mk {l N S : ℕ} {s₁ s₂ s₃ : Network N S} :
    Network.CombReady a b s₁ s₂ s₃ → LevelReady a b (l, ⟨N, S, s₁⟩) (l, ⟨N, S, s₂⟩) (l, ⟨N, S, s₃⟩)

theorem Network.SameHardware.dxc {s t : Network N S} (h : s.SameHardware t) : t.dxc = s.dxc := by
  unfold Network.dxc
  simp only [h.dx, h.c]

theorem Network.CombReady.advance {a b time dt : ℝ} {s₁ s₂ s₃ s₁' s₂' s₃' : Network N S}
    (h : Network.CombReady a b s₁ s₂ s₃) (h₁ : s₁.advanceVoltage time dt = .ok s₁')
    (h₂ : s₂.advanceVoltage time dt = .ok s₂') (h₃ : s₃.advanceVoltage time dt = .ok s₃') :
    Network.CombReady a b s₁' s₂' s₃' := by
  have vv : ∀ {ι : Type} {x y z : ι → ℝ}, (∀ j, z j = a * x j + b * y j) → z = a • x + b • y := by
    intro ι x y z h; funext j; simp [h j]
  unfold Network.advanceVoltage at h₁ h₂ h₃
  cases hT : s₁.terms with
  | none => rw [hT] at h₁; simp at h₁
  | some T =>
    rw [h.t₂] at h₂
    rw [h.t₃] at h₃
    rw [hT] at h₁ h₂ h₃
    simp only [bind_ok_iff, raiseIf_ok_iff, Except.ok.injEq] at h₁ h₂ h₃
    obtain ⟨_, -, _, -, _, -, rfl⟩ := h₁
    obtain ⟨_, -, _, -, _, -, rfl⟩ := h₂
    obtain ⟨_, -, _, -, _, -, rfl⟩ := h₃
    have hv := vv h.v
    have hX := vv h.X
    have hp := vv h.vPrev
    have hi := vv h.i
    have hS : ∀ t, (fun x => s₃.vSources x t) = a • (fun x => s₁.vSources x t) + b • (fun x => s₂.vSources x t) :=
      fun t => vv fun x => h.vS x t
    have hE : ∀ t, (fun x => (s₃.nodes x).eT t) =
        a • (fun x => (s₁.nodes x).eT t) + b • (fun x => (s₂.nodes x).eT t) := fun t => vv fun x => h.eT x t
    have hk : s₃.known dt (fun a => s₃.vSources a (time - dt)) (fun a => s₃.vSources a (time - 2 * dt))
        (fun a => (s₃.nodes a).eT time) (fun a => (s₃.nodes a).eT (time - dt)) =
        a • s₁.known dt (fun a => s₁.vSources a (time - dt)) (fun a => s₁.vSources a (time - 2 * dt))
        (fun a => (s₁.nodes a).eT time) (fun a => (s₁.nodes a).eT (time - dt)) +
        b • s₂.known dt (fun a => s₂.vSources a (time - dt)) (fun a => s₂.vSources a (time - 2 * dt))
        (fun a => (s₂.nodes a).eT time) (fun a => (s₂.nodes a).eT (time - dt)) := by
      rw [hS, hS, hE, hE]
      unfold Network.known
      rw [h.hw₂.dxc, h.hw₃.dxc, h.hw₂.O, h.hw₃.O, h.hw₂.P1, h.hw₃.P1, h.hw₂.Ps, h.hw₃.Ps, h.hw₂.Q1, h.hw₃.Q1,
        h.hw₂.Qs, h.hw₃.Qs, hv, hX, hp, hi]
      simp only [mulVec_add, mulVec_sub, mulVec_smul]
      module
    have hsum : ∀ {x₁ x₂ x₃ : Fin N → ℝ} {y₁ y₂ y₃ : Fin S → ℝ}, x₃ = a • x₁ + b • x₂ → y₃ = a • y₁ + b • y₂ →
        Sum.elim x₃ y₃ = a • Sum.elim x₁ y₁ + b • Sum.elim x₂ y₂ := by
      rintro x₁ x₂ x₃ y₁ y₂ y₃ rfl rfl
      funext z
      cases z <;> rfl
    have hH := hsum hv hX
    have hK := hsum hk (show (0 : Fin S → ℝ) = a • 0 + b • 0 by simp)
    have key := hS time
    refine ⟨⟨⟨h.hw₂.bundleName, h.hw₂.lineIndex, h.hw₂.side, h.hw₂.dx, h.hw₂.cSize, h.hw₂.c, h.hw₂.P1, h.hw₂.Ps,
      h.hw₂.Q1, h.hw₂.Qs, h.hw₂.M, h.hw₂.N1, h.hw₂.Ns, h.hw₂.O⟩, ⟨h.hw₃.bundleName, h.hw₃.lineIndex, h.hw₃.side,
      h.hw₃.dx, h.hw₃.cSize, h.hw₃.c, h.hw₃.P1, h.hw₃.Ps, h.hw₃.Q1, h.hw₃.Qs, h.hw₃.M, h.hw₃.N1, h.hw₃.Ns, h.hw₃.O⟩,
      ?_, h.v, h.i, ?_, h.vS, h.eT⟩, rfl, rfl⟩
    · intro x
      simp only [hH, hK, key, mulVec_add, mulVec_smul, Pi.add_apply, Pi.smul_apply, smul_eq_mul]
      ring
    · intro x
      simp only [hH, hK, key, mulVec_add, mulVec_smul, Pi.add_apply, Pi.smul_apply, smul_eq_mul]
      ring

/-- Bundles of the same name correspond. -/
theorem find_comb {a b : ℝ} {l₁ l₂ l₃ : List (AnyBundle p)} (h : All3 (BundleReady a b) l₁ l₂ l₃) (name : String) :
    (findBundle l₁ name = none ∧ findBundle l₂ name = none ∧ findBundle l₃ name = none) ∨
    ∃ s₁ s₂ s₃, findBundle l₁ name = some s₁ ∧ findBundle l₂ name = some s₂ ∧ findBundle l₃ name = some s₃ ∧
      BundleReady a b s₁ s₂ s₃ := by
  induction h with
  | nil => left; exact ⟨rfl, rfl, rfl⟩
  | cons hr _ ih =>
    obtain ⟨hc⟩ := hr
    rename_i n s₁ s₂ s₃
    unfold findBundle at *
    simp only [List.find?_cons]
    have e2 : s₂.name = s₁.name := hc.hw₂.name
    have e3 : s₃.name = s₁.name := hc.hw₃.name
    simp only [e2, e3]
    by_cases hn : s₁.name = name
    · right
      simp only [hn, decide_true]
      exact ⟨_, _, _, rfl, rfl, rfl, .mk hc⟩
    · simp only [hn, decide_false]
      exact ih

theorem readCurrent_comb {a b : ℝ} {l₁ l₂ l₃ : List (AnyBundle p)} (h : All3 (BundleReady a b) l₁ l₂ l₃)
    {d₁ d₂ d₃ : Node} (n2 : d₂.bundleName = d₁.bundleName) (n3 : d₃.bundleName = d₁.bundleName)
    (i2 : d₂.lineIndex = d₁.lineIndex) (i3 : d₃.lineIndex = d₁.lineIndex) (s2 : d₂.side = d₁.side)
    (s3 : d₃.side = d₁.side) {x₁ x₂ x₃ : ℝ} (h₁ : readCurrent l₁ d₁ = .ok x₁) (h₂ : readCurrent l₂ d₂ = .ok x₂)
    (h₃ : readCurrent l₃ d₃ = .ok x₃) : x₃ = a * x₁ + b * x₂ := by
  unfold readCurrent at h₁ h₂ h₃
  rw [n2] at h₂
  rw [n3] at h₃
  rcases find_comb h d₁.bundleName with ⟨e1, -, -⟩ | ⟨t₁, t₂, t₃, e1, e2, e3, hr⟩
  · rw [e1] at h₁; simp at h₁
  · rw [e1] at h₁
    rw [e2] at h₂
    rw [e3] at h₃
    obtain ⟨hc⟩ := hr
    simp only [i2, i3, s2, s3, hc.hw₂.m, hc.hw₃.m] at h₁ h₂ h₃
    split at h₁
    · rename_i hcond
      rw [dif_pos hcond] at h₂ h₃
      simp only [Except.ok.injEq] at h₁ h₂ h₃
      rw [← h₁, ← h₂, ← h₃, hc.i]
      ring
    · simp at h₁

theorem Network.CombReady.currents {a b : ℝ} {l₁ l₂ l₃ : List (AnyBundle p)} (hl : All3 (BundleReady a b) l₁ l₂ l₃)
    {s₁ s₂ s₃ s₁' s₂' s₃' : Network N S} (h : Network.CombReady a b s₁ s₂ s₃) (h₁ : s₁.updateCurrents l₁ = .ok s₁')
    (h₂ : s₂.updateCurrents l₂ = .ok s₂') (h₃ : s₃.updateCurrents l₃ = .ok s₃') :
    Network.CombReady a b s₁' s₂' s₃' := by
  obtain ⟨i1, r1, rfl⟩ := updateCurrents_ok_iff.1 h₁
  obtain ⟨i2, r2, rfl⟩ := updateCurrents_ok_iff.1 h₂
  obtain ⟨i3, r3, rfl⟩ := updateCurrents_ok_iff.1 h₃
  exact ⟨⟨⟨h.hw₂.bundleName, h.hw₂.lineIndex, h.hw₂.side, h.hw₂.dx, h.hw₂.cSize, h.hw₂.c, h.hw₂.P1, h.hw₂.Ps,
      h.hw₂.Q1, h.hw₂.Qs, h.hw₂.M, h.hw₂.N1, h.hw₂.Ns, h.hw₂.O⟩, ⟨h.hw₃.bundleName, h.hw₃.lineIndex, h.hw₃.side,
      h.hw₃.dx, h.hw₃.cSize, h.hw₃.c, h.hw₃.P1, h.hw₃.Ps, h.hw₃.Q1, h.hw₃.Qs, h.hw₃.M, h.hw₃.N1, h.hw₃.Ns, h.hw₃.O⟩,
      h.v, h.vPrev, fun x => readCurrent_comb hl (h.hw₂.bundleName x) (h.hw₃.bundleName x) (h.hw₂.lineIndex x)
        (h.hw₃.lineIndex x) (h.hw₂.side x) (h.hw₃.side x) (r1 x) (r2 x) (r3 x), h.X, h.vS, h.eT⟩, h.t₂, h.t₃⟩

theorem forAll_comb {a b : ℝ} {R : ∀ {N S}, Network N S → Network N S → Network N S → Prop}
    {RL : ℕ × AnyNetwork → ℕ × AnyNetwork → ℕ × AnyNetwork → Prop}
    {RL' : ℕ × AnyNetwork → ℕ × AnyNetwork → ℕ × AnyNetwork → Prop}
    {f₁ f₂ f₃ : ∀ {N S}, Network N S → Py (Network N S)}
    (hRL : ∀ {e₁ e₂ e₃}, RL e₁ e₂ e₃ → ∃ (l N S : ℕ) (s₁ s₂ s₃ : Network N S), e₁ = (l, ⟨N, S, s₁⟩) ∧ e₂ = (l, ⟨N, S, s₂⟩) ∧
      e₃ = (l, ⟨N, S, s₃⟩) ∧ ∀ {s₁' s₂' s₃'}, f₁ s₁ = .ok s₁' → f₂ s₂ = .ok s₂' → f₃ s₃ = .ok s₃' →
        RL' (l, ⟨N, S, s₁'⟩) (l, ⟨N, S, s₂'⟩) (l, ⟨N, S, s₃'⟩))
    {l₁ l₂ l₃ l₁' l₂' l₃' : List NetworkD} (h : All3 (All3 RL) l₁ l₂ l₃)
    (h₁ : mapPy (NetworkD.forAll f₁) l₁ = .ok l₁') (h₂ : mapPy (NetworkD.forAll f₂) l₂ = .ok l₂')
    (h₃ : mapPy (NetworkD.forAll f₃) l₃ = .ok l₃') : All3 (All3 RL') l₁' l₂' l₃' := by
  refine mapPy_all3 ?_ h h₁ h₂ h₃
  intro d₁ d₂ d₃ d₁' d₂' d₃' hd g₁ g₂ g₃
  refine mapPy_all3 ?_ hd g₁ g₂ g₃
  intro e₁ e₂ e₃ e₁' e₂' e₃' he k₁ k₂ k₃
  obtain ⟨l, N, S, s₁, s₂, s₃, rfl, rfl, rfl, hstep⟩ := hRL he
  simp only [bind_ok_iff, onAny_ok_iff, Except.ok.injEq] at k₁ k₂ k₃
  obtain ⟨_, ⟨c₁, q₁, rfl⟩, rfl⟩ := k₁
  obtain ⟨_, ⟨c₂, q₂, rfl⟩, rfl⟩ := k₂
  obtain ⟨_, ⟨c₃, q₃, rfl⟩, rfl⟩ := k₃
  exact hstep q₁ q₂ q₃

/-! ## Managers -/

/-- Superposition of managers in a run. -/
structure MTLN.CombReady (a b : ℝ) (M₁ M₂ M₃ : MTLN p) : Prop where
  dt₂ : M₂.dt = M₁.dt
  dt₃ : M₃.dt = M₁.dt
  time₂ : M₂.time = M₁.time
  time₃ : M₃.time = M₁.time
  bundles : All3 (BundleReady a b) M₁.bundles M₂.bundles M₃.bundles
  networks : All3 (All3 (LevelReady a b)) M₁.networks M₂.networks M₃.networks

theorem MTLN.CombReady.comb {a b : ℝ} {M₁ M₂ M₃ : MTLN p} (h : MTLN.CombReady a b M₁ M₂ M₃) : MTLN.Comb a b M₁ M₂ M₃ :=
  ⟨h.dt₂, h.dt₃, h.time₂, h.time₃, h.bundles.mono fun ⟨hc⟩ => .mk hc.toComb,
    h.networks.mono fun hl => hl.mono fun ⟨hc⟩ => .mk hc.toComb⟩

theorem writes_comb {a b : ℝ} {l₁ l₂ l₃ : List NetworkD} (h : All3 (All3 (LevelReady a b)) l₁ l₂ l₃) :
    All3 (WriteComb a b) (allWrites l₁) (allWrites l₂) (allWrites l₃) := by
  refine All3.flatMap ?_ h
  intro d₁ d₂ d₃ hd
  refine All3.flatMap ?_ hd
  rintro _ _ _ ⟨hc⟩
  refine All3.ofFn fun x => ⟨?_, ?_, hc.v x⟩
  · simp only [Write.target, hc.hw₂.bundleName, hc.hw₂.lineIndex, hc.hw₂.side]
  · simp only [Write.target, hc.hw₃.bundleName, hc.hw₃.lineIndex, hc.hw₃.side]

theorem MTLN.CombReady.step {a b : ℝ} {M₁ M₂ M₃ M₁' M₂' M₃' : MTLN p} (h : MTLN.CombReady a b M₁ M₂ M₃)
    (h₁ : M₁.step = .ok M₁') (h₂ : M₂.step = .ok M₂') (h₃ : M₃.step = .ok M₃') : MTLN.CombReady a b M₁' M₂' M₃' := by
  obtain ⟨nA1, bB1, nC1, e1, -, f1, g1, rfl⟩ := MTLN.step_ok_iff.1 h₁
  obtain ⟨nA2, bB2, nC2, e2, -, f2, g2, rfl⟩ := MTLN.step_ok_iff.1 h₂
  obtain ⟨nA3, bB3, nC3, e3, -, f3, g3, rfl⟩ := MTLN.step_ok_iff.1 h₃
  rw [h.time₂, h.dt₂] at e2 f2
  rw [h.time₃, h.dt₃] at e3 f3
  have hA : All3 (All3 (LevelReady a b)) nA1 nA2 nA3 := by
    refine forAll_comb (a := a) (b := b) (R := fun _ _ _ => True) ?_ h.networks e1 e2 e3
    rintro _ _ _ ⟨hc⟩
    exact ⟨_, _, _, _, _, _, rfl, rfl, rfl, fun q1 q2 q3 => .mk (hc.advance q1 q2 q3)⟩
  have hB : All3 (BundleReady a b) bB1 bB2 bB3 := by
    refine mapPy_all3 ?_ h.bundles f1 f2 f3
    rintro _ _ _ _ _ _ ⟨hc⟩ q1 q2 q3
    obtain ⟨c1, q1', rfl⟩ := onBundle_ok_iff.1 q1
    obtain ⟨c2, q2', rfl⟩ := onBundle_ok_iff.1 q2
    obtain ⟨c3, q3', rfl⟩ := onBundle_ok_iff.1 q3
    exact .mk (hc.stepWith (writes_comb hA) q1' q2' q3')
  refine ⟨h.dt₂, h.dt₃, by simp only [h.time₂, h.dt₂], by simp only [h.time₃, h.dt₃], hB, ?_⟩
  refine forAll_comb (a := a) (b := b) (R := fun _ _ _ => True) ?_ hA g1 g2 g3
  rintro _ _ _ ⟨hc⟩
  exact ⟨_, _, _, _, _, _, rfl, rfl, rfl, fun q1 q2 q3 => .mk (hc.currents hB q1 q2 q3)⟩

theorem All3.map {α β : Type} {R : α → α → α → Prop} {R' : β → β → β → Prop} {f : α → β}
    (hf : ∀ {a b c}, R a b c → R' (f a) (f b) (f c)) {l₁ l₂ l₃ : List α} (h : All3 R l₁ l₂ l₃) :
    All3 R' (l₁.map f) (l₂.map f) (l₃.map f) := by
  induction h with
  | nil => exact .nil
  | cons hr _ ih => exact .cons (hf hr) ih

theorem MTLN.Comb.start {a b T dt : ℝ} {k₁ k₂ k₃ : ℕ} {M₁ M₂ M₃ M₁' M₂' M₃' : MTLN p} (h : MTLN.Comb a b M₁ M₂ M₃)
    (h₁ : M₁.start T dt = .ok (k₁, M₁')) (h₂ : M₂.start T dt = .ok (k₂, M₂')) (h₃ : M₃.start T dt = .ok (k₃, M₃')) :
    k₂ = k₁ ∧ k₃ = k₁ ∧ MTLN.CombReady a b M₁' M₂' M₃' := by
  obtain ⟨nA1, bB1, e1, -, rfl, f1, rfl⟩ := MTLN.start_ok_iff.1 h₁
  obtain ⟨nA2, bB2, e2, -, rfl, f2, rfl⟩ := MTLN.start_ok_iff.1 h₂
  obtain ⟨nA3, bB3, e3, -, rfl, f3, rfl⟩ := MTLN.start_ok_iff.1 h₃
  have r2 : M₂.runDt dt = M₁.runDt dt := by rw [MTLN.runDt_eq, MTLN.runDt_eq, h.dt₂]
  have r3 : M₃.runDt dt = M₁.runDt dt := by rw [MTLN.runDt_eq, MTLN.runDt_eq, h.dt₃]
  rw [r2] at e2 f2
  rw [r3] at e3 f3
  have hb : All3 (BundleComb a b) (M₁.overrideDt dt).bundles (M₂.overrideDt dt).bundles (M₃.overrideDt dt).bundles := by
    unfold MTLN.overrideDt
    split
    · refine h.bundles.map ?_
      rintro _ _ _ ⟨hc⟩
      exact .mk ⟨⟨hc.hw₂.name, hc.hw₂.m, hc.hw₂.dun, hc.hw₂.l, hc.hw₂.c, hc.hw₂.r, hc.hw₂.g, rfl, hc.hw₂.tz⟩,
        ⟨hc.hw₃.name, hc.hw₃.m, hc.hw₃.dun, hc.hw₃.l, hc.hw₃.c, hc.hw₃.r, hc.hw₃.g, rfl, hc.hw₃.tz⟩, hc.v, hc.i, hc.phi,
        hc.eL, hc.eT⟩
    · exact h.bundles
  have ht : ∀ M : MTLN p, (M.overrideDt dt).time = M.time := by
    intro M; unfold MTLN.overrideDt; split <;> rfl
  refine ⟨by rw [r2], by rw [r3], r2, r3, ?_, ?_, ?_, ?_⟩
  · show (M₂.overrideDt dt).time = (M₁.overrideDt dt).time
    rw [ht, ht, h.time₂]
  · show (M₃.overrideDt dt).time = (M₁.overrideDt dt).time
    rw [ht, ht, h.time₃]
  · refine mapPy_all3 ?_ hb f1 f2 f3
    rintro _ _ _ _ _ _ ⟨hc⟩ q1 q2 q3
    obtain ⟨c1, q1', rfl⟩ := onBundle_ok_iff.1 q1
    obtain ⟨c2, q2', rfl⟩ := onBundle_ok_iff.1 q2
    obtain ⟨c3, q3', rfl⟩ := onBundle_ok_iff.1 q3
    obtain ⟨lr1, cg1, u1, w1, rfl⟩ := MTLD.start_ok_iff.1 q1'
    obtain ⟨lr2, cg2, u2, w2, rfl⟩ := MTLD.start_ok_iff.1 q2'
    obtain ⟨lr3, cg3, u3, w3, rfl⟩ := MTLD.start_ok_iff.1 q3'
    simp only at u1 u2 u3 w1 w2 w3
    rw [hc.hw₂.m, hc.hw₂.dt, hc.hw₂.dun] at u2 w2
    rw [hc.hw₃.m, hc.hw₃.dt, hc.hw₃.dun] at u3 w3
    rw [hc.hw₂.l, hc.hw₂.r, hc.hw₂.tz, u1] at u2
    rw [hc.hw₃.l, hc.hw₃.r, hc.hw₃.tz, u1] at u3
    rw [hc.hw₂.c, hc.hw₂.g, w1] at w2
    rw [hc.hw₃.c, hc.hw₃.g, w1] at w3
    obtain rfl := Except.ok.inj u2
    obtain rfl := Except.ok.inj u3
    obtain rfl := Except.ok.inj w2
    obtain rfl := Except.ok.inj w3
    exact .mk ⟨⟨⟨hc.hw₂.name, hc.hw₂.m, hc.hw₂.dun, hc.hw₂.l, hc.hw₂.c, hc.hw₂.r, hc.hw₂.g, hc.hw₂.dt, hc.hw₂.tz⟩,
      ⟨hc.hw₃.name, hc.hw₃.m, hc.hw₃.dun, hc.hw₃.l, hc.hw₃.c, hc.hw₃.r, hc.hw₃.g, hc.hw₃.dt, hc.hw₃.tz⟩, hc.v, hc.i,
      hc.phi, hc.eL, hc.eT⟩, rfl, rfl, rfl, rfl⟩
  · refine forAll_comb (a := a) (b := b) (R := fun _ _ _ => True) ?_ h.networks e1 e2 e3
    rintro _ _ _ ⟨hc⟩
    refine ⟨_, _, _, _, _, _, rfl, rfl, rfl, fun q1 q2 q3 => .mk ?_⟩
    obtain ⟨-, -, rfl⟩ := computeVTerms_ok_iff.1 q1
    obtain ⟨-, -, rfl⟩ := computeVTerms_ok_iff.1 q2
    obtain ⟨-, -, rfl⟩ := computeVTerms_ok_iff.1 q3
    refine ⟨⟨⟨hc.hw₂.bundleName, hc.hw₂.lineIndex, hc.hw₂.side, hc.hw₂.dx, hc.hw₂.cSize, hc.hw₂.c, hc.hw₂.P1,
      hc.hw₂.Ps, hc.hw₂.Q1, hc.hw₂.Qs, hc.hw₂.M, hc.hw₂.N1, hc.hw₂.Ns, hc.hw₂.O⟩, ⟨hc.hw₃.bundleName,
      hc.hw₃.lineIndex, hc.hw₃.side, hc.hw₃.dx, hc.hw₃.cSize, hc.hw₃.c, hc.hw₃.P1, hc.hw₃.Ps, hc.hw₃.Q1, hc.hw₃.Qs,
      hc.hw₃.M, hc.hw₃.N1, hc.hw₃.Ns, hc.hw₃.O⟩, hc.v, hc.vPrev, hc.i, hc.X, hc.vS, hc.eT⟩, ?_, ?_⟩
    · simp only [hc.hw₂.dxc, hc.hw₂.P1, hc.hw₂.Ps, hc.hw₂.Q1, hc.hw₂.Qs, hc.hw₂.M, hc.hw₂.N1, hc.hw₂.Ns, hc.hw₂.O]
    · simp only [hc.hw₃.dxc, hc.hw₃.P1, hc.hw₃.Ps, hc.hw₃.Q1, hc.hw₃.Qs, hc.hw₃.M, hc.hw₃.N1, hc.hw₃.Ns, hc.hw₃.O]

end Mtln
