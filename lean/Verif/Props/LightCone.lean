import Verif.Props.ManagerOrder
import Verif.Lemmas.ManagerComb

/-!
# C149: where and when the excitations of a manager can act

Two managers with the same hardware are compared at each place up to the step at which a difference can have arrived there.
A function `d` gives for each node of each bundle the number of that step. It changes by at most one from a node to the next
one, and it is the same at all ends that a network joins.
-/

namespace Mtln

open Matrix

variable {n p N S : ℕ} {Q : ℝ → Prop}

/-! ## The relation -/

/-- Up to step `j` a difference cannot have been at the nodes with `j ≤ d`: there, the values in `t` are `c` times those in
`s`. The fields that act on `t`, `σ` later than those on `s`, are `c` times those on `s` until `d` steps of length `h` after `t0`. -/
structure MTLD.Cone (c t0 σ h : ℝ) (d : ℕ → ℝ) (j : ℝ) (s t : MTLD n p) : Prop where
  hw : s.SameHardware t
  slope : ∀ k < s.m, |d (k + 1) - d k| ≤ 1
  v : ∀ k ≤ s.m, j ≤ d k → ∀ x, t.v k x = c * s.v k x
  i : ∀ k < s.m, j ≤ d k → j ≤ d (k + 1) → ∀ x, t.i k x = c * s.i k x
  phi : ∀ k < s.m, j ≤ d k → j ≤ d (k + 1) → ∀ x r, t.phi k x r = c * s.phi k x r
  eT : ∀ k ≤ s.m, ∀ x τ, τ < t0 + d k * h → t.eT k x (τ + σ) = c * s.eT k x τ
  eL : ∀ k < s.m, ∀ x τ, τ < t0 + d k * h → τ < t0 + d (k + 1) * h → t.eL k x (τ + σ) = c * s.eL k x τ

/-- The same for bundles of some size, with a function of the name and the node. -/
inductive BundleCone (c t0 σ h : ℝ) (d : String → ℕ → ℝ) (j : ℝ) : AnyBundle p → AnyBundle p → Prop
  | mk {n : ℕ} {s t : MTLD n p} : MTLD.Cone c t0 σ h (d s.name) j s t → BundleCone c t0 σ h d j ⟨n, s⟩ ⟨n, t⟩

/-- The same for networks, with `δ` the value of `d` at all ends that it joins, for bundles of names and sizes in `G`. -/
structure Network.Cone (Q : ℝ → Prop) (c t0 σ h : ℝ) (d : String → ℕ → ℝ) (G : List (String × ℕ)) (j : ℝ) (δ : ℝ) (s t : Network N S) : Prop where
  bound : Q δ
  slope : ∀ g ∈ G, ∀ k < g.2, |d g.1 (k + 1) - d g.1 k| ≤ 1
  hw : s.SameHardware t
  joined : ∀ g ∈ G, ∀ a, (s.nodes a).bundleName = g.1 → d g.1 ((s.nodes a).side.node g.2) = δ
  v : j ≤ δ → ∀ x, t.v x = c * s.v x
  vPrev : j ≤ δ → ∀ x, t.vPrev x = c * s.vPrev x
  X : j ≤ δ → ∀ x, t.X x = c * s.X x
  i : ∀ x, (∀ g ∈ G, (s.nodes x).bundleName = g.1 → g.2 ≠ 0 → j ≤ d g.1 ((s.nodes x).side.cell g.2) ∧
    j ≤ d g.1 ((s.nodes x).side.cell g.2 + 1)) → t.i x = c * s.i x
  vS : ∀ x τ, τ < t0 + δ * h → t.vSources x (τ + σ) = c * s.vSources x τ
  eT : ∀ x τ, τ < t0 + δ * h → (t.nodes x).eT (τ + σ) = c * (s.nodes x).eT τ

/-- The same for networks of some size. -/
inductive LevelCone (Q : ℝ → Prop) (c t0 σ h : ℝ) (d : String → ℕ → ℝ) (G : List (String × ℕ)) (j : ℝ) : ℕ × AnyNetwork → ℕ × AnyNetwork → Prop
  | mk {l N S : ℕ} {s t : Network N S} (δ : ℝ) :
    Network.Cone Q c t0 σ h d G j δ s t → LevelCone Q c t0 σ h d G j (l, ⟨N, S, s⟩) (l, ⟨N, S, t⟩)

/-- Names and sizes of bundles. -/
def sizes (bs : List (AnyBundle p)) : List (String × ℕ) := bs.map fun b => (b.2.name, b.2.m)

/-- The same for managers. -/
structure MTLN.Cone (Q : ℝ → Prop) (c t0 σ h : ℝ) (d : String → ℕ → ℝ) (j : ℝ) (M₁ M₂ : MTLN p) : Prop where
  dt : M₂.dt = M₁.dt
  time : M₂.time = M₁.time + σ
  bundles : List.Forall₂ (BundleCone c t0 σ h d j) M₁.bundles M₂.bundles
  networks : List.Forall₂ (List.Forall₂ (LevelCone Q c t0 σ h d (sizes M₁.bundles) j)) M₁.networks M₂.networks

/-! ## One step -/

/-- With coefficients computed. -/
structure MTLD.ConeReady (c t0 σ h : ℝ) (d : ℕ → ℝ) (j : ℝ) (s t : MTLD n p) : Prop extends MTLD.Cone c t0 σ h d j s t where
  lr : t.lr = s.lr
  cg : t.cg = s.cg

inductive BundleConeReady (c t0 σ h : ℝ) (d : String → ℕ → ℝ) (j : ℝ) : AnyBundle p → AnyBundle p → Prop
  | mk {n : ℕ} {s t : MTLD n p} : MTLD.ConeReady c t0 σ h (d s.name) j s t → BundleConeReady c t0 σ h d j ⟨n, s⟩ ⟨n, t⟩

structure Network.ConeReady (Q : ℝ → Prop) (c t0 σ h : ℝ) (d : String → ℕ → ℝ) (G : List (String × ℕ)) (j δ : ℝ) (s t : Network N S) : Prop
    extends Network.Cone Q c t0 σ h d G j δ s t where
  terms : t.terms = s.terms

inductive LevelConeReady (Q : ℝ → Prop) (c t0 σ h : ℝ) (d : String → ℕ → ℝ) (G : List (String × ℕ)) (j : ℝ) : ℕ × AnyNetwork → ℕ × AnyNetwork → Prop
  | mk {l N S : ℕ} {s t : Network N S} (δ : ℝ) :
    Network.ConeReady Q c t0 σ h d G j δ s t → LevelConeReady Q c t0 σ h d G j (l, ⟨N, S, s⟩) (l, ⟨N, S, t⟩)

/-- Two assignments to the same entry. -/
def WriteCone (c : ℝ) (d : String → ℕ → ℝ) (G : List (String × ℕ)) (j : ℝ) (w w' : Write) : Prop :=
  w'.target = w.target ∧ ∀ g ∈ G, w.bundle = g.1 → j ≤ d g.1 (w.side.node g.2) → w'.value = c * w.value

theorem hit_cone {c j : ℝ} {d : String → ℕ → ℝ} {G : List (String × ℕ)} {ws ws' : List Write}
    (h : List.Forall₂ (WriteCone c d G j) ws ws') :
    ∀ {s t : MTLD n p}, (s.name, s.m) ∈ G → t.name = s.name → t.m = s.m →
      (∀ k ≤ s.m, j ≤ d s.name k → ∀ x, t.v k x = c * s.v k x) →
      ∀ k ≤ s.m, j ≤ d s.name k → ∀ x, (t.hit ws').v k x = c * (s.hit ws).v k x := by
  induction h with
  | nil => intro s t _ _ _ h; exact h
  | @cons w w' ws ws' hw _ ih =>
    intro s t hG hn hm hv
    simp only [MTLD.hit_cons]
    have key : ∀ k ≤ (w.on s).m, j ≤ d (w.on s).name k → ∀ x, (w'.on t).v k x = c * (w.on s).v k x := by
      intro k hk hj x
      rw [Write.on_m] at hk
      rw [Write.on_name] at hj
      obtain ⟨ht, hval⟩ := hw
      by_cases hc : w.target.At s k x
      · have h2 : w'.target.At t k x := by rw [ht]; unfold End.At at *; rw [hn, hm]; exact hc
        rw [(w.on_v s k x).1 hc, (w'.on_v t k x).1 h2]
        obtain ⟨c1, c2, -⟩ := hc
        refine hval _ hG c1.symm ?_
        show j ≤ d s.name (w.target.side.node s.m)
        rw [← c2]
        exact hj
      · have h2 : ¬ w'.target.At t k x := by rw [ht]; unfold End.At at *; rw [hn, hm]; exact hc
        rw [(w.on_v s k x).2 hc, (w'.on_v t k x).2 h2, hv k hk hj]
    have := ih (s := w.on s) (t := w'.on t) (by rw [Write.on_name, Write.on_m]; exact hG) (by simp only [Write.on_name, hn])
      (by simp only [Write.on_m, hm]) key
    simp only [Write.on_name, Write.on_m] at this
    exact this

theorem scale_vec {c : ℝ} {x y : Fin n → ℝ} (h : ∀ a, y a = c * x a) : y = c • x := funext fun a => by simp [h a]

theorem MTLD.ConeReady.stepWith {c t0 σ h j time : ℝ} {d : String → ℕ → ℝ} {G : List (String × ℕ)} {ws ws' : List Write}
    (hh : 0 < h) (ht : time = t0 + j * h) (hw : List.Forall₂ (WriteCone c d G (j + 1)) ws ws') {s t s' t' : MTLD n p}
    (hG : (s.name, s.m) ∈ G) (H : MTLD.ConeReady c t0 σ h (d s.name) j s t)
    (h₁ : s.stepWith time h ws = .ok s') (h₂ : t.stepWith (time + σ) h ws' = .ok t') :
    MTLD.ConeReady c t0 σ h (d s'.name) (j + 1) s' t' ∧ s'.name = s.name ∧ s'.m = s.m := by
  obtain ⟨lr, cg, l1, c1, -, rfl⟩ := MTLD.stepWith_ok_iff.1 h₁
  obtain ⟨lr2, cg2, l2, c2, -, rfl⟩ := MTLD.stepWith_ok_iff.1 h₂
  obtain rfl : lr2 = lr := by rw [H.lr, l1] at l2; exact (Option.some.inj l2).symm
  obtain rfl : cg2 = cg := by rw [H.cg, c1] at c2; exact (Option.some.inj c2).symm
  have early : ∀ {k : ℕ} {τ : ℝ}, τ < t0 + (j + 1) * h → j + 1 ≤ d s.name k → τ < t0 + d s.name k * h := by
    intro k τ h1 h2
    exact h1.trans_le (by nlinarith)
  have eTN : ∀ k ≤ s.m, j + 1 ≤ d s.name k → (t.sample (time + σ) h).eTNow k = c • (s.sample time h).eTNow k := by
    intro k hk hj
    refine scale_vec fun x => ?_
    exact H.eT k hk x time (early (by rw [ht]; nlinarith) hj)
  have eTP : ∀ k ≤ s.m, j + 1 ≤ d s.name k → (t.sample (time + σ) h).eTPrev k = c • (s.sample time h).eTPrev k := by
    intro k hk hj
    refine scale_vec fun x => ?_
    have := H.eT k hk x (time - h) (early (by rw [ht]; nlinarith) hj)
    show t.eT k x (time + σ - h) = c * s.eT k x (time - h)
    rw [← this]
    congr 1; ring
  have eLN : ∀ k < s.m, j + 1 ≤ d s.name k → j + 1 ≤ d s.name (k + 1) →
      (t.sample (time + σ) h).eLNow k = c • (s.sample time h).eLNow k := by
    intro k hk hj hj'
    refine scale_vec fun x => ?_
    have := H.eL k hk x (time + h / 2) (early (by rw [ht]; nlinarith) hj) (early (by rw [ht]; nlinarith) hj')
    show t.eL k x (time + σ + h / 2) = c * s.eL k x (time + h / 2)
    rw [← this]
    congr 1; ring
  have eLP : ∀ k < s.m, j + 1 ≤ d s.name k → j + 1 ≤ d s.name (k + 1) →
      (t.sample (time + σ) h).eLPrev k = c • (s.sample time h).eLPrev k := by
    intro k hk hj hj'
    refine scale_vec fun x => ?_
    have := H.eL k hk x (time - h / 2) (early (by rw [ht]; nlinarith) hj) (early (by rw [ht]; nlinarith) hj')
    show t.eL k x (time + σ - h / 2) = c * s.eL k x (time - h / 2)
    rw [← this]
    congr 1; ring
  have v1 : ∀ k ≤ s.m, j + 1 ≤ d s.name k → ∀ x, (t.fieldsWith lr2 cg2 (time + σ) h ws').v k x =
      c * (s.fieldsWith lr2 cg2 time h ws).v k x := by
    simp only [MTLD.fieldsWith_v]
    refine hit_cone (s := ({ s with v := advanceVoltage s.m cg2 (s.sample time h) s.v s.i } : MTLD n p)) hw hG H.hw.name H.hw.m ?_
    intro k hk hj x
    have hk : k ≤ s.m := hk
    have hj : j + 1 ≤ d s.name k := hj
    show advanceVoltage t.m _ _ _ _ k x = c * advanceVoltage s.m _ _ _ _ k x
    have hj0 : j ≤ d s.name k := by linarith
    have hvk : t.v k = c • s.v k := scale_vec (H.v k hk hj0)
    have : advanceVoltage t.m cg2 (t.sample (time + σ) h) t.v t.i k = c • advanceVoltage s.m cg2 (s.sample time h) s.v s.i k := by
      unfold advanceVoltage
      rw [H.hw.m]
      by_cases hc : 0 < k ∧ k < s.m
      · rw [if_pos hc, if_pos hc]
        obtain ⟨k0, km⟩ := hc
        have sl := abs_le.1 (H.slope k km)
        have sl' := abs_le.1 (H.slope (k - 1) (by omega))
        rw [Nat.sub_add_cancel k0] at sl'
        have hik : t.i k = c • s.i k := scale_vec (H.i k km hj0 (by linarith))
        have hik' : t.i (k - 1) = c • s.i (k - 1) :=
          scale_vec (H.i (k - 1) (by omega) (by linarith) (by rw [Nat.sub_add_cancel k0]; exact hj0))
        rw [hvk, hik, hik', eTN k hk hj, eTP k hk hj]
        simp only [mulVec_sub, mulVec_smul, smul_sub]
      · rw [if_neg hc, if_neg hc, hvk]
    rw [this]; rfl
  have i1 : ∀ k < s.m, j + 1 ≤ d s.name k → j + 1 ≤ d s.name (k + 1) → ∀ x, (t.fieldsWith lr2 cg2 (time + σ) h ws').i k x =
      c * (s.fieldsWith lr2 cg2 time h ws).i k x := by
    intro k hk hj hj' x
    have hj0 : j ≤ d s.name k := by linarith
    have hj0' : j ≤ d s.name (k + 1) := by linarith
    have hq : t.tz.q3phi t.phi k = c • s.tz.q3phi s.phi k := by
      rw [H.hw.tz]
      have := q3phi_comb s.tz (a := c) (b := 0) (x := s.phi) (y := s.phi) (z := t.phi) k fun i r => by
        rw [H.phi k hk hj0 hj0' i r]; simp
      simpa using this
    have hvk : (t.fieldsWith lr2 cg2 (time + σ) h ws').v k = c • (s.fieldsWith lr2 cg2 time h ws).v k := scale_vec (v1 k hk.le hj)
    have hvk' : (t.fieldsWith lr2 cg2 (time + σ) h ws').v (k + 1) = c • (s.fieldsWith lr2 cg2 time h ws).v (k + 1) :=
      scale_vec (v1 (k + 1) hk hj')
    have hik : t.i k = c • s.i k := scale_vec (H.i k hk hj0 hj0')
    have : (t.fieldsWith lr2 cg2 (time + σ) h ws').i k = c • (s.fieldsWith lr2 cg2 time h ws).i k := by
      rw [MTLD.fieldsWith_i, MTLD.fieldsWith_i]
      unfold advanceCurrent
      rw [H.hw.m, if_pos hk, if_pos hk, H.hw.dun, hq, hvk, hvk', hik, eTN k hk.le hj, eTN (k + 1) hk hj', eLN k hk hj hj',
        eLP k hk hj hj']
      simp only [mulVec_add, mulVec_sub, mulVec_smul, smul_add, smul_sub]
      module
    rw [this]; rfl
  refine ⟨⟨⟨⟨H.hw.name, H.hw.m, H.hw.dun, H.hw.l, H.hw.c, H.hw.r, H.hw.g, H.hw.dt, H.hw.tz⟩, H.slope, v1, i1, ?_, H.eT, H.eL⟩, H.lr,
    H.cg⟩, rfl, rfl⟩
  intro k hk hj hj' x r
  show (t.fieldsWith lr2 cg2 (time + σ) h ws').phi k x r = c * (s.fieldsWith lr2 cg2 time h ws).phi k x r
  have hk : k < s.m := hk
  have hj : j + 1 ≤ d s.name k := hj
  have hj' : j + 1 ≤ d s.name (k + 1) := hj'
  rw [MTLD.fieldsWith_phi, MTLD.fieldsWith_phi, H.hw.tz]
  have := updatePhi_comb s.tz (a := c) (b := 0) (x := s.phi) (y := s.phi) (z := t.phi)
    (i₁ := (s.fieldsWith lr2 cg2 time h ws).i) (i₂ := (s.fieldsWith lr2 cg2 time h ws).i)
    (i₃ := (t.fieldsWith lr2 cg2 (time + σ) h ws').i) k (fun i r => by
      rw [H.phi k hk (by linarith) (by linarith) i r]; simp) (fun y => by rw [i1 k hk hj hj' y]; simp) x r
  simpa using this

/-! ## Networks -/

/-- The nodes of the cell at an end are at most one away from the end. -/
theorem Network.Cone.near {c t0 σ h j δ : ℝ} {d : String → ℕ → ℝ} {G : List (String × ℕ)} {s t : Network N S}
    (H : Network.Cone Q c t0 σ h d G j δ s t) {g : String × ℕ} (hg : g ∈ G) {x : Fin N} (hn : (s.nodes x).bundleName = g.1)
    (hm : g.2 ≠ 0) : δ - 1 ≤ d g.1 ((s.nodes x).side.cell g.2) ∧ δ - 1 ≤ d g.1 ((s.nodes x).side.cell g.2 + 1) := by
  have hδ := H.joined g hg x hn
  cases hside : (s.nodes x).side with
  | S =>
    rw [hside] at hδ
    have sl := abs_le.1 (H.slope g hg 0 (Nat.pos_of_ne_zero hm))
    simp only [Side.node] at hδ
    refine ⟨?_, ?_⟩
    · show _ ≤ d g.1 0
      linarith
    · show _ ≤ d g.1 (0 + 1)
      linarith
  | L =>
    rw [hside] at hδ
    have hm1 : g.2 - 1 + 1 = g.2 := Nat.sub_add_cancel (Nat.pos_of_ne_zero hm)
    have sl := abs_le.1 (H.slope g hg (g.2 - 1) (by omega))
    rw [hm1] at sl
    simp only [Side.node] at hδ
    refine ⟨?_, ?_⟩
    · show _ ≤ d g.1 (g.2 - 1)
      linarith
    · show _ ≤ d g.1 (g.2 - 1 + 1)
      rw [hm1]
      linarith

theorem Network.ConeReady.advance {c t0 σ h j δ time : ℝ} {d : String → ℕ → ℝ} {G : List (String × ℕ)} (hh : 0 < h)
    (ht : time = t0 + j * h) {s t s' t' : Network N S} (H : Network.ConeReady Q c t0 σ h d G j δ s t)
    (h₁ : s.advanceVoltage time h = .ok s') (h₂ : t.advanceVoltage (time + σ) h = .ok t') :
    (Network.ConeReady Q c t0 σ h d G (j + 1) δ s' t') := by
  unfold Network.advanceVoltage at h₁ h₂
  cases hT : s.terms with
  | none => rw [hT] at h₁; simp at h₁
  | some T =>
    rw [H.terms] at h₂
    rw [hT] at h₁ h₂
    simp only [bind_ok_iff, raiseIf_ok_iff, Except.ok.injEq] at h₁ h₂
    obtain ⟨_, -, _, -, _, -, rfl⟩ := h₁
    obtain ⟨_, -, _, -, _, -, rfl⟩ := h₂
    have key : j + 1 ≤ δ → ∀ z, (T.A⁻¹.mulVec (T.B1.mulVec (Sum.elim t.v t.X) + T.B2.mulVec (fun a => t.vSources a (time + σ))
        + Sum.elim (t.known h (fun a => t.vSources a (time + σ - h)) (fun a => t.vSources a (time + σ - 2 * h))
          (fun a => (t.nodes a).eT (time + σ)) (fun a => (t.nodes a).eT (time + σ - h))) 0)) z =
        c * (T.A⁻¹.mulVec (T.B1.mulVec (Sum.elim s.v s.X) + T.B2.mulVec (fun a => s.vSources a time)
        + Sum.elim (s.known h (fun a => s.vSources a (time - h)) (fun a => s.vSources a (time - 2 * h))
          (fun a => (s.nodes a).eT time) (fun a => (s.nodes a).eT (time - h))) 0)) z := by
      intro hj z
      have hj0 : j ≤ δ := by linarith
      have hv : t.v = c • s.v := scale_vec (H.v hj0)
      have hX : t.X = c • s.X := scale_vec (H.X hj0)
      have hp : t.vPrev = c • s.vPrev := scale_vec (H.vPrev hj0)
      have hi : t.i = c • s.i := scale_vec fun x => H.i x fun g hg hn hm => by
        have hδ := H.joined g hg x hn
        obtain ⟨e1, e2⟩ := H.near hg hn hm
        constructor <;> linarith
      have early : ∀ {τ : ℝ}, τ ≤ time → τ < t0 + δ * h := by
        intro τ h1
        rw [ht] at h1
        nlinarith
      have hS : ∀ τ ≤ time, (fun x => t.vSources x (τ + σ)) = c • fun x => s.vSources x τ :=
        fun τ hτ => scale_vec fun x => H.vS x τ (early hτ)
      have hE : ∀ τ ≤ time, (fun x => (t.nodes x).eT (τ + σ)) = c • fun x => (s.nodes x).eT τ :=
        fun τ hτ => scale_vec fun x => H.eT x τ (early hτ)
      have e1 : time + σ - h = time - h + σ := by ring
      have e2 : time + σ - 2 * h = time - 2 * h + σ := by ring
      have hk : t.known h (fun a => t.vSources a (time + σ - h)) (fun a => t.vSources a (time + σ - 2 * h))
          (fun a => (t.nodes a).eT (time + σ)) (fun a => (t.nodes a).eT (time + σ - h)) =
          c • s.known h (fun a => s.vSources a (time - h)) (fun a => s.vSources a (time - 2 * h))
          (fun a => (s.nodes a).eT time) (fun a => (s.nodes a).eT (time - h)) := by
        rw [e1, e2, hS _ (by linarith), hS _ (by linarith), hE _ le_rfl, hE _ (by linarith)]
        unfold Network.known
        rw [H.hw.dxc, H.hw.O, H.hw.P1, H.hw.Ps, H.hw.Q1, H.hw.Qs, hv, hX, hp, hi]
        simp only [← smul_sub, mulVec_smul]
        module
      have hsum : ∀ {x₁ x₂ : Fin N → ℝ} {y₁ y₂ : Fin S → ℝ}, x₂ = c • x₁ → y₂ = c • y₁ →
          Sum.elim x₂ y₂ = c • Sum.elim x₁ y₁ := by
        rintro x₁ x₂ y₁ y₂ rfl rfl
        funext z
        cases z <;> rfl
      rw [hsum hv hX, hS time le_rfl, hsum hk (show (0 : Fin S → ℝ) = c • 0 by simp)]
      simp only [mulVec_add, mulVec_smul, Pi.add_apply, Pi.smul_apply, smul_eq_mul]
      ring
    exact ⟨⟨H.bound, H.slope, ⟨H.hw.bundleName, H.hw.lineIndex, H.hw.side, H.hw.dx, H.hw.cSize, H.hw.c, H.hw.P1, H.hw.Ps,
      H.hw.Q1, H.hw.Qs, H.hw.M, H.hw.N1, H.hw.Ns, H.hw.O⟩, H.joined, fun hj x => key hj (.inl x), fun hj => H.v (by linarith),
      fun hj x => key hj (.inr x), fun x hx => H.i x fun g hg hn hm => ⟨by linarith [(hx g hg hn hm).1], by linarith [(hx g hg hn hm).2]⟩, H.vS, H.eT⟩, rfl⟩

theorem find_cone {c t0 σ h j : ℝ} {d : String → ℕ → ℝ} {l l' : List (AnyBundle p)}
    (H : List.Forall₂ (BundleConeReady c t0 σ h d j) l l') (name : String) :
    (findBundle l name = none ∧ findBundle l' name = none) ∨
    ∃ n, ∃ s t : MTLD n p, findBundle l name = some ⟨n, s⟩ ∧ findBundle l' name = some ⟨n, t⟩ ∧
      MTLD.ConeReady c t0 σ h (d s.name) j s t := by
  induction H with
  | nil => left; exact ⟨rfl, rfl⟩
  | cons hr _ ih =>
    obtain ⟨hc⟩ := hr
    rename_i n s t
    unfold findBundle at *
    simp only [List.find?_cons]
    have e2 : t.name = s.name := hc.hw.name
    simp only [e2]
    by_cases hn : s.name = name
    · right
      simp only [hn, decide_true]
      exact ⟨_, _, _, rfl, rfl, hn ▸ hc⟩
    · simp only [hn, decide_false]
      exact ih

theorem Network.ConeReady.currents {c t0 σ h j δ : ℝ} {d : String → ℕ → ℝ} {l l' : List (AnyBundle p)}
    (hl : List.Forall₂ (BundleConeReady c t0 σ h d j) l l') {s t s' t' : Network N S}
    (H : Network.ConeReady Q c t0 σ h d (sizes l) j δ s t) (h₁ : s.updateCurrents l = .ok s') (h₂ : t.updateCurrents l' = .ok t') :
    Network.ConeReady Q c t0 σ h d (sizes l) j δ s' t' := by
  obtain ⟨i1, r1, rfl⟩ := updateCurrents_ok_iff.1 h₁
  obtain ⟨i2, r2, rfl⟩ := updateCurrents_ok_iff.1 h₂
  refine ⟨⟨H.bound, H.slope, ⟨H.hw.bundleName, H.hw.lineIndex, H.hw.side, H.hw.dx, H.hw.cSize, H.hw.c, H.hw.P1, H.hw.Ps,
      H.hw.Q1, H.hw.Qs, H.hw.M, H.hw.N1, H.hw.Ns, H.hw.O⟩, H.joined, H.v, H.vPrev, H.X, ?_, H.vS, H.eT⟩, H.terms⟩
  intro x hx
  have q1 := r1 x
  have q2 := r2 x
  unfold readCurrent at q1 q2
  rw [H.hw.bundleName] at q2
  rcases find_cone hl (s.nodes x).bundleName with ⟨e1, -⟩ | ⟨n, b, b', e1, e2, hc⟩
  · rw [e1] at q1; simp at q1
  · rw [e1] at q1
    rw [e2] at q2
    simp only [H.hw.lineIndex, H.hw.side, hc.hw.m] at q1 q2
    split at q1
    · rename_i hcond
      rw [dif_pos hcond] at q2
      simp only [Except.ok.injEq] at q1 q2
      show i2 x = c * i1 x
      have hmem : (⟨n, b⟩ : AnyBundle p) ∈ l := (findBundle_some e1).1
      have hname : b.name = (s.nodes x).bundleName := (findBundle_some e1).2
      have hm : b.m ≠ 0 := hcond.2
      obtain ⟨hx1, hx2⟩ := hx (b.name, b.m) (List.mem_map.2 ⟨⟨n, b⟩, hmem, rfl⟩) hname.symm hm
      have hlt : (s.nodes x).side.cell b.m < b.m := by
        cases (s.nodes x).side <;> simp only [Side.cell] <;> omega
      rw [← q1, ← q2, hc.i _ hlt hx1 hx2]
      ring
    · simp at q1

/-! ## Managers -/

theorem mapPy_rel {α : Type} {R R' : α → α → Prop} {f g : α → Py α}
    (h : ∀ a b a' b', R a b → f a = .ok a' → g b = .ok b' → R' a' b') :
    ∀ {l k l' k' : List α}, List.Forall₂ R l k → mapPy f l = .ok l' → mapPy g k = .ok k' → List.Forall₂ R' l' k'
  | _, _, _, _, .nil, h1, h2 => by
    simp only [mapPy, Except.ok.injEq] at h1 h2
    subst h1; subst h2
    exact .nil
  | _, _, _, _, .cons hr hl, h1, h2 => by
    simp only [mapPy, bind_ok_iff, Except.ok.injEq] at h1 h2
    obtain ⟨a, e1, l1, f1, rfl⟩ := h1
    obtain ⟨b, e2, l2, f2, rfl⟩ := h2
    exact .cons (h _ _ _ _ hr e1 e2) (mapPy_rel h hl f1 f2)

theorem forAll_rel {RL RL' : ℕ × AnyNetwork → ℕ × AnyNetwork → Prop} {f g : ∀ {N S}, Network N S → Py (Network N S)}
    (hRL : ∀ {e₁ e₂}, RL e₁ e₂ → ∃ (l N S : ℕ) (s t : Network N S), e₁ = (l, ⟨N, S, s⟩) ∧ e₂ = (l, ⟨N, S, t⟩) ∧
      ∀ {s' t'}, f s = .ok s' → g t = .ok t' → RL' (l, ⟨N, S, s'⟩) (l, ⟨N, S, t'⟩))
    {l₁ l₂ l₁' l₂' : List NetworkD} (h : List.Forall₂ (List.Forall₂ RL) l₁ l₂)
    (h₁ : mapPy (NetworkD.forAll f) l₁ = .ok l₁') (h₂ : mapPy (NetworkD.forAll g) l₂ = .ok l₂') :
    List.Forall₂ (List.Forall₂ RL') l₁' l₂' := by
  refine mapPy_rel ?_ h h₁ h₂
  intro d₁ d₂ d₁' d₂' hd g₁ g₂
  refine mapPy_rel ?_ hd g₁ g₂
  intro e₁ e₂ e₁' e₂' he k₁ k₂
  obtain ⟨l, N, S, s, t, rfl, rfl, hstep⟩ := hRL he
  simp only [bind_ok_iff, onAny_ok_iff, Except.ok.injEq] at k₁ k₂
  obtain ⟨_, ⟨c₁, q₁, rfl⟩, rfl⟩ := k₁
  obtain ⟨_, ⟨c₂, q₂, rfl⟩, rfl⟩ := k₂
  exact hstep q₁ q₂

theorem flatMap_rel {α β : Type} {R : α → α → Prop} {R' : β → β → Prop} {f : α → List β}
    (hf : ∀ {a b}, R a b → List.Forall₂ R' (f a) (f b)) {l k : List α} (h : List.Forall₂ R l k) :
    List.Forall₂ R' (l.flatMap f) (k.flatMap f) := by
  induction h with
  | nil => exact .nil
  | cons hr _ ih =>
    simp only [List.flatMap_cons]
    exact List.rel_append (hf hr) ih

theorem ofFn_rel {α : Type} {R : α → α → Prop} : ∀ {N : ℕ} {f g : Fin N → α}, (∀ a, R (f a) (g a)) →
    List.Forall₂ R (List.ofFn f) (List.ofFn g)
  | 0, f, g, _ => by simp only [List.ofFn_zero]; exact .nil
  | N + 1, f, g, hR => by
    simp only [List.ofFn_succ]
    exact .cons (hR 0) (ofFn_rel fun a => hR a.succ)

theorem writes_cone {c t0 σ h j : ℝ} {d : String → ℕ → ℝ} {G : List (String × ℕ)} {l l' : List NetworkD}
    (H : List.Forall₂ (List.Forall₂ (LevelConeReady Q c t0 σ h d G j)) l l') :
    List.Forall₂ (WriteCone c d G j) (allWrites l) (allWrites l') := by
  refine flatMap_rel ?_ H
  intro d₁ d₂ hd
  refine flatMap_rel ?_ hd
  rintro _ _ ⟨δ, hc⟩
  refine ofFn_rel fun x => ⟨?_, ?_⟩
  · simp only [Write.target, hc.hw.bundleName, hc.hw.lineIndex, hc.hw.side]
  · intro g hg hn hj
    refine hc.v ?_ x
    rw [← hc.joined g hg x hn]
    exact hj

/-- With coefficients and matrices computed. -/
structure MTLN.ConeReady (Q : ℝ → Prop) (c t0 σ h : ℝ) (d : String → ℕ → ℝ) (j : ℝ) (M₁ M₂ : MTLN p) : Prop where
  dt₁ : M₁.dt = h
  dt₂ : M₂.dt = h
  time₁ : M₁.time = t0 + j * h
  time₂ : M₂.time = M₁.time + σ
  bundles : List.Forall₂ (BundleConeReady c t0 σ h d j) M₁.bundles M₂.bundles
  networks : List.Forall₂ (List.Forall₂ (LevelConeReady Q c t0 σ h d (sizes M₁.bundles) j)) M₁.networks M₂.networks

theorem mapPy_rel_mem {α : Type} {R R' : α → α → Prop} {f g : α → Py α} :
    ∀ {l k l' k' : List α}, (∀ a ∈ l, ∀ b a' b', R a b → f a = .ok a' → g b = .ok b' → R' a' b') → List.Forall₂ R l k →
      mapPy f l = .ok l' → mapPy g k = .ok k' → List.Forall₂ R' l' k'
  | _, _, _, _, _, .nil, h1, h2 => by
    simp only [mapPy, Except.ok.injEq] at h1 h2
    subst h1; subst h2
    exact .nil
  | _, _, _, _, h, .cons hr hl, h1, h2 => by
    simp only [mapPy, bind_ok_iff, Except.ok.injEq] at h1 h2
    obtain ⟨a, e1, l1, f1, rfl⟩ := h1
    obtain ⟨b, e2, l2, f2, rfl⟩ := h2
    exact .cons (h _ List.mem_cons_self _ _ _ hr e1 e2) (mapPy_rel_mem (fun a ha => h a (List.mem_cons_of_mem _ ha)) hl f1 f2)

theorem sizes_step {time dt : ℝ} {ws : List Write} {bs bs' : List (AnyBundle p)}
    (h : mapPy (onBundle (MTLD.stepWith time dt ws)) bs = .ok bs') : sizes bs' = sizes bs := by
  have h' := mapPy_ok_iff.1 h
  clear h
  induction h' with
  | nil => rfl
  | cons hr _ ih =>
    obtain ⟨c, q, rfl⟩ := onBundle_ok_iff.1 hr
    obtain ⟨lr, cg, -, -, -, rfl⟩ := MTLD.stepWith_ok_iff.1 q
    simp only [sizes, List.map_cons] at ih ⊢
    rw [ih]
    rfl

theorem MTLN.ConeReady.step {c t0 σ h j : ℝ} {d : String → ℕ → ℝ} (hh : 0 < h) {M₁ M₂ M₁' M₂' : MTLN p}
    (H : MTLN.ConeReady Q c t0 σ h d j M₁ M₂) (h₁ : M₁.step = .ok M₁') (h₂ : M₂.step = .ok M₂') :
    MTLN.ConeReady Q c t0 σ h d (j + 1) M₁' M₂' := by
  obtain ⟨nA1, bB1, nC1, e1, -, f1, g1, rfl⟩ := MTLN.step_ok_iff.1 h₁
  obtain ⟨nA2, bB2, nC2, e2, -, f2, g2, rfl⟩ := MTLN.step_ok_iff.1 h₂
  rw [H.dt₁] at e1 f1
  rw [H.time₂, H.dt₂] at e2 f2
  have hA : List.Forall₂ (List.Forall₂ (LevelConeReady Q c t0 σ h d (sizes M₁.bundles) (j + 1))) nA1 nA2 := by
    refine forAll_rel ?_ H.networks e1 e2
    rintro _ _ ⟨δ, hc⟩
    exact ⟨_, _, _, _, _, rfl, rfl, fun q1 q2 => .mk δ (hc.advance hh H.time₁ q1 q2)⟩
  have hB : List.Forall₂ (BundleConeReady c t0 σ h d (j + 1)) bB1 bB2 := by
    refine mapPy_rel_mem ?_ H.bundles f1 f2
    rintro _ hmem _ _ _ ⟨hc⟩ q1 q2
    obtain ⟨c1, q1', rfl⟩ := onBundle_ok_iff.1 q1
    obtain ⟨c2, q2', rfl⟩ := onBundle_ok_iff.1 q2
    exact .mk (hc.stepWith hh H.time₁ (writes_cone hA) (List.mem_map.2 ⟨_, hmem, rfl⟩) q1' q2').1
  have hs : sizes bB1 = sizes M₁.bundles := sizes_step f1
  refine ⟨H.dt₁, H.dt₂, ?_, ?_, hB, ?_⟩
  · show M₁.time + M₁.dt = _
    rw [H.dt₁, H.time₁]; ring
  · show M₂.time + M₂.dt = M₁.time + M₁.dt + σ
    rw [H.dt₁, H.dt₂, H.time₂]; ring
  · rw [← hs] at hA
    show List.Forall₂ (List.Forall₂ (LevelConeReady Q c t0 σ h d (sizes bB1) (j + 1))) nC1 nC2
    refine forAll_rel ?_ hA g1 g2
    rintro _ _ ⟨δ, hc⟩
    exact ⟨_, _, _, _, _, rfl, rfl, fun q1 q2 => .mk δ (hc.currents hB q1 q2)⟩

theorem MTLN.ConeReady.iterate {c t0 σ h : ℝ} {d : String → ℕ → ℝ} (hh : 0 < h) {k : ℕ} {j : ℝ} {tr tr' : ℕ → MTLN p}
    (H : MTLN.ConeReady Q c t0 σ h d j (tr 0) (tr' 0)) (h₁ : ∀ x < k, (tr x).step = .ok (tr (x + 1)))
    (h₂ : ∀ x < k, (tr' x).step = .ok (tr' (x + 1))) : ∀ x ≤ k, MTLN.ConeReady Q c t0 σ h d (j + x) (tr x) (tr' x) := by
  intro x
  induction x with
  | zero => intro _; simpa using H
  | succ x ih =>
    intro hx
    have := (ih (by omega)).step hh (h₁ x (by omega)) (h₂ x (by omega))
    push_cast
    rw [← add_assoc]
    exact this

theorem forall₂_map {α : Type} {R R' : α → α → Prop} {f : α → α} (hf : ∀ {a b}, R a b → R' (f a) (f b)) {l k : List α}
    (h : List.Forall₂ R l k) : List.Forall₂ R' (l.map f) (k.map f) := by
  induction h with
  | nil => exact .nil
  | cons hr _ ih => exact .cons (hf hr) ih

theorem sizes_override (dt : ℝ) (M : MTLN p) : sizes (M.overrideDt dt).bundles = sizes M.bundles := by
  unfold MTLN.overrideDt
  split
  · simp only [sizes, List.map_map]
    rfl
  · rfl

theorem sizes_start {k : ℕ} {bs bs' : List (AnyBundle p)} (h : mapPy (onBundle (MTLD.start k)) bs = .ok bs') :
    sizes bs' = sizes bs := by
  have h' := mapPy_ok_iff.1 h
  clear h
  induction h' with
  | nil => rfl
  | cons hr _ ih =>
    obtain ⟨c, q, rfl⟩ := onBundle_ok_iff.1 hr
    obtain ⟨lr, cg, -, -, rfl⟩ := MTLD.start_ok_iff.1 q
    simp only [sizes, List.map_cons] at ih ⊢
    rw [ih]

theorem MTLN.overrideDt_time (dt : ℝ) (M : MTLN p) : (M.overrideDt dt).time = M.time := by
  unfold MTLN.overrideDt
  split <;> rfl

theorem start_cone {c t0 σ T T' dt : ℝ} {d : String → ℕ → ℝ} {k k' : ℕ} {M₁ M₂ M₁' M₂' : MTLN p} (hdt : M₂.dt = M₁.dt)
    (hbs : List.Forall₂ (BundleCone c t0 σ (M₁.runDt dt) d 0) M₁.bundles M₂.bundles)
    (hns : List.Forall₂ (List.Forall₂ (LevelCone Q c t0 σ (M₁.runDt dt) d (sizes M₁.bundles) 0)) M₁.networks M₂.networks)
    (h₁ : M₁.start T dt = .ok (k, M₁')) (h₂ : M₂.start T' dt = .ok (k', M₂')) :
    List.Forall₂ (BundleConeReady c t0 σ (M₁.runDt dt) d 0) M₁'.bundles M₂'.bundles ∧
    List.Forall₂ (List.Forall₂ (LevelConeReady Q c t0 σ (M₁.runDt dt) d (sizes M₁'.bundles) 0)) M₁'.networks M₂'.networks := by
  obtain ⟨nA1, bB1, e1, -, rfl, f1, rfl⟩ := MTLN.start_ok_iff.1 h₁
  obtain ⟨nA2, bB2, e2, -, rfl, f2, rfl⟩ := MTLN.start_ok_iff.1 h₂
  have r2 : M₂.runDt dt = M₁.runDt dt := by rw [MTLN.runDt_eq, MTLN.runDt_eq, hdt]
  rw [r2] at e2 f2
  have hb : List.Forall₂ (BundleCone c t0 σ (M₁.runDt dt) d 0) (M₁.overrideDt dt).bundles (M₂.overrideDt dt).bundles := by
    have key : ∀ h', List.Forall₂ (BundleCone c t0 σ h' d 0) M₁.bundles M₂.bundles →
        List.Forall₂ (BundleCone c t0 σ h' d 0) (M₁.overrideDt dt).bundles (M₂.overrideDt dt).bundles := by
      intro h' hb
      unfold MTLN.overrideDt
      split
      · refine forall₂_map ?_ hb
        rintro _ _ ⟨hc⟩
        exact .mk ⟨⟨hc.hw.name, hc.hw.m, hc.hw.dun, hc.hw.l, hc.hw.c, hc.hw.r, hc.hw.g, rfl, hc.hw.tz⟩, hc.slope, hc.v, hc.i, hc.phi,
          hc.eT, hc.eL⟩
      · exact hb
    exact key _ hbs
  refine ⟨?_, ?_⟩
  · refine mapPy_rel ?_ hb f1 f2
    rintro _ _ _ _ ⟨hc⟩ q1 q2
    obtain ⟨c1, q1', rfl⟩ := onBundle_ok_iff.1 q1
    obtain ⟨c2, q2', rfl⟩ := onBundle_ok_iff.1 q2
    obtain ⟨lr1, cg1, u1, w1, rfl⟩ := MTLD.start_ok_iff.1 q1'
    obtain ⟨lr2, cg2, u2, w2, rfl⟩ := MTLD.start_ok_iff.1 q2'
    simp only at u1 u2 w1 w2
    rw [hc.hw.m, hc.hw.dt, hc.hw.dun] at u2 w2
    rw [hc.hw.l, hc.hw.r, hc.hw.tz, u1] at u2
    rw [hc.hw.c, hc.hw.g, w1] at w2
    obtain rfl := Except.ok.inj u2
    obtain rfl := Except.ok.inj w2
    exact .mk ⟨⟨⟨hc.hw.name, hc.hw.m, hc.hw.dun, hc.hw.l, hc.hw.c, hc.hw.r, hc.hw.g, hc.hw.dt, hc.hw.tz⟩, hc.slope, hc.v, hc.i,
      hc.phi, hc.eT, hc.eL⟩, rfl, rfl⟩
  · have hs : sizes bB1 = sizes M₁.bundles := by rw [sizes_start f1, sizes_override]
    show List.Forall₂ (List.Forall₂ (LevelConeReady Q c t0 σ _ d (sizes bB1) 0)) nA1 nA2
    rw [hs]
    refine forAll_rel ?_ hns e1 e2
    rintro _ _ ⟨δ, hc⟩
    refine ⟨_, _, _, _, _, rfl, rfl, fun q1 q2 => .mk δ ?_⟩
    obtain ⟨-, -, rfl⟩ := computeVTerms_ok_iff.1 q1
    obtain ⟨-, -, rfl⟩ := computeVTerms_ok_iff.1 q2
    refine ⟨⟨hc.bound, hc.slope, ⟨hc.hw.bundleName, hc.hw.lineIndex, hc.hw.side, hc.hw.dx, hc.hw.cSize, hc.hw.c, hc.hw.P1,
      hc.hw.Ps, hc.hw.Q1, hc.hw.Qs, hc.hw.M, hc.hw.N1, hc.hw.Ns, hc.hw.O⟩, hc.joined, hc.v, hc.vPrev, hc.X, hc.i, hc.vS, hc.eT⟩, ?_⟩
    simp only [hc.hw.dxc, hc.hw.P1, hc.hw.Ps, hc.hw.Q1, hc.hw.Qs, hc.hw.M, hc.hw.N1, hc.hw.Ns, hc.hw.O]

theorem start_time {T dt : ℝ} {k : ℕ} {M M' : MTLN p} (h : M.start T dt = .ok (k, M')) :
    M'.dt = M.runDt dt ∧ M'.time = M.time ∧ k = ⌊T / M.runDt dt⌋.toNat := by
  obtain ⟨nA1, bB1, e1, -, rfl, f1, rfl⟩ := MTLN.start_ok_iff.1 h
  exact ⟨rfl, MTLN.overrideDt_time dt M, rfl⟩

theorem MTLN.Cone.start {c t0 σ T T' dt : ℝ} {d : String → ℕ → ℝ} {k k' : ℕ} {M₁ M₂ M₁' M₂' : MTLN p}
    (ht : M₁.time = t0) (H : MTLN.Cone Q c t0 σ (M₁.runDt dt) d 0 M₁ M₂) (h₁ : M₁.start T dt = .ok (k, M₁'))
    (h₂ : M₂.start T' dt = .ok (k', M₂')) : MTLN.ConeReady Q c t0 σ (M₁.runDt dt) d 0 M₁' M₂' := by
  obtain ⟨hb, hn⟩ := start_cone H.dt H.bundles H.networks h₁ h₂
  have r2 : M₂.runDt dt = M₁.runDt dt := by rw [MTLN.runDt_eq, MTLN.runDt_eq, H.dt]
  exact ⟨(start_time h₁).1, by rw [(start_time h₂).1, r2], by rw [(start_time h₁).2.1, ht]; ring,
    by rw [(start_time h₂).2.1, (start_time h₁).2.1, H.time], hb, hn⟩

theorem MTLN.ConeReady.cone {c t0 σ h j : ℝ} {d : String → ℕ → ℝ} {M₁ M₂ : MTLN p} (H : MTLN.ConeReady Q c t0 σ h d j M₁ M₂) :
    MTLN.Cone Q c t0 σ h d j M₁ M₂ :=
  ⟨by rw [H.dt₁, H.dt₂], H.time₂, H.bundles.imp fun _ _ ⟨hc⟩ => .mk hc.toCone,
    H.networks.imp fun _ _ hl => hl.imp fun _ _ ⟨δ, hc⟩ => .mk δ hc.toCone⟩

/-- **C149** Differences between two managers with the same hardware stay inside the cone given by `d`. -/
theorem C149_cone {c σ T dt : ℝ} {d : String → ℕ → ℝ} {M₁ M₂ M₁' M₂' : MTLN p} (hh : 0 < M₁.runDt dt)
    (H : MTLN.Cone Q c M₁.time σ (M₁.runDt dt) d 0 M₁ M₂) (h₁ : M₁.runUntil T dt = .ok M₁') (h₂ : M₂.runUntil T dt = .ok M₂') :
    MTLN.Cone Q c M₁.time σ (M₁.runDt dt) d ⌊T / M₁.runDt dt⌋.toNat M₁' M₂' := by
  obtain ⟨k, N₁, s₁, tr₁, rfl, rfl, st₁⟩ := MTLN.runUntil_ok_iff.1 h₁
  obtain ⟨k', N₂, s₂, tr₂, rfl, rfl, st₂⟩ := MTLN.runUntil_ok_iff.1 h₂
  have hr := H.start rfl s₁ s₂
  obtain ⟨-, -, -, -, e1, -, -⟩ := MTLN.start_ok_iff.1 s₁
  obtain ⟨-, -, -, -, e2, -, -⟩ := MTLN.start_ok_iff.1 s₂
  have r2 : M₂.runDt dt = M₁.runDt dt := by rw [MTLN.runDt_eq, MTLN.runDt_eq, H.dt]
  rw [r2, ← e1] at e2
  subst e2
  rw [← e1]
  have := (hr.iterate hh st₁ st₂ k' le_rfl).cone
  rw [zero_add] at this
  exact this

/-! ## Causality -/

/-- Two bundles with the same hardware in the same state, such that the fields that act on the second one are those that act on
the first one `σ` earlier, at the times in `U`. -/
structure MTLD.Alike (U : Set ℝ) (σ : ℝ) (s t : MTLD n p) : Prop where
  hw : s.SameHardware t
  v : ∀ k ≤ s.m, ∀ x, t.v k x = s.v k x
  i : ∀ k < s.m, ∀ x, t.i k x = s.i k x
  phi : ∀ k < s.m, ∀ x r, t.phi k x r = s.phi k x r
  eT : ∀ k ≤ s.m, ∀ x, ∀ τ ∈ U, t.eT k x (τ + σ) = s.eT k x τ
  eL : ∀ k < s.m, ∀ x, ∀ τ ∈ U, t.eL k x (τ + σ) = s.eL k x τ

inductive BundleAlike (U : Set ℝ) (σ : ℝ) : AnyBundle p → AnyBundle p → Prop
  | mk {n : ℕ} {s t : MTLD n p} : MTLD.Alike U σ s t → BundleAlike U σ ⟨n, s⟩ ⟨n, t⟩

/-- The same for networks and their sources. -/
structure Network.Alike (U : Set ℝ) (σ : ℝ) (s t : Network N S) : Prop where
  hw : s.SameHardware t
  v : ∀ x, t.v x = s.v x
  vPrev : ∀ x, t.vPrev x = s.vPrev x
  X : ∀ x, t.X x = s.X x
  i : ∀ x, t.i x = s.i x
  vS : ∀ x, ∀ τ ∈ U, t.vSources x (τ + σ) = s.vSources x τ
  eT : ∀ x, ∀ τ ∈ U, (t.nodes x).eT (τ + σ) = (s.nodes x).eT τ

inductive LevelAlike (U : Set ℝ) (σ : ℝ) : ℕ × AnyNetwork → ℕ × AnyNetwork → Prop
  | mk {l N S : ℕ} {s t : Network N S} : Network.Alike U σ s t → LevelAlike U σ (l, ⟨N, S, s⟩) (l, ⟨N, S, t⟩)

/-- The same for managers. -/
structure MTLN.Alike (U : Set ℝ) (σ : ℝ) (M₁ M₂ : MTLN p) : Prop where
  dt : M₂.dt = M₁.dt
  time : M₂.time = M₁.time
  bundles : List.Forall₂ (BundleAlike U σ) M₁.bundles M₂.bundles
  networks : List.Forall₂ (List.Forall₂ (LevelAlike U σ)) M₁.networks M₂.networks

/-- Two bundles with the same voltages and currents. -/
inductive SameFields : AnyBundle p → AnyBundle p → Prop
  | mk {n : ℕ} {s t : MTLD n p} : t.name = s.name → t.m = s.m → (∀ k ≤ s.m, t.v k = s.v k) → (∀ k < s.m, t.i k = s.i k) →
    SameFields ⟨n, s⟩ ⟨n, t⟩

theorem BundleCone.sameFields {t0 σ h D j : ℝ} {a b : AnyBundle p} (hj : j ≤ D) (H : BundleCone 1 t0 σ h (fun _ _ => D) j a b) :
    SameFields a b := by
  obtain ⟨hc⟩ := H
  exact .mk hc.hw.name hc.hw.m (fun k hk => funext fun x => by rw [hc.v k hk hj x, one_mul])
    fun k hk => funext fun x => by rw [hc.i k hk hj hj x, one_mul]

theorem BundleAlike.cone {U : Set ℝ} {σ t0 h D : ℝ} (hU : ∀ τ < t0 + D * h, τ ∈ U) {a b : AnyBundle p} (H : BundleAlike U σ a b) :
    BundleCone 1 t0 σ h (fun _ _ => D) 0 a b := by
  obtain ⟨hc⟩ := H
  exact .mk ⟨hc.hw, fun k _ => by simp, fun k hk _ x => by rw [hc.v k hk x, one_mul], fun k hk _ _ x => by rw [hc.i k hk x, one_mul],
    fun k hk _ _ x r => by rw [hc.phi k hk x r, Complex.ofReal_one, one_mul], fun k hk x τ hτ => by rw [hc.eT k hk x τ (hU τ hτ), one_mul],
    fun k hk x τ hτ _ => by rw [hc.eL k hk x τ (hU τ hτ), one_mul]⟩

theorem LevelAlike.cone {U : Set ℝ} {σ t0 h D : ℝ} {G : List (String × ℕ)} (hU : ∀ τ < t0 + D * h, τ ∈ U) {a b : ℕ × AnyNetwork}
    (hQ : Q D) (H : LevelAlike U σ a b) : LevelCone Q 1 t0 σ h (fun _ _ => D) G 0 a b := by
  obtain ⟨hc⟩ := H
  exact .mk D ⟨hQ, fun _ _ _ _ => by simp, hc.hw, fun _ _ _ _ => rfl, fun _ x => by rw [hc.v, one_mul], fun _ x => by rw [hc.vPrev, one_mul],
    fun _ x => by rw [hc.X, one_mul], fun x _ => by rw [hc.i, one_mul], fun x τ hτ => by rw [hc.vS x τ (hU τ hτ), one_mul],
    fun x τ hτ => by rw [hc.eT x τ (hU τ hτ), one_mul]⟩

/-- **C149**, causality: two managers with the same hardware and state whose sources and fields agree at all times before `t₁`
have the same voltages and currents until `t₁`. -/
theorem C149_causality {T dt t₁ : ℝ} {M₁ M₂ M₁' M₂' : MTLN p} (hh : 0 < M₁.runDt dt) (H : MTLN.Alike (Set.Iio t₁) 0 M₁ M₂)
    (h₁ : M₁.runUntil T dt = .ok M₁') (h₂ : M₂.runUntil T dt = .ok M₂')
    (ht : M₁.time + ⌊T / M₁.runDt dt⌋.toNat * M₁.runDt dt ≤ t₁) : List.Forall₂ SameFields M₁'.bundles M₂'.bundles := by
  have hU : ∀ τ < M₁.time + ((⌊T / M₁.runDt dt⌋.toNat : ℕ) : ℝ) * M₁.runDt dt, τ ∈ Set.Iio t₁ := fun τ hτ => hτ.trans_le ht
  have := C149_cone (Q := fun _ => True) (c := 1) (σ := 0) (d := fun _ _ => ((⌊T / M₁.runDt dt⌋.toNat : ℕ) : ℝ)) hh
    ⟨H.dt, by rw [H.time, add_zero], H.bundles.imp fun _ _ h => h.cone hU, H.networks.imp fun _ _ h => h.imp fun _ _ h => h.cone hU trivial⟩ h₁ h₂
  exact this.bundles.imp fun _ _ h => h.sameFields le_rfl

/-! ## The front -/

/-- Nothing acts at a place before the step that `d` says. -/
structure MTLN.Arrival (Q : ℝ → Prop) (h : ℝ) (d : String → ℕ → ℝ) (M : MTLN p) : Prop where
  slope : ∀ b ∈ M.bundles, ∀ k < b.2.m, |d b.2.name (k + 1) - d b.2.name k| ≤ 1
  eT : ∀ b ∈ M.bundles, ∀ k ≤ b.2.m, ∀ x, ∀ τ < M.time + d b.2.name k * h, b.2.eT k x τ = 0
  eL : ∀ b ∈ M.bundles, ∀ k < b.2.m, ∀ x, ∀ τ < M.time + d b.2.name k * h, τ < M.time + d b.2.name (k + 1) * h → b.2.eL k x τ = 0
  networks : ∀ nwd ∈ M.networks, ∀ e ∈ nwd, ∃ δ, Q δ ∧
    (∀ b ∈ M.bundles, ∀ a, (e.2.2.2.nodes a).bundleName = b.2.name → d b.2.name ((e.2.2.2.nodes a).side.node b.2.m) = δ) ∧
    (∀ x, ∀ τ < M.time + δ * h, e.2.2.2.vSources x τ = 0) ∧ ∀ x, ∀ τ < M.time + δ * h, (e.2.2.2.nodes x).eT τ = 0

theorem MTLD.SameHardware.refl' (s : MTLD n p) : s.SameHardware s := ⟨rfl, rfl, rfl, rfl, rfl, rfl, rfl, rfl, rfl⟩

theorem Network.SameHardware.refl' (s : Network N S) : s.SameHardware s :=
  ⟨fun _ => rfl, fun _ => rfl, fun _ => rfl, fun _ => rfl, rfl, rfl, rfl, rfl, rfl, rfl, rfl, rfl, rfl, rfl⟩

theorem MTLN.Arrival.cone {h : ℝ} {d : String → ℕ → ℝ} {M : MTLN p} (H : M.Arrival Q h d) (hr : M.AtRest) :
    MTLN.Cone Q 0 M.time 0 h d 0 M M := by
  refine ⟨rfl, (add_zero _).symm, List.forall₂_same.2 fun b hb => ?_, List.forall₂_same.2 fun nwd hn => List.forall₂_same.2 fun e he => ?_⟩
  · obtain ⟨r1, r2, r3⟩ := hr.bundles b hb
    exact .mk ⟨.refl' _, H.slope b hb, fun k _ _ x => by rw [r1, zero_mul], fun k _ _ _ x => by rw [r2, zero_mul],
      fun k _ _ _ x r => by rw [r3, mul_zero], fun k hk x τ hτ => by rw [add_zero, H.eT b hb k hk x τ hτ, mul_zero],
      fun k hk x τ h1 h2 => by rw [add_zero, H.eL b hb k hk x τ h1 h2, mul_zero]⟩
  · obtain ⟨δ, n0, n1, n2, n3⟩ := H.networks nwd hn e he
    obtain ⟨r1, r2, r3, r4⟩ := hr.networks nwd hn e he
    refine .mk δ ⟨n0, ?_, .refl' _, ?_, fun _ x => by rw [r1, zero_mul], fun _ x => by rw [r2, zero_mul], fun _ x => by rw [r4, zero_mul],
      fun x _ => by rw [r3, zero_mul], fun x τ hτ => by rw [add_zero, n2 x τ hτ, mul_zero],
      fun x τ hτ => by rw [add_zero, n3 x τ hτ, mul_zero]⟩
    · intro g hg
      obtain ⟨b, hb, rfl⟩ := List.mem_map.1 hg
      exact H.slope b hb
    · intro g hg a ha
      obtain ⟨b, hb, rfl⟩ := List.mem_map.1 hg
      exact n1 b hb a ha

theorem forall₂_diag {α : Type} {R : α → α → Prop} {l : List α} (h : List.Forall₂ R l l) : ∀ a ∈ l, R a a := List.forall₂_same.1 h

/-- **C149**, speed: in a manager that starts at rest nothing happens at a node before a signal can have come there from a
source, passing at most one cell per time step and any network on its way. -/
theorem C149_front {T dt : ℝ} {d : String → ℕ → ℝ} {M M' : MTLN p} (hh : 0 < M.runDt dt) (hr : M.AtRest)
    (H : M.Arrival (fun _ => True) (M.runDt dt) d) (hrun : M.runUntil T dt = .ok M') : ∀ b ∈ M'.bundles,
      (∀ k ≤ b.2.m, (⌊T / M.runDt dt⌋.toNat : ℝ) ≤ d b.2.name k → ∀ x, b.2.v k x = 0) ∧
      ∀ k < b.2.m, (⌊T / M.runDt dt⌋.toNat : ℝ) ≤ d b.2.name k → (⌊T / M.runDt dt⌋.toNat : ℝ) ≤ d b.2.name (k + 1) →
        ∀ x, b.2.i k x = 0 := by
  intro b hb
  have := C149_cone hh (H.cone hr) hrun hrun
  have := forall₂_diag this.bundles b hb
  obtain ⟨n, b⟩ := b
  cases this with
  | mk hc => exact ⟨fun k hk hj x => by rw [hc.v k hk hj x, zero_mul], fun k hk hj hj' x => by rw [hc.i k hk hj hj' x, zero_mul]⟩

/-! ## Delay -/

/-- Bundles and networks that differ in their state only. -/
inductive Frozen : AnyBundle p → AnyBundle p → Prop
  | mk {n : ℕ} (s : MTLD n p) (v i phi probes) : Frozen ⟨n, s⟩ ⟨n, { s with v := v, i := i, phi := phi, probes := probes }⟩

inductive FrozenNet : ℕ × AnyNetwork → ℕ × AnyNetwork → Prop
  | mk {l N S : ℕ} (s : Network N S) (v vPrev i X) :
    FrozenNet (l, ⟨N, S, s⟩) (l, ⟨N, S, { s with v := v, vPrev := vPrev, i := i, X := X }⟩)

theorem Frozen.trans {a b c : AnyBundle p} (h : Frozen a b) (h' : Frozen b c) : Frozen a c := by
  cases h
  cases h'
  exact .mk ..

theorem FrozenNet.trans {a b c : ℕ × AnyNetwork} (h : FrozenNet a b) (h' : FrozenNet b c) : FrozenNet a c := by
  cases h
  cases h'
  exact .mk ..

theorem forall₂_trans {α : Type} {R R' Q : α → α → Prop} (h : ∀ a b c, R a b → R' b c → Q a c) : ∀ {l k m : List α},
    List.Forall₂ R l k → List.Forall₂ R' k m → List.Forall₂ Q l m
  | _, _, _, .nil, .nil => .nil
  | _, _, _, .cons h1 h2, .cons g1 g2 => .cons (h _ _ _ h1 g1) (forall₂_trans h h2 g2)

theorem frozenNets_trans {l k m : List NetworkD} (h : List.Forall₂ (List.Forall₂ FrozenNet) l k)
    (h' : List.Forall₂ (List.Forall₂ FrozenNet) k m) : List.Forall₂ (List.Forall₂ FrozenNet) l m :=
  forall₂_trans (R := List.Forall₂ FrozenNet) (R' := List.Forall₂ FrozenNet) (Q := List.Forall₂ FrozenNet)
    (fun _ _ _ a b => forall₂_trans (R := FrozenNet) (R' := FrozenNet) (Q := FrozenNet) (fun _ _ _ => FrozenNet.trans) a b) h h'

theorem step_frozen {M M' : MTLN p} (h : M.step = .ok M') : List.Forall₂ Frozen M.bundles M'.bundles ∧
    List.Forall₂ (List.Forall₂ FrozenNet) M.networks M'.networks := by
  obtain ⟨nA, bB, nC, e, -, f, g, rfl⟩ := MTLN.step_ok_iff.1 h
  refine ⟨(mapPy_ok_iff.1 f).imp ?_, ?_⟩
  · intro a b hab
    obtain ⟨c, q, rfl⟩ := onBundle_ok_iff.1 hab
    obtain ⟨lr, cg, -, -, -, rfl⟩ := MTLD.stepWith_ok_iff.1 q
    exact .mk ..
  · have h1 : List.Forall₂ (List.Forall₂ FrozenNet) M.networks nA := by
      refine (mapPy_ok_iff.1 e).imp fun a b hab => (forAll_ok_iff.1 hab).imp ?_
      rintro ⟨l, N, S, s⟩ ⟨l', b⟩ ⟨hl, h2⟩
      obtain ⟨c, q, hb⟩ := onAny_ok_iff.1 h2
      simp only at hl hb q
      subst hl hb
      unfold Network.advanceVoltage at q
      split at q
      · simp at q
      · simp only [bind_ok_iff, raiseIf_ok_iff, Except.ok.injEq] at q
        obtain ⟨_, -, _, -, _, -, rfl⟩ := q
        exact .mk ..
    have h2 : List.Forall₂ (List.Forall₂ FrozenNet) nA nC := by
      refine (mapPy_ok_iff.1 g).imp fun a b hab => (forAll_ok_iff.1 hab).imp ?_
      rintro ⟨l, N, S, s⟩ ⟨l', b⟩ ⟨hl, h2⟩
      obtain ⟨c, q, hb⟩ := onAny_ok_iff.1 h2
      simp only at hl hb q
      subst hl hb
      obtain ⟨i, -, rfl⟩ := updateCurrents_ok_iff.1 q
      exact .mk ..
    exact frozenNets_trans h1 h2

theorem iterate_frozen {tr : ℕ → MTLN p} {k : ℕ} (h : ∀ x < k, (tr x).step = .ok (tr (x + 1))) : ∀ x ≤ k,
    List.Forall₂ Frozen (tr 0).bundles (tr x).bundles ∧ List.Forall₂ (List.Forall₂ FrozenNet) (tr 0).networks (tr x).networks := by
  intro x
  induction x with
  | zero =>
    intro _
    exact ⟨List.forall₂_same.2 fun _ _ => .mk .., List.forall₂_same.2 fun _ _ => List.forall₂_same.2 fun _ _ => .mk ..⟩
  | succ x ih =>
    intro hx
    obtain ⟨a, b⟩ := ih (by omega)
    obtain ⟨a', b'⟩ := step_frozen (h x (by omega))
    exact ⟨forall₂_trans (R := Frozen) (R' := Frozen) (Q := Frozen) (fun _ _ _ => Frozen.trans) a a', frozenNets_trans b b'⟩

theorem forall₂_glue {α : Type} {R F Z Q : α → α → Prop} (h : ∀ a b c, R a b → F b c → Z c c → Q a c) : ∀ {l k m : List α},
    List.Forall₂ R l k → List.Forall₂ F k m → List.Forall₂ Z m m → List.Forall₂ Q l m
  | _, _, _, .nil, .nil, .nil => .nil
  | _, _, _, .cons h1 h2, .cons g1 g2, .cons k1 k2 => .cons (h _ _ _ h1 g1 k1) (forall₂_glue h h2 g2 k2)

/-- Before `M.time` nothing acts. -/
def MTLN.Silent (M : MTLN p) : Prop :=
  (∀ b ∈ M.bundles, (∀ k ≤ b.2.m, ∀ x, ∀ τ < M.time, b.2.eT k x τ = 0) ∧ ∀ k < b.2.m, ∀ x, ∀ τ < M.time, b.2.eL k x τ = 0) ∧
  ∀ nwd ∈ M.networks, ∀ e ∈ nwd, (∀ x, ∀ τ < M.time, e.2.2.2.vSources x τ = 0) ∧ ∀ x, ∀ τ < M.time, (e.2.2.2.nodes x).eT τ = 0

theorem forall₂_mem_right {α : Type} {R : α → α → Prop} : ∀ {l k : List α}, List.Forall₂ R l k → ∀ b ∈ k, ∃ a ∈ l, R a b
  | _, _, .nil, b, hb => by simp at hb
  | _, _, .cons h1 h2, b, hb => by
    rcases List.mem_cons.1 hb with rfl | hb
    · exact ⟨_, List.mem_cons_self, h1⟩
    · obtain ⟨a, ha, hR⟩ := forall₂_mem_right h2 b hb
      exact ⟨a, List.mem_cons_of_mem _ ha, hR⟩

/-- A manager with delayed excitation is at rest during the delay. -/
theorem MTLN.Alike.quiet {h : ℝ} {K : ℕ} {M₁ M₂ : MTLN p} (H : MTLN.Alike Set.univ (K * h) M₁ M₂) (hr : M₁.AtRest)
    (hs : M₁.Silent) (hQ : Q K) : MTLN.Cone Q 0 M₂.time 0 h (fun _ _ => (K : ℝ)) 0 M₂ M₂ := by
  have shift : ∀ {τ : ℝ}, τ < M₂.time + K * h → τ - K * h < M₁.time := fun {τ} hτ => by rw [H.time] at hτ; linarith
  refine ⟨rfl, (add_zero _).symm, List.forall₂_same.2 fun b hb => ?_, List.forall₂_same.2 fun nwd hn => List.forall₂_same.2 fun e he => ?_⟩
  · obtain ⟨a, ha, hab⟩ := forall₂_mem_right H.bundles b hb
    obtain ⟨r1, r2, r3⟩ := hr.bundles a ha
    obtain ⟨s1, s2⟩ := hs.1 a ha
    obtain ⟨hc⟩ := hab
    rename_i n s t
    have hm : t.m = s.m := hc.hw.m
    exact .mk ⟨.refl' _, fun k _ => by simp, fun k hk _ x => by rw [hc.v k (hm ▸ hk) x, zero_mul]; exact r1 k x,
      fun k hk _ _ x => by rw [hc.i k (hm ▸ hk) x, zero_mul]; exact r2 k x,
      fun k hk _ _ x r => by rw [hc.phi k (hm ▸ hk) x r, Complex.ofReal_zero, zero_mul]; exact r3 k x r,
      fun k hk x τ hτ => by
        have := hc.eT k (hm ▸ hk) x (τ - K * h) trivial
        rw [sub_add_cancel] at this
        rw [add_zero, zero_mul, this]
        exact s1 k (hm ▸ hk) x _ (shift hτ),
      fun k hk x τ hτ _ => by
        have := hc.eL k (hm ▸ hk) x (τ - K * h) trivial
        rw [sub_add_cancel] at this
        rw [add_zero, zero_mul, this]
        exact s2 k (hm ▸ hk) x _ (shift hτ)⟩
  · obtain ⟨nwd', hn', hnn⟩ := forall₂_mem_right H.networks nwd hn
    obtain ⟨e', he', hee⟩ := forall₂_mem_right hnn e he
    obtain ⟨r1, r2, r3, r4⟩ := hr.networks nwd' hn' e' he'
    obtain ⟨s1, s2⟩ := hs.2 nwd' hn' e' he'
    obtain ⟨hc⟩ := hee
    exact .mk K ⟨hQ, fun _ _ _ _ => by simp, .refl' _, fun _ _ _ _ => rfl, fun _ x => by rw [hc.v, zero_mul]; exact r1 x, fun _ x => by rw [hc.vPrev, zero_mul]; exact r2 x,
      fun _ x => by rw [hc.X, zero_mul]; exact r4 x, fun x _ => by rw [hc.i, zero_mul]; exact r3 x,
      fun x τ hτ => by
        have := hc.vS x (τ - K * h) trivial
        rw [sub_add_cancel] at this
        rw [add_zero, zero_mul, this]
        exact s1 x _ (shift hτ),
      fun x τ hτ => by
        have := hc.eT x (τ - K * h) trivial
        rw [sub_add_cancel] at this
        rw [add_zero, zero_mul, this]
        exact s2 x _ (shift hτ)⟩

/-- **C149**, delay: if all sources and fields of a manager at rest act `K` time steps later, everything happens `K` time steps
later. -/
theorem C149_delay {K : ℕ} {T₁ T₂ dt : ℝ} {M₁ M₂ M₁' M₂' : MTLN p} (hh : 0 < M₁.runDt dt)
    (H : MTLN.Alike Set.univ (K * M₁.runDt dt) M₁ M₂) (hr : M₁.AtRest) (hs : M₁.Silent) (h₁ : M₁.runUntil T₁ dt = .ok M₁')
    (h₂ : M₂.runUntil T₂ dt = .ok M₂') (hk : ⌊T₂ / M₁.runDt dt⌋.toNat = ⌊T₁ / M₁.runDt dt⌋.toNat + K) :
    List.Forall₂ SameFields M₁'.bundles M₂'.bundles := by
  obtain ⟨k₁, N₁, s₁, tr₁, rfl, rfl, st₁⟩ := MTLN.runUntil_ok_iff.1 h₁
  obtain ⟨k₂, N₂, s₂, tr₂, rfl, rfl, st₂⟩ := MTLN.runUntil_ok_iff.1 h₂
  have r2 : M₂.runDt dt = M₁.runDt dt := by rw [MTLN.runDt_eq, MTLN.runDt_eq, H.dt]
  obtain ⟨d1, t1, e1⟩ := start_time s₁
  obtain ⟨d2, t2, e2⟩ := start_time s₂
  rw [r2, hk, ← e1] at e2
  have hq := H.quiet (Q := fun δ => (K : ℝ) ≤ δ) hr hs le_rfl
  rw [← r2] at hq
  have hq0 := (MTLN.Cone.start rfl hq s₂ s₂).iterate (by rw [r2]; exact hh) (k := K) (fun x hx => st₂ x (by omega))
    (fun x hx => st₂ x (by omega)) K le_rfl
  obtain ⟨fb, fn⟩ := iterate_frozen st₂ K (by omega)
  obtain ⟨hb, hn⟩ := start_cone (c := 1) (t0 := M₁.time) (σ := K * M₁.runDt dt) (d := fun _ _ => (k₁ : ℝ)) H.dt
    (H.bundles.imp fun _ _ h => h.cone fun _ _ => trivial)
    (H.networks.imp fun _ _ h => h.imp fun _ _ h => h.cone (Q := fun _ => True) (fun _ _ => trivial) trivial) s₁ s₂
  obtain ⟨gb, gn⟩ := start_cone (c := 0) (t0 := M₁.time) (σ := 0) (d := fun _ _ => (0 : ℝ)) rfl
    (MTLN.Arrival.cone (Q := fun δ => 0 ≤ δ) (d := fun _ _ => (0 : ℝ)) (h := M₁.runDt dt) ⟨fun b _ k _ => by simp,
      fun b hb k hk x τ hτ => (hs.1 b hb).1 k hk x τ (by simpa using hτ), fun b hb k hk x τ hτ _ => (hs.1 b hb).2 k hk x τ (by simpa using hτ),
      fun nwd hn e he => ⟨0, le_rfl, fun _ _ _ _ => rfl, fun x τ hτ => (hs.2 nwd hn e he).1 x τ (by simpa using hτ),
        fun x τ hτ => (hs.2 nwd hn e he).2 x τ (by simpa using hτ)⟩⟩ hr).bundles
    (MTLN.Arrival.cone (Q := fun δ => 0 ≤ δ) (d := fun _ _ => (0 : ℝ)) (h := M₁.runDt dt) ⟨fun b _ k _ => by simp,
      fun b hb k hk x τ hτ => (hs.1 b hb).1 k hk x τ (by simpa using hτ), fun b hb k hk x τ hτ _ => (hs.1 b hb).2 k hk x τ (by simpa using hτ),
      fun nwd hn e he => ⟨0, le_rfl, fun _ _ _ _ => rfl, fun x τ hτ => (hs.2 nwd hn e he).1 x τ (by simpa using hτ),
        fun x τ hτ => (hs.2 nwd hn e he).2 x τ (by simpa using hτ)⟩⟩ hr).networks s₁ s₁
  have hR : MTLN.ConeReady (fun _ => True) 1 M₁.time (K * M₁.runDt dt) (M₁.runDt dt) (fun _ _ => (k₁ : ℝ)) 0 (tr₁ 0) (tr₂ K) := by
    refine ⟨d1, ?_, by rw [t1]; ring, ?_, ?_, ?_⟩
    · rw [hq0.dt₁, r2]
    · rw [hq0.time₁, t1, H.time, r2]; ring
    · refine forall₂_glue (R := fun a b => BundleConeReady 1 M₁.time (K * M₁.runDt dt) (M₁.runDt dt) (fun _ _ => (k₁ : ℝ)) 0 a b ∧
        BundleConeReady 0 M₁.time 0 (M₁.runDt dt) (fun _ _ => (0 : ℝ)) 0 a a) ?_ ?_ fb hq0.bundles
      · rintro _ _ _ ⟨⟨ha⟩, hz⟩ ⟨⟩ hz'
        rename_i n s t v i phi probes
        cases hz with
        | mk hz =>
        cases hz' with
        | mk hz' =>
        exact .mk ⟨⟨⟨ha.hw.name, ha.hw.m, ha.hw.dun, ha.hw.l, ha.hw.c, ha.hw.r, ha.hw.g, ha.hw.dt, ha.hw.tz⟩, ha.slope,
          fun k hk _ x => by
            rw [hz.v k hk le_rfl x, zero_mul, mul_zero]
            have := hz'.v k (ha.hw.m.symm ▸ hk) (by simp) x
            rwa [zero_mul] at this,
          fun k hk _ _ x => by
            rw [hz.i k hk le_rfl le_rfl x, zero_mul, mul_zero]
            have := hz'.i k (ha.hw.m.symm ▸ hk) (by simp) (by simp) x
            rwa [zero_mul] at this,
          fun k hk _ _ x r => by
            rw [hz.phi k hk le_rfl le_rfl x r, Complex.ofReal_zero, zero_mul, mul_zero]
            have := hz'.phi k (ha.hw.m.symm ▸ hk) (by simp) (by simp) x r
            rwa [Complex.ofReal_zero, zero_mul] at this, ha.eT, ha.eL⟩, ha.lr, ha.cg⟩
      · have : ∀ {l k : List (AnyBundle p)} {R R' : AnyBundle p → AnyBundle p → Prop}, List.Forall₂ R l k → List.Forall₂ R' l l →
            List.Forall₂ (fun a b => R a b ∧ R' a a) l k := by
          intro l k R R' h
          induction h with
          | nil => intro _; exact .nil
          | cons h1 _ ih =>
            rintro (_ | ⟨g1, g2⟩)
            exact .cons ⟨h1, g1⟩ (ih g2)
        exact this hb gb
    · have both : ∀ {α : Type} {l k : List α} {R R' : α → α → Prop}, List.Forall₂ R l k → List.Forall₂ R' l l →
          List.Forall₂ (fun a b => R a b ∧ R' a a) l k := by
        intro α l k R R' h
        induction h with
        | nil => intro _; exact .nil
        | cons h1 _ ih =>
          rintro (_ | ⟨g1, g2⟩)
          exact .cons ⟨h1, g1⟩ (ih g2)
      refine forall₂_glue ?_ (both hn gn) fn hq0.networks
      rintro a b c ⟨h1, h2⟩ h3 h4
      refine forall₂_glue ?_ (both h1 h2) h3 h4
      rintro _ _ _ ⟨⟨δ, ha⟩, hz⟩ ⟨⟩ hz'
      rename_i l N S s t v vPrev i X
      cases hz with
      | mk δ₀ hz =>
      cases hz' with
      | mk δ' hz' =>
      have b0 : (0 : ℝ) ≤ δ₀ := hz.bound
      have b1 : (0 : ℝ) + K ≤ δ' := by rw [zero_add]; exact hz'.bound
      exact .mk δ ⟨⟨ha.bound, ha.slope, ⟨ha.hw.bundleName, ha.hw.lineIndex, ha.hw.side, ha.hw.dx, ha.hw.cSize, ha.hw.c, ha.hw.P1, ha.hw.Ps,
        ha.hw.Q1, ha.hw.Qs, ha.hw.M, ha.hw.N1, ha.hw.Ns, ha.hw.O⟩, ha.joined,
        fun _ x => by
          rw [hz.v b0 x, zero_mul, mul_zero]
          have := hz'.v b1 x
          rwa [zero_mul] at this,
        fun _ x => by
          rw [hz.vPrev b0 x, zero_mul, mul_zero]
          have := hz'.vPrev b1 x
          rwa [zero_mul] at this,
        fun _ x => by
          rw [hz.X b0 x, zero_mul, mul_zero]
          have := hz'.X b1 x
          rwa [zero_mul] at this,
        fun x _ => by
          rw [hz.i x (fun _ _ _ _ => ⟨le_rfl, le_rfl⟩), zero_mul, mul_zero]
          have := hz'.i x fun _ _ _ _ => ⟨by simp, by simp⟩
          rwa [zero_mul] at this, ha.vS, ha.eT⟩, ha.terms⟩
  have := (hR.iterate hh (k := k₁) (tr' := fun x => tr₂ (K + x)) st₁ (fun x hx => st₂ (K + x) (by omega)) k₁ le_rfl).cone
  rw [e2, add_comm]
  exact this.bundles.imp fun _ _ h => h.sameFields (by simp)

/-! ## A manager with a source at the left end -/

/-- The two terminated ends of `demoTwo`, with the source `f` at the left end and none at the right end. -/
noncomputable def demoFed (f : ℝ → ℝ) : MTLN 0 :=
  { demoTwo with
    networks := [[(0, ⟨1, 0, { demoTerm with vSources := fun _ => f }⟩)], [(0, ⟨1, 0, { demoTermL with vSources := fun _ _ => 0 }⟩)]] }

theorem demoTerm_eT (x : Fin 1) (τ : ℝ) : (demoTerm.nodes x).eT τ = 0 := by
  fin_cases x
  rfl

theorem fed_system {N S : ℕ} (nw : Network N S) (f : Fin N → ℝ → ℝ) (dt : ℝ) : ({ nw with vSources := f } : Network N S).system dt = nw.system dt := rfl

theorem demoFed_runDt (f : ℝ → ℝ) : (demoFed f).runDt 0 = 1 := by rw [MTLN.runDt_eq, if_neg (by simp)]; rfl

theorem demoFed_startable (f : ℝ → ℝ) : (demoFed f).Startable 0 := by
  obtain ⟨h1, h2, h3, h4⟩ := demoTwo_startable
  have hb : ((demoFed f).overrideDt 0).bundles = (demoTwo.overrideDt 0).bundles := by simp [MTLN.overrideDt, demoFed]
  refine ⟨by rw [demoFed_runDt]; norm_num, by rw [hb]; exact h2, ?_, h4⟩
  rw [demoFed_runDt]
  intro nwd hn e he
  have : nwd = [(0, ⟨1, 0, { demoTerm with vSources := fun _ => f }⟩)] ∨
      nwd = [(0, ⟨1, 0, { demoTermL with vSources := fun _ _ => 0 }⟩)] := by simpa [demoFed] using hn
  rcases this with rfl | rfl <;> obtain rfl := List.mem_singleton.1 he
  · exact ⟨rfl, by simp only [fed_system]; exact demoTerm_det one_pos⟩
  · exact ⟨rfl, by simp only [fed_system]; exact demoTermL_det one_pos⟩

theorem demoFed_alike {U : Set ℝ} {σ : ℝ} {f g : ℝ → ℝ} (h : ∀ τ ∈ U, g (τ + σ) = f τ) : MTLN.Alike U σ (demoFed f) (demoFed g) := by
  refine ⟨rfl, rfl, ?_, ?_⟩
  · refine List.Forall₂.cons (.mk ?_) (.cons (.mk ?_) .nil) <;>
      exact ⟨.refl' _, fun _ _ _ => rfl, fun _ _ _ => rfl, fun _ _ _ _ => rfl, fun _ _ _ _ _ => rfl, fun _ _ _ _ _ => rfl⟩
  · refine List.Forall₂.cons (.cons (.mk ?_) .nil) (.cons (.cons (.mk ?_) .nil) .nil)
    · exact ⟨⟨fun _ => rfl, fun _ => rfl, fun _ => rfl, fun _ => rfl, rfl, rfl, rfl, rfl, rfl, rfl, rfl, rfl, rfl, rfl⟩, fun _ => rfl,
        fun _ => rfl, fun _ => rfl, fun _ => rfl, fun _ τ hτ => h τ hτ, fun x τ _ => by simp only [demoTerm_eT]⟩
    · exact ⟨.refl' _, fun _ => rfl, fun _ => rfl, fun _ => rfl, fun _ => rfl, fun _ _ _ => rfl, fun _ _ _ => rfl⟩

theorem demoFed_rest (f : ℝ → ℝ) : (demoFed f).AtRest := by
  refine ⟨?_, ?_⟩
  · intro b hb
    have : b = ⟨1, demoOne⟩ ∨ b = ⟨1, MTLD.single demoSlow "slow"⟩ := by simpa [demoFed, demoTwo] using hb
    rcases this with rfl | rfl <;> exact ⟨fun _ _ => rfl, fun _ _ => rfl, fun _ _ _ => rfl⟩
  · intro nwd hn e he
    have : nwd = [(0, ⟨1, 0, { demoTerm with vSources := fun _ => f }⟩)] ∨
        nwd = [(0, ⟨1, 0, { demoTermL with vSources := fun _ _ => 0 }⟩)] := by simpa [demoFed] using hn
    rcases this with rfl | rfl <;> obtain rfl := List.mem_singleton.1 he <;>
      exact ⟨fun _ => rfl, fun _ => rfl, fun _ => rfl, fun x => x.elim0⟩

/-- The source acts from step `K` on, and its signal needs a step per cell. -/
theorem demoFed_arrival (K : ℕ) {f : ℝ → ℝ} (hf : ∀ τ < (K : ℝ), f τ = 0) :
    (demoFed f).Arrival (fun _ => True) 1 fun _ k => (K : ℝ) + k := by
  have ht : (demoFed f).time = 0 := rfl
  refine ⟨fun b _ k _ => by push_cast; rw [show (K : ℝ) + (k + 1) - (K + k) = 1 by ring, abs_one], ?_, ?_, ?_⟩
  · intro b hb
    have : b = ⟨1, demoOne⟩ ∨ b = ⟨1, MTLD.single demoSlow "slow"⟩ := by simpa [demoFed, demoTwo] using hb
    rcases this with rfl | rfl <;> exact fun _ _ _ _ _ => rfl
  · intro b hb
    have : b = ⟨1, demoOne⟩ ∨ b = ⟨1, MTLD.single demoSlow "slow"⟩ := by simpa [demoFed, demoTwo] using hb
    rcases this with rfl | rfl <;> exact fun _ _ _ _ _ _ => rfl
  · intro nwd hn e he
    have : nwd = [(0, ⟨1, 0, { demoTerm with vSources := fun _ => f }⟩)] ∨
        nwd = [(0, ⟨1, 0, { demoTermL with vSources := fun _ _ => 0 }⟩)] := by simpa [demoFed] using hn
    have hm : ∀ b ∈ (demoFed f).bundles, b.2.m = 2 := by
      intro b hb
      have : b = ⟨1, demoOne⟩ ∨ b = ⟨1, MTLD.single demoSlow "slow"⟩ := by simpa [demoFed, demoTwo] using hb
      rcases this with rfl | rfl <;> rfl
    rcases this with rfl | rfl <;> obtain rfl := List.mem_singleton.1 he
    · refine ⟨K, trivial, fun b hb a _ => ?_, fun x τ hτ => hf τ (by simpa [ht] using hτ), fun x τ _ => demoTerm_eT x τ⟩
      fin_cases a
      show (K : ℝ) + ((0 : ℕ) : ℝ) = K
      simp
    · refine ⟨K + 2, trivial, fun b hb a _ => ?_, fun x τ hτ => rfl, fun x τ _ => rfl⟩
      show (K : ℝ) + ((b.2.m : ℕ) : ℝ) = K + 2
      rw [hm b hb]
      simp

/-- Non-vacuity of C149: two sources that agree until `t₁` give the same voltages and currents until `t₁`. -/
example {f g : ℝ → ℝ} {T t₁ : ℝ} (h : ∀ τ < t₁, g τ = f τ) (hT : 0 ≤ T) (ht : T ≤ t₁) : ∃ M M', (demoFed f).runUntil T 0 = .ok M ∧
    (demoFed g).runUntil T 0 = .ok M' ∧ List.Forall₂ SameFields M.bundles M'.bundles := by
  obtain ⟨M, hM⟩ := (demoFed_startable f).run T
  obtain ⟨M', hM'⟩ := (demoFed_startable g).run T
  refine ⟨M, M', hM, hM', C149_causality (t₁ := t₁) (by rw [demoFed_runDt]; norm_num)
    (demoFed_alike fun τ hτ => by rw [add_zero]; exact h τ hτ) hM hM' ?_⟩
  rw [demoFed_runDt, div_one, mul_one, show (demoFed f).time = 0 from rfl, zero_add]
  refine le_trans ?_ ht
  have h0 : 0 ≤ ⌊T⌋ := Int.floor_nonneg.2 hT
  have : ((⌊T⌋.toNat : ℕ) : ℝ) = ((⌊T⌋ : ℤ) : ℝ) := by
    rw [← Int.cast_natCast, Int.toNat_of_nonneg h0]
  rw [this]
  exact Int.floor_le T

/-- Non-vacuity of C149: the right end hears of a source that is switched on at time `K` two steps later. -/
example (K : ℕ) {f : ℝ → ℝ} (hf : ∀ τ < (K : ℝ), f τ = 0) : ∃ M, (demoFed f).runUntil (K + 2) 0 = .ok M ∧
    ∀ b ∈ M.bundles, ∀ x, 2 ≤ b.2.m → b.2.v 2 x = 0 := by
  obtain ⟨M, hM⟩ := (demoFed_startable f).run (K + 2)
  refine ⟨M, hM, fun b hb x hm => ?_⟩
  have h := (C149_front (d := fun _ k => (K : ℝ) + k) (by rw [demoFed_runDt]; norm_num) (demoFed_rest f)
    (by rw [demoFed_runDt]; exact demoFed_arrival K hf) hM b hb).1 2 hm
  refine h ?_ x
  rw [demoFed_runDt, div_one, show ((K : ℝ) + 2) = ((K + 2 : ℕ) : ℝ) by push_cast; ring, Int.floor_natCast, Int.toNat_natCast]
  push_cast
  exact le_rfl

/-- Non-vacuity of C149: a source that acts `K` steps later gives the same voltages and currents `K` steps later. -/
example (K k : ℕ) {f : ℝ → ℝ} (hf : ∀ τ < (0 : ℝ), f τ = 0) : ∃ M M', (demoFed f).runUntil k 0 = .ok M ∧
    (demoFed fun τ => f (τ - K)).runUntil ((k + K : ℕ) : ℝ) 0 = .ok M' ∧ List.Forall₂ SameFields M.bundles M'.bundles := by
  obtain ⟨M, hM⟩ := (demoFed_startable f).run k
  obtain ⟨M', hM'⟩ := (demoFed_startable fun τ => f (τ - K)).run ((k + K : ℕ) : ℝ)
  refine ⟨M, M', hM, hM', C149_delay (K := K) (by rw [demoFed_runDt]; norm_num)
    (demoFed_alike fun τ _ => by rw [demoFed_runDt, mul_one, add_sub_cancel_right]) (demoFed_rest f) ⟨?_, ?_⟩ hM hM' ?_⟩
  · intro b hb
    have : b = ⟨1, demoOne⟩ ∨ b = ⟨1, MTLD.single demoSlow "slow"⟩ := by simpa [demoFed, demoTwo] using hb
    rcases this with rfl | rfl <;> exact ⟨fun _ _ _ _ _ => rfl, fun _ _ _ _ _ => rfl⟩
  · intro nwd hn e he
    have : nwd = [(0, ⟨1, 0, { demoTerm with vSources := fun _ => f }⟩)] ∨
        nwd = [(0, ⟨1, 0, { demoTermL with vSources := fun _ _ => 0 }⟩)] := by simpa [demoFed] using hn
    rcases this with rfl | rfl <;> obtain rfl := List.mem_singleton.1 he
    · exact ⟨fun _ τ hτ => hf τ hτ, fun x τ _ => demoTerm_eT x τ⟩
    · exact ⟨fun _ _ _ => rfl, fun _ _ _ => rfl⟩
  · rw [demoFed_runDt, div_one, div_one, Int.floor_natCast, Int.floor_natCast, Int.toNat_natCast, Int.toNat_natCast]

end Mtln
