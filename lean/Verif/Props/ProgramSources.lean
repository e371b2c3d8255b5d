import Verif.Props.ProgramAccept
import Verif.Props.ParserSource

/-! # The sources of programs: C159 -/

namespace Mtln

open Matrix

variable {n p N S : ℕ}

/-- Sources of a kind, at finitely many cells. -/
def SrcIn (W : Set (ℝ → ℝ)) (eL : Src n) : Prop :=
  (∀ k j, eL k j ∈ W) ∧ ∃ K, ∀ k ≥ K, ∀ j t, eL k j t = 0

theorem addWeighted_in (W : Submodule ℝ (ℝ → ℝ)) {m : ℕ} {c : Fin n} {mag : ℝ → ℝ} {scale : ℝ} (hW : mag ∈ W) :
    ∀ {d : Factors} {eL eL' : Src n}, SrcIn W eL →
      d.foldlM (fun eL (e : ℤ × ℝ) => addWeighted m c mag eL e.1 (e.2 / scale)) eL = .ok eL' → SrcIn W eL'
  | [], eL, eL', hs, h => by
    have := Except.ok.inj h
    subst this
    exact hs
  | e :: d, eL, eL', hs, h => by
    rw [List.foldlM_cons] at h
    obtain ⟨eL1, h1, h2⟩ := bind_ok_iff.1 h
    refine addWeighted_in W hW ?_ h2
    unfold addWeighted at h1
    obtain ⟨cell, -, h3⟩ := bind_ok_iff.1 h1
    have h3 := Except.ok.inj h3
    subst h3
    obtain ⟨g1, K, g2⟩ := hs
    refine ⟨fun k j => ?_, max K (cell + 1), fun k hk j t => ?_⟩
    · by_cases hk : k = cell ∧ j = c
      · simp only [hk, and_self, if_true]
        exact W.add_mem (g1 _ _) (W.smul_mem _ hW)
      · simp only [hk, if_false]
        exact g1 k j
    · rw [ge_iff_le, max_le_iff] at hk
      have : ¬ (k = cell ∧ j = c) := fun h => by omega
      simp only [this, if_false]
      exact g2 k hk.1 j t

/-- The sources of a bundle are of a kind. -/
def MTLD.In (W : Set (ℝ → ℝ)) (b : MTLD n p) : Prop := SrcIn W b.eL ∧ SrcIn W b.eT

theorem bundleCalls_in (W : Submodule ℝ (ℝ → ℝ)) : ∀ {l : List BundleCall} {b b' : MTLD n p}, b.In W →
    (∀ c ∈ l, match c with | .probe .. => True | .field _ _ _ f _ => f ∈ W | .external .. => False) →
    l.foldlM (fun b c => BundleCall.run b c) b = .ok b' → b'.In W
  | [], b, b', hb, _, h => by
    have := Except.ok.inj h
    subst this
    exact hb
  | c :: l, b, b', hb, hc, h => by
    simp only [List.foldlM_cons, bind_ok_iff] at h
    obtain ⟨b1, h1, h2⟩ := h
    refine bundleCalls_in W ?_ (fun c hcl => hc c (List.mem_cons_of_mem _ hcl)) h2
    have hc0 := hc c List.mem_cons_self
    cases c with
    | probe x t =>
      simp only [BundleCall.run, MTLD.addProbe, bind_ok_iff, Except.ok.injEq] at h1
      obtain ⟨-, -, -, -, rfl⟩ := h1
      exact hb
    | field x y c f t =>
      simp only [BundleCall.run] at h1
      split_ifs at h1 with hcn
      unfold MTLD.addLocalizedField at h1
      obtain ⟨-, -, h1⟩ := bind_ok_iff.1 h1
      obtain ⟨-, -, h1⟩ := bind_ok_iff.1 h1
      obtain ⟨d, -, h1⟩ := bind_ok_iff.1 h1
      obtain ⟨-, -, h1⟩ := bind_ok_iff.1 h1
      obtain ⟨eL, h3, h1⟩ := bind_ok_iff.1 h1
      have h1 := Except.ok.inj h1
      subst h1
      exact ⟨addWeighted_in W hc0 hb.1 h3, hb.2⟩
    | external F D loc => exact hc0.elim

theorem zero_in (W : Submodule ℝ (ℝ → ℝ)) : SrcIn (n := n) W fun _ _ _ => 0 :=
  ⟨fun _ _ => W.zero_mem, 0, fun _ _ _ _ => rfl⟩

theorem bundleMake_in (W : Submodule ℝ (ℝ → ℝ)) {B : BundlePlan p} {b : AnyBundle p} (h : B.make = .ok b)
    (hc : ∀ c ∈ B.calls, match c with | .probe .. => True | .field _ _ _ f _ => f ∈ W | .external .. => False) : b.2.In W := by
  simp only [BundlePlan.make, bind_ok_iff, Except.ok.injEq] at h
  obtain ⟨b0, h0, b', h1, rfl⟩ := h
  refine bundleCalls_in W ?_ hc h1
  obtain ⟨first, rest, -, -, rfl⟩ := bundleNew_ok_iff.1 h0
  exact ⟨zero_in W, zero_in W⟩

theorem upd_in (W : Submodule ℝ (ℝ → ℝ)) {u : Upd (ℝ → ℝ)} {f : ℝ → ℝ} (hf : f ∈ W)
    (hu : match u with | .set g => g ∈ W | .add g => g ∈ W) : u.app f ∈ W := by
  cases u with
  | set g => exact hu
  | add g => exact W.add_mem hf hu

theorem call_in (W : Submodule ℝ (ℝ → ℝ)) {nw nw' : Network N S} {c : Call} (h : nw.call c = .ok nw')
    (hc : ∀ f, c.source = some f → f ∈ W) (hn : ∀ a, nw.vSources a ∈ W) (a : Fin N) : nw'.vSources a ∈ W := by
  classical
  obtain ⟨E, hE, rfl⟩ := call_ok_iff.1 h
  refine upd_in W (hn a) ?_
  have hu : ∀ Vt : Option (ℝ → ℝ), (∀ f, Vt = some f → f ∈ W) → ∀ x : Fin N, match (if a = x then srcUpd Vt else .add 0) with
      | .set g => g ∈ W | .add g => g ∈ W := by
    intro Vt hV x
    by_cases hx : a = x
    · rw [if_pos hx]
      cases Vt with
      | none => exact W.zero_mem
      | some f => exact hV f rfl
    · rw [if_neg hx]
      exact W.zero_mem
  cases c with
  | ground id R Vt =>
    obtain ⟨x, -, -, rfl⟩ := hE
    exact hu Vt hc x
  | groundLCpRs id R L C Vt =>
    obtain ⟨x, -, -, -, -, -, -, -, -, -, -, rfl⟩ := hE
    exact hu Vt hc x
  | groundC id C Vt =>
    obtain ⟨x, -, rfl⟩ := hE
    exact hu Vt hc x
  | shortGround id =>
    obtain ⟨x, -, rfl⟩ := hE
    exact W.zero_mem
  | branch id1 id2 R Vt =>
    obtain ⟨x, y, -, -, -, rfl⟩ := hE
    have hg : Vt.getD 0 ∈ W := by
      cases Vt with
      | none => exact W.zero_mem
      | some f => exact hc f rfl
    refine W.add_mem ?_ ?_ <;> split_ifs <;> first | exact hg | exact W.zero_mem
  | short id1 id2 =>
    obtain ⟨x, y, -, -, rfl⟩ := hE
    exact W.zero_mem

theorem calls_in (W : Submodule ℝ (ℝ → ℝ)) : ∀ {l : List Call} {nw nw' : Network N S}, nw.calls l = .ok nw' →
    (∀ c ∈ l, ∀ f, c.source = some f → f ∈ W) → (∀ a, nw.vSources a ∈ W) → ∀ a, nw'.vSources a ∈ W
  | [], nw, nw', h, _, hn => by
    rw [calls_nil] at h
    have := h
    subst this
    exact hn
  | c :: l, nw, nw', h, hc, hn => by
    obtain ⟨nw1, h1, h2⟩ := calls_cons.1 h
    exact calls_in W h2 (fun c hcl => hc c (List.mem_cons_of_mem _ hcl)) (call_in W h1 (hc c List.mem_cons_self) hn)

theorem addNodes_eT {W : Set (ℝ → ℝ)} {d : LineConnections p} (hd : ∀ k a, d.line.2.eT k a ∈ W) :
    ∀ {cs : List Connection} {B B' : NetBuild}, (∀ q ∈ B.nodes, q.eT ∈ W) →
      cs.foldlM (fun (B : NetBuild) c => B.addNode d.end' d.line d.bundleName c) B = .ok B' → ∀ q ∈ B'.nodes, q.eT ∈ W
  | [], B, B', hB, h => by
    have := Except.ok.inj h
    subst this
    exact hB
  | c :: cs, B, B', hB, h => by
    simp only [List.foldlM_cons, bind_ok_iff] at h
    obtain ⟨B1, h1, h2⟩ := h
    refine addNodes_eT hd ?_ h2
    obtain ⟨-, -, k, -, -, h5, rfl⟩ := NetBuild.addNode_ok_iff.1 h1
    intro q hq
    rcases List.mem_append.1 hq with hq | hq
    · exact hB q hq
    · obtain rfl := List.mem_singleton.1 hq
      exact hd _ _

theorem addLines_eT {W : Set (ℝ → ℝ)} : ∀ {ds : List (LineConnections p)} {B B' : NetBuild},
    (∀ d ∈ ds, ∀ k a, d.line.2.eT k a ∈ W) → (∀ q ∈ B.nodes, q.eT ∈ W) → ds.foldlM NetBuild.addLine B = .ok B' →
      ∀ q ∈ B'.nodes, q.eT ∈ W
  | [], B, B', _, hB, h => by
    have := Except.ok.inj h
    subst this
    exact hB
  | d :: ds, B, B', hd, hB, h => by
    simp only [List.foldlM_cons, bind_ok_iff] at h
    obtain ⟨B1, h1, h2⟩ := h
    obtain ⟨-, h3⟩ := NetBuild.addLine_ok_iff.1 h1
    refine addLines_eT (fun d hds => hd d (List.mem_cons_of_mem _ hds)) ?_ h2
    refine addNodes_eT (hd d List.mem_cons_self) ?_ h3
    exact hB

section

variable {P : Program p} {M : MTLN p}

/-- **C159.** The sources of the manager are combinations of those of the program. -/
theorem C159_sources (W : Submodule ℝ (ℝ → ℝ)) (h : P.make = .ok M) (hs : P.SourcesIn W) (dt : ℝ) :
    (∀ b ∈ (M.overrideDt dt).bundles, b.2.In W) ∧
    ∀ nwd ∈ (M.overrideDt dt).networks, ∀ e ∈ nwd, (∀ a, e.2.2.2.vSources a ∈ W) ∧ ∀ a, (e.2.2.2.nodes a).eT ∈ W := by
  have hN : (M.overrideDt dt).networks = M.networks := by unfold MTLN.overrideDt; split <;> rfl
  have hb : ∀ b ∈ M.bundles, b.2.In W := by
    simp only [Program.make, bind_ok_iff] at h
    obtain ⟨bs, h1, nws, h2, h3⟩ := h
    obtain ⟨-, -, rfl, -, -⟩ := managerNew_ok_iff.1 h3
    intro b hb
    obtain ⟨B, hB, hBb⟩ := forall₂_from (mapPy_ok_iff.1 h1) b hb
    exact bundleMake_in W hBb (hs.fields B hB)
  refine ⟨fun b hbm => ?_, fun nwd hn e he => ?_⟩
  · by_cases h0 : dt = 0
    · refine hb b ?_
      unfold MTLN.overrideDt at hbm
      rwa [if_neg (by simp [h0])] at hbm
    · obtain ⟨b0, hb0, rfl⟩ := override_bundle h0 hbm
      exact hb b0 hb0
  · rw [hN] at hn
    obtain ⟨Q, hQ, nw, nw', k1, k2, rfl⟩ := plan_network h hn he
    obtain ⟨B, hB, rfl⟩ := networkNew_ok_iff.1 k1
    have hz : ∀ a, B.finish.vSources a ∈ W := fun a => W.zero_mem
    have hv := calls_in W k2 (hs.voltages Q hQ) hz
    refine ⟨hv, fun a => ?_⟩
    have hk := (calls_keep k2).1
    have : (nw'.nodes a).eT ∈ (W : Set (ℝ → ℝ)) := by
      rw [hk]
      exact addLines_eT (W := W) (fun d hd k a => hs.ends _ (item_mem hQ hd) k a) (by simp) hB _ (List.get_mem _ _)
    have he : ((nw'.nodes a).registered M.bundles Q.level).eT = (nw'.nodes a).eT := by
      unfold Node.registered
      split <;> rfl
    show ((nw'.nodes a).registered M.bundles Q.level).eT ∈ W
    rw [he]
    exact this

/-- The functions that are constant from a time on. -/
def constantFrom (t₀ : ℝ) : Submodule ℝ (ℝ → ℝ) where
  carrier := {f | ∀ t, t₀ ≤ t → f t = f t₀}
  add_mem' := fun hf hg t ht => by simp only [Pi.add_apply, hf t ht, hg t ht]
  zero_mem' := fun _ _ => rfl
  smul_mem' := fun c f hf t ht => by simp only [Pi.smul_apply, hf t ht]

/-- The functions that vanish from a time on. -/
def silentFrom (t₀ : ℝ) : Submodule ℝ (ℝ → ℝ) where
  carrier := {f | ∀ t, t₀ ≤ t → f t = 0}
  add_mem' := fun hf hg t ht => by simp only [Pi.add_apply, hf t ht, hg t ht, add_zero]
  zero_mem' := fun _ _ => rfl
  smul_mem' := fun c f hf t ht => by simp only [Pi.smul_apply, hf t ht, smul_zero]

/-- The bounded functions. -/
def boundedSources : Submodule ℝ (ℝ → ℝ) where
  carrier := {f | ∃ K, ∀ t, |f t| ≤ K}
  add_mem' := fun ⟨K, hK⟩ ⟨K', hK'⟩ => ⟨K + K', fun t => (abs_add_le _ _).trans (add_le_add (hK t) (hK' t))⟩
  zero_mem' := ⟨0, fun t => by simp⟩
  smul_mem' := fun c f ⟨K, hK⟩ => ⟨|c| * K, fun t => by
    rw [Pi.smul_apply, smul_eq_mul, abs_mul]
    exact mul_le_mul_of_nonneg_left (hK t) (abs_nonneg c)⟩

/-- **C159.** Constant sources of a program are constant sources of the manager. -/
theorem C159_constant (h : P.make = .ok M) {t₀ : ℝ} (hs : P.SourcesIn {f | ∀ t, t₀ ≤ t → f t = f t₀}) (dt : ℝ) :
    (M.overrideDt dt).ConstantFrom t₀ := by
  obtain ⟨h1, h2⟩ := C159_sources (constantFrom t₀) h hs dt
  exact ⟨fun b hb t ht => ⟨fun k x => (h1 b hb).1.1 k x t ht, fun k x => (h1 b hb).2.1 k x t ht⟩,
    fun nwd hn e he t ht => ⟨fun x => (h2 nwd hn e he).1 x t ht, fun x => (h2 nwd hn e he).2 x t ht⟩⟩

/-- **C159.** Sources of a program that end are sources of the manager that end. -/
theorem C159_silent (h : P.make = .ok M) {t₀ : ℝ} (hs : P.SourcesIn {f | ∀ t, t₀ ≤ t → f t = 0}) (dt : ℝ) :
    (M.overrideDt dt).SilentFrom t₀ := by
  obtain ⟨h1, h2⟩ := C159_sources (silentFrom t₀) h hs dt
  exact ⟨fun b hb t ht => ⟨fun k x => (h1 b hb).1.1 k x t ht, fun k x => (h1 b hb).2.1 k x t ht⟩,
    fun nwd hn e he t ht => ⟨fun x => (h2 nwd hn e he).1 x t ht, fun x => (h2 nwd hn e he).2 x t ht⟩⟩

theorem exists_fin_bound {n : ℕ} {f : Fin n → ℝ → ℝ} (h : ∀ a, ∃ K, ∀ t, |f a t| ≤ K) : ∃ K, ∀ a t, |f a t| ≤ K := by
  choose K hK using h
  exact ⟨∑ a, |K a|, fun a t => ((hK a t).trans (le_abs_self _)).trans
    (Finset.single_le_sum (f := fun a => |K a|) (fun _ _ => abs_nonneg _) (Finset.mem_univ a))⟩

theorem exists_src_bound {eL : Src n} (h : SrcIn boundedSources eL) : ∃ K, ∀ k x t, |eL k x t| ≤ K := by
  obtain ⟨h1, m, h2⟩ := h
  obtain ⟨K, hK⟩ := exists_fin_bound (f := fun k : Fin m => fun t => ∑ x, |eL k x t|) fun k => by
    obtain ⟨K, hK⟩ := exists_fin_bound (f := fun x => eL k x) fun x => h1 k x
    refine ⟨∑ _x : Fin n, K, fun t => ?_⟩
    rw [abs_of_nonneg (Finset.sum_nonneg fun _ _ => abs_nonneg _)]
    exact Finset.sum_le_sum fun x _ => hK x t
  refine ⟨|K|, fun k x t => ?_⟩
  by_cases hk : k < m
  · refine le_trans ?_ ((hK ⟨k, hk⟩ t).trans (le_abs_self K))
    refine le_trans ?_ (le_abs_self _)
    exact Finset.single_le_sum (f := fun x => |eL k x t|) (fun _ _ => abs_nonneg _) (Finset.mem_univ x)
  · rw [h2 k (not_lt.1 hk), abs_zero]
    exact abs_nonneg K

theorem exists_list_bound {α : Type*} {l : List α} {f : α → ℝ → Prop} (hf : ∀ a K K', K ≤ K' → f a K → f a K')
    (h : ∀ a ∈ l, ∃ K, f a K) : ∃ K, ∀ a ∈ l, f a K := by
  induction l with
  | nil => exact ⟨0, by simp⟩
  | cons a l ih =>
    obtain ⟨K, hK⟩ := ih fun a ha => h a (List.mem_cons_of_mem _ ha)
    obtain ⟨K', hK'⟩ := h a List.mem_cons_self
    refine ⟨max K K', fun x hx => ?_⟩
    rcases List.mem_cons.1 hx with rfl | hx
    · exact hf _ _ _ (le_max_right _ _) hK'
    · exact hf _ _ _ (le_max_left _ _) (hK x hx)

/-- **C159.** Bounded sources of a program are bounded sources of the manager. -/
theorem C159_bounded (h : P.make = .ok M) (hs : P.SourcesIn {f | ∃ K, ∀ t, |f t| ≤ K}) (dt : ℝ) :
    ∃ σ, (M.overrideDt dt).ExcitedBelow σ := by
  obtain ⟨h1, h2⟩ := C159_sources boundedSources h hs dt
  obtain ⟨K, hK⟩ := exists_list_bound (l := (M.overrideDt dt).bundles)
    (f := fun b K => ∀ t, (∀ k x, |b.2.eL k x t| ≤ K) ∧ ∀ k x, |b.2.eT k x t| ≤ K)
    (fun b K K' hKK hb t => ⟨fun k x => ((hb t).1 k x).trans hKK, fun k x => ((hb t).2 k x).trans hKK⟩) fun b hb => by
      obtain ⟨K, hK⟩ := exists_src_bound (h1 b hb).1
      obtain ⟨K', hK'⟩ := exists_src_bound (h1 b hb).2
      exact ⟨max K K', fun t => ⟨fun k x => (hK k x t).trans (le_max_left _ _),
        fun k x => (hK' k x t).trans (le_max_right _ _)⟩⟩
  obtain ⟨L, hL⟩ := exists_list_bound (l := (M.overrideDt dt).networks)
    (f := fun nwd K => ∀ e ∈ nwd, ∀ t, (∀ x, |e.2.2.2.vSources x t| ≤ K) ∧ ∀ x, |(e.2.2.2.nodes x).eT t| ≤ K)
    (fun b K K' hKK hb e he t => ⟨fun x => ((hb e he t).1 x).trans hKK, fun x => ((hb e he t).2 x).trans hKK⟩)
    fun nwd hn => exists_list_bound (l := nwd)
      (fun b K K' hKK hb t => ⟨fun x => ((hb t).1 x).trans hKK, fun x => ((hb t).2 x).trans hKK⟩) fun e he => by
      obtain ⟨K, hK⟩ := exists_fin_bound (h2 nwd hn e he).1
      obtain ⟨K', hK'⟩ := exists_fin_bound (h2 nwd hn e he).2
      exact ⟨max K K', fun t => ⟨fun x => (hK x t).trans (le_max_left _ _), fun x => (hK' x t).trans (le_max_right _ _)⟩⟩
  exact ⟨max K L, fun b hb t => ⟨fun k x => ((hK b hb t).1 k x).trans (le_max_left _ _),
      fun k x => ((hK b hb t).2 k x).trans (le_max_left _ _)⟩,
    fun nwd hn e he t => ⟨fun x => ((hL nwd hn e he t).1 x).trans (le_max_right _ _),
      fun x => ((hL nwd hn e he t).2 x).trans (le_max_right _ _)⟩⟩

/-- **C159.** From the program alone: bounded sources make voltages and currents grow at most linearly, and not at all after the
sources have ended. -/
theorem C159_stable_program (h : P.make = .ok M) (hw : P.WellFormed) {dt : ℝ} (h0 : 0 < dt)
    (hlt : ∀ B ∈ P.bundles, ∀ L ∈ B.lines, dt < L.2.dt) (hs : P.SourcesIn {f | ∃ K, ∀ t, |f t| ≤ K}) :
    (∃ K, ∀ T, ∃ M', M.runUntil T dt = .ok M' ∧ ∀ b ∈ M'.bundles,
      (∀ k ≤ b.2.m, ∀ a, |b.2.v k a| ≤ K * (1 + M'.time)) ∧ ∀ k < b.2.m, ∀ a, |b.2.i k a| ≤ K * (1 + M'.time)) ∧
    ∀ t₀, P.SourcesIn {f | ∀ t, t₀ ≤ t → f t = 0} → ∃ K, ∀ T, ∃ M', M.runUntil T dt = .ok M' ∧ ∀ b ∈ M'.bundles,
      (∀ k ≤ b.2.m, ∀ a, |b.2.v k a| ≤ K) ∧ ∀ k < b.2.m, ∀ a, |b.2.i k a| ≤ K := by
  obtain ⟨σ, hσ⟩ := C159_bounded h hs dt
  obtain ⟨⟨K, hK⟩, h2⟩ := C159_growth h hw h0 hlt hσ
  refine ⟨⟨K, fun T => ?_⟩, fun t₀ ht => ?_⟩
  · obtain ⟨M', hM'⟩ := C159_runs h hw h0.le T
    exact ⟨M', hM', hK T M' hM'⟩
  · obtain ⟨K, hK⟩ := h2 t₀ (C159_silent h ht dt)
    refine ⟨K, fun T => ?_⟩
    obtain ⟨M', hM'⟩ := C159_runs h hw h0.le T
    exact ⟨M', hM', hK T M' hM'⟩

/-- **C159.** From the program alone: with constant sources and resistors to ground everything settles. -/
theorem C159_settles_program (h : P.make = .ok M) (hw : P.WellFormed) (hg : P.Grounded) {dt t₀ : ℝ} (h0 : 0 < dt)
    (hlt : ∀ B ∈ P.bundles, ∀ L ∈ B.lines, dt < L.2.dt) (hs : P.SourcesIn {f | ∀ t, t₀ ≤ t → f t = f t₀}) :
    ∃ V I, ((M.overrideDt dt).withState V I).DC t₀ ∧
      (∀ x, x ∉ (allNodes (M.overrideDt dt).networks).map Node.end' → endV ((M.overrideDt dt).withState V I).bundles x = 0) ∧
      ∀ ε > 0, ∃ T₀, ∀ T ≥ T₀, ∃ M', M.runUntil T dt = .ok M' ∧ ∀ b ∈ M'.bundles,
        (∀ k ≤ b.2.m, ∀ a : Fin b.1, |b.2.v k a - V b.2.name k a| ≤ ε) ∧
        ∀ k < b.2.m, ∀ a : Fin b.1, |b.2.i k a - I b.2.name k a| ≤ ε :=
  C159_settles h hw hg h0 hlt (C159_constant h hs dt)

end

theorem C159_example : ∃ (s : MTL 1 p) (M : MTLN p), (demoProgram s).make = .ok M ∧
    ∃ V I : String → ℕ → ℕ → ℝ, ∀ ε > 0, ∃ T₀, ∀ T ≥ T₀, ∃ M', M.runUntil T (s.dt / 2) = .ok M' ∧ ∀ b ∈ M'.bundles,
      (∀ k ≤ b.2.m, ∀ a : Fin b.1, |b.2.v k a - V b.2.name k a| ≤ ε) ∧
      ∀ k < b.2.m, ∀ a : Fin b.1, |b.2.i k a - I b.2.name k a| ≤ ε := by
  obtain ⟨s, M, hs, he, hM⟩ := demoProgram_made (p := p)
  have hd : 0 < s.dt := (maxTimestep_spec hs.dt fun k hk => (hs.dun k hk).le).1
  obtain ⟨V, I, -, -, h⟩ := C159_settles_program (t₀ := 0) hM (demoProgram_wellFormed hs) (demoProgram_grounded s) (half_pos hd)
    (by simp [demoProgram, hd]) ⟨by simp [demoProgram], by simp [demoProgram, Program.items, he],
      by simp [demoProgram, Call.source]⟩
  exact ⟨s, M, hM, V, I, h⟩

end Mtln
