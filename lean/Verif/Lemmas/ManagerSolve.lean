import Verif.Lemmas.ManagerRemade
import Mathlib.LinearAlgebra.FiniteDimensional.Basic

/-! # The direct current circuit has as many equations as unknowns -/

namespace Mtln

open Matrix

variable {p : ℕ}

/-- Voltages and currents by name, node or cell, and row. -/
abbrev CircuitState := (String → ℕ → ℕ → ℝ) × (String → ℕ → ℕ → ℝ)

/-- Linear in the state. -/
def IsLin (f : CircuitState → ℝ) : Prop := ∀ (c : ℝ) x y, f (c • x + y) = c * f x + f y

namespace IsLin

variable {f g : CircuitState → ℝ}

theorem fst (name : String) (k a : ℕ) : IsLin fun s => s.1 name k a := fun _ _ _ => rfl

theorem snd (name : String) (k a : ℕ) : IsLin fun s => s.2 name k a := fun _ _ _ => rfl

theorem zero : IsLin fun _ => 0 := fun _ _ _ => by simp

theorem add (hf : IsLin f) (hg : IsLin g) : IsLin fun s => f s + g s := fun c x y => by
  simp only [hf c x y, hg c x y]; ring

theorem sub (hf : IsLin f) (hg : IsLin g) : IsLin fun s => f s - g s := fun c x y => by
  simp only [hf c x y, hg c x y]; ring

theorem mul (hf : IsLin f) (r : ℝ) : IsLin fun s => r * f s := fun c x y => by
  simp only [hf c x y]; ring

theorem sum {ι : Type} [Fintype ι] {F : ι → CircuitState → ℝ} (h : ∀ i, IsLin (F i)) : IsLin fun s => ∑ i, F i s := fun c x y => by
  simp only [h _ c x y, Finset.sum_add_distrib, Finset.mul_sum]

end IsLin

/-- The equations of the nodes of a network: the end, the currents through the resistors, the currents of the sources. -/
noncomputable def levelRows (t : ℝ) (e : ℕ × AnyNetwork) : List (End × ((End → ℝ) → ℝ) × ℝ) :=
  List.ofFn fun a => ((e.2.2.2.nodes a).end', fun w => ∑ b, e.2.2.2.P1 a b * w (e.2.2.2.nodes b).end',
    ∑ b, e.2.2.2.Ps a b * e.2.2.2.vSources b t)

/-- The equations of all nodes. -/
noncomputable def MTLN.rows (M : MTLN p) (t : ℝ) : List (End × ((End → ℝ) → ℝ) × ℝ) :=
  M.networks.flatMap fun nwd => nwd.flatMap (levelRows t)

/-- The equation of the node at an end. -/
noncomputable def MTLN.rowAt (M : MTLN p) (t : ℝ) (x : End) : Option (End × ((End → ℝ) → ℝ) × ℝ) :=
  (M.rows t).find? fun q => decide (q.1 = x)

/-- What the equation of an end leaves. -/
noncomputable def MTLN.resEnd (M : MTLN p) (t : ℝ) (s : CircuitState) (x : End) : ℝ :=
  match M.rowAt t x with
  | some q => q.2.1 (endV (M.bundles.map (AnyBundle.withState s.1 s.2))) - endI (M.bundles.map (AnyBundle.withState s.1 s.2)) x
  | none => endV (M.bundles.map (AnyBundle.withState s.1 s.2)) x

/-- The source of an end. -/
noncomputable def MTLN.srcEnd (M : MTLN p) (t : ℝ) (x : End) : ℝ :=
  match M.rowAt t x with
  | some q => -q.2.2
  | none => 0

/-- What the equation of a node leaves. -/
noncomputable def MTLN.resV (M : MTLN p) (t : ℝ) (s : CircuitState) (name : String) (k a : ℕ) : ℝ :=
  match findBundle M.bundles name with
  | some b => if k = 0 then M.resEnd t s ⟨name, a, .S⟩ else if k = b.2.m then M.resEnd t s ⟨name, a, .L⟩ else
      if h : a < b.1 then s.2 name k a - s.2 name (k - 1) a +
        ((b.2.dun (k - 1) + b.2.dun k) / 2) * ∑ c : Fin b.1, b.2.g k ⟨a, h⟩ c * s.1 name k c else 0
  | none => 0

/-- The source of a node. -/
noncomputable def MTLN.srcV (M : MTLN p) (t : ℝ) (name : String) (k a : ℕ) : ℝ :=
  match findBundle M.bundles name with
  | some b => if k = 0 then M.srcEnd t ⟨name, a, .S⟩ else if k = b.2.m then M.srcEnd t ⟨name, a, .L⟩ else 0
  | none => 0

/-- What the equation of a cell leaves. -/
noncomputable def MTLN.resI (M : MTLN p) (s : CircuitState) (name : String) (k a : ℕ) : ℝ :=
  match findBundle M.bundles name with
  | some b => if h : a < b.1 then s.1 name (k + 1) a - s.1 name k a +
      b.2.dun k * ∑ c : Fin b.1, (b.2.r k + b.2.tz.d k) ⟨a, h⟩ c * s.2 name k c else 0
  | none => 0

/-- The source of a cell. -/
noncomputable def MTLN.srcI (M : MTLN p) (t : ℝ) (name : String) (k a : ℕ) : ℝ :=
  match findBundle M.bundles name with
  | some b => if h : a < b.1 then b.2.dun k * b.2.eL k ⟨a, h⟩ t - (b.2.eT (k + 1) ⟨a, h⟩ t - b.2.eT k ⟨a, h⟩ t) else 0
  | none => 0

theorem endV_lin (bs : List (AnyBundle p)) (x : End) : IsLin fun s => endV (bs.map (AnyBundle.withState s.1 s.2)) x := by
  unfold endV
  simp only [find_withState]
  cases findBundle bs x.bundle with
  | none => exact IsLin.zero
  | some b =>
    simp only [Option.map_some, AnyBundle.withState]
    split
    · exact IsLin.fst _ _ _
    · exact IsLin.zero

theorem endI_lin (bs : List (AnyBundle p)) (x : End) : IsLin fun s => endI (bs.map (AnyBundle.withState s.1 s.2)) x := by
  unfold endI
  simp only [find_withState]
  cases findBundle bs x.bundle with
  | none => exact IsLin.zero
  | some b =>
    simp only [Option.map_some, AnyBundle.withState]
    split
    · exact (IsLin.snd _ _ _).mul _
    · exact IsLin.zero

variable {M : MTLN p} {t : ℝ}

theorem mem_rows {q : End × ((End → ℝ) → ℝ) × ℝ} : q ∈ M.rows t ↔ ∃ nwd ∈ M.networks, ∃ e ∈ nwd, ∃ a,
    ((e.2.2.2.nodes a).end', (fun w : End → ℝ => ∑ b, e.2.2.2.P1 a b * w (e.2.2.2.nodes b).end'),
      ∑ b, e.2.2.2.Ps a b * e.2.2.2.vSources b t) = q := by
  unfold MTLN.rows levelRows
  simp only [List.mem_flatMap, List.mem_ofFn]

theorem rows_ends : (M.rows t).map Prod.fst = (allNodes M.networks).map Node.end' := by
  unfold MTLN.rows allNodes levelRows
  simp only [List.map_flatMap, List.map_ofFn]
  rfl

theorem resEnd_lin (x : End) : IsLin fun s => M.resEnd t s x := by
  unfold MTLN.resEnd
  cases h : M.rowAt t x with
  | none => exact endV_lin _ _
  | some q =>
    obtain ⟨nwd, hn, e, he, a, rfl⟩ := mem_rows.1 (List.mem_of_find?_eq_some h)
    refine IsLin.sub ?_ (endI_lin _ _)
    exact IsLin.sum (ι := Fin e.2.1) fun b => (endV_lin _ _).mul _

theorem resV_lin (name : String) (k a : ℕ) : IsLin fun s => M.resV t s name k a := by
  unfold MTLN.resV
  cases findBundle M.bundles name with
  | none => exact IsLin.zero
  | some b =>
    simp only
    split
    · exact resEnd_lin _
    split
    · exact resEnd_lin _
    split
    · exact ((IsLin.snd _ _ _).sub (IsLin.snd _ _ _)).add ((IsLin.sum fun c => (IsLin.fst _ _ _).mul _).mul _)
    · exact IsLin.zero

theorem resI_lin (name : String) (k a : ℕ) : IsLin fun s => M.resI s name k a := by
  unfold MTLN.resI
  cases findBundle M.bundles name with
  | none => exact IsLin.zero
  | some b =>
    simp only
    split
    · exact ((IsLin.fst _ _ _).sub (IsLin.fst _ _ _)).add ((IsLin.sum fun c => (IsLin.snd _ _ _).mul _).mul _)
    · exact IsLin.zero

/-! ## Solutions -/

theorem find_key {α β : Type} [DecidableEq α] {l : List (α × β)} (hn : (l.map Prod.fst).Nodup) {q : α × β} (hq : q ∈ l) :
    l.find? (fun r => decide (r.1 = q.1)) = some q := by
  induction l with
  | nil => cases hq
  | cons r l ih =>
    rw [List.map_cons, List.nodup_cons] at hn
    rcases List.mem_cons.1 hq with rfl | hq
    · simp
    · rw [List.find?_cons_of_neg, ih hn.2 hq]
      simp only [decide_eq_true_eq]
      intro e
      exact hn.1 (e ▸ List.mem_map.2 ⟨q, hq, rfl⟩)

theorem rowAt_node (hends : ((allNodes M.networks).map Node.end').Nodup) {nwd : NetworkD} (hn : nwd ∈ M.networks)
    {e : ℕ × AnyNetwork} (he : e ∈ nwd) (a : Fin e.2.1) :
    M.rowAt t (e.2.2.2.nodes a).end' = some ((e.2.2.2.nodes a).end',
      (fun w : End → ℝ => ∑ b, e.2.2.2.P1 a b * w (e.2.2.2.nodes b).end'), ∑ b, e.2.2.2.Ps a b * e.2.2.2.vSources b t) :=
  find_key (by rw [rows_ends]; exact hends) (mem_rows.2 ⟨nwd, hn, e, he, a, rfl⟩)

theorem rowAt_free {x : End} (hx : x ∉ (allNodes M.networks).map Node.end') : M.rowAt t x = none := by
  refine List.find?_eq_none.2 fun q hq => ?_
  simp only [decide_eq_true_eq]
  intro e
  exact hx (by rw [← rows_ends (t := t)]; exact List.mem_map.2 ⟨q, hq, e⟩)

/-- Where the equations leave the sources, there is a solution. -/
theorem dc_of_res (hnames : (M.bundles.map fun b => b.2.name).Nodup) (hm : ∀ b ∈ M.bundles, 0 < b.2.m)
    (hends : ((allNodes M.networks).map Node.end').Nodup) (hO : ∀ nwd ∈ M.networks, ∀ e ∈ nwd, e.2.2.2.O = 0)
    (hat : ∀ d ∈ allNodes M.networks, d.end' ∈ allEnds M.bundles) (s : CircuitState)
    (hV : ∀ b ∈ M.bundles, ∀ k ≤ b.2.m, ∀ a < b.1, M.resV t s b.2.name k a = M.srcV t b.2.name k a)
    (hI : ∀ b ∈ M.bundles, ∀ k < b.2.m, ∀ a < b.1, M.resI s b.2.name k a = M.srcI t b.2.name k a) :
    (M.withState s.1 s.2).DC t ∧
      ∀ x, x ∉ (allNodes M.networks).map Node.end' → endV (M.withState s.1 s.2).bundles x = 0 := by
  have hend : ∀ x : End, (∃ b ∈ M.bundles, b.2.name = x.bundle ∧ x.row < b.1) → M.resEnd t s x = M.srcEnd t x := by
    rintro ⟨name, row, side⟩ ⟨b, hb, rfl, hrow⟩
    have hf := findBundle_mem hnames b hb
    cases side with
    | S =>
      have := hV b hb 0 (Nat.zero_le _) row hrow
      unfold MTLN.resV MTLN.srcV at this
      simpa only [hf, if_pos] using this
    | L =>
      have := hV b hb b.2.m le_rfl row hrow
      unfold MTLN.resV MTLN.srcV at this
      simpa only [hf, (hm b hb).ne', if_false, if_pos] using this
  refine ⟨⟨?_, ?_⟩, ?_⟩
  · intro b' hb'
    obtain ⟨b, hb, rfl⟩ := List.mem_map.1 hb'
    have hf := findBundle_mem hnames b hb
    refine ⟨fun k hk => funext fun (a : Fin b.1) => ?_, fun k h0 hk => funext fun (a : Fin b.1) => ?_⟩
    · have := hI b hb k hk a a.2
      unfold MTLN.resI MTLN.srcI at this
      simp only [hf, a.2, dif_pos] at this
      show s.1 b.2.name (k + 1) a - s.1 b.2.name k a + (b.2.eT (k + 1) a t - b.2.eT k a t) =
        b.2.dun k * (b.2.eL k a t - ∑ c : Fin b.1, (b.2.r k + b.2.tz.d k) a c * s.2 b.2.name k c)
      linear_combination this
    · have hk : k < b.2.m := hk
      have := hV b hb k hk.le a a.2
      unfold MTLN.resV MTLN.srcV at this
      simp only [hf, a.2, dif_pos, h0.ne', hk.ne, if_false] at this
      show s.2 b.2.name k a - s.2 b.2.name (k - 1) a =
        -((b.2.dun (k - 1) + b.2.dun k) / 2 * ∑ c : Fin b.1, b.2.g k a c * s.1 b.2.name k c)
      linear_combination this
  · intro nwd' hn' e' he'
    obtain ⟨nwd, hn, rfl⟩ := List.mem_map.1 hn'
    obtain ⟨e, he, rfl⟩ := List.mem_map.1 he'
    refine ⟨funext fun (a : Fin e.2.1) => ?_, fun h => absurd (hO nwd hn e he) h⟩
    have hmem : e.2.2.2.nodes a ∈ allNodes M.networks :=
      List.mem_flatMap.2 ⟨nwd, hn, List.mem_flatMap.2 ⟨e, he, List.mem_ofFn.2 ⟨a, rfl⟩⟩⟩
    obtain ⟨b, hb, h1, h2⟩ := mem_allEnds.1 (hat _ hmem)
    have := hend _ ⟨b, hb, h1, h2⟩
    unfold MTLN.resEnd MTLN.srcEnd at this
    rw [rowAt_node hends hn he a] at this
    simp only at this
    show (e.2.2.2.P1 *ᵥ (fun a => endV (M.bundles.map (AnyBundle.withState s.1 s.2)) (e.2.2.2.nodes a).end') +
      e.2.2.2.O *ᵥ e.2.2.2.X + e.2.2.2.Ps *ᵥ (fun a => e.2.2.2.vSources a t)) a =
      endI (M.bundles.map (AnyBundle.withState s.1 s.2)) (e.2.2.2.nodes a).end'
    rw [hO nwd hn e he, zero_mulVec, add_zero]
    rw [Pi.add_apply]
    simp only [mulVec, dotProduct]
    linear_combination this
  · intro x hx
    by_cases h : ∃ b ∈ M.bundles, b.2.name = x.bundle ∧ x.row < b.1
    · have := hend x h
      unfold MTLN.resEnd MTLN.srcEnd at this
      rwa [rowAt_free hx] at this
    · show endV (M.bundles.map (AnyBundle.withState s.1 s.2)) x = 0
      unfold endV
      rw [find_withState]
      cases hf : findBundle M.bundles x.bundle with
      | none => rfl
      | some b =>
        obtain ⟨hb, hname⟩ := findBundle_some hf
        simp only [Option.map_some, AnyBundle.withState]
        rw [dif_neg]
        exact fun hr => h ⟨b, hb, hname, hr⟩

/-! ## Without sources -/

theorem IsLin.at_zero {f : CircuitState → ℝ} (h : IsLin f) : f (0, 0) = 0 := by
  have := h 1 (0, 0) (0, 0)
  rw [one_smul, one_mul] at this
  have e : ((0, 0) : CircuitState) + (0, 0) = (0, 0) := by simp
  rw [e] at this
  linarith

/-- A bundle without fields. -/
def AnyBundle.muted (b : AnyBundle p) : AnyBundle p := ⟨b.1, { b.2 with eL := fun _ _ _ => 0, eT := fun _ _ _ => 0 }⟩

/-- A network without sources and fields. -/
def levelMuted (e : ℕ × AnyNetwork) : ℕ × AnyNetwork :=
  (e.1, ⟨e.2.1, e.2.2.1, { e.2.2.2 with
    vSources := fun _ _ => 0
    nodes := fun a => { e.2.2.2.nodes a with eT := fun _ => 0 } }⟩)

/-- The manager without sources and fields. -/
def MTLN.muted (M : MTLN p) : MTLN p :=
  { M with bundles := M.bundles.map AnyBundle.muted, networks := M.networks.map fun nwd => nwd.map levelMuted }

theorem MTLN.remade_muted (M : MTLN p) : M.Remade M.muted :=
  ⟨rfl, rfl, forall₂_map_of (fun b => ⟨_, _, _, _, _, rfl⟩) _,
    forall₂_map_of (fun nwd => forall₂_map_of (fun e => ⟨_, _, _, _, _, _, rfl⟩) _) _⟩

/-- Without sources, zero is a solution. -/
theorem MTLN.muted_zero (M : MTLN p) (t : ℝ) (hO : ∀ nwd ∈ M.networks, ∀ e ∈ nwd, e.2.2.2.O = 0) :
    (M.muted.withState 0 0).DC t ∧ ∀ x, endV (M.muted.withState 0 0).bundles x = 0 := by
  have hv : ∀ x, endV (M.muted.withState 0 0).bundles x = 0 := fun x => (endV_lin M.muted.bundles x).at_zero
  have hi : ∀ x, endI (M.muted.withState 0 0).bundles x = 0 := fun x => (endI_lin M.muted.bundles x).at_zero
  refine ⟨⟨?_, ?_⟩, hv⟩
  · intro b' hb'
    obtain ⟨b1, hb1, rfl⟩ := List.mem_map.1 hb'
    obtain ⟨b, hb, rfl⟩ := List.mem_map.1 hb1
    refine ⟨fun k _ => funext fun (a : Fin b.1) => ?_, fun k _ _ => funext fun (a : Fin b.1) => ?_⟩
    · show (0 : ℝ) - 0 + (0 - 0) = b.2.dun k * (0 - ((b.2.r k + b.2.tz.d k) *ᵥ (0 : Col b.1)) a)
      rw [mulVec_zero]
      simp
    · show (0 : ℝ) - 0 = -((b.2.dun (k - 1) + b.2.dun k) / 2 * (b.2.g k *ᵥ (0 : Col b.1)) a)
      rw [mulVec_zero]
      simp
  · intro nwd' hn' e' he'
    obtain ⟨nwd1, hn1, rfl⟩ := List.mem_map.1 hn'
    obtain ⟨e1, he1, rfl⟩ := List.mem_map.1 he'
    obtain ⟨nwd, hn, rfl⟩ := List.mem_map.1 hn1
    obtain ⟨e, he, rfl⟩ := List.mem_map.1 he1
    refine ⟨?_, fun h => absurd (hO nwd hn e he) h⟩
    have e1 : (fun a => endV (M.muted.withState 0 0).bundles (e.2.2.2.nodes a).end') = 0 := funext fun a => hv _
    have e2 : (fun a => endI (M.muted.withState 0 0).bundles (e.2.2.2.nodes a).end') = 0 := funext fun a => hi _
    have : e.2.2.2.P1 *ᵥ (fun a => endV (M.muted.withState 0 0).bundles (e.2.2.2.nodes a).end') + e.2.2.2.O *ᵥ e.2.2.2.X +
        e.2.2.2.Ps *ᵥ (0 : Col e.2.1) = fun a => endI (M.muted.withState 0 0).bundles (e.2.2.2.nodes a).end' := by
      rw [e1, e2, hO nwd hn e he]
      simp
    exact this

theorem find_muted (bs : List (AnyBundle p)) (name : String) :
    findBundle (bs.map AnyBundle.muted) name = (findBundle bs name).map AnyBundle.muted := by
  unfold findBundle
  rw [List.find?_map]
  rfl

theorem endV_muted (bs : List (AnyBundle p)) (V I : String → ℕ → ℕ → ℝ) (x : End) :
    endV ((bs.map AnyBundle.muted).map (AnyBundle.withState V I)) x = endV (bs.map (AnyBundle.withState V I)) x ∧
    endI ((bs.map AnyBundle.muted).map (AnyBundle.withState V I)) x = endI (bs.map (AnyBundle.withState V I)) x := by
  unfold endV endI
  simp only [find_withState, find_muted]
  cases findBundle bs x.bundle <;> exact ⟨rfl, rfl⟩

theorem rows_muted : M.muted.rows t = (M.rows t).map fun q => (q.1, q.2.1, 0) := by
  unfold MTLN.rows MTLN.muted
  simp only [List.flatMap_map, List.map_flatMap]
  refine congrArg (fun f => List.flatMap f M.networks) (funext fun nwd => congrArg (fun f => List.flatMap f nwd) (funext fun e => ?_))
  unfold levelRows
  simp only [List.map_ofFn]
  refine congrArg List.ofFn (funext fun a => ?_)
  simp only [levelMuted, Function.comp, mul_zero, Finset.sum_const_zero]
  rfl

theorem rowAt_muted (x : End) : M.muted.rowAt t x = (M.rowAt t x).map fun q => (q.1, q.2.1, 0) := by
  unfold MTLN.rowAt
  rw [rows_muted, List.find?_map]
  rfl

theorem resEnd_muted (s : CircuitState) (x : End) : M.muted.resEnd t s x = M.resEnd t s x ∧ M.muted.srcEnd t x = 0 := by
  unfold MTLN.resEnd MTLN.srcEnd
  rw [rowAt_muted]
  have e1 : endV (M.muted.bundles.map (AnyBundle.withState s.1 s.2)) = endV (M.bundles.map (AnyBundle.withState s.1 s.2)) :=
    funext fun x => (endV_muted _ _ _ x).1
  have e2 : endI (M.muted.bundles.map (AnyBundle.withState s.1 s.2)) = endI (M.bundles.map (AnyBundle.withState s.1 s.2)) :=
    funext fun x => (endV_muted _ _ _ x).2
  rw [e1, e2]
  cases M.rowAt t x <;> simp

theorem resV_muted (s : CircuitState) (name : String) (k a : ℕ) :
    M.muted.resV t s name k a = M.resV t s name k a ∧ M.muted.srcV t name k a = 0 := by
  unfold MTLN.resV MTLN.srcV
  have : findBundle M.muted.bundles name = (findBundle M.bundles name).map AnyBundle.muted := find_muted _ _
  rw [this]
  cases findBundle M.bundles name with
  | none => exact ⟨rfl, rfl⟩
  | some b =>
    simp only [Option.map_some, (resEnd_muted _ _).1, (resEnd_muted s _).2, ite_self]
    exact ⟨rfl, trivial⟩

theorem resI_muted (s : CircuitState) (name : String) (k a : ℕ) :
    M.muted.resI s name k a = M.resI s name k a ∧ M.muted.srcI t name k a = 0 := by
  unfold MTLN.resI MTLN.srcI
  have : findBundle M.muted.bundles name = (findBundle M.bundles name).map AnyBundle.muted := find_muted _ _
  rw [this]
  cases findBundle M.bundles name with
  | none => exact ⟨rfl, rfl⟩
  | some b =>
    simp only [Option.map_some, AnyBundle.muted, mul_zero, sub_self, dite_eq_ite, ite_self, and_self]

/-- If the circuit without sources has no solution but zero, the circuit has a solution for all sources. -/
theorem MTLN.solvable_of_unique (hnames : (M.bundles.map fun b => b.2.name).Nodup) (hm : ∀ b ∈ M.bundles, 0 < b.2.m)
    (hends : ((allNodes M.networks).map Node.end').Nodup) (hO : ∀ nwd ∈ M.networks, ∀ e ∈ nwd, e.2.2.2.O = 0)
    (hat : ∀ d ∈ allNodes M.networks, d.end' ∈ allEnds M.bundles)
    (huniq : ∀ V I, (M.muted.withState V I).DC t →
      (∀ x, x ∉ (allNodes M.muted.networks).map Node.end' → endV (M.muted.withState V I).bundles x = 0) →
      ∀ b ∈ M.muted.bundles, (∀ k ≤ b.2.m, ∀ a < b.1, V b.2.name k a = 0) ∧ ∀ k < b.2.m, ∀ a < b.1, I b.2.name k a = 0) :
    M.Solvable t := by
  classical
  obtain ⟨K, hK⟩ : ∃ K : Finset (String × ℕ × ℕ), ∀ q, q ∈ K ↔ ∃ b ∈ M.bundles, b.2.name = q.1 ∧ q.2.1 ≤ b.2.m ∧ q.2.2 < b.1 := by
    refine ⟨(M.bundles.flatMap fun b => (List.range (b.2.m + 1)).flatMap fun k => (List.range b.1).map fun a =>
      (b.2.name, k, a)).toFinset, fun q => ?_⟩
    obtain ⟨name, k, a⟩ := q
    simp only [List.mem_toFinset, List.mem_flatMap, List.mem_map, List.mem_range, Prod.mk.injEq]
    constructor
    · rintro ⟨b, hb, k', hk, a', ha, rfl, rfl, rfl⟩
      exact ⟨b, hb, rfl, by omega, ha⟩
    · rintro ⟨b, hb, h1, h2, h3⟩
      exact ⟨b, hb, k, by omega, a, h3, h1, rfl, rfl⟩
  obtain ⟨J, hJ⟩ : ∃ J : Finset (String × ℕ × ℕ), ∀ q, q ∈ J ↔ ∃ b ∈ M.bundles, b.2.name = q.1 ∧ q.2.1 < b.2.m ∧ q.2.2 < b.1 := by
    refine ⟨K.filter fun q => ∃ b ∈ M.bundles, b.2.name = q.1 ∧ q.2.1 < b.2.m ∧ q.2.2 < b.1, fun q => ?_⟩
    rw [Finset.mem_filter, hK]
    exact ⟨fun h => h.2, fun ⟨b, hb, h1, h2, h3⟩ => ⟨⟨b, hb, h1, h2.le, h3⟩, b, hb, h1, h2, h3⟩⟩
  obtain ⟨st, hst⟩ : ∃ st : ((K → ℝ) × (J → ℝ)) → CircuitState, st = fun x =>
    (fun name k a => if h : (name, k, a) ∈ K then x.1 ⟨_, h⟩ else 0,
      fun name k a => if h : (name, k, a) ∈ J then x.2 ⟨_, h⟩ else 0) := ⟨_, rfl⟩
  have hlin : ∀ (c : ℝ) x y, st (c • x + y) = c • st x + st y := by
    intro c x y
    rw [hst]
    refine Prod.ext ?_ ?_
    · funext name k a
      show _ = c * _ + _
      by_cases h : (name, k, a) ∈ K
      · simp only [dif_pos h]; rfl
      · simp only [dif_neg h]; simp
    · funext name k a
      show _ = c * _ + _
      by_cases h : (name, k, a) ∈ J
      · simp only [dif_pos h]; rfl
      · simp only [dif_neg h]; simp
  obtain ⟨F, hF⟩ : ∃ F : ((K → ℝ) × (J → ℝ)) → ((K → ℝ) × (J → ℝ)), F = fun x =>
    (fun q => M.resV t (st x) q.1.1 q.1.2.1 q.1.2.2, fun q => M.resI (st x) q.1.1 q.1.2.1 q.1.2.2) := ⟨_, rfl⟩
  have hFlin : ∀ (c : ℝ) x y, F (c • x + y) = c • F x + F y := by
    intro c x y
    rw [hF]
    refine Prod.ext ?_ ?_
    · funext q
      show M.resV t (st (c • x + y)) _ _ _ = c * _ + _
      rw [hlin]
      exact resV_lin _ _ _ c _ _
    · funext q
      show M.resI (st (c • x + y)) _ _ _ = c * _ + _
      rw [hlin]
      exact resI_lin _ _ _ c _ _
  have hF0 : F 0 = 0 := by
    have := hFlin 1 0 0
    simpa using this
  let T : ((K → ℝ) × (J → ℝ)) →ₗ[ℝ] ((K → ℝ) × (J → ℝ)) :=
    { toFun := F
      map_add' := fun x y => by simpa using hFlin 1 x y
      map_smul' := fun c x => by simpa [hF0] using hFlin c x 0 }
  have hinj : Function.Injective T := by
    rw [← LinearMap.ker_eq_bot, LinearMap.ker_eq_bot']
    intro x hx
    have hx : F x = 0 := hx
    rw [hF] at hx
    have h1 : ∀ q : K, M.resV t (st x) q.1.1 q.1.2.1 q.1.2.2 = 0 := fun q => congrFun (congrArg Prod.fst hx) q
    have h2 : ∀ q : J, M.resI (st x) q.1.1 q.1.2.1 q.1.2.2 = 0 := fun q => congrFun (congrArg Prod.snd hx) q
    have hr := M.remade_muted
    have hsol := dc_of_res (M := M.muted) (t := t) (by rw [hr.names]; exact hnames) (fun b' hb' => by
        obtain ⟨b, hb, rfl⟩ := List.mem_map.1 hb'
        exact hm b hb) (by rw [hr.ends]; exact hends) (fun nwd' hn' e' he' => by
        obtain ⟨nwd, hn, rfl⟩ := List.mem_map.1 hn'
        obtain ⟨e, he, rfl⟩ := List.mem_map.1 he'
        exact hO nwd hn e he) (fun d hd => by
        have : d.end' ∈ (allNodes M.muted.networks).map Node.end' := List.mem_map.2 ⟨d, hd, rfl⟩
        rw [hr.ends] at this
        obtain ⟨d0, hd0, e⟩ := List.mem_map.1 this
        rw [hr.allEnds, ← e]
        exact hat d0 hd0) (st x) (fun b' hb' k hk a ha => by
        obtain ⟨b, hb, rfl⟩ := List.mem_map.1 hb'
        rw [(resV_muted _ _ _ _).1, (resV_muted (st x) _ _ _).2]
        exact h1 ⟨(b.2.name, k, a), (hK _).2 ⟨b, hb, rfl, hk, ha⟩⟩) (fun b' hb' k hk a ha => by
        obtain ⟨b, hb, rfl⟩ := List.mem_map.1 hb'
        rw [(resI_muted (t := t) _ _ _ _).1, (resI_muted (st x) _ _ _).2]
        exact h2 ⟨(b.2.name, k, a), (hJ _).2 ⟨b, hb, rfl, hk, ha⟩⟩)
    have hz := huniq _ _ hsol.1 hsol.2
    refine Prod.ext (funext fun q => ?_) (funext fun q => ?_)
    · obtain ⟨⟨name, k, a⟩, hq⟩ := q
      obtain ⟨b, hb, rfl, hk, ha⟩ := (hK _).1 hq
      have := (hz _ (List.mem_map_of_mem hb)).1 k hk a ha
      change (st x).1 b.2.name k a = 0 at this
      rw [hst] at this
      simp only at this hq
      rwa [dif_pos hq] at this
    · obtain ⟨⟨name, k, a⟩, hq⟩ := q
      obtain ⟨b, hb, rfl, hk, ha⟩ := (hJ _).1 hq
      have := (hz _ (List.mem_map_of_mem hb)).2 k hk a ha
      change (st x).2 b.2.name k a = 0 at this
      rw [hst] at this
      simp only at this hq
      rwa [dif_pos hq] at this
  obtain ⟨x, hx⟩ := (LinearMap.injective_iff_surjective.1 hinj) (fun q => M.srcV t q.1.1 q.1.2.1 q.1.2.2,
    fun q => M.srcI t q.1.1 q.1.2.1 q.1.2.2)
  have hx : F x = _ := hx
  rw [hF] at hx
  have h1 : ∀ q : K, M.resV t (st x) q.1.1 q.1.2.1 q.1.2.2 = M.srcV t q.1.1 q.1.2.1 q.1.2.2 := fun q =>
    congrFun (congrArg Prod.fst hx) q
  have h2 : ∀ q : J, M.resI (st x) q.1.1 q.1.2.1 q.1.2.2 = M.srcI t q.1.1 q.1.2.1 q.1.2.2 := fun q =>
    congrFun (congrArg Prod.snd hx) q
  obtain ⟨r1, r2⟩ := dc_of_res hnames hm hends hO hat (st x)
    (fun b hb k hk a ha => h1 ⟨(b.2.name, k, a), (hK _).2 ⟨b, hb, rfl, hk, ha⟩⟩)
    (fun b hb k hk a ha => h2 ⟨(b.2.name, k, a), (hJ _).2 ⟨b, hb, rfl, hk, ha⟩⟩)
  exact ⟨_, _, r1, r2⟩

end Mtln
