import Verif.Lemmas.ManagerCircuit
import Verif.Props.ManagerLinear

/-! # Managers with other states, sources and fields -/

namespace Mtln

open Matrix

variable {n p N S : ℕ}

/-- Bundles that differ in state and fields only. -/
def RemadeBundle (b b' : AnyBundle p) : Prop := ∃ v i phi eL eT,
  b' = ⟨b.1, { b.2 with v := v, i := i, phi := phi, eL := eL, eT := eT }⟩

/-- Networks that differ in state, sources and fields only. -/
def RemadeLevel (e e' : ℕ × AnyNetwork) : Prop := ∃ v vPrev i X vS, ∃ eT : Fin e.2.1 → ℝ → ℝ, e' = (e.1, ⟨e.2.1, e.2.2.1, { e.2.2.2 with
  v := v, vPrev := vPrev, i := i, X := X, vSources := vS, nodes := fun a => { e.2.2.2.nodes a with eT := eT a } }⟩)

/-- Managers that differ in state, sources and fields only. -/
structure MTLN.Remade (M M' : MTLN p) : Prop where
  dt : M'.dt = M.dt
  time : M'.time = M.time
  bundles : List.Forall₂ RemadeBundle M.bundles M'.bundles
  networks : List.Forall₂ (List.Forall₂ RemadeLevel) M.networks M'.networks

theorem flatMap_map₂ {α β γ δ : Type} {R : α → β → Prop} {f : α → List γ} {g : β → List γ} {w : γ → δ}
    (h : ∀ a b, R a b → (f a).map w = (g b).map w) {l : List α} {l' : List β} (hl : List.Forall₂ R l l') :
    (l.flatMap f).map w = (l'.flatMap g).map w := by
  rw [List.map_flatMap, List.map_flatMap]
  exact flatMap_congr₂ h hl

section

variable {M M' : MTLN p}

theorem find_remade {bs bs' : List (AnyBundle p)} (h : List.Forall₂ RemadeBundle bs bs') (name : String) :
    (findBundle bs name = none ∧ findBundle bs' name = none) ∨ ∃ b b', findBundle bs name = some b ∧
      findBundle bs' name = some b' ∧ RemadeBundle b b' := by
  induction h with
  | nil => exact .inl ⟨rfl, rfl⟩
  | @cons b b' l l' hr _ ih =>
    have hn : b'.2.name = b.2.name := by obtain ⟨_, _, _, _, _, rfl⟩ := hr; rfl
    unfold findBundle at ih ⊢
    by_cases e : b.2.name = name
    · right
      refine ⟨b, b', ?_, ?_, hr⟩
      · simp [e]
      · simp [hn, e]
    · rw [List.find?_cons_of_neg (by simpa using e), List.find?_cons_of_neg (by simpa [hn] using e)]
      exact ih

theorem MTLN.Remade.names (h : M.Remade M') : M'.bundles.map (fun b => b.2.name) = M.bundles.map fun b => b.2.name := by
  have := h.bundles
  generalize M.bundles = l at *
  generalize M'.bundles = l' at *
  induction this with
  | nil => rfl
  | cons hr _ ih =>
    obtain ⟨_, _, _, _, _, rfl⟩ := hr
    simp only [List.map_cons, ih]

theorem MTLN.Remade.ends (h : M.Remade M') : (allNodes M'.networks).map Node.end' = (allNodes M.networks).map Node.end' := by
  refine (flatMap_map₂ (fun a b r => flatMap_map₂ (R := RemadeLevel) (fun e e' q => ?_) r) h.networks).symm
  obtain ⟨_, _, _, _, _, _, rfl⟩ := q
  simp only [List.map_ofFn]
  rfl

theorem MTLN.Remade.allEnds (h : M.Remade M') : allEnds M'.bundles = allEnds M.bundles := by
  refine (flatMap_congr₂ (R := RemadeBundle) (fun b b' r => ?_) h.bundles).symm
  obtain ⟨_, _, _, _, _, rfl⟩ := r
  rfl

theorem MTLN.Remade.endCap (h : M.Remade M') (x y : End) : endCap M'.bundles x y = endCap M.bundles x y := by
  unfold Mtln.endCap
  rcases find_remade h.bundles x.bundle with ⟨e1, e2⟩ | ⟨b, b', e1, e2, _, _, _, _, _, rfl⟩
  · rw [e1, e2]
  · rw [e1, e2]

theorem MTLN.Remade.bundle (h : M.Remade M') {b' : AnyBundle p} (hb : b' ∈ M'.bundles) : ∃ b ∈ M.bundles, RemadeBundle b b' :=
  forall₂_right_mem h.bundles b' hb

theorem MTLN.Remade.level (h : M.Remade M') {nwd' : NetworkD} (hn : nwd' ∈ M'.networks) {e' : ℕ × AnyNetwork} (he : e' ∈ nwd') :
    ∃ nwd ∈ M.networks, ∃ e ∈ nwd, RemadeLevel e e' := by
  obtain ⟨nwd, hn, hr⟩ := forall₂_right_mem h.networks nwd' hn
  obtain ⟨e, he, hr'⟩ := forall₂_right_mem hr e' he
  exact ⟨nwd, hn, e, he, hr'⟩

theorem MTLN.Remade.passive (h : M.Remade M') (hp : M.Passive) : M'.Passive := by
  refine ⟨?_, ?_, ?_, ?_⟩
  · rw [h.names]; exact hp.names
  · intro b' hb'
    obtain ⟨b, hb, _, _, _, _, _, rfl⟩ := h.bundle hb'
    obtain ⟨q, hd⟩ := hp.bundles b hb
    exact ⟨⟨q.cells, q.dt_pos, q.dun, q.l, q.c, q.r, q.g, q.zs, q.zl, q.q1, q.q2, q.q3⟩, by rw [h.dt]; exact hd⟩
  · intro nwd' hn' e' he'
    obtain ⟨nwd, hn, e, he, _, _, _, _, _, _, rfl⟩ := h.level hn' he'
    have q := hp.networks nwd hn e he
    exact ⟨q.Q1_symm, q.Q1, q.O, q.dxc, q.P1⟩
  · rw [h.ends]; exact hp.ends

theorem MTLN.Remade.matched (h : M.Remade M') (hm : M.Matched) : M'.Matched := by
  refine ⟨?_, ?_, ?_⟩
  · intro d hd
    have : d.end' ∈ (allNodes M'.networks).map Node.end' := List.mem_map.2 ⟨d, hd, rfl⟩
    rw [h.ends] at this
    obtain ⟨d0, hd0, e⟩ := List.mem_map.1 this
    rw [h.allEnds, ← e]
    exact hm.nodes d0 hd0
  · intro nwd' hn' e' he' a b
    obtain ⟨nwd, hn, e, he, _, _, _, _, _, _, rfl⟩ := h.level hn' he'
    rw [h.endCap]
    exact hm.dxc nwd hn e he a b
  · intro nwd' hn' e' he' a y hy hne
    obtain ⟨nwd, hn, e, he, _, _, _, _, _, _, rfl⟩ := h.level hn' he'
    rw [h.endCap]
    rw [h.ends] at hy
    exact hm.apart nwd hn e he a y hy hne

theorem MTLN.Remade.stable (h : M.Remade M') (hs : ∀ b ∈ M.bundles, b.2.Stable) : ∀ b ∈ M'.bundles, b.2.Stable := by
  intro b' hb'
  obtain ⟨b, hb, _, _, _, _, _, rfl⟩ := h.bundle hb'
  obtain ⟨C, d, q, h1, h2⟩ := hs b hb
  exact ⟨C, d, ⟨q.c, q.c_spd, q.l_spd, q.e, q.dun⟩, h1, h2⟩

theorem MTLN.Remade.over (h : M.Remade M') {dt : ℝ} (ho : M.overrideDt dt = M) : M'.overrideDt dt = M' := by
  rw [over_iff] at ho ⊢
  intro hd
  obtain ⟨h1, h2⟩ := ho hd
  refine ⟨h.dt.trans h1, fun b' hb' => ?_⟩
  obtain ⟨b, hb, _, _, _, _, _, rfl⟩ := h.bundle hb'
  exact h2 b hb

theorem MTLN.Remade.startable (h : M.Remade M') {dt : ℝ} (ho : M.overrideDt dt = M) (hs : M.Startable dt) : M'.Startable dt := by
  have ho' := h.over ho
  have hd : M'.runDt dt = M.runDt dt := by
    unfold MTLN.runDt
    rw [ho, ho', h.dt]
  refine ⟨by rw [hd]; exact hs.step, ?_, ?_, ?_⟩
  · intro b' hb'
    rw [ho'] at hb'
    obtain ⟨b, hb, _, _, _, _, _, rfl⟩ := h.bundle hb'
    exact hs.bundles b (by rw [ho]; exact hb)
  · intro nwd' hn' e' he'
    obtain ⟨nwd, hn, e, he, _, _, _, _, _, _, rfl⟩ := h.level hn' he'
    rw [hd]
    exact hs.nets nwd hn e he
  · intro d hd
    have : d.end' ∈ (allNodes M'.networks).map Node.end' := List.mem_map.2 ⟨d, hd, rfl⟩
    rw [h.ends] at this
    obtain ⟨d0, hd0, e⟩ := List.mem_map.1 this
    simp only [Node.end', End.mk.injEq] at e
    obtain ⟨b, hb, h1, h2⟩ := hs.nodes d0 hd0
    rw [e.1] at hb
    rw [e.2.1] at h1
    rcases find_remade h.bundles d.bundleName with ⟨e1, e2⟩ | ⟨b0, b', e1, e2, _, _, _, _, _, rfl⟩
    · rw [e1] at hb; cases hb
    · rw [e1] at hb
      obtain rfl := Option.some.inj hb
      exact ⟨_, e2, h1, h2⟩

end

/-! ## The time step given to the run -/

theorem MTLN.override_twice (M : MTLN p) (dt : ℝ) : (M.overrideDt dt).overrideDt dt = M.overrideDt dt := by
  rw [over_iff]
  intro hd
  unfold MTLN.overrideDt
  rw [if_pos hd]
  refine ⟨rfl, fun b hb => ?_⟩
  obtain ⟨b, -, rfl⟩ := List.mem_map.1 hb
  rfl

theorem MTLN.run_override (M : MTLN p) (T dt : ℝ) : (M.overrideDt dt).runUntil T dt = M.runUntil T dt := by
  unfold MTLN.runUntil MTLN.start
  rw [M.override_twice]

theorem MTLN.Startable.override {M : MTLN p} {dt : ℝ} (h : M.Startable dt) : (M.overrideDt dt).Startable dt := by
  have hd : (M.overrideDt dt).runDt dt = M.runDt dt := by unfold MTLN.runDt; rw [M.override_twice]
  have hn : (M.overrideDt dt).networks = M.networks := by unfold MTLN.overrideDt; split <;> rfl
  refine ⟨by rw [hd]; exact h.step, ?_, ?_, ?_⟩
  · rw [M.override_twice]; exact h.bundles
  · rw [hn, hd]; exact h.nets
  · rw [hn]
    intro d hd
    obtain ⟨b, h1, h2, h3⟩ := h.nodes d hd
    unfold MTLN.overrideDt
    split
    · refine ⟨⟨b.1, b.2.withDt dt⟩, ?_, h2, h3⟩
      unfold findBundle at h1 ⊢
      rw [List.find?_map]
      show Option.map _ (List.find? (fun c => decide (c.2.name = d.bundleName)) M.bundles) = _
      rw [h1]
      rfl
    · exact ⟨b, h1, h2, h3⟩

/-! ## Constant sources -/

/-- Sources and fields as they are at the time `t`, forever. -/
def AnyBundle.frozen (t : ℝ) (b : AnyBundle p) : AnyBundle p :=
  ⟨b.1, { b.2 with eL := fun k x _ => b.2.eL k x t, eT := fun k x _ => b.2.eT k x t }⟩

/-- The same for a network. -/
def levelFrozen (t : ℝ) (e : ℕ × AnyNetwork) : ℕ × AnyNetwork :=
  (e.1, ⟨e.2.1, e.2.2.1, { e.2.2.2 with
    vSources := fun a _ => e.2.2.2.vSources a t
    nodes := fun a => { e.2.2.2.nodes a with eT := fun _ => (e.2.2.2.nodes a).eT t } }⟩)

/-- The same for a manager. -/
def MTLN.frozen (M : MTLN p) (t : ℝ) : MTLN p :=
  { M with bundles := M.bundles.map (AnyBundle.frozen t), networks := M.networks.map fun nwd => nwd.map (levelFrozen t) }

/-- What is missing to the bundle. -/
def AnyBundle.missing (V I : String → ℕ → ℕ → ℝ) (t : ℝ) (b : AnyBundle p) : AnyBundle p :=
  ⟨b.1, { b.2 with
    v := fun k a => b.2.v k a - V b.2.name k a
    i := fun k a => b.2.i k a - I b.2.name k a
    phi := fun _ _ _ => 0
    eL := fun k x s => b.2.eL k x s - b.2.eL k x t
    eT := fun k x s => b.2.eT k x s - b.2.eT k x t }⟩

/-- What is missing to the network. -/
noncomputable def levelMissing (bs : List (AnyBundle p)) (t : ℝ) (e : ℕ × AnyNetwork) : ℕ × AnyNetwork :=
  (e.1, ⟨e.2.1, e.2.2.1, { e.2.2.2 with
    v := fun a => e.2.2.2.v a - endV bs (e.2.2.2.nodes a).end'
    vPrev := fun a => e.2.2.2.vPrev a - endV bs (e.2.2.2.nodes a).end'
    i := fun a => e.2.2.2.i a - endI bs (e.2.2.2.nodes a).end'
    X := fun _ => 0
    vSources := fun a s => e.2.2.2.vSources a s - e.2.2.2.vSources a t
    nodes := fun a => { e.2.2.2.nodes a with eT := fun s => (e.2.2.2.nodes a).eT s - (e.2.2.2.nodes a).eT t } }⟩)

/-- The difference to the solution of the circuit. -/
noncomputable def MTLN.missing (M : MTLN p) (V I : String → ℕ → ℕ → ℝ) (t : ℝ) : MTLN p :=
  { M with
    bundles := M.bundles.map (AnyBundle.missing V I t)
    networks := M.networks.map fun nwd => nwd.map (levelMissing (M.bundles.map (AnyBundle.withState V I)) t) }

theorem forall₂_map_of {α β : Type} {R : α → β → Prop} {f : α → β} (h : ∀ a, R a (f a)) (l : List α) :
    List.Forall₂ R l (l.map f) := by
  induction l with
  | nil => exact .nil
  | cons a l ih => exact .cons (h a) ih

theorem all3_map {α : Type} {R : α → α → α → Prop} {f g : α → α} (h : ∀ a, R a (f a) (g a)) (l : List α) :
    All3 R l (l.map f) (l.map g) := by
  induction l with
  | nil => exact .nil
  | cons a l ih => exact .cons (h a) ih

variable (M : MTLN p) (V I : String → ℕ → ℕ → ℝ) (t : ℝ)

theorem MTLN.remade_frozen : M.Remade ((M.withState V I).frozen t) := by
  refine ⟨rfl, rfl, ?_, ?_⟩
  · show List.Forall₂ RemadeBundle M.bundles ((M.bundles.map _).map _)
    rw [List.map_map]
    exact forall₂_map_of (fun b => ⟨_, _, _, _, _, rfl⟩) _
  · show List.Forall₂ (List.Forall₂ RemadeLevel) M.networks ((M.networks.map _).map _)
    rw [List.map_map]
    refine forall₂_map_of (fun nwd => ?_) _
    show List.Forall₂ RemadeLevel nwd ((nwd.map _).map _)
    rw [List.map_map]
    exact forall₂_map_of (fun e => ⟨_, _, _, _, _, _, rfl⟩) _

theorem MTLN.remade_missing : M.Remade (M.missing V I t) :=
  ⟨rfl, rfl, forall₂_map_of (fun b => ⟨_, _, _, _, _, rfl⟩) _,
    forall₂_map_of (fun nwd => forall₂_map_of (fun e => ⟨_, _, _, _, _, _, rfl⟩) _) _⟩

theorem MTLN.comb_missing : MTLN.Comb 1 (-1) M ((M.withState V I).frozen t) (M.missing V I t) := by
  refine ⟨rfl, rfl, rfl, rfl, ?_, ?_⟩
  · show All3 _ M.bundles ((M.bundles.map _).map _) (M.bundles.map _)
    rw [List.map_map]
    refine all3_map (fun b => ?_) _
    obtain ⟨n, b⟩ := b
    refine .mk ⟨⟨rfl, rfl, rfl, rfl, rfl, rfl, rfl, rfl, rfl⟩, ⟨rfl, rfl, rfl, rfl, rfl, rfl, rfl, rfl, rfl⟩, ?_, ?_, ?_, ?_, ?_⟩
    · intro k x; simp only [AnyBundle.withState]; ring
    · intro k x; simp only [AnyBundle.withState]; ring
    · intro k x σ; simp only [AnyBundle.withState]; push_cast; ring
    · intro k x s; simp only [AnyBundle.withState]; ring
    · intro k x s; simp only [AnyBundle.withState]; ring
  · show All3 _ M.networks ((M.networks.map _).map _) (M.networks.map _)
    rw [List.map_map]
    refine all3_map (fun nwd => ?_) _
    show All3 _ nwd ((nwd.map _).map _) (nwd.map _)
    rw [List.map_map]
    refine all3_map (fun e => ?_) _
    obtain ⟨l, N, S, nw⟩ := e
    refine .mk ⟨⟨fun _ => rfl, fun _ => rfl, fun _ => rfl, fun _ => rfl, rfl, rfl, rfl, rfl, rfl, rfl, rfl, rfl, rfl, rfl⟩,
      ⟨fun _ => rfl, fun _ => rfl, fun _ => rfl, fun _ => rfl, rfl, rfl, rfl, rfl, rfl, rfl, rfl, rfl, rfl, rfl⟩,
      ?_, ?_, ?_, ?_, ?_, ?_⟩
    · intro x; simp only [levelWith]; ring
    · intro x; simp only [levelWith]; ring
    · intro x; simp only [levelWith]; ring
    · intro x; simp only [levelWith]; ring
    · intro x s; simp only [levelWith]; ring
    · intro x s; simp only [levelWith]; ring

theorem endV_frozen (bs : List (AnyBundle p)) (x : End) : endV (bs.map (AnyBundle.frozen t)) x = endV bs x ∧
    endI (bs.map (AnyBundle.frozen t)) x = endI bs x := by
  have : findBundle (bs.map (AnyBundle.frozen t)) x.bundle = (findBundle bs x.bundle).map (AnyBundle.frozen t) := by
    unfold findBundle
    rw [List.find?_map]
    rfl
  unfold endV endI
  rw [this]
  cases findBundle bs x.bundle <;> exact ⟨rfl, rfl⟩

theorem endV_missing (bs : List (AnyBundle p)) (x : End) :
    endV (bs.map (AnyBundle.missing V I t)) x = endV bs x - endV (bs.map (AnyBundle.withState V I)) x ∧
    endI (bs.map (AnyBundle.missing V I t)) x = endI bs x - endI (bs.map (AnyBundle.withState V I)) x := by
  have : findBundle (bs.map (AnyBundle.missing V I t)) x.bundle = (findBundle bs x.bundle).map (AnyBundle.missing V I t) := by
    unfold findBundle
    rw [List.find?_map]
    rfl
  unfold endV endI
  rw [this, find_withState]
  cases findBundle bs x.bundle with
  | none => simp
  | some b =>
    simp only [Option.map_some, AnyBundle.missing, AnyBundle.withState]
    split
    · exact ⟨rfl, by ring⟩
    · simp

variable {M V I t}

theorem MTLN.linked_missing (hl : M.Linked)
    (hf : ∀ x, x ∉ (allNodes M.networks).map Node.end' → endV (M.withState V I).bundles x = 0) :
    (M.missing V I t).Linked := by
  refine ⟨?_, ?_, ?_⟩
  · intro nwd hn e he a
    obtain ⟨nwd0, hn0, rfl⟩ := List.mem_map.1 hn
    obtain ⟨e0, he0, rfl⟩ := List.mem_map.1 he
    refine Eq.trans ?_ (endV_missing V I t M.bundles _).1.symm
    exact congrArg (fun z => z - _) (hl.v nwd0 hn0 e0 he0 a)
  · intro nwd hn e he a
    obtain ⟨nwd0, hn0, rfl⟩ := List.mem_map.1 hn
    obtain ⟨e0, he0, rfl⟩ := List.mem_map.1 he
    refine Eq.trans ?_ (endV_missing V I t M.bundles _).2.symm
    exact congrArg (fun z => z - _) (hl.i nwd0 hn0 e0 he0 a)
  · intro x hx
    rw [(M.remade_missing V I t).ends] at hx
    refine (endV_missing V I t M.bundles x).1.trans ?_
    rw [hl.free x hx]
    have := hf x hx
    simp only [MTLN.withState] at this
    rw [this, sub_zero]

theorem MTLN.excited_missing {σ : ℝ} (hx : M.ExcitedBelow σ) : (M.missing V I t).ExcitedBelow (2 * σ) := by
  refine ⟨?_, ?_⟩
  · intro b hb s
    obtain ⟨b0, hb0, rfl⟩ := List.mem_map.1 hb
    exact ⟨fun k x => abs_sub_le_two ((hx.bundles b0 hb0 s).1 k x) ((hx.bundles b0 hb0 t).1 k x),
      fun k x => abs_sub_le_two ((hx.bundles b0 hb0 s).2 k x) ((hx.bundles b0 hb0 t).2 k x)⟩
  · intro nwd hn e he s
    obtain ⟨nwd0, hn0, rfl⟩ := List.mem_map.1 hn
    obtain ⟨e0, he0, rfl⟩ := List.mem_map.1 he
    exact ⟨fun x => abs_sub_le_two ((hx.networks nwd0 hn0 e0 he0 s).1 x) ((hx.networks nwd0 hn0 e0 he0 t).1 x),
      fun x => abs_sub_le_two ((hx.networks nwd0 hn0 e0 he0 s).2 x) ((hx.networks nwd0 hn0 e0 he0 t).2 x)⟩

theorem MTLN.silent_missing (hc : M.ConstantFrom t) : (M.missing V I t).SilentFrom t := by
  refine ⟨?_, ?_⟩
  · intro b hb s hs
    obtain ⟨b0, hb0, rfl⟩ := List.mem_map.1 hb
    exact ⟨fun k x => sub_eq_zero.2 ((hc.bundles b0 hb0 s hs).1 k x), fun k x => sub_eq_zero.2 ((hc.bundles b0 hb0 s hs).2 k x)⟩
  · intro nwd hn e he s hs
    obtain ⟨nwd0, hn0, rfl⟩ := List.mem_map.1 hn
    obtain ⟨e0, he0, rfl⟩ := List.mem_map.1 he
    exact ⟨fun x => sub_eq_zero.2 ((hc.networks nwd0 hn0 e0 he0 s hs).1 x), fun x => sub_eq_zero.2 ((hc.networks nwd0 hn0 e0 he0 s hs).2 x)⟩

theorem MTLN.poised_frozen (hp : M.Passive) (hd : 0 < M.dt) :
    ((M.withState V I).frozen t).Poised (M.time - 2 * M.dt) := by
  have hr := M.remade_frozen V I t
  have hpf := hr.passive hp
  refine ⟨⟨hpf.names, ?_, hpf.ends, ?_, ?_⟩, hd, ?_, ⟨?_, ?_⟩, le_rfl, ?_⟩
  · intro b hb
    have := (hpf.bundles b hb).1.cells
    exact Nat.ne_of_gt this
  · intro nwd hn e he a
    obtain ⟨nwd1, hn1, rfl⟩ := List.mem_map.1 hn
    obtain ⟨e1, he1, rfl⟩ := List.mem_map.1 he
    obtain ⟨nwd0, hn0, rfl⟩ := List.mem_map.1 hn1
    obtain ⟨e0, he0, rfl⟩ := List.mem_map.1 he1
    exact (endV_frozen t _ _).1.symm
  · intro nwd hn e he a
    obtain ⟨nwd1, hn1, rfl⟩ := List.mem_map.1 hn
    obtain ⟨e1, he1, rfl⟩ := List.mem_map.1 he
    obtain ⟨nwd0, hn0, rfl⟩ := List.mem_map.1 hn1
    obtain ⟨e0, he0, rfl⟩ := List.mem_map.1 he1
    exact (endV_frozen t _ _).2.symm
  · intro b hb k hk
    have q := (hpf.bundles b hb).1
    exact ⟨q.q1 k hk, q.q2 k hk, q.q3 k hk⟩
  · intro b hb s hs
    obtain ⟨b0, hb0, rfl⟩ := List.mem_map.1 hb
    exact ⟨fun _ _ => rfl, fun _ _ => rfl⟩
  · intro nwd hn e he s hs
    obtain ⟨nwd0, hn0, rfl⟩ := List.mem_map.1 hn
    obtain ⟨e0, he0, rfl⟩ := List.mem_map.1 he
    exact ⟨fun _ => rfl, fun _ => rfl⟩
  · intro nwd hn e he
    obtain ⟨nwd1, hn1, rfl⟩ := List.mem_map.1 hn
    obtain ⟨e1, he1, rfl⟩ := List.mem_map.1 he
    obtain ⟨nwd0, hn0, rfl⟩ := List.mem_map.1 hn1
    obtain ⟨e0, he0, rfl⟩ := List.mem_map.1 he1
    rfl

theorem MTLN.dc_frozen (hd : (M.withState V I).DC t) (s : ℝ) : ((M.withState V I).frozen t).DC s := by
  refine ⟨?_, ?_⟩
  · intro b hb
    obtain ⟨b0, hb0, rfl⟩ := List.mem_map.1 hb
    exact ⟨(hd.bundles b0 hb0).cell, (hd.bundles b0 hb0).node⟩
  · intro nwd hn e he
    obtain ⟨nwd0, hn0, rfl⟩ := List.mem_map.1 hn
    obtain ⟨e0, he0, rfl⟩ := List.mem_map.1 he
    exact ⟨(hd.networks nwd0 hn0 e0 he0).node, (hd.networks nwd0 hn0 e0 he0).state⟩

end Mtln
