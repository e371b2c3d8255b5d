import Verif.Lemmas.Manager

/-! # Runs of the manager, bundle by bundle -/

namespace Mtln

variable {n p : ℕ}

theorem mapPy_exists {α β : Type} {f : α → Py β} : ∀ {l : List α}, (∀ a ∈ l, ∃ b, f a = .ok b) →
    ∃ l', mapPy f l = .ok l'
  | [], _ => ⟨[], rfl⟩
  | a :: l, h => by
    obtain ⟨b, hb⟩ := h a (List.mem_cons_self ..)
    obtain ⟨l', hl'⟩ := mapPy_exists fun a ha => h a (List.mem_cons_of_mem _ ha)
    refine ⟨b :: l', ?_⟩
    simp only [mapPy, bind_ok_iff]
    exact ⟨b, hb, l', hl', rfl⟩

theorem mapPy_getElem? {α β : Type} {f : α → Py β} : ∀ {l : List α} {l' : List β}, mapPy f l = .ok l' → ∀ x : ℕ,
    (l[x]? = none → l'[x]? = none) ∧ ∀ a, l[x]? = some a → ∃ b, l'[x]? = some b ∧ f a = .ok b
  | [], l', h, x => by
    simp only [mapPy, Except.ok.injEq] at h
    subst h
    simp
  | a :: l, l', h, x => by
    simp only [mapPy, bind_ok_iff, Except.ok.injEq] at h
    obtain ⟨b, h1, l1, h2, rfl⟩ := h
    cases x with
    | zero => simp [h1]
    | succ x => simpa using mapPy_getElem? h2 x

theorem mapPy_mem {α β : Type} {f : α → Py β} : ∀ {l : List α} {l' : List β}, mapPy f l = .ok l' →
    ∀ b ∈ l', ∃ a ∈ l, f a = .ok b
  | [], l', h, b, hb => by
    simp only [mapPy, Except.ok.injEq] at h
    subst h
    simp at hb
  | a :: l, l', h, b, hb => by
    simp only [mapPy, bind_ok_iff, Except.ok.injEq] at h
    obtain ⟨c, h1, l1, h2, rfl⟩ := h
    rcases List.mem_cons.1 hb with rfl | hb
    · exact ⟨a, List.mem_cons_self .., h1⟩
    · obtain ⟨x, hx, hf⟩ := mapPy_mem h2 b hb
      exact ⟨x, List.mem_cons_of_mem _ hx, hf⟩

/-! ## Nodes and their targets -/

/-- All nodes of all networks. -/
def allNodes (nws : List NetworkD) : List Node := nws.flatMap fun nwd => nwd.flatMap fun e => List.ofFn e.2.2.2.nodes

theorem forAll_ok_iff {f : ∀ {N S}, Network N S → Py (Network N S)} {nwd nwd' : NetworkD} :
    nwd.forAll f = .ok nwd' ↔ List.Forall₂ (fun e e' => e'.1 = e.1 ∧ onAny f e.2 = .ok e'.2) nwd nwd' := by
  unfold NetworkD.forAll
  rw [mapPy_ok_iff]
  have : (fun (e e' : ℕ × AnyNetwork) => (do let nw' ← onAny f e.2; Except.ok (e.1, nw') : Py (ℕ × AnyNetwork)) = .ok e') =
      fun e e' => e'.1 = e.1 ∧ onAny f e.2 = .ok e'.2 := by
    funext e e'
    apply propext
    simp only [bind_ok_iff, Except.ok.injEq]
    constructor
    · rintro ⟨nw', h, rfl⟩; exact ⟨rfl, h⟩
    · rintro ⟨h1, h2⟩; exact ⟨e'.2, h2, by rw [← h1]⟩
  rw [this]

theorem flatMap_congr₂ {α β γ : Type} {R : α → β → Prop} {f : α → List γ} {g : β → List γ}
    (h : ∀ a b, R a b → f a = g b) : ∀ {l : List α} {l' : List β}, List.Forall₂ R l l' → l.flatMap f = l'.flatMap g
  | [], [], _ => rfl
  | a :: l, b :: l', .cons h1 h2 => by
    simp only [List.flatMap_cons]
    rw [h a b h1, flatMap_congr₂ h h2]

/-- A method that keeps the nodes of every network keeps all nodes. -/
theorem allNodes_forAll {f : ∀ {N S}, Network N S → Py (Network N S)}
    (hf : ∀ {N S} {nw nw' : Network N S}, f nw = .ok nw' → nw'.nodes = nw.nodes) {nws nws' : List NetworkD}
    (h : mapPy (NetworkD.forAll f) nws = .ok nws') : allNodes nws' = allNodes nws := by
  refine (flatMap_congr₂ ?_ (mapPy_ok_iff.1 h)).symm
  intro nwd nwd' h
  refine flatMap_congr₂ ?_ (forAll_ok_iff.1 h)
  rintro e ⟨l, nw'⟩ ⟨-, h⟩
  obtain ⟨c, hc, rfl⟩ := onAny_ok_iff.1 h
  show List.ofFn e.2.2.2.nodes = List.ofFn c.nodes
  rw [hf hc]

theorem advanceVoltage_rest {N S : ℕ} {time dt : ℝ} {nw nw' : Network N S} (h : nw.advanceVoltage time dt = .ok nw') :
    ∃ v X, nw' = { nw with v := v, X := X, vPrev := nw.v } := by
  unfold Network.advanceVoltage at h
  cases hT : nw.terms with
  | none => rw [hT] at h; simp at h
  | some T =>
    rw [hT] at h
    simp only [bind_ok_iff, raiseIf_ok_iff, Except.ok.injEq] at h
    obtain ⟨_, -, _, -, _, -, rfl⟩ := h
    exact ⟨_, _, rfl⟩

theorem allNodes_advance {time dt : ℝ} {nws nws' : List NetworkD}
    (h : mapPy (NetworkD.advanceVoltage time dt) nws = .ok nws') : allNodes nws' = allNodes nws := by
  refine allNodes_forAll (f := Network.advanceVoltage time dt) ?_ h
  intro N S nw nw' h
  obtain ⟨v, X, rfl⟩ := advanceVoltage_rest h
  rfl

theorem allNodes_currents {bs : List (AnyBundle p)} {nws nws' : List NetworkD}
    (h : mapPy (NetworkD.updateCurrents bs) nws = .ok nws') : allNodes nws' = allNodes nws := by
  refine allNodes_forAll (f := Network.updateCurrents bs) ?_ h
  intro N S nw nw' h
  obtain ⟨i', -, rfl⟩ := updateCurrents_ok_iff.1 h
  rfl

theorem allNodes_compute {dt : ℝ} {nws nws' : List NetworkD}
    (h : mapPy (NetworkD.computeVTerms dt) nws = .ok nws') : allNodes nws' = allNodes nws := by
  refine allNodes_forAll (f := Network.computeVTerms dt) ?_ h
  intro N S nw nw' h
  obtain ⟨-, -, rfl⟩ := computeVTerms_ok_iff.1 h
  rfl

/-- Where a node is attached. -/
structure End where
  bundle : String
  row : ℕ
  side : Side
  deriving DecidableEq

/-- The end of a bundle conductor a node is attached to. -/
def Node.end' (d : Node) : End := ⟨d.bundleName, d.lineIndex, d.side⟩

/-- The end of a bundle conductor an assignment writes. -/
def Write.target (w : Write) : End := ⟨w.bundle, w.row, w.side⟩

theorem writes_target {N S : ℕ} (nw : Network N S) :
    nw.writes.map Write.target = (List.ofFn nw.nodes).map Node.end' := by
  simp [Network.writes, List.map_ofFn, Function.comp_def, Write.target, Node.end']

theorem allWrites_target (nws : List NetworkD) : (allWrites nws).map Write.target = (allNodes nws).map Node.end' := by
  simp only [allWrites, allNodes, NetworkD.writes, List.map_flatMap, writes_target]

theorem allWrites_mem {nws : List NetworkD} {w : Write} (hw : w ∈ allWrites nws) :
    ∃ d ∈ allNodes nws, d.end' = w.target := by
  have : w.target ∈ (allWrites nws).map Write.target := List.mem_map_of_mem hw
  rw [allWrites_target] at this
  simpa using this

/-- The entry of the voltages of a bundle that is the given end. -/
def End.At (x : End) (b : MTLD n p) (k : ℕ) (j : Fin n) : Prop :=
  b.name = x.bundle ∧ k = x.side.node b.m ∧ (j : ℕ) = x.row

theorem Write.on_v (w : Write) (b : MTLD n p) (k : ℕ) (j : Fin n) :
    (w.target.At b k j → (w.on b).v k j = w.value) ∧ (¬ w.target.At b k j → (w.on b).v k j = b.v k j) := by
  unfold Write.on End.At Write.target
  constructor
  · rintro ⟨h1, h2, h3⟩
    rw [if_pos h1]
    exact if_pos ⟨h2, h3⟩
  · intro h
    by_cases h1 : b.name = w.bundle
    · rw [if_pos h1]
      refine if_neg ?_
      rintro ⟨h2, h3⟩
      exact h ⟨h1, h2, h3⟩
    · rw [if_neg h1]

theorem End.At.on {x : End} {w : Write} {b : MTLD n p} {k : ℕ} {j : Fin n} : x.At (w.on b) k j ↔ x.At b k j := by
  unfold End.At
  rw [w.on_name, w.on_m]

theorem MTLD.hit_other : ∀ {ws : List Write} {b : MTLD n p} {k : ℕ} {j : Fin n},
    (∀ w ∈ ws, ¬ w.target.At b k j) → (b.hit ws).v k j = b.v k j
  | [], _, _, _, _ => rfl
  | w :: ws, b, k, j, h => by
    rw [MTLD.hit_cons, MTLD.hit_other, (w.on_v b k j).2 (h w (List.mem_cons_self ..))]
    intro w' hw'
    rw [End.At.on]
    exact h w' (List.mem_cons_of_mem _ hw')

theorem MTLD.hit_value : ∀ {ws : List Write} {b : MTLD n p} {k : ℕ} {j : Fin n} {x : ℝ},
    (∃ w ∈ ws, w.target.At b k j) → (∀ w ∈ ws, w.target.At b k j → w.value = x) → (b.hit ws).v k j = x
  | [], _, _, _, _, h, _ => by simp at h
  | w :: ws, b, k, j, x, h, h' => by
    rw [MTLD.hit_cons]
    by_cases hr : ∃ w' ∈ ws, w'.target.At b k j
    · refine MTLD.hit_value ?_ ?_
      · obtain ⟨w', h1, h2⟩ := hr
        exact ⟨w', h1, End.At.on.2 h2⟩
      · intro w' h1 h2
        exact h' w' (List.mem_cons_of_mem _ h1) (End.At.on.1 h2)
    · rw [MTLD.hit_other]
      · obtain ⟨w', h1, h2⟩ := h
        rcases List.mem_cons.1 h1 with rfl | h1
        · rw [(w'.on_v b k j).1 h2]
          exact h' w' (List.mem_cons_self ..) h2
        · exact absurd ⟨w', h1, h2⟩ hr
      · intro w' h1 h2
        exact hr ⟨w', h1, End.At.on.1 h2⟩

/-! ## Bundles along a run -/

theorem MTLD.stepWith_config {time dt : ℝ} {ws : List Write} {b b' : MTLD n p} (h : b.stepWith time dt ws = .ok b') :
    ∃ v i phi probes, b' = { b with v := v, i := i, phi := phi, probes := probes } := by
  obtain ⟨lr, cg, -, -, -, rfl⟩ := MTLD.stepWith_ok_iff.1 h
  exact ⟨_, _, _, _, rfl⟩

theorem MTLN.step_time {M M' : MTLN p} (h : M.step = .ok M') : M'.time = M.time + M.dt ∧ M'.dt = M.dt := by
  obtain ⟨_, _, _, -, -, -, -, rfl⟩ := MTLN.step_ok_iff.1 h
  exact ⟨rfl, rfl⟩

theorem MTLN.step_nodes {M M' : MTLN p} (h : M.step = .ok M') : allNodes M'.networks = allNodes M.networks := by
  obtain ⟨_, _, _, h1, -, -, h4, rfl⟩ := MTLN.step_ok_iff.1 h
  rw [← allNodes_advance h1, ← allNodes_currents h4]

/-- Clock, step and nodes along a run. -/
theorem MTLN.trace_config {tr : ℕ → MTLN p} {k : ℕ} (h : ∀ j < k, (tr j).step = .ok (tr (j + 1))) : ∀ j ≤ k,
    (tr j).time = (tr 0).time + j * (tr 0).dt ∧ (tr j).dt = (tr 0).dt ∧
      allNodes (tr j).networks = allNodes (tr 0).networks := by
  intro j
  induction j with
  | zero => intro _; simp
  | succ j ih =>
    intro hj
    obtain ⟨h1, h2, h3⟩ := ih (by omega)
    obtain ⟨h4, h5⟩ := MTLN.step_time (h j (by omega))
    have h6 := MTLN.step_nodes (h j (by omega))
    refine ⟨?_, by rw [h5, h2], by rw [h6, h3]⟩
    rw [h4, h1, h2]
    push_cast
    ring

/-- The states one bundle goes through in a run. -/
theorem MTLN.trace_bundle {tr : ℕ → MTLN p} {k : ℕ} (h : ∀ j < k, (tr j).step = .ok (tr (j + 1))) {x : ℕ}
    {b0 : MTLD n p} (h0 : (tr 0).bundles[x]? = some ⟨n, b0⟩) : ∃ f : ℕ → MTLD n p, f 0 = b0 ∧
      (∀ j ≤ k, (tr j).bundles[x]? = some ⟨n, f j⟩) ∧
      ∀ j < k, ∃ nws1, mapPy (NetworkD.advanceVoltage (tr j).time (tr j).dt) (tr j).networks = .ok nws1 ∧
        (f j).stepWith (tr j).time (tr j).dt (allWrites nws1) = .ok (f (j + 1)) := by
  have hex : ∀ j ≤ k, ∃ b : MTLD n p, (tr j).bundles[x]? = some ⟨n, b⟩ := by
    intro j
    induction j with
    | zero => intro _; exact ⟨b0, h0⟩
    | succ j ih =>
      intro hj
      obtain ⟨b, hb⟩ := ih (by omega)
      obtain ⟨_, bs2, _, -, -, h3, -, he⟩ := MTLN.step_ok_iff.1 (h j (by omega))
      obtain ⟨c, hc, hs⟩ := (mapPy_getElem? h3 x).2 _ hb
      obtain ⟨c', -, rfl⟩ := onBundle_ok_iff.1 hs
      refine ⟨c', ?_⟩
      rw [he]
      exact hc
  haveI : Nonempty (MTLD n p) := ⟨b0⟩
  choose! f hf using hex
  refine ⟨f, ?_, hf, ?_⟩
  · have := hf 0 (by omega)
    rw [h0] at this
    simpa using this.symm
  · intro j hj
    obtain ⟨nws1, bs2, _, h1, -, h3, -, he⟩ := MTLN.step_ok_iff.1 (h j hj)
    refine ⟨nws1, h1, ?_⟩
    obtain ⟨c, hc, hs⟩ := (mapPy_getElem? h3 x).2 _ (hf j hj.le)
    obtain ⟨c', hs', rfl⟩ := onBundle_ok_iff.1 hs
    have e := hf (j + 1) hj
    rw [he] at e
    simp only [hc, Option.some.injEq, Sigma.mk.injEq, heq_eq_eq, true_and] at e
    rw [← e]
    exact hs'

/-- Preparation of one bundle. -/
theorem MTLN.start_bundle {T dt : ℝ} {M M0 : MTLN p} {k : ℕ} (h : M.start T dt = .ok (k, M0)) {x : ℕ} {b : MTLD n p}
    (hb : M.bundles[x]? = some ⟨n, b⟩) : ∃ lr cg, M0.bundles[x]? = some ⟨n,
      { b with
        dt := if dt ≠ 0 then dt else b.dt
        lr := some lr
        cg := some cg
        probes := b.probes.map (Probe.resizeFrames k) }⟩ ∧
      updateLr b.m (if dt ≠ 0 then dt else b.dt) b.dun b.l b.r b.tz = .ok lr ∧
      updateCg b.m (if dt ≠ 0 then dt else b.dt) b.dun b.c b.g = .ok cg := by
  obtain ⟨nws, bs, -, -, -, h4, rfl⟩ := MTLN.start_ok_iff.1 h
  have hb' : (M.overrideDt dt).bundles[x]? = some ⟨n, { b with dt := if dt ≠ 0 then dt else b.dt }⟩ := by
    unfold MTLN.overrideDt
    by_cases hdt : dt ≠ 0
    · rw [if_pos hdt]
      simp only [List.getElem?_map, hb, Option.map_some, if_pos hdt]
      rfl
    · rw [if_neg hdt]
      simp only [hb, if_neg hdt]
  obtain ⟨c, hc, hs⟩ := (mapPy_getElem? h4 x).2 _ hb'
  obtain ⟨c', hs', rfl⟩ := onBundle_ok_iff.1 hs
  obtain ⟨lr, cg, h5, h6, rfl⟩ := MTLD.start_ok_iff.1 hs'
  exact ⟨lr, cg, hc, h5, h6⟩

theorem MTLN.start_config {T dt : ℝ} {M M0 : MTLN p} {k : ℕ} (h : M.start T dt = .ok (k, M0)) :
    M0.time = M.time ∧ M0.dt = M.runDt dt ∧ k = ⌊T / M.runDt dt⌋.toNat ∧
      allNodes M0.networks = allNodes M.networks ∧ M.runDt dt ≠ 0 := by
  obtain ⟨nws, bs, h1, h2, h3, h4, rfl⟩ := MTLN.start_ok_iff.1 h
  refine ⟨?_, rfl, h3, allNodes_compute h1, h2⟩
  unfold MTLN.overrideDt
  split <;> rfl

/-- All probes of a bundle, in closed form. -/
theorem probes_along {k : ℕ} {f : ℕ → MTLD n p} {t0 dt : ℝ} {ps : List (Probe n)}
    (h0 : (f 0).probes = ps.map (Probe.resizeFrames k))
    (hs : ∀ j < k, ∃ ws, (f j).stepWith (t0 + j * dt) dt ws = .ok (f (j + 1))) : ∀ j ≤ k,
    (f j).m = (f 0).m ∧ (f j).probes = ps.map fun q =>
      q.recorded k (fun a => q.stamp (t0 + (a + 1 : ℕ) * dt))
        (fun a => q.column (f 0).m (f (a + 1)).v (f (a + 1)).i) j := by
  intro j
  induction j with
  | zero =>
    intro _
    refine ⟨rfl, ?_⟩
    rw [h0]
    apply List.map_congr_left
    intro q _
    exact q.recorded_zero _ _ _
  | succ j ih =>
    intro hj
    obtain ⟨hm, e⟩ := ih (by omega)
    obtain ⟨ws, hstep⟩ := hs j (by omega)
    obtain ⟨lr, cg, -, -, -, he⟩ := MTLD.stepWith_ok_iff.1 hstep
    have hv : (f (j + 1)).v = ((f j).fieldsWith lr cg (t0 + j * dt) dt ws).v := by rw [he]
    have hi : (f (j + 1)).i = ((f j).fieldsWith lr cg (t0 + j * dt) dt ws).i := by rw [he]
    refine ⟨?_, ?_⟩
    · rw [← hm, he]; rfl
    have hp : (f (j + 1)).probes = (f j).probes.map fun q => q.saveFrame (q.stamp (t0 + j * dt + dt))
          (q.column (f j).m (f (j + 1)).v (f (j + 1)).i) := by
      rw [hv, hi, he]
    rw [hp, e, List.map_map]
    apply List.map_congr_left
    intro q _
    have := q.recorded_save k (fun a => q.stamp (t0 + (a + 1 : ℕ) * dt))
        (fun a => q.column (f 0).m (f (a + 1)).v (f (a + 1)).i) j (by omega)
    rw [← this]
    simp only [Function.comp_apply, hm]
    have e1 : t0 + (j : ℝ) * dt + dt = t0 + ((j + 1 : ℕ) : ℝ) * dt := by push_cast; ring
    rw [e1]
    rfl

/-! ## Runs that succeed -/

/-- Everything a step needs. -/
structure MTLN.Runnable (M : MTLN p) : Prop where
  dt : M.dt ≠ 0
  bundles : ∀ b ∈ M.bundles, (∃ lr, b.2.lr = some lr) ∧ (∃ cg, b.2.cg = some cg) ∧ ∀ q ∈ b.2.probes, q.Valid
  nets : ∀ nwd ∈ M.networks, ∀ e ∈ nwd, ∃ T, e.2.2.2.terms = some T ∧ e.2.2.2.cSize = e.2.1 ∧ T.A.det ≠ 0
  nodes : ∀ d ∈ allNodes M.networks, ∃ b, findBundle M.bundles d.bundleName = some b ∧ d.lineIndex < b.1 ∧ b.2.m ≠ 0

theorem mem_allNodes {nws : List NetworkD} {nwd : NetworkD} (h : nwd ∈ nws) {e : ℕ × AnyNetwork} (he : e ∈ nwd)
    (a : Fin e.2.1) : e.2.2.2.nodes a ∈ allNodes nws := by
  simp only [allNodes, List.mem_flatMap]
  exact ⟨nwd, h, e, he, by simp [List.mem_ofFn]⟩

theorem stepWith_name {time dt : ℝ} {ws : List Write} {b b' : MTLD n p} (h : b.stepWith time dt ws = .ok b') :
    b'.name = b.name := by
  obtain ⟨_, _, _, _, rfl⟩ := MTLD.stepWith_config h
  rfl

theorem MTLN.Runnable.step {M : MTLN p} (h : M.Runnable) : ∃ M', M.step = .ok M' ∧ M'.Runnable := by
  obtain ⟨nws1, h1⟩ : ∃ nws1, mapPy (NetworkD.advanceVoltage M.time M.dt) M.networks = .ok nws1 := by
    refine mapPy_exists fun nwd hnwd => mapPy_exists fun e he => ?_
    obtain ⟨T, hT, hc, hd⟩ := h.nets nwd hnwd e he
    obtain ⟨c, hc⟩ : ∃ c, e.2.2.2.advanceVoltage M.time M.dt = .ok c := by
      unfold Network.advanceVoltage
      rw [hT]
      simp only [bind_ok_iff, raiseIf_ok_iff, not_not]
      exact ⟨_, (), hc, (), h.dt, (), hd, rfl⟩
    simp only [bind_ok_iff, onAny]
    exact ⟨_, _, ⟨c, hc, rfl⟩, rfl⟩
  have hvalid : ∀ w ∈ allWrites nws1, w.Valid M.bundles := by
    intro w hw
    obtain ⟨d, hd, hw⟩ := allWrites_mem hw
    rw [allNodes_advance h1] at hd
    obtain ⟨b, hb, hrow, -⟩ := h.nodes d hd
    simp only [Node.end', Write.target, End.mk.injEq] at hw
    exact ⟨b, by rw [← hw.1]; exact hb, by rw [← hw.2.1]; exact hrow⟩
  obtain ⟨bs2, h3⟩ : ∃ bs2, mapPy (onBundle (MTLD.stepWith M.time M.dt (allWrites nws1))) M.bundles = .ok bs2 := by
    refine mapPy_exists fun b hb => ?_
    obtain ⟨⟨lr, hlr⟩, ⟨cg, hcg⟩, hp⟩ := h.bundles b hb
    simp only [onBundle_ok_iff, MTLD.stepWith_ok_iff]
    exact ⟨_, _, ⟨lr, cg, hlr, hcg, hp, rfl⟩, rfl⟩
  have hfind := mapPy_onBundle_find (f := MTLD.stepWith M.time M.dt (allWrites nws1)) stepWith_name h3
  have hnode : ∀ d ∈ allNodes M.networks, ∃ b, findBundle bs2 d.bundleName = some b ∧ d.lineIndex < b.1 ∧ b.2.m ≠ 0 := by
    intro d hd
    obtain ⟨b, hb, hrow, hm⟩ := h.nodes d hd
    obtain ⟨c, hc, hf⟩ := (hfind d.bundleName).2 b hb
    obtain ⟨v, i, phi, ps, rfl⟩ := MTLD.stepWith_config hc
    exact ⟨_, hf, hrow, hm⟩
  obtain ⟨nws2, h4⟩ : ∃ nws2, mapPy (NetworkD.updateCurrents bs2) nws1 = .ok nws2 := by
    refine mapPy_exists fun nwd hnwd => mapPy_exists fun e he => ?_
    simp only [bind_ok_iff, onAny]
    have hex : ∀ a, ∃ x, readCurrent bs2 (e.2.2.2.nodes a) = .ok x := by
      intro a
      have hd := mem_allNodes hnwd he a
      rw [allNodes_advance h1] at hd
      obtain ⟨b, hb, hrow, hm⟩ := hnode _ hd
      unfold readCurrent
      rw [hb]
      simp only
      rw [dif_pos ⟨hrow, hm⟩]
      exact ⟨_, rfl⟩
    choose i' hi' using hex
    exact ⟨_, _, ⟨_, updateCurrents_ok_iff.2 ⟨i', hi', rfl⟩, rfl⟩, rfl⟩
  refine ⟨_, MTLN.step_ok_iff.2 ⟨nws1, bs2, nws2, h1, hvalid, h3, h4, rfl⟩, ⟨h.dt, ?_, ?_, ?_⟩⟩
  · intro b' hb'
    obtain ⟨b, hb, hs⟩ := mapPy_mem h3 b' hb'
    obtain ⟨c, hc, rfl⟩ := onBundle_ok_iff.1 hs
    obtain ⟨hlr, hcg, hp⟩ := h.bundles b hb
    obtain ⟨lr, cg, -, -, -, rfl⟩ := MTLD.stepWith_ok_iff.1 hc
    refine ⟨hlr, hcg, ?_⟩
    intro q hq
    obtain ⟨q', hq', rfl⟩ := List.mem_map.1 hq
    rw [Probe.saveFrame_valid]
    exact hp q' hq'
  · intro nwd2 hnwd2 e2 he2
    obtain ⟨nwd1, hnwd1, hf⟩ := mapPy_mem h4 nwd2 hnwd2
    obtain ⟨nwd, hnwd, hf1⟩ := mapPy_mem h1 nwd1 hnwd1
    obtain ⟨e1, he1, hg⟩ := mapPy_mem hf e2 he2
    obtain ⟨e, he, hg1⟩ := mapPy_mem hf1 e1 he1
    simp only [bind_ok_iff, onAny_ok_iff, Except.ok.injEq] at hg hg1
    obtain ⟨_, ⟨c1, hc1, rfl⟩, rfl⟩ := hg1
    obtain ⟨_, ⟨c2, hc2, rfl⟩, rfl⟩ := hg
    obtain ⟨i', -, rfl⟩ := updateCurrents_ok_iff.1 hc2
    obtain ⟨v, X, rfl⟩ := advanceVoltage_rest hc1
    exact h.nets nwd hnwd e he
  · intro d hd
    have : allNodes nws2 = allNodes M.networks := by rw [allNodes_currents h4, allNodes_advance h1]
    rw [this] at hd
    exact hnode d hd

theorem MTLN.Runnable.iter {M : MTLN p} (h : M.Runnable) (k : ℕ) : ∃ M', iterPy MTLN.step k M = .ok M' := by
  induction k generalizing M with
  | zero => exact ⟨M, rfl⟩
  | succ k ih =>
    obtain ⟨M1, h1, h2⟩ := h.step
    obtain ⟨M', h3⟩ := ih h2
    exact ⟨M', bind_ok_iff.2 ⟨M1, h1, h3⟩⟩

end Mtln
