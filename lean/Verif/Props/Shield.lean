import Verif.Lemmas.Shield

/-! # C169: what is inside of a shield does not act on what is outside -/

namespace Mtln

open Matrix

variable {n p a : ℕ} {A : String → ℕ}

/-! ## Networks -/

theorem isOuter_iff {e : ℕ × AnyNetwork} : isOuter A e = true ↔
    ∀ x, (e.2.2.2.nodes x).lineIndex < A (e.2.2.2.nodes x).bundleName := by
  unfold isOuter
  rw [List.all_eq_true]
  constructor
  · intro h x
    have := h _ (List.mem_ofFn.2 ⟨x, rfl⟩)
    simpa using this
  · intro h d hd
    obtain ⟨x, rfl⟩ := List.mem_ofFn.1 hd
    simpa using h x

/-- A method that leaves the nodes of a network as they are. -/
def LeavesNodes (f : ∀ {N S}, Network N S → Py (Network N S)) : Prop :=
  ∀ {N S} {nw nw' : Network N S}, f nw = .ok nw' → nw'.nodes = nw.nodes

theorem forAll_entry {f : ∀ {N S}, Network N S → Py (Network N S)} (hf : LeavesNodes f) {e e' : ℕ × AnyNetwork}
    (h : (do
      let nw' ← onAny f e.2
      .ok (e.1, nw') : Py (ℕ × AnyNetwork)) = .ok e') : List.ofFn e'.2.2.2.nodes = List.ofFn e.2.2.2.nodes := by
  obtain ⟨nw', h1, h2⟩ := bind_ok_iff.1 h
  obtain ⟨c, hc, rfl⟩ := onAny_ok_iff.1 h1
  cases h2
  show List.ofFn c.nodes = _
  rw [hf hc]

theorem forAll_outer {f : ∀ {N S}, Network N S → Py (Network N S)} (hf : LeavesNodes f) {nwd nwd' : NetworkD}
    (h : nwd.forAll f = .ok nwd') : NetworkD.forAll f (nwd.filter (isOuter A)) = .ok (nwd'.filter (isOuter A)) := by
  refine mapPy_filter h fun e _ e' he => ?_
  unfold isOuter
  rw [forAll_entry hf he]

theorem forAll_shielded {f : ∀ {N S}, Network N S → Py (Network N S)} (hf : LeavesNodes f) {nws nws' : List NetworkD}
    (h : mapPy (NetworkD.forAll f) nws = .ok nws') (hs : ShieldedNets A nws) : ShieldedNets A nws' := by
  intro nwd' hn e' he'
  obtain ⟨nwd, hnwd, h1⟩ := mapPy_mem h nwd' hn
  obtain ⟨e, he, h2⟩ := mapPy_mem h1 e' he'
  have hl := forAll_entry hf h2
  rcases hs nwd hnwd e he with H | H
  · left
    intro x
    have : e'.2.2.2.nodes x ∈ List.ofFn e.2.2.2.nodes := by rw [← hl]; exact List.mem_ofFn.2 ⟨x, rfl⟩
    obtain ⟨y, hy⟩ := List.mem_ofFn.1 this
    rw [← hy]
    exact H y
  · right
    intro x
    have : e'.2.2.2.nodes x ∈ List.ofFn e.2.2.2.nodes := by rw [← hl]; exact List.mem_ofFn.2 ⟨x, rfl⟩
    obtain ⟨y, hy⟩ := List.mem_ofFn.1 this
    rw [← hy]
    exact H y

theorem mapPy_map_both {α β γ δ : Type} {f : α → Py β} {g : γ → Py δ} {F : α → γ} {G : β → δ} : ∀ {l : List α} {l' : List β},
    mapPy f l = .ok l' → (∀ x ∈ l, ∀ y, f x = .ok y → g (F x) = .ok (G y)) → mapPy g (l.map F) = .ok (l'.map G)
  | [], l', h, _ => by
    simp only [mapPy, Except.ok.injEq] at h
    subst h
    rfl
  | x :: l, l', h, H => by
    simp only [mapPy, bind_ok_iff, Except.ok.injEq] at h
    obtain ⟨y, hy, l1, hl, rfl⟩ := h
    simp only [List.map_cons, mapPy, bind_ok_iff, Except.ok.injEq]
    exact ⟨_, H x (List.mem_cons_self ..) y hy, _, mapPy_map_both hl fun z hz => H z (List.mem_cons_of_mem _ hz), rfl⟩

theorem mapPy_mono {α β : Type} {f g : α → Py β} : ∀ {l : List α} {l' : List β}, mapPy f l = .ok l' →
    (∀ x ∈ l, ∀ y, f x = .ok y → g x = .ok y) → mapPy g l = .ok l'
  | [], _, h, _ => h
  | x :: l, l', h, H => by
    simp only [mapPy, bind_ok_iff, Except.ok.injEq] at h ⊢
    obtain ⟨y, hy, l1, hl, rfl⟩ := h
    exact ⟨_, H x (List.mem_cons_self ..) y hy, _, mapPy_mono hl fun z hz => H z (List.mem_cons_of_mem _ hz), rfl⟩

theorem keeps_advanceVoltage (time dt : ℝ) : LeavesNodes (Network.advanceVoltage time dt) := by
  intro N S nw nw' h
  obtain ⟨v, X, rfl⟩ := advanceVoltage_rest h
  rfl

theorem keeps_updateCurrents (bs : List (AnyBundle p)) : LeavesNodes (Network.updateCurrents bs) := by
  intro N S nw nw' h
  obtain ⟨i', -, rfl⟩ := updateCurrents_ok_iff.1 h
  rfl

theorem keeps_computeVTerms (dt : ℝ) : LeavesNodes (Network.computeVTerms dt) := by
  intro N S nw nw' h
  obtain ⟨-, -, rfl⟩ := computeVTerms_ok_iff.1 h
  rfl

theorem writes_outer {nwd : NetworkD} (h : ∀ e ∈ nwd, (∀ x, (e.2.2.2.nodes x).lineIndex < A (e.2.2.2.nodes x).bundleName) ∨
    ∀ x, A (e.2.2.2.nodes x).bundleName ≤ (e.2.2.2.nodes x).lineIndex) :
    NetworkD.writes (nwd.filter (isOuter A)) = nwd.writes.filter fun w => w.row < A w.bundle := by
  induction nwd with
  | nil => rfl
  | cons e nwd ih =>
    have ih := ih fun e' he' => h e' (List.mem_cons_of_mem _ he')
    have e1 : NetworkD.writes (e :: nwd) = e.2.2.2.writes ++ NetworkD.writes nwd := rfl
    rw [e1, List.filter_append, ← ih]
    by_cases ho : isOuter A e = true
    · rw [List.filter_cons_of_pos ho]
      have : e.2.2.2.writes.filter (fun w => w.row < A w.bundle) = e.2.2.2.writes := by
        rw [List.filter_eq_self]
        intro w hw
        obtain ⟨x, rfl⟩ := List.mem_ofFn.1 hw
        simpa using isOuter_iff.1 ho x
      rw [this]
      rfl
    · rw [List.filter_cons_of_neg ho]
      have : e.2.2.2.writes.filter (fun w => w.row < A w.bundle) = [] := by
        rw [List.filter_eq_nil_iff]
        intro w hw
        obtain ⟨x, rfl⟩ := List.mem_ofFn.1 hw
        rcases h e (List.mem_cons_self ..) with H | H
        · exact absurd (isOuter_iff.2 H) ho
        · simpa using H x
      rw [this, List.nil_append]

theorem allWrites_outer : ∀ {nws : List NetworkD}, ShieldedNets A nws →
    allWrites (nws.map fun nwd => nwd.filter (isOuter A)) = (allWrites nws).filter fun w => w.row < A w.bundle
  | [], _ => rfl
  | nwd :: nws, h => by
    have ih := allWrites_outer (nws := nws) fun x hx => h x (List.mem_cons_of_mem _ hx)
    have e : allWrites (nwd :: nws) = nwd.writes ++ allWrites nws := rfl
    rw [e, List.filter_append, ← ih, ← writes_outer (h nwd (List.mem_cons_self ..))]
    rfl

/-! ## Bundles -/

/-- With coefficients computed. -/
inductive BundleShowsReady (A : String → ℕ) : AnyBundle p → AnyBundle p → Prop
  | mk {n a : ℕ} {b : MTLD n p} {s : MTLD a p} (h : a ≤ n) : a = A b.name → b.ShowsReady h s → BundleShowsReady A ⟨n, b⟩ ⟨a, s⟩

theorem BundleShowsReady.shows {b s : AnyBundle p} (H : BundleShowsReady A b s) : BundleShows A b s := by
  obtain ⟨h, ha, H⟩ := H
  exact .mk h ha H.toShows

theorem findBundle_shows {bs ss : List (AnyBundle p)} (H : List.Forall₂ (BundleShows A) bs ss) {name : String} {b : AnyBundle p}
    (hb : findBundle bs name = some b) : ∃ s, findBundle ss name = some s ∧ BundleShows A b s := by
  induction H with
  | nil => simp [findBundle] at hb
  | @cons b0 s0 bs ss h1 h2 ih =>
    unfold findBundle at hb ih ⊢
    rw [List.find?_cons] at hb ⊢
    have hn : s0.2.name = b0.2.name := by obtain ⟨h, ha, H⟩ := h1; exact H.name
    rw [hn]
    by_cases hname : b0.2.name = name
    · simp only [hname, decide_true, Option.some.injEq] at hb ⊢
      subst hb
      exact ⟨s0, rfl, h1⟩
    · simp only [hname, decide_false] at hb ⊢
      exact ih hb

theorem findBundle_named {bs : List (AnyBundle p)} {name : String} {b : AnyBundle p} (hb : findBundle bs name = some b) :
    b.2.name = name := by
  simpa using List.find?_some hb

theorem valid_shows {bs ss : List (AnyBundle p)} (H : List.Forall₂ (BundleShows A) bs ss) {w : Write} (hw : w.Valid bs)
    (hr : w.row < A w.bundle) : w.Valid ss := by
  obtain ⟨b, hb, -⟩ := hw
  obtain ⟨s, hs, hbs⟩ := findBundle_shows H hb
  have hn := findBundle_named hb
  refine ⟨s, hs, ?_⟩
  obtain ⟨h, ha, -⟩ := hbs
  have hn : _ = w.bundle := hn
  exact lt_of_lt_of_eq hr (by rw [← hn]; exact ha.symm)

theorem readCurrent_shows {bs ss : List (AnyBundle p)} (H : List.Forall₂ (BundleShows A) bs ss) {d : Node} {x : ℝ}
    (hx : readCurrent bs d = .ok x) (hr : d.lineIndex < A d.bundleName) : readCurrent ss d = .ok x := by
  unfold readCurrent at hx ⊢
  cases hf : findBundle bs d.bundleName with
  | none => rw [hf] at hx; simp at hx
  | some b =>
    rw [hf] at hx
    obtain ⟨s, hs, hbs⟩ := findBundle_shows H hf
    have hn := findBundle_named hf
    rw [hs]
    obtain ⟨h, ha, hb⟩ := hbs
    rename_i n a b s
    have hn : b.name = d.bundleName := hn
    have hra : d.lineIndex < a := by rw [ha, hn]; exact hr
    simp only at hx ⊢
    by_cases hc : d.lineIndex < n ∧ b.m ≠ 0
    · rw [dif_pos hc] at hx
      have hsm : s.m ≠ 0 := by rw [hb.m]; exact hc.2
      rw [dif_pos ⟨hra, hsm⟩, ← hx]
      have e : s.i (Side.cell s.m d.side) ⟨d.lineIndex, hra⟩ = b.i (Side.cell b.m d.side) ⟨d.lineIndex, hc.1⟩ := by
        rw [hb.m]
        exact (hb.i _ _).symm
      rw [e]
    · rw [dif_neg hc] at hx
      simp at hx

theorem updateCurrents_shows {bs ss : List (AnyBundle p)} (H : List.Forall₂ (BundleShows A) bs ss) {nwd nwd' : NetworkD}
    (h : nwd.updateCurrents bs = .ok nwd') :
    NetworkD.updateCurrents ss (nwd.filter (isOuter A)) = .ok (nwd'.filter (isOuter A)) := by
  have h1 := forAll_outer (A := A) (keeps_updateCurrents bs) h
  refine mapPy_mono h1 fun e he e' he' => ?_
  have ho := isOuter_iff.1 (List.mem_filter.1 he).2
  obtain ⟨nw', g1, g2⟩ := bind_ok_iff.1 he'
  obtain ⟨c, hc, rfl⟩ := onAny_ok_iff.1 g1
  obtain ⟨i', hi, rfl⟩ := updateCurrents_ok_iff.1 hc
  refine bind_ok_iff.2 ⟨_, onAny_ok_iff.2 ⟨_, updateCurrents_ok_iff.2 ⟨i', fun x => ?_, rfl⟩, rfl⟩, g2⟩
  exact readCurrent_shows H (hi x) (ho x)

/-! ## Managers -/

/-- With coefficients computed. -/
structure MTLN.ShowsReady (A : String → ℕ) (M R : MTLN p) : Prop where
  dt : R.dt = M.dt
  time : R.time = M.time
  bundles : List.Forall₂ (BundleShowsReady A) M.bundles R.bundles
  networks : R.networks = M.networks.map fun nwd => nwd.filter (isOuter A)

theorem forall₂_shows {bs ss : List (AnyBundle p)} (H : List.Forall₂ (BundleShowsReady A) bs ss) : List.Forall₂ (BundleShows A) bs ss := by
  induction H with
  | nil => exact .nil
  | cons h1 _ ih => exact .cons h1.shows ih

theorem MTLN.ShowsReady.shows {M R : MTLN p} (H : M.ShowsReady A R) : M.Shows A R :=
  ⟨H.dt, H.time, forall₂_shows H.bundles, H.networks⟩

theorem mapPy_stepWith_shows {time dt : ℝ} {ws : List Write} {bs ss : List (AnyBundle p)}
    (H : List.Forall₂ (BundleShowsReady A) bs ss) : ∀ {bs' : List (AnyBundle p)}, mapPy (onBundle (MTLD.stepWith time dt ws)) bs = .ok bs' →
    ∃ ss', mapPy (onBundle (MTLD.stepWith time dt (ws.filter fun w => w.row < A w.bundle))) ss = .ok ss' ∧
      List.Forall₂ (BundleShowsReady A) bs' ss' := by
  induction H with
  | nil =>
    intro bs' h
    simp only [mapPy, Except.ok.injEq] at h
    subst h
    exact ⟨[], rfl, .nil⟩
  | cons h1 _ ih =>
    intro bs' h
    simp only [mapPy, bind_ok_iff, Except.ok.injEq] at h
    obtain ⟨b', hb', bs1, hbs1, rfl⟩ := h
    obtain ⟨ss1, g1, g2⟩ := ih hbs1
    obtain ⟨c, hc, rfl⟩ := onBundle_ok_iff.1 hb'
    obtain ⟨hle, ha, H1⟩ := h1
    obtain ⟨s', e1, e2, e3⟩ := H1.stepWith ha hc
    refine ⟨⟨_, s'⟩ :: ss1, ?_, .cons (.mk hle (by rw [e3]; exact ha) e2) g2⟩
    simp only [mapPy, bind_ok_iff, Except.ok.injEq]
    exact ⟨_, onBundle_ok_iff.2 ⟨_, e1, rfl⟩, _, g1, rfl⟩

theorem mapPy_start_shows {k : ℕ} {bs ss : List (AnyBundle p)} (H : List.Forall₂ (BundleShows A) bs ss) :
    ∀ {bs' : List (AnyBundle p)}, mapPy (onBundle (MTLD.start k)) bs = .ok bs' →
    ∃ ss', mapPy (onBundle (MTLD.start k)) ss = .ok ss' ∧ List.Forall₂ (BundleShowsReady A) bs' ss' := by
  induction H with
  | nil =>
    intro bs' h
    simp only [mapPy, Except.ok.injEq] at h
    subst h
    exact ⟨[], rfl, .nil⟩
  | cons h1 _ ih =>
    intro bs' h
    simp only [mapPy, bind_ok_iff, Except.ok.injEq] at h
    obtain ⟨b', hb', bs1, hbs1, rfl⟩ := h
    obtain ⟨ss1, g1, g2⟩ := ih hbs1
    obtain ⟨c, hc, rfl⟩ := onBundle_ok_iff.1 hb'
    obtain ⟨hle, ha, H1⟩ := h1
    obtain ⟨s', e1, e2, e3⟩ := H1.start hc
    refine ⟨⟨_, s'⟩ :: ss1, ?_, .cons (.mk hle (by rw [e3]; exact ha) e2) g2⟩
    simp only [mapPy, bind_ok_iff, Except.ok.injEq]
    exact ⟨_, onBundle_ok_iff.2 ⟨_, e1, rfl⟩, _, g1, rfl⟩

/-- One step. -/
theorem MTLN.ShowsReady.step {M M' R : MTLN p} (hs : ShieldedNets A M.networks) (H : M.ShowsReady A R) (h : M.step = .ok M') :
    ∃ R', R.step = .ok R' ∧ M'.ShowsReady A R' ∧ ShieldedNets A M'.networks := by
  obtain ⟨nws1, bs2, nws2, h1, h2, h3, h4, rfl⟩ := MTLN.step_ok_iff.1 h
  have hs1 : ShieldedNets A nws1 := forAll_shielded (keeps_advanceVoltage M.time M.dt) h1 hs
  obtain ⟨ss2, g1, g2⟩ := mapPy_stepWith_shows H.bundles h3
  have k1 : mapPy (NetworkD.advanceVoltage M.time M.dt) (M.networks.map fun nwd => nwd.filter (isOuter A)) =
      .ok (nws1.map fun nwd => nwd.filter (isOuter A)) :=
    mapPy_map_both h1 fun nwd _ nwd' hn => forAll_outer (keeps_advanceVoltage M.time M.dt) hn
  have k4 : mapPy (NetworkD.updateCurrents ss2) (nws1.map fun nwd => nwd.filter (isOuter A)) =
      .ok (nws2.map fun nwd => nwd.filter (isOuter A)) :=
    mapPy_map_both h4 fun nwd _ nwd' hn => updateCurrents_shows (forall₂_shows g2) hn
  refine ⟨_, MTLN.step_ok_iff.2 ⟨_, ss2, _, ?_, ?_, ?_, k4, rfl⟩, ⟨H.dt, ?_, g2, rfl⟩,
    forAll_shielded (keeps_updateCurrents bs2) h4 hs1⟩
  · rw [H.networks, H.time, H.dt]
    exact k1
  · rw [allWrites_outer hs1]
    intro w hw
    obtain ⟨hw1, hw2⟩ := List.mem_filter.1 hw
    exact valid_shows (forall₂_shows H.bundles) (h2 w hw1) (by simpa using hw2)
  · rw [allWrites_outer hs1, H.time, H.dt]
    exact g1
  · show R.time + R.dt = M.time + M.dt
    rw [H.dt, H.time]

theorem MTLN.ShowsReady.iterate : ∀ {k : ℕ} {M M' R : MTLN p}, ShieldedNets A M.networks → M.ShowsReady A R →
    iterPy MTLN.step k M = .ok M' → ∃ R', iterPy MTLN.step k R = .ok R' ∧ M'.ShowsReady A R'
  | 0, M, M', R, _, H, h => by
    simp only [iterPy, Except.ok.injEq] at h
    subst h
    exact ⟨R, rfl, H⟩
  | k + 1, M, M', R, hs, H, h => by
    simp only [iterPy, bind_ok_iff] at h ⊢
    obtain ⟨N, h1, h2⟩ := h
    obtain ⟨R1, g1, H1, hs1⟩ := H.step hs h1
    obtain ⟨R', g2, H2⟩ := MTLN.ShowsReady.iterate hs1 H1 h2
    exact ⟨R', ⟨R1, g1, g2⟩, H2⟩

theorem MTLN.Shows.override {M R : MTLN p} (H : M.Shows A R) (dt : ℝ) : (M.overrideDt dt).Shows A (R.overrideDt dt) := by
  unfold MTLN.overrideDt
  split
  · refine ⟨rfl, H.time, ?_, H.networks⟩
    refine forall₂_map_both H.bundles ?_
    rintro _ _ ⟨hle, ha, H1⟩
    exact .mk hle ha ⟨H1.name, H1.m, H1.dun, rfl, H1.l, H1.c, H1.r, H1.g, H1.tz, H1.v, H1.i, H1.phi, H1.eL, H1.eT, H1.probes⟩
  · exact H

/-- **C169** If what is inside does not act on the outer conductors in the equations (`MTLN.Shows`), then it does not act on them at all:
a run of the manager with only the outer conductors and the networks between them succeeds and shows all fields, memories, probes
and networks outside as the run of the whole manager leaves them. -/
theorem C169_outside {T dt : ℝ} {M M' R : MTLN p} (hs : ShieldedNets A M.networks) (H : M.Shows A R)
    (h : M.runUntil T dt = .ok M') : ∃ R', R.runUntil T dt = .ok R' ∧ M'.Shows A R' := by
  simp only [MTLN.runUntil, bind_ok_iff] at h ⊢
  obtain ⟨⟨k, M0⟩, h1, h2⟩ := h
  obtain ⟨nws, bs, e1, e2, rfl, e3, rfl⟩ := MTLN.start_ok_iff.1 h1
  have hO := H.override dt
  have hdt : R.runDt dt = M.runDt dt := hO.dt
  obtain ⟨ss, g1, g2⟩ := mapPy_start_shows hO.bundles e3
  have hs0 : ShieldedNets A nws := forAll_shielded (keeps_computeVTerms (M.runDt dt)) e1 hs
  obtain ⟨R', k1, k2⟩ := MTLN.ShowsReady.iterate (A := A) (M := { M.overrideDt dt with networks := nws, bundles := bs })
    (R := { R.overrideDt dt with networks := nws.map fun nwd => nwd.filter (isOuter A), bundles := ss }) hs0
    ⟨hO.dt, hO.time, g2, rfl⟩ h2
  refine ⟨R', ⟨(_, _), MTLN.start_ok_iff.2 ⟨nws.map fun nwd => nwd.filter (isOuter A), ss, ?_, by rw [hdt]; exact e2, rfl, ?_, rfl⟩, ?_⟩, k2.shows⟩
  · rw [H.networks, hdt]
    exact mapPy_map_both e1 fun nwd _ nwd' hn => forAll_outer (keeps_computeVTerms (M.runDt dt)) hn
  · rw [hdt]; exact g1
  · rw [hdt]; exact k1

end Mtln
