import Verif.Props.ParserRun
import Verif.Props.ManagerDemo
import Verif.Props.Smooth

/-! # Runs of a parser: C118, C126 -/

namespace Mtln

variable {p : ℕ}

/-! ## What a run leaves unchanged -/

/-- Only the fields, the update terms and the frames of the probes of a bundle may differ. -/
def Kept (b b' : AnyBundle p) : Prop :=
  ∃ v i phi lr cg probes, b' = ⟨b.1, { b.2 with v := v, i := i, phi := phi, lr := lr, cg := cg, probes := probes }⟩

theorem Kept.refl (b : AnyBundle p) : Kept b b := ⟨_, _, _, _, _, _, rfl⟩

theorem Kept.trans {a b c : AnyBundle p} (h : Kept a b) (h' : Kept b c) : Kept a c := by
  obtain ⟨_, _, _, _, _, _, rfl⟩ := h
  obtain ⟨_, _, _, _, _, _, rfl⟩ := h'
  exact ⟨_, _, _, _, _, _, rfl⟩

theorem forall₂_kept_trans : ∀ {l l' l'' : List (AnyBundle p)}, List.Forall₂ Kept l l' → List.Forall₂ Kept l' l'' →
    List.Forall₂ Kept l l''
  | _, _, _, .nil, .nil => .nil
  | _, _, _, .cons h hs, .cons h' hs' => .cons (h.trans h') (forall₂_kept_trans hs hs')

/-- The levels and nodes of the networks. -/
def wiring (nws : List NetworkD) : List (List (ℕ × Σ N, Fin N → Node)) :=
  nws.map fun nwd => nwd.map fun e => (e.1, ⟨e.2.1, e.2.2.2.nodes⟩)

theorem wiring_forAll {f : ∀ {N S}, Network N S → Py (Network N S)}
    (hf : ∀ {N S} {nw nw' : Network N S}, f nw = .ok nw' → nw'.nodes = nw.nodes) {nws nws' : List NetworkD}
    (h : mapPy (NetworkD.forAll f) nws = .ok nws') : wiring nws' = wiring nws := by
  have hall := mapPy_ok_iff.1 h
  clear h
  induction hall with
  | nil => rfl
  | @cons nwd nwd' nws nws' hd hs ih =>
    unfold wiring at ih ⊢
    rw [List.map_cons, List.map_cons, ih]
    congr 1
    have he := forAll_ok_iff.1 hd
    clear hs ih hd
    induction he with
    | nil => rfl
    | @cons e e' nwd nwd' hee hs ih =>
      rw [List.map_cons, List.map_cons, ih]
      congr 1
      obtain ⟨l, nw⟩ := e
      obtain ⟨l', nw'⟩ := e'
      obtain ⟨h1, h2⟩ := hee
      obtain ⟨c, hc, rfl⟩ := onAny_ok_iff.1 h2
      simp only at h1
      subst h1
      simp only [hf hc]

theorem step_kept {M M' : MTLN p} (h : M.step = .ok M') : List.Forall₂ Kept M.bundles M'.bundles ∧
    wiring M'.networks = wiring M.networks := by
  obtain ⟨nws1, bs2, nws2, h1, -, h3, h4, rfl⟩ := MTLN.step_ok_iff.1 h
  constructor
  · refine List.Forall₂.imp ?_ (mapPy_ok_iff.1 h3)
    intro b b' hb
    obtain ⟨c, hc, rfl⟩ := onBundle_ok_iff.1 hb
    obtain ⟨v, i, phi, ps, rfl⟩ := MTLD.stepWith_config hc
    exact ⟨v, i, phi, _, _, ps, rfl⟩
  · refine (wiring_forAll (f := Network.updateCurrents bs2) ?_ h4).trans
      (wiring_forAll (f := Network.advanceVoltage M.time M.dt) ?_ h1)
    · intro N S nw nw' h
      obtain ⟨i', -, rfl⟩ := updateCurrents_ok_iff.1 h
      rfl
    · intro N S nw nw' h
      obtain ⟨v, X, rfl⟩ := advanceVoltage_rest h
      rfl

/-- A run of a manager without a new time step keeps the bundles, up to fields, terms and frames, and the levels and nodes
of the networks. -/
theorem runUntil_kept {M M' : MTLN p} {T : ℝ} (h : M.runUntil T 0 = .ok M') : List.Forall₂ Kept M.bundles M'.bundles ∧
    wiring M'.networks = wiring M.networks ∧ M'.dt = M.dt := by
  obtain ⟨k, M0, h0, tr, rfl, rfl, htr⟩ := MTLN.runUntil_ok_iff.1 h
  obtain ⟨nws, bs, h1, -, -, h2, e0⟩ := MTLN.start_ok_iff.1 h0
  have hov : M.overrideDt 0 = M := by simp [MTLN.overrideDt]
  have hrun : M.runDt 0 = M.dt := by rw [MTLN.runDt_eq, if_neg (by simp)]
  rw [hov] at h2 e0
  have hstart : List.Forall₂ Kept M.bundles (tr 0).bundles ∧ wiring (tr 0).networks = wiring M.networks := by
    rw [e0]
    constructor
    · refine List.Forall₂.imp ?_ (mapPy_ok_iff.1 h2)
      intro b b' hb
      obtain ⟨c, hc, rfl⟩ := onBundle_ok_iff.1 hb
      obtain ⟨lr, cg, -, -, rfl⟩ := MTLD.start_ok_iff.1 hc
      exact ⟨_, _, _, some lr, some cg, _, rfl⟩
    · refine wiring_forAll (f := Network.computeVTerms (M.runDt 0)) ?_ h1
      intro N S nw nw' h
      obtain ⟨-, -, rfl⟩ := computeVTerms_ok_iff.1 h
      rfl
  have hall : ∀ j ≤ k, List.Forall₂ Kept M.bundles (tr j).bundles ∧ wiring (tr j).networks = wiring M.networks := by
    intro j
    induction j with
    | zero => exact fun _ => hstart
    | succ j ih =>
      intro hj
      obtain ⟨h3, h4⟩ := ih (by omega)
      obtain ⟨h5, h6⟩ := step_kept (htr j (by omega))
      exact ⟨forall₂_kept_trans h3 h5, h6.trans h4⟩
  refine ⟨(hall k le_rfl).1, (hall k le_rfl).2, ?_⟩
  rw [(MTLN.trace_config htr k le_rfl).2.1, e0]

/-! ## C118 -/

theorem after_bundles {P : Parsed p} {M : MTLN p} (h : M.bundles.length = P.bundles.length) :
    ((P.after M).bundles.map fun B => B.bundle) = M.bundles ∧
    ((P.after M).bundles.map fun B => B.levels) = P.bundles.map fun B => B.levels := by
  unfold Parsed.after
  simp only
  generalize P.bundles = Bs at h
  generalize M.bundles = bs at h
  induction Bs generalizing bs with
  | nil =>
    obtain rfl := List.length_eq_zero_iff.1 h
    exact ⟨rfl, rfl⟩
  | cons B Bs ih =>
    cases bs with
    | nil => simp at h
    | cons b bs =>
      obtain ⟨h1, h2⟩ := ih bs (by simpa using h)
      constructor
      · rw [List.zipWith_cons_cons, List.map_cons, h1]
      · rw [List.zipWith_cons_cons, List.map_cons, h2, List.map_cons]

theorem manager_length {P : Parsed p} {M : MTLN p} {dt : ℝ} (h : P.manager dt = .ok M) :
    M.bundles.length = P.bundles.length := by
  rw [(C118_manager.1 h).2.1, Parsed.runBundles, List.length_map]

/-- **C118** A run of the parser is a run of the manager set up for it.  After it the parser has the bundles and networks
of the manager, each bundle at its place; the file, the lines, the look-ups and the places of the probes are the same. -/
theorem C118_run {P P' : Parsed p} {T dt : ℝ} : P.run T dt = .ok P' ↔ ∃ M M', P.manager dt = .ok M ∧
    M.runUntil T 0 = .ok M' ∧ (P'.bundles.map fun B => B.bundle) = M'.bundles ∧
    (P'.bundles.map fun B => B.levels) = P.bundles.map (fun B => B.levels) ∧ P'.networks = M'.networks ∧
    P'.file = P.file ∧ P'.nameToLine = P.nameToLine ∧ P'.nameToBundle = P.nameToBundle ∧ P'.probes = P.probes := by
  unfold Parsed.run
  simp only [bind_ok_iff, Except.ok.injEq]
  constructor
  · rintro ⟨M, h1, M', h2, rfl⟩
    obtain ⟨h3, h4⟩ := after_bundles ((runUntil_kept h2).1.length_eq.symm.trans (manager_length h1))
    exact ⟨M, M', h1, h2, h3, h4, rfl, rfl, rfl, rfl, rfl⟩
  · rintro ⟨M, M', h1, h2, h3, h4, h5, h6, h7, h8, h9⟩
    refine ⟨M, h1, M', h2, ?_⟩
    obtain ⟨h3', h4'⟩ := after_bundles (P := P) ((runUntil_kept h2).1.length_eq.symm.trans (manager_length h1))
    have hB : (P.after M').bundles = P'.bundles := by
      have e1 := h3'.trans h3.symm
      have e2 := h4'.trans h4.symm
      clear h1 h2 h3 h4 h5 h3' h4'
      generalize (P.after M').bundles = l at e1 e2
      generalize P'.bundles = l' at e1 e2
      induction l generalizing l' with
      | nil =>
        cases l' with
        | nil => rfl
        | cons => simp at e1
      | cons B l ih =>
        cases l' with
        | nil => simp at e1
        | cons B' l' =>
          simp only [List.map_cons, List.cons.injEq] at e1 e2
          rw [ih l' e1.2 e2.2]
          congr 1
          cases B; cases B'
          simp_all
    cases P'
    simp only at h5 h6 h7 h8 h9 hB
    subst h5 h6 h7 h8 h9 hB
    rfl

/-- **C118** The probe number `a` of the bundle number `x` after a run: it has one frame for each of the `⌊T/dt⌋` steps, with
the values of its node and the times of the steps, where `dt` is the time step of the manager. -/
theorem C118_probes {P P' : Parsed p} {T dt : ℝ} (h : P.run T dt = .ok P') {x : ℕ} {B : PBundle p}
    (hB : P.bundles[x]? = some B) : ∃ (M : MTLN p) (b' : MTLD B.bundle.1 p), P.manager dt = .ok M ∧
    (P'.bundles[x]?.map fun B => B.bundle) = some ⟨B.bundle.1, b'⟩ ∧ b'.probes.length = B.bundle.2.probes.length ∧
    ∃ f : ℕ → MTLD B.bundle.1 p, f ⌊T / M.dt⌋.toNat = b' ∧
    ∀ (a : ℕ) (q q' : Probe B.bundle.1), B.bundle.2.probes[a]? = some q → b'.probes[a]? = some q' →
      q'.type = q.type ∧ q'.index = q.index ∧
      q'.t = (List.range ⌊T / M.dt⌋.toNat).map (fun j : ℕ =>
        if q.type = "voltage" then (j + 1) * M.dt else (j + 1) * M.dt + q.dt / 2) ∧
      q'.val = .rows ((List.range ⌊T / M.dt⌋.toNat).map fun j =>
        if q.type = "voltage" then (f (j + 1)).v q.index
        else if q.index = B.bundle.2.m then (f (j + 1)).i (q.index - 1) else (f (j + 1)).i q.index) := by
  obtain ⟨M, M', h1, h2, h3, -⟩ := C118_run.1 h
  obtain ⟨-, hb, ht, -⟩ := C118_manager.1 h1
  obtain ⟨M0, tr, h4, h5, h6, h7, h8⟩ := C02_run_frames _ _ _ _ h2
  have hrun : M.runDt 0 = M.dt := by rw [MTLN.runDt_eq, if_neg (by simp)]
  simp only [hrun] at h4 h6 h7 h8
  have hx : M.bundles[x]? = some (if dt = 0 then B.bundle else ⟨B.bundle.1, B.bundle.2.withDt dt⟩) := by
    rw [hb, Parsed.runBundles, List.getElem?_map, hB]
    rfl
  obtain ⟨c, hc, hcp, hcm⟩ : ∃ c : MTLD B.bundle.1 p, M.bundles[x]? = some ⟨B.bundle.1, c⟩ ∧
      c.probes = B.bundle.2.probes ∧ c.m = B.bundle.2.m := by
    by_cases hdt : dt = 0
    · rw [if_pos hdt] at hx
      exact ⟨B.bundle.2, hx, rfl, rfl⟩
    · rw [if_neg hdt] at hx
      exact ⟨_, hx, rfl, rfl⟩
  obtain ⟨f, h9, h10, h11⟩ := h8 x _ c hc
  refine ⟨M, f ⌊T / M.dt⌋.toNat, h1, ?_, by rw [h10, hcp], f, rfl, ?_⟩
  · rw [← List.getElem?_map, h3, ← h6, h9 _ le_rfl]
  · intro a q q' hq hq'
    obtain ⟨g1, g2, g3, g4⟩ := h11 a q q' (by rw [hcp]; exact hq) hq'
    refine ⟨g1, g2, ?_, ?_⟩
    · rw [g3, ht]
      simp only [zero_add]
    · rw [g4, hcm]

/-- **C118** A run with an external field puts it on all bundles, each with its own distances, before the run. -/
theorem C118_field {P P' : Parsed p} {T dt : ℝ} {E : Field} {D : Distances} (h : P.runWithField T dt E D = .ok P') :
    ∃ M M1 M' : MTLN p, P.manager dt = .ok M ∧ M1.runUntil T 0 = .ok M' ∧ P' = P.after M' ∧
      M1 = { M with bundles := M1.bundles } ∧
      List.Forall₂ (fun b b' => ∃ c, b.2.addExternalField E D none = .ok c ∧ b' = ⟨b.1, c⟩) M.bundles M1.bundles := by
  unfold Parsed.runWithField at h
  obtain ⟨M, h1, h⟩ := bind_ok_iff.1 h
  obtain ⟨M1, h2, h⟩ := bind_ok_iff.1 h
  obtain ⟨M', h3, h⟩ := bind_ok_iff.1 h
  have hP := Except.ok.inj h
  unfold MTLN.addExternalField at h2
  obtain ⟨bs, h4, h5⟩ := bind_ok_iff.1 h2
  injection h5 with h5
  subst h5
  refine ⟨M, { M with bundles := bs }, M', h1, h3, hP.symm, rfl, List.Forall₂.imp ?_ (mapPy_ok_iff.1 h4)⟩
  intro b b' hb
  exact onBundle_ok_iff.1 hb

/-- **C118** A run with a localized external field puts it on the bundle of the given name only. -/
theorem C118_localized {P P' : Parsed p} {T dt : ℝ} {name : String} {E : Field} {D : Distances} {start stop : V3}
    (h : P.runWithLocalizedField T dt name E D start stop = .ok P') :
    ∃ M M1 M' : MTLN p, P.manager dt = .ok M ∧ M1.runUntil T 0 = .ok M' ∧ P' = P.after M' ∧
      M1 = { M with bundles := M1.bundles } ∧ (∃ B ∈ P.bundles, B.bundle.2.name = name) ∧
      ∀ (k : ℕ) (b : AnyBundle p), M.bundles[k]? = some b →
        (b.2.name ≠ name → M1.bundles[k]? = some b) ∧
        (b.2.name = name → ∃ b', b.2.addExternalField E D (some (start, stop)) = .ok b' ∧
          M1.bundles[k]? = some ⟨b.1, b'⟩) := by
  unfold Parsed.runWithLocalizedField at h
  obtain ⟨M, h1, h⟩ := bind_ok_iff.1 h
  obtain ⟨M1, h2, h⟩ := bind_ok_iff.1 h
  obtain ⟨M', h3, h⟩ := bind_ok_iff.1 h
  have hP := Except.ok.inj h
  obtain ⟨⟨b, hb, hbn⟩, -, -, -, h6⟩ := C102_known h2
  have e : M1 = { M with bundles := M1.bundles } := by
    unfold MTLN.addLocalizedExternalField at h2
    obtain ⟨u, hu, h2⟩ := bind_ok_iff.1 h2
    obtain ⟨bs, hbs, h2⟩ := bind_ok_iff.1 h2
    injection h2 with h2
    subst h2
    rfl
  refine ⟨M, M1, M', h1, h3, hP.symm, e, ?_, h6⟩
  rw [(C118_manager.1 h1).2.1, Parsed.runBundles] at hb
  obtain ⟨B, hB, rfl⟩ := List.mem_map.1 hb
  refine ⟨B, hB, ?_⟩
  rw [← hbn]
  have key : ∀ b : AnyBundle p, (fun b : AnyBundle p => b.2.name) (if dt = 0 then b else ⟨b.1, b.2.withDt dt⟩) = b.2.name := by
    intro b
    split <;> rfl
  exact (key B.bundle).symm

/-! ## C126 -/

/-- What the registration of a network reads of a bundle. -/
def tag (b : AnyBundle p) : String × List ℕ := (b.2.name, b.2.inLevel)

theorem Node.registered_some {bs : List (AnyBundle p)} {d : Node} {b : AnyBundle p}
    (h : findBundle bs d.bundleName = some b) (level : ℕ) :
    d.registered bs level = { d with lineIndex := d.lineIndex + conductorsBefore b.2.inLevel level } := by
  unfold Node.registered
  rw [h]

theorem Node.registered_none {bs : List (AnyBundle p)} {d : Node} (h : findBundle bs d.bundleName = none) (level : ℕ) :
    d.registered bs level = d := by
  unfold Node.registered
  rw [h]
  rfl

theorem Node.registered_congr {bs bs' : List (AnyBundle p)} (h : bs.map tag = bs'.map tag) (level : ℕ) (d : Node) :
    d.registered bs level = d.registered bs' level := by
  have key : ∀ l : List (AnyBundle p), (findBundle l d.bundleName).map tag =
      (l.map tag).find? (fun t => t.1 = d.bundleName) := by
    intro l
    unfold findBundle
    rw [List.find?_map]
    rfl
  have e : (findBundle bs d.bundleName).map tag = (findBundle bs' d.bundleName).map tag := by rw [key, key, h]
  cases hf : findBundle bs d.bundleName with
  | none =>
    rw [hf] at e
    rw [Node.registered_none hf, Node.registered_none (Option.map_eq_none_iff.1 e.symm)]
  | some b =>
    rw [hf] at e
    obtain ⟨b', hb', htag⟩ := Option.map_eq_some_iff.1 e.symm
    rw [Node.registered_some hf, Node.registered_some hb', show b'.2.inLevel = b.2.inLevel from congrArg Prod.snd htag]

theorem kept_tags {bs bs' : List (AnyBundle p)} (h : List.Forall₂ Kept bs bs') : bs'.map tag = bs.map tag := by
  induction h with
  | nil => rfl
  | cons h _ ih =>
    obtain ⟨_, _, _, _, _, _, rfl⟩ := h
    rw [List.map_cons, List.map_cons, ih]
    rfl

theorem runBundles_tags (P : Parsed p) (dt : ℝ) : (P.runBundles dt).map tag = P.bundles.map fun B => tag B.bundle := by
  unfold Parsed.runBundles
  rw [List.map_map]
  refine List.map_congr_left fun B _ => ?_
  simp only [Function.comp]
  split <;> rfl

/-- The levels and nodes of the networks, each node shifted by its registration with the bundles. -/
noncomputable def shifted (bs : List (AnyBundle p)) (w : List (List (ℕ × Σ N, Fin N → Node))) :
    List (List (ℕ × Σ N, Fin N → Node)) :=
  w.map fun nwd => nwd.map fun e => (e.1, ⟨e.2.1, fun a => (e.2.2 a).registered bs e.1⟩)

theorem manager_wiring {P : Parsed p} {M : MTLN p} {dt : ℝ} (h : P.manager dt = .ok M) :
    wiring M.networks = shifted (P.bundles.map fun B => B.bundle) (wiring P.networks) := by
  rw [(C118_manager.1 h).2.2.2.1]
  unfold wiring shifted
  simp only [List.map_map]
  refine List.map_congr_left fun nwd _ => ?_
  simp only [Function.comp, List.map_map]
  refine List.map_congr_left fun e _ => ?_
  simp only [Function.comp, Network.registered]
  congr 2
  funext a
  refine Node.registered_congr ?_ _ _
  rw [runBundles_tags, List.map_map]
  rfl

/-- **C126** A second run registers the networks of the first one again: the rows of their nodes are shifted twice. -/
theorem C126_rows {P P' : Parsed p} {T dt dt' : ℝ} {M : MTLN p} (h : P.run T dt = .ok P') (h' : P'.manager dt' = .ok M) :
    wiring P'.networks = shifted (P.bundles.map fun B => B.bundle) (wiring P.networks) ∧
    wiring M.networks = shifted (P.bundles.map fun B => B.bundle)
      (shifted (P.bundles.map fun B => B.bundle) (wiring P.networks)) := by
  obtain ⟨M1, M2, h1, h2, h3, -, h4, -⟩ := C118_run.1 h
  have e1 : wiring P'.networks = shifted (P.bundles.map fun B => B.bundle) (wiring P.networks) := by
    rw [h4, (runUntil_kept h2).2.1, manager_wiring h1]
  refine ⟨e1, ?_⟩
  rw [manager_wiring h', e1]
  unfold shifted
  refine List.map_congr_left fun nwd _ => List.map_congr_left fun e _ => ?_
  congr 2
  funext a
  refine Node.registered_congr ?_ _ _
  rw [h3, kept_tags (runUntil_kept h2).1, (C118_manager.1 h1).2.1, runBundles_tags, List.map_map]
  rfl

theorem registered_zero {N S : ℕ} (bs : List (AnyBundle p)) (nw : Network N S) : nw.registered bs 0 = nw := by
  unfold Network.registered
  have : (fun a => (nw.nodes a).registered bs 0) = nw.nodes := by
    funext a
    cases hf : findBundle bs (nw.nodes a).bundleName with
    | none => exact Node.registered_none hf 0
    | some b => exact Node.registered_some hf 0
  rw [this]

/-- **C126 (partial)** When all networks are of level 0, a second run with the same time step starts from exactly the
bundles and networks that the first one has left, at time 0. -/
theorem C126_level_zero_partial {P P' : Parsed p} {T dt : ℝ} (h : P.run T dt = .ok P')
    (h0 : ∀ nwd ∈ P.networks, ∀ e ∈ nwd, e.1 = 0) : ∃ M M', P.manager dt = .ok M ∧ M.runUntil T 0 = .ok M' ∧
      P'.manager dt = .ok { M' with time := 0 } := by
  obtain ⟨M, M', h1, h2, h3, -, h4, -⟩ := C118_run.1 h
  obtain ⟨⟨g1, g2⟩, g3, g4, g5, g6, g7⟩ := C118_manager.1 h1
  obtain ⟨k1, k2, k3⟩ := runUntil_kept h2
  have hb : M'.bundles.map tag = P.bundles.map fun B => tag B.bundle := by rw [kept_tags k1, g3, runBundles_tags]
  have hnames : (P'.bundles.map fun B => B.bundle.2.name) = P.bundles.map fun B => B.bundle.2.name := by
    have e1 : (P'.bundles.map fun B => B.bundle.2.name) = (M'.bundles.map tag).map Prod.fst := by
      rw [← h3, List.map_map, List.map_map]
      rfl
    rw [e1, hb, List.map_map]
    rfl
  have hdts : ∀ {l l' : List (AnyBundle p)}, List.Forall₂ Kept l l' → (l'.map fun b => b.2.dt) = l.map fun b => b.2.dt := by
    intro l l' hl
    induction hl with
    | nil => rfl
    | cons hk _ ih =>
      obtain ⟨_, _, _, _, _, _, rfl⟩ := hk
      rw [List.map_cons, List.map_cons, ih]
  have hrb : P'.runBundles dt = M'.bundles := by
    have e1 : P'.runBundles dt = M'.bundles.map fun b => if dt = 0 then b else ⟨b.1, b.2.withDt dt⟩ := by
      rw [← h3, List.map_map]
      rfl
    rw [e1]
    refine (List.map_congr_left fun b hbm => ?_).trans (List.map_id _)
    by_cases hdt : dt = 0
    · rw [if_pos hdt]; rfl
    · rw [if_neg hdt]
      have : b.2.dt = dt := by
        have h5 : b.2.dt ∈ M'.bundles.map fun b => b.2.dt := List.mem_map_of_mem hbm
        rw [hdts k1, g3, Parsed.runBundles, List.map_map] at h5
        obtain ⟨B, -, hB⟩ := List.mem_map.1 h5
        rw [← hB]
        simp only [Function.comp]
        rw [if_neg hdt]
        rfl
      obtain ⟨n, b⟩ := b
      simp only at this
      subst this
      rfl
  have hwir : wiring M'.networks = wiring P.networks := by
    rw [k2, g5]
    unfold wiring
    rw [List.map_map]
    refine List.map_congr_left fun nwd hn => ?_
    simp only [Function.comp, List.map_map]
    refine List.map_congr_left fun e he => ?_
    simp only [Function.comp, h0 nwd hn e he, registered_zero]
  have hlev : ∀ nwd ∈ M'.networks, ∀ e ∈ nwd, ∃ nwd0 ∈ P.networks, ∃ e0 ∈ nwd0,
      (e.1, (⟨e.2.1, e.2.2.2.nodes⟩ : Σ N, Fin N → Node)) = (e0.1, ⟨e0.2.1, e0.2.2.2.nodes⟩) := by
    intro nwd hn e he
    have h5 : (nwd.map fun e => (e.1, (⟨e.2.1, e.2.2.2.nodes⟩ : Σ N, Fin N → Node))) ∈ wiring M'.networks :=
      List.mem_map.2 ⟨nwd, hn, rfl⟩
    rw [hwir] at h5
    obtain ⟨nwd0, hn0, e1⟩ := List.mem_map.1 h5
    have h6 : (e.1, (⟨e.2.1, e.2.2.2.nodes⟩ : Σ N, Fin N → Node)) ∈
        (nwd.map fun e => (e.1, (⟨e.2.1, e.2.2.2.nodes⟩ : Σ N, Fin N → Node))) := List.mem_map.2 ⟨e, he, rfl⟩
    rw [← e1] at h6
    obtain ⟨e0, he0, e2⟩ := List.mem_map.1 h6
    exact ⟨nwd0, hn0, e0, he0, e2.symm⟩
  refine ⟨M, M', h1, h2, C118_manager.2 ⟨⟨by rw [hnames]; exact g1, ?_⟩, hrb.symm, rfl, ?_, ?_, ?_⟩⟩
  · intro nwd hn e he a
    rw [h4] at hn
    obtain ⟨nwd0, hn0, ⟨l0, N0, S0, nw0⟩, he0, e1⟩ := hlev nwd hn e he
    obtain ⟨l, N, S, nw⟩ := e
    simp only [Prod.mk.injEq, Sigma.mk.injEq] at e1
    obtain ⟨rfl, rfl, e2⟩ := e1
    obtain ⟨B, hB, hBn⟩ := g2 nwd0 hn0 _ he0 a
    have h5 : B.bundle.2.name ∈ P'.bundles.map fun B => B.bundle.2.name := by
      rw [hnames]
      exact List.mem_map.2 ⟨B, hB, rfl⟩
    obtain ⟨B', hB', hBn'⟩ := List.mem_map.1 h5
    refine ⟨B', hB', ?_⟩
    rw [hBn', hBn]
    simp only [eq_of_heq e2]
  · show M'.networks = _
    rw [h4]
    symm
    refine (List.map_congr_left fun nwd hn => ?_).trans (List.map_id _)
    refine (List.map_congr_left fun e he => ?_).trans (List.map_id _)
    obtain ⟨nwd0, hn0, e0, he0, e1⟩ := hlev nwd hn e he
    have hz : e.1 = 0 := by
      have : e.1 = e0.1 := (Prod.mk.inj e1).1
      rw [this, h0 nwd0 hn0 e0 he0]
    rw [hz, registered_zero]
    obtain ⟨l, N, S, nw⟩ := e
    simp only at hz
    subst hz
    rfl
  · exact fun hdt => k3.trans (g6 hdt)
  · intro hdt
    show IsLeast _ M'.dt
    rw [k3]
    have e1 : {t | ∃ B ∈ P'.bundles, t = B.bundle.2.dt} = {t | ∃ B ∈ P.bundles, t = B.bundle.2.dt} := by
      have e2 : (P'.bundles.map fun B => B.bundle.2.dt) = P.bundles.map fun B => B.bundle.2.dt := by
        have e3 : (P'.bundles.map fun B => B.bundle.2.dt) = M'.bundles.map fun b => b.2.dt := by
          rw [← h3, List.map_map]
          rfl
        rw [e3, hdts k1, g3, Parsed.runBundles, List.map_map]
        refine List.map_congr_left fun B _ => ?_
        simp only [Function.comp]
        rw [if_pos hdt]
      ext t
      have h5 : t ∈ (P'.bundles.map fun B => B.bundle.2.dt) ↔ t ∈ P.bundles.map fun B => B.bundle.2.dt := by rw [e2]
      simpa [List.mem_map, eq_comm] using h5
    rw [e1]
    exact g7 hdt

/-! ### A parser whose second run fails -/

/-- A resistor at the left end of the inner conductor of the demo bundle. -/
noncomputable def demoInner : Network 1 0 := { demoTerm with nodes := fun _ => { demoNode [] with bundleName := "b" } }

/-- A parser with a bundle of two levels and a network of the inner level. -/
noncomputable def demoRerun (F : File) : Parsed 0 :=
  { file := F
    bundles := [⟨⟨_, MTLD.assemble ⟨1, demoBare 0⟩ (demoLevels 0) "b"⟩, demoLevels 0⟩]
    networks := [[(1, ⟨1, 0, demoInner⟩)]] }

theorem demoInner_det {dt : ℝ} (hdt : 0 < dt) : (demoInner.system dt).det ≠ 0 := by
  have : demoInner.system dt = demoTerm.system dt := by
    have hx : demoInner.dxc = demoTerm.dxc := by
      unfold Network.dxc
      have hd : (fun a => (demoInner.nodes a).dx) = fun a => (demoTerm.nodes a).dx := by
        funext a
        fin_cases a
        rfl
      ext a b
      rw [Matrix.of_apply, Matrix.of_apply]
      fin_cases a; fin_cases b
      rfl
    unfold Network.system
    rw [hx]
    rfl
  rw [this]
  exact demoTerm_det hdt

theorem demoRerun_manager (F : File) : ∃ M, (demoRerun F).manager 0 = .ok M ∧ M.Startable 0 ∧ M.dt = 1 ∧
    M.bundles = [⟨_, MTLD.assemble ⟨1, demoBare 0⟩ (demoLevels 0) "b"⟩] ∧
    M.networks = [[(1, ⟨1, 0, { demoInner with nodes := fun _ => { demoNode [] with bundleName := "b", lineIndex := 1 } }⟩)]] := by
  have hdt : (MTLD.assemble ⟨1, demoBare 0⟩ (demoLevels 0) "b").dt = 1 := by
    norm_num [MTLD.assemble, minDt, demoLevels, demoBare]
  have hrb : (demoRerun F).runBundles 0 = [⟨_, MTLD.assemble ⟨1, demoBare 0⟩ (demoLevels 0) "b"⟩] := by
    simp [Parsed.runBundles, demoRerun]
  have hreg : demoInner.registered [⟨_, MTLD.assemble ⟨1, demoBare 0⟩ (demoLevels 0) "b"⟩] 1 =
      { demoInner with nodes := fun _ => { demoNode [] with bundleName := "b", lineIndex := 1 } } := by
    unfold Network.registered
    congr 1
  have hM : (demoRerun F).manager 0 = .ok { bundles := [⟨_, MTLD.assemble ⟨1, demoBare 0⟩ (demoLevels 0) "b"⟩], networks :=
      [[(1, ⟨1, 0, { demoInner with nodes := fun _ => { demoNode [] with bundleName := "b", lineIndex := 1 } }⟩)]], dt := 1 } := by
    refine C118_manager.2 ⟨⟨by simp [demoRerun], ?_⟩, hrb.symm, rfl, ?_, fun h => absurd rfl h, fun _ => ?_⟩
    · intro nwd hn e he a
      obtain rfl := List.mem_singleton.1 hn
      obtain rfl := List.mem_singleton.1 he
      exact ⟨_, List.mem_singleton.2 rfl, rfl⟩
    · rw [hrb, ← hreg]
      rfl
    · constructor
      · exact Or.inr ⟨_, List.mem_singleton.2 rfl, hdt.symm⟩
      · rintro t (rfl | ⟨B, hB, rfl⟩)
        · norm_num
        · obtain rfl := List.mem_singleton.1 hB
          exact hdt.ge
  refine ⟨_, hM, ?_, rfl, rfl, rfl⟩
  obtain ⟨b, hb⟩ := demoBundle_prepare 0
  obtain ⟨lr, cg, hlr, hcg, -⟩ := MTLD.prepare_ok_iff.1 hb
  refine ⟨?_, ?_, ?_, ?_⟩
  · rw [MTLN.runDt_eq, if_neg (by simp)]
    exact one_ne_zero
  · intro b hb
    have : b = ⟨_, MTLD.assemble ⟨1, demoBare 0⟩ (demoLevels 0) "b"⟩ := by simpa [MTLN.overrideDt] using hb
    subst this
    exact ⟨⟨lr, hlr⟩, ⟨cg, hcg⟩, by intro q hq; simp [MTLD.assemble] at hq⟩
  · intro nwd hn e he
    obtain rfl := List.mem_singleton.1 hn
    obtain rfl := List.mem_singleton.1 he
    refine ⟨rfl, ?_⟩
    rw [MTLN.runDt_eq, if_neg (by simp)]
    exact demoInner_det one_pos
  · intro d hd
    have : d = { demoNode [] with bundleName := "b", lineIndex := 1 } := by
      simpa [allNodes] using hd
    subst this
    exact ⟨⟨_, MTLD.assemble ⟨1, demoBare 0⟩ (demoLevels 0) "b"⟩, by simp [findBundle, MTLD.assemble], by
      simp [totalConductors, demoLevels], by show (2 : ℕ) ≠ 0; norm_num⟩

theorem allNodes_wiring (nws : List NetworkD) :
    allNodes nws = (wiring nws).flatMap fun nwd => nwd.flatMap fun e => List.ofFn e.2.2 := by
  unfold allNodes wiring
  rw [List.flatMap_map]
  congr 1
  funext nwd
  rw [List.flatMap_map]

/-- **C126** is false: for the demo parser any first run succeeds, but every second one of at least one step fails, since the
node of the inner conductor is then attached to a row that the bundle does not have. -/
theorem C126_refuted (F : File) (T : ℝ) : ∃ P', (demoRerun F).run T 0 = .ok P' ∧ ∀ T' : ℝ, 1 ≤ T' →
    ∀ P'', P'.run T' 0 ≠ .ok P'' := by
  obtain ⟨M, h1, h2, h3, h4, h5⟩ := demoRerun_manager F
  obtain ⟨M', h6⟩ := h2.run T
  have hrun : (demoRerun F).run T 0 = .ok ((demoRerun F).after M') := by
    unfold Parsed.run
    rw [h1]
    simp only [bind, Except.bind, h6]
  refine ⟨_, hrun, fun T' hT' P'' h => ?_⟩
  obtain ⟨M1, M2, h7, h8, -⟩ := C118_run.1 h
  obtain ⟨-, hw⟩ := C126_rows hrun h7
  have hk1 := (runUntil_kept h6).1
  have hb' : ∃ c : MTLD (totalConductors (demoLevels 0).flatten) 0, M'.bundles = [⟨_, c⟩] ∧ c.dt = 1 := by
    rw [h4] at hk1
    generalize M'.bundles = l at hk1
    cases hk1 with
    | cons hh hl =>
      cases hl
      obtain ⟨_, _, _, _, _, _, rfl⟩ := hh
      refine ⟨_, rfl, ?_⟩
      norm_num [MTLD.assemble, minDt, demoLevels, demoBare]
  obtain ⟨c, hc, hcdt⟩ := hb'
  obtain ⟨-, g3, -, -, -, g7⟩ := C118_manager.1 h7
  have hP' : ((demoRerun F).after M').bundles = [⟨⟨_, c⟩, demoLevels 0⟩] := by
    unfold Parsed.after demoRerun
    rw [hc]
    rfl
  have hM1 : M1.bundles = [⟨_, c⟩] := by
    rw [g3, Parsed.runBundles, hP']
    simp
  have hdt : M1.dt = 1 := by
    refine (g7 rfl).unique ⟨Or.inr ⟨_, by rw [hP']; exact List.mem_singleton.2 rfl, hcdt.symm⟩, ?_⟩
    rintro t (rfl | ⟨B, hB, rfl⟩)
    · norm_num
    · rw [hP'] at hB
      obtain rfl := List.mem_singleton.1 hB
      exact hcdt.ge
  obtain ⟨k, M0, h9, tr, rfl, rfl, htr⟩ := MTLN.runUntil_ok_iff.1 h8
  have hrunDt : M1.runDt 0 = 1 := by rw [MTLN.runDt_eq, if_neg (by simp), hdt]
  obtain ⟨-, -, hk, hn, -⟩ := MTLN.start_config h9
  have hpos : 0 < k := by
    rw [hk, hrunDt, div_one]
    have : (1 : ℤ) ≤ ⌊T'⌋ := Int.le_floor.2 (by exact_mod_cast hT')
    omega
  obtain ⟨nws1, bs2, nws2, s1, s2, -⟩ := MTLN.step_ok_iff.1 (htr 0 hpos)
  obtain ⟨lr, cg, hb0, -⟩ := MTLN.start_bundle h9 (x := 0) (b := c) (by rw [hM1]; rfl)
  have hlen : (tr 0).bundles.length = 1 := by
    obtain ⟨nws, bs, -, -, -, q2, q3⟩ := MTLN.start_ok_iff.1 h9
    rw [q3]
    show bs.length = 1
    rw [mapPy_length q2]
    have : M1.overrideDt 0 = M1 := by simp [MTLN.overrideDt]
    rw [this, hM1]
    rfl
  have hd : allNodes nws1 = [{ demoNode [] with bundleName := "b", lineIndex := 2 }] := by
    rw [allNodes_advance s1, hn, allNodes_wiring, hw]
    simp [wiring, shifted, demoRerun, demoInner, Node.registered, findBundle, demoNode, MTLD.assemble, conductorsBefore,
      demoLevels]
  have hmem : (⟨"b", 2, .S⟩ : End) ∈ (allWrites nws1).map Write.target := by
    rw [allWrites_target, hd]
    exact List.mem_singleton.2 rfl
  obtain ⟨w, hw1, hw2⟩ := List.mem_map.1 hmem
  obtain ⟨b, hf, hrow⟩ := s2 w hw1
  have hrow2 : w.row = 2 := congrArg End.row hw2
  have hbm : b ∈ (tr 0).bundles := (findBundle_some hf).1
  obtain ⟨i, hi⟩ := List.mem_iff_getElem?.1 hbm
  have hi0 : i = 0 := by
    have := (List.getElem?_eq_some_iff.1 hi).1
    omega
  subst hi0
  rw [hb0] at hi
  obtain rfl := Option.some.inj hi
  rw [hrow2] at hrow
  simp [totalConductors, demoLevels] at hrow

/-- A parser with a terminal network of level 0. -/
noncomputable def demoRunnable (F : File) : Parsed 0 :=
  { file := F, bundles := [⟨⟨1, demoOne⟩, []⟩], networks := [[(0, ⟨1, 0, demoTerm⟩)]] }

/-- Non-vacuity of C118 and C126: this parser can be run for any time. -/
theorem C118_C126_example (F : File) (T : ℝ) : ∃ P' : Parsed 0, (demoRunnable F).run T 0 = .ok P' ∧
    (demoRunnable F).networks ≠ [] ∧ (demoRunnable F).bundles ≠ [] ∧
    ∀ nwd ∈ (demoRunnable F).networks, ∀ e ∈ nwd, e.1 = 0 := by
  have hM : (demoRunnable F).manager 0 = .ok demoManager := by
    have h := demoManager_new
    unfold MTLN.new at h
    unfold Parsed.manager demoRunnable
    simp only [List.foldlM_cons, List.foldlM_nil, List.map_cons, List.map_nil, bind_ok_iff, if_true] at h ⊢
    obtain ⟨M1, h1, M2, h2, h3⟩ := h
    exact ⟨M1, h1, M2, ⟨M2, h2, rfl⟩, h3⟩
  obtain ⟨M', h6⟩ := demoManager_startable.run T
  refine ⟨(demoRunnable F).after M', ?_, by simp [demoRunnable], by simp [demoRunnable], by simp [demoRunnable]⟩
  unfold Parsed.run
  rw [hM]
  simp only [bind, Except.bind, h6]

end Mtln
