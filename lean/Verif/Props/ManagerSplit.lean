import Verif.Lemmas.ManagerRun
import Verif.Lemmas.Single
import Verif.Props.ManagerDemo

/-! # Runs of managers can be split: C154 -/

namespace Mtln

open Matrix

variable {n p N S : ℕ}

/-- Equal up to the records of probes. -/
def TwinBundle (b b' : AnyBundle p) : Prop := ∃ probes, ((∀ q ∈ b.2.probes, q.Valid) ↔ ∀ q ∈ probes, q.Valid) ∧
  b' = ⟨b.1, { b.2 with probes := probes }⟩

/-- Two managers that are equal up to the records of their probes. -/
structure MTLN.Twin (M M' : MTLN p) : Prop where
  dt : M'.dt = M.dt
  time : M'.time = M.time
  networks : M'.networks = M.networks
  bundles : List.Forall₂ TwinBundle M.bundles M'.bundles

theorem TwinBundle.refl (b : AnyBundle p) : TwinBundle b b := ⟨b.2.probes, Iff.rfl, rfl⟩

theorem TwinBundle.symm {b b' : AnyBundle p} (h : TwinBundle b b') : TwinBundle b' b := by
  obtain ⟨n, b⟩ := b
  obtain ⟨q, hq, rfl⟩ := h
  exact ⟨b.probes, hq.symm, rfl⟩

theorem TwinBundle.trans {a b c : AnyBundle p} (h : TwinBundle a b) (h' : TwinBundle b c) : TwinBundle a c := by
  obtain ⟨q, hq, rfl⟩ := h
  obtain ⟨q', hq', rfl⟩ := h'
  exact ⟨q', hq.trans hq', rfl⟩

theorem forall₂_refl_of {α : Type} {R : α → α → Prop} (H : ∀ a, R a a) : ∀ l : List α, List.Forall₂ R l l
  | [] => .nil
  | a :: l => .cons (H a) (forall₂_refl_of H l)

theorem forall₂_symm_of {α : Type} {R : α → α → Prop} (H : ∀ a b, R a b → R b a) {l l' : List α} (h : List.Forall₂ R l l') :
    List.Forall₂ R l' l := by
  induction h with
  | nil => exact .nil
  | cons hr _ ih => exact .cons (H _ _ hr) ih

theorem forall₂_join {α : Type} {R : α → α → Prop} (H : ∀ a b c, R a b → R b c → R a c) {l l' l'' : List α}
    (h : List.Forall₂ R l l') (h' : List.Forall₂ R l' l'') : List.Forall₂ R l l'' := by
  induction h generalizing l'' with
  | nil => exact h'
  | cons hr _ ih =>
    cases h' with
    | cons hr' h'' => exact .cons (H _ _ _ hr hr') (ih h'')

theorem MTLN.Twin.refl (M : MTLN p) : M.Twin M := ⟨rfl, rfl, rfl, forall₂_refl_of TwinBundle.refl _⟩

theorem MTLN.Twin.symm {M M' : MTLN p} (h : M.Twin M') : M'.Twin M :=
  ⟨h.dt.symm, h.time.symm, h.networks.symm, forall₂_symm_of (fun _ _ => TwinBundle.symm) h.bundles⟩

theorem MTLN.Twin.trans {A B C : MTLN p} (h : A.Twin B) (h' : B.Twin C) : A.Twin C :=
  ⟨h'.dt.trans h.dt, h'.time.trans h.time, h'.networks.trans h.networks,
    forall₂_join (R := TwinBundle) (fun _ _ _ => TwinBundle.trans) h.bundles h'.bundles⟩

/-! ## Steps -/

theorem find_twin {bs bs' : List (AnyBundle p)} (h : List.Forall₂ TwinBundle bs bs') (name : String) :
    (findBundle bs name = none ∧ findBundle bs' name = none) ∨
      ∃ b b', findBundle bs name = some b ∧ findBundle bs' name = some b' ∧ TwinBundle b b' := by
  induction h with
  | nil => exact .inl ⟨rfl, rfl⟩
  | @cons b b' l l' hr _ ih =>
    have hn : b'.2.name = b.2.name := by obtain ⟨_, _, rfl⟩ := hr; rfl
    unfold findBundle at ih ⊢
    by_cases e : b.2.name = name
    · right
      refine ⟨b, b', ?_, ?_, hr⟩
      · simp [e]
      · simp [hn, e]
    · rw [List.find?_cons_of_neg (by simpa using e), List.find?_cons_of_neg (by simpa [hn] using e)]
      exact ih

theorem readCurrent_twin {bs bs' : List (AnyBundle p)} (h : List.Forall₂ TwinBundle bs bs') :
    (readCurrent bs' : Node → Py ℝ) = readCurrent bs := by
  funext d
  unfold readCurrent
  rcases find_twin h d.bundleName with ⟨e1, e2⟩ | ⟨b, b', e1, e2, _, _, rfl⟩
  · rw [e1, e2]
  · rw [e1, e2]

theorem updateCurrents_twin {bs bs' : List (AnyBundle p)} (h : List.Forall₂ TwinBundle bs bs') :
    NetworkD.updateCurrents bs' = NetworkD.updateCurrents bs := by
  unfold NetworkD.updateCurrents Network.updateCurrents
  rw [readCurrent_twin h]

theorem valid_twin {bs bs' : List (AnyBundle p)} (h : List.Forall₂ TwinBundle bs bs') {w : Write} (hw : w.Valid bs) :
    w.Valid bs' := by
  obtain ⟨b, hb, hr⟩ := hw
  rcases find_twin h w.bundle with ⟨e1, e2⟩ | ⟨c, c', e1, e2, _, _, rfl⟩
  · rw [e1] at hb; cases hb
  · rw [e1] at hb
    obtain rfl := Option.some.inj hb
    exact ⟨_, e2, hr⟩

theorem saveFrame_valid (q : Probe n) (t : ℝ) (x : Col n) : (q.saveFrame t x).Valid ↔ q.Valid := by
  unfold Probe.saveFrame Probe.Valid
  split <;> rfl

theorem forall_map_valid {l : List (Probe n)} {f : Probe n → Probe n} (hf : ∀ q, (f q).Valid ↔ q.Valid) :
    (∀ q ∈ l.map f, q.Valid) ↔ ∀ q ∈ l, q.Valid := by
  simp only [List.mem_map, forall_exists_index, and_imp, forall_apply_eq_imp_iff₂, hf]

theorem forall₂_exists {α β : Type} {R : α → α → Prop} {R' : β → β → Prop} {f : α → β → Prop} {l l' : List α} {k : List β}
    (h : List.Forall₂ R l l') (h' : List.Forall₂ f l k) (H : ∀ a a' b, R a a' → f a b → ∃ b', f a' b' ∧ R' b b') :
    ∃ k', List.Forall₂ f l' k' ∧ List.Forall₂ R' k k' := by
  induction h generalizing k with
  | nil => cases h'; exact ⟨[], .nil, .nil⟩
  | cons hr _ ih =>
    cases h' with
    | cons hr' h'' =>
      obtain ⟨k', e1, e2⟩ := ih h''
      obtain ⟨b', f1, f2⟩ := H _ _ _ hr hr'
      exact ⟨b' :: k', .cons f1 e1, .cons f2 e2⟩

theorem hit_probes (q : List (Probe n)) : ∀ (ws : List Write) (c : MTLD n p),
    ({ c with probes := q } : MTLD n p).hit ws = { c.hit ws with probes := q }
  | [], c => rfl
  | w :: ws, c => by
    have h : w.on ({ c with probes := q } : MTLD n p) = { w.on c with probes := q } := by
      unfold Write.on
      by_cases e : c.name = w.bundle
      · rw [if_pos e, if_pos e]
      · rw [if_neg e, if_neg e]
    show (w.on ({ c with probes := q } : MTLD n p)).hit ws = { (w.on c).hit ws with probes := q }
    rw [h, hit_probes q ws]

theorem fieldsWith_probes (q : List (Probe n)) (lr : LR n) (cg : CG n) (time dt : ℝ) (ws : List Write) (c : MTLD n p) :
    ({ c with probes := q } : MTLD n p).fieldsWith lr cg time dt ws = { c.fieldsWith lr cg time dt ws with probes := q } := by
  unfold MTLD.fieldsWith
  have := hit_probes q ws ({ c with v := advanceVoltage c.m cg (c.sample time dt) c.v c.i } : MTLD n p)
  simp only at this ⊢
  change ({ c with v := advanceVoltage c.m cg (c.sample time dt) c.v c.i, probes := q } : MTLD n p).hit ws = _ at this
  have hv := congrArg MTLD.v this
  simp only at hv
  simp only [show (({ c with probes := q } : MTLD n p).sample time dt) = c.sample time dt from rfl]
  rw [hv]

theorem stepWith_twin {time dt : ℝ} {ws : List Write} {a a' b : AnyBundle p} (h : TwinBundle a a')
    (hs : onBundle (MTLD.stepWith time dt ws) a = .ok b) :
    ∃ b', onBundle (MTLD.stepWith time dt ws) a' = .ok b' ∧ TwinBundle b b' := by
  obtain ⟨q, hq, rfl⟩ := h
  obtain ⟨c, hc, rfl⟩ := onBundle_ok_iff.1 hs
  obtain ⟨lr, cg, h1, h2, h3, rfl⟩ := MTLD.stepWith_ok_iff.1 hc
  refine ⟨_, onBundle_ok_iff.2 ⟨_, MTLD.stepWith_ok_iff.2 ⟨lr, cg, h1, h2, hq.1 h3, rfl⟩, rfl⟩, ?_⟩
  have key : ∀ (F : MTLD a.1 p) (P P' : List (Probe a.1)), (∀ q ∈ P, q.Valid) → (∀ q ∈ P', q.Valid) →
      TwinBundle ⟨a.1, { F with probes := P }⟩ ⟨a.1, { F with probes := P' }⟩ := fun F P P' e e' => ⟨P', iff_of_true e e', rfl⟩
  show TwinBundle _ ⟨a.1, { ({ a.2 with probes := q } : MTLD a.1 p).fieldsWith lr cg time dt ws with probes := _ }⟩
  rw [fieldsWith_probes q]
  exact key (a.2.fieldsWith lr cg time dt ws) _ _ ((forall_map_valid fun r => saveFrame_valid r _ _).2 h3)
    ((forall_map_valid fun r => saveFrame_valid r _ _).2 (hq.1 h3))

theorem MTLN.Twin.step {M N M' : MTLN p} (h : M.Twin N) (hs : M.step = .ok M') : ∃ N', N.step = .ok N' ∧ M'.Twin N' := by
  obtain ⟨nws1, bs2, nws2, h1, hvalid, h3, h4, rfl⟩ := MTLN.step_ok_iff.1 hs
  obtain ⟨bs2', k1, k2⟩ := forall₂_exists (R' := TwinBundle) h.bundles (mapPy_ok_iff.1 h3) fun a a' b r hs => stepWith_twin r hs
  refine ⟨_, MTLN.step_ok_iff.2 ⟨nws1, bs2', nws2, ?_, fun w hw => valid_twin h.bundles (hvalid w hw), ?_, ?_, rfl⟩, ?_⟩
  · rw [h.time, h.dt, h.networks]; exact h1
  · rw [h.time, h.dt]; exact mapPy_ok_iff.2 k1
  · rw [updateCurrents_twin k2]; exact h4
  · exact ⟨h.dt, by show N.time + N.dt = _; rw [h.time, h.dt], rfl, k2⟩

theorem MTLN.Twin.iter {M N M' : MTLN p} {k : ℕ} (h : M.Twin N) (hs : iterPy MTLN.step k M = .ok M') :
    ∃ N', iterPy MTLN.step k N = .ok N' ∧ M'.Twin N' := by
  induction k generalizing M N with
  | zero =>
    simp only [iterPy, Except.ok.injEq] at hs ⊢
    subst hs
    exact ⟨N, rfl, h⟩
  | succ k ih =>
    simp only [iterPy, bind_ok_iff] at hs ⊢
    obtain ⟨M1, h1, h2⟩ := hs
    obtain ⟨N1, e1, e2⟩ := h.step h1
    obtain ⟨N', f1, f2⟩ := ih e2 h2
    exact ⟨N', ⟨N1, e1, f1⟩, f2⟩

/-! ## Starting again -/

/-- Everything a run prepares is prepared. -/
structure MTLN.Set (d : ℝ) (M : MTLN p) : Prop where
  dt : M.dt ≠ 0
  over : M.overrideDt d = M
  bundles : ∀ b ∈ M.bundles, ∃ lr cg, updateLr b.2.m b.2.dt b.2.dun b.2.l b.2.r b.2.tz = .ok lr ∧
    updateCg b.2.m b.2.dt b.2.dun b.2.c b.2.g = .ok cg ∧ b.2.lr = some lr ∧ b.2.cg = some cg
  networks : ∀ nwd ∈ M.networks, ∀ e ∈ nwd, e.2.2.2.computeVTerms M.dt = .ok e.2.2.2

theorem over_iff {d : ℝ} {M : MTLN p} : M.overrideDt d = M ↔ (d ≠ 0 → M.dt = d ∧ ∀ b ∈ M.bundles, b.2.dt = d) := by
  unfold MTLN.overrideDt
  by_cases hd : d = 0
  · simp [hd]
  · rw [if_pos hd]
    constructor
    · intro h _
      refine ⟨(congrArg MTLN.dt h).symm, fun b hb => ?_⟩
      have hl := congrArg MTLN.bundles h
      rw [← hl] at hb
      obtain ⟨c, -, rfl⟩ := List.mem_map.1 hb
      rfl
    · intro h
      obtain ⟨h1, h2⟩ := h hd
      have : (M.bundles.map fun b => (⟨b.1, b.2.withDt d⟩ : AnyBundle p)) = M.bundles := by
        refine (List.map_congr_left fun b hb => ?_).trans (List.map_id _)
        obtain ⟨n, b⟩ := b
        have := h2 _ hb
        simp only at this
        subst this
        rfl
      rw [this]
      subst h1
      rfl

theorem MTLN.start_set {T d : ℝ} {M M0 : MTLN p} {k : ℕ} (h : M.start T d = .ok (k, M0)) : M0.Set d := by
  obtain ⟨nws, bs, h1, h2, -, h4, rfl⟩ := MTLN.start_ok_iff.1 h
  have hdt : (M.overrideDt d).dt = M.runDt d := rfl
  refine ⟨h2, ?_, ?_, ?_⟩
  · rw [over_iff]
    intro hd
    refine ⟨by show (M.overrideDt d).dt = d; rw [hdt, MTLN.runDt_eq, if_pos hd], fun b hb => ?_⟩
    obtain ⟨b0, hb0, hs⟩ := mapPy_mem h4 b hb
    obtain ⟨c, hc, rfl⟩ := onBundle_ok_iff.1 hs
    obtain ⟨lr, cg, -, -, rfl⟩ := MTLD.start_ok_iff.1 hc
    unfold MTLN.overrideDt at hb0
    rw [if_pos hd] at hb0
    obtain ⟨b1, -, rfl⟩ := List.mem_map.1 hb0
    rfl
  · intro b hb
    obtain ⟨b0, hb0, hs⟩ := mapPy_mem h4 b hb
    obtain ⟨c, hc, rfl⟩ := onBundle_ok_iff.1 hs
    obtain ⟨lr, cg, e1, e2, rfl⟩ := MTLD.start_ok_iff.1 hc
    exact ⟨lr, cg, e1, e2, rfl, rfl⟩
  · intro nwd hn e he
    obtain ⟨nwd0, -, hs⟩ := mapPy_mem h1 nwd hn
    obtain ⟨e0, -, hs'⟩ := mapPy_mem hs e he
    simp only [bind_ok_iff, onAny_ok_iff, Except.ok.injEq] at hs'
    obtain ⟨_, ⟨nw, h3, rfl⟩, rfl⟩ := hs'
    obtain ⟨g1, g2, rfl⟩ := computeVTerms_ok_iff.1 h3
    exact computeVTerms_ok_iff.2 ⟨g1, g2, rfl⟩

theorem MTLN.Set.step {d : ℝ} {M M' : MTLN p} (h : M.Set d) (hs : M.step = .ok M') : M'.Set d := by
  obtain ⟨nws1, bs2, nws2, h1, -, h3, h4, rfl⟩ := MTLN.step_ok_iff.1 hs
  refine ⟨h.dt, ?_, ?_, ?_⟩
  · rw [over_iff]
    intro hd
    obtain ⟨g1, g2⟩ := over_iff.1 h.over hd
    refine ⟨g1, fun b hb => ?_⟩
    obtain ⟨b0, hb0, hs⟩ := mapPy_mem h3 b hb
    obtain ⟨c, hc, rfl⟩ := onBundle_ok_iff.1 hs
    obtain ⟨_, _, _, _, rfl⟩ := MTLD.stepWith_config hc
    exact g2 b0 hb0
  · intro b hb
    obtain ⟨b0, hb0, hs⟩ := mapPy_mem h3 b hb
    obtain ⟨c, hc, rfl⟩ := onBundle_ok_iff.1 hs
    obtain ⟨_, _, _, _, rfl⟩ := MTLD.stepWith_config hc
    exact h.bundles b0 hb0
  · intro nwd hn e he
    obtain ⟨nwd1, hn1, hs⟩ := mapPy_mem h4 nwd hn
    obtain ⟨e1, he1, hs'⟩ := mapPy_mem hs e he
    obtain ⟨nwd0, hn0, hs0⟩ := mapPy_mem h1 nwd1 hn1
    obtain ⟨e0, he0, hs0'⟩ := mapPy_mem hs0 e1 he1
    simp only [bind_ok_iff, onAny_ok_iff, Except.ok.injEq] at hs' hs0'
    obtain ⟨_, ⟨nw1, k1, rfl⟩, rfl⟩ := hs0'
    obtain ⟨_, ⟨nw2, k2, rfl⟩, rfl⟩ := hs'
    obtain ⟨_, _, rfl⟩ := advanceVoltage_rest k1
    obtain ⟨_, -, rfl⟩ := updateCurrents_ok_iff.1 k2
    obtain ⟨g1, g2, g3⟩ := computeVTerms_ok_iff.1 (h.networks nwd0 hn0 e0 he0)
    refine computeVTerms_ok_iff.2 ⟨g1, g2, ?_⟩
    have := congrArg Network.terms g3
    simp only at this
    simp only [this]
    rfl

theorem MTLN.Set.iter {d : ℝ} {M M' : MTLN p} {k : ℕ} (h : M.Set d) (hs : iterPy MTLN.step k M = .ok M') : M'.Set d := by
  induction k generalizing M with
  | zero =>
    simp only [iterPy, Except.ok.injEq] at hs
    subst hs
    exact h
  | succ k ih =>
    simp only [iterPy, bind_ok_iff] at hs
    obtain ⟨M1, h1, h2⟩ := hs
    exact ih (h.step h1) h2

theorem mapPy_self {α : Type} {f : α → Py α} : ∀ {l : List α}, (∀ a ∈ l, f a = .ok a) → mapPy f l = .ok l
  | [], _ => rfl
  | a :: l, h => by
    have h1 := h a List.mem_cons_self
    have h2 := mapPy_self (l := l) fun b hb => h b (List.mem_cons_of_mem _ hb)
    simp only [mapPy, h1, h2, bind, Except.bind]

theorem MTLN.Set.restart {d : ℝ} {M : MTLN p} (h : M.Set d) (T : ℝ) :
    ∃ M0, M.start T d = .ok (⌊T / M.dt⌋.toNat, M0) ∧ M.Twin M0 := by
  have hdt : M.runDt d = M.dt := by show (M.overrideDt d).dt = _; rw [h.over]
  have h1 : mapPy (NetworkD.computeVTerms (M.runDt d)) M.networks = .ok M.networks := by
    refine mapPy_self fun nwd hn => mapPy_self fun e he => ?_
    simp only [bind_ok_iff, onAny_ok_iff, Except.ok.injEq]
    refine ⟨_, ⟨e.2.2.2, ?_, rfl⟩, rfl⟩
    rw [hdt]
    exact h.networks nwd hn e he
  obtain ⟨bs, h2, h3⟩ : ∃ bs, List.Forall₂ (fun a b => onBundle (MTLD.start ⌊T / M.dt⌋.toNat) a = .ok b) M.bundles bs ∧
      List.Forall₂ TwinBundle M.bundles bs := by
    have : ∀ l : List (AnyBundle p), (∀ b ∈ l, b ∈ M.bundles) → ∃ bs, List.Forall₂ (fun a b => onBundle (MTLD.start ⌊T / M.dt⌋.toNat) a = .ok b) l bs ∧
        List.Forall₂ TwinBundle l bs := by
      intro l
      induction l with
      | nil => exact fun _ => ⟨[], .nil, .nil⟩
      | cons b l ih =>
        intro hl
        obtain ⟨bs, e1, e2⟩ := ih fun c hc => hl c (List.mem_cons_of_mem _ hc)
        obtain ⟨lr, cg, g1, g2, g3, g4⟩ := h.bundles b (hl b List.mem_cons_self)
        refine ⟨_ :: bs, .cons (onBundle_ok_iff.2 ⟨_, MTLD.start_ok_iff.2 ⟨lr, cg, g1, g2, rfl⟩, rfl⟩) e1,
          .cons ⟨_, (forall_map_valid (f := Probe.resizeFrames ⌊T / M.dt⌋.toNat) fun q => Iff.rfl).symm, ?_⟩ e2⟩
        rw [← g3, ← g4]
    exact this _ fun _ hb => hb
  refine ⟨_, MTLN.start_ok_iff.2 ⟨M.networks, bs, h1, by rw [hdt]; exact h.dt, by rw [hdt], ?_, rfl⟩, ?_⟩
  · rw [h.over]; exact mapPy_ok_iff.2 h2
  · rw [h.over]
    exact ⟨rfl, rfl, rfl, h3⟩

theorem forall₂_other {α β : Type} {f g : α → β → Prop} {R : β → β → Prop} {l : List α} {k : List β}
    (h : List.Forall₂ f l k) (H : ∀ a b, f a b → ∃ b', g a b' ∧ R b b') : ∃ k', List.Forall₂ g l k' ∧ List.Forall₂ R k k' := by
  induction h with
  | nil => exact ⟨[], .nil, .nil⟩
  | cons hr _ ih =>
    obtain ⟨k', e1, e2⟩ := ih
    obtain ⟨b', f1, f2⟩ := H _ _ hr
    exact ⟨b' :: k', .cons f1 e1, .cons f2 e2⟩

/-- Starting with different final times makes no difference but for the probes. -/
theorem MTLN.start_twin {M M0 : MTLN p} {T d : ℝ} {k : ℕ} (h : M.start T d = .ok (k, M0)) (T' : ℝ) :
    ∃ M0', M.start T' d = .ok (⌊T' / M.runDt d⌋.toNat, M0') ∧ M0.Twin M0' := by
  obtain ⟨nws, bs, h1, h2, -, h4, rfl⟩ := MTLN.start_ok_iff.1 h
  obtain ⟨bs', k1, k2⟩ := forall₂_other (g := fun a b => onBundle (MTLD.start ⌊T' / M.runDt d⌋.toNat) a = .ok b)
    (R := TwinBundle) (mapPy_ok_iff.1 h4) (by
      intro a b hs
      obtain ⟨c, hc, rfl⟩ := onBundle_ok_iff.1 hs
      obtain ⟨lr, cg, g1, g2, rfl⟩ := MTLD.start_ok_iff.1 hc
      refine ⟨_, onBundle_ok_iff.2 ⟨_, MTLD.start_ok_iff.2 ⟨lr, cg, g1, g2, rfl⟩, rfl⟩, _, ?_, rfl⟩
      exact (forall_map_valid (f := Probe.resizeFrames k) fun q => Iff.rfl).trans
        (forall_map_valid (f := Probe.resizeFrames ⌊T' / M.runDt d⌋.toNat) fun q => Iff.rfl).symm)
  exact ⟨_, MTLN.start_ok_iff.2 ⟨nws, bs', h1, h2, rfl, mapPy_ok_iff.2 k1, rfl⟩, rfl, rfl, rfl, k2⟩

/-! ## C154 -/

theorem runUntil_iter {M M' : MTLN p} {T d : ℝ} : M.runUntil T d = .ok M' ↔
    ∃ M0, M.start T d = .ok (⌊T / M.runDt d⌋.toNat, M0) ∧ iterPy MTLN.step ⌊T / M.runDt d⌋.toNat M0 = .ok M' := by
  simp only [MTLN.runUntil, bind_ok_iff]
  constructor
  · rintro ⟨⟨k, M0⟩, h1, h2⟩
    obtain ⟨-, -, -, -, hk, -⟩ := MTLN.start_ok_iff.1 h1
    subst hk
    exact ⟨M0, h1, h2⟩
  · rintro ⟨M0, h1, h2⟩
    exact ⟨_, h1, h2⟩

theorem runDt_after {M M' : MTLN p} {T d : ℝ} (h : M.runUntil T d = .ok M') : M'.dt = M.runDt d ∧ M'.Set d := by
  obtain ⟨M0, h1, h2⟩ := runUntil_iter.1 h
  have hd : ∀ k (A B : MTLN p), iterPy MTLN.step k A = .ok B → B.dt = A.dt := by
    intro k
    induction k with
    | zero => intro A B h; simp only [iterPy, Except.ok.injEq] at h; rw [h]
    | succ k ih =>
      intro A B h
      simp only [iterPy, bind_ok_iff] at h
      obtain ⟨C, e1, e2⟩ := h
      obtain ⟨_, _, _, -, -, -, -, rfl⟩ := MTLN.step_ok_iff.1 e1
      have := ih _ _ e2
      exact this
  refine ⟨?_, (MTLN.start_set h1).iter h2⟩
  rw [hd _ _ _ h2]
  obtain ⟨_, _, -, -, -, -, rfl⟩ := MTLN.start_ok_iff.1 h1
  rfl

/-- **C154.** Two runs of a manager, one after the other, and one run over the number of steps of both: if the two runs
succeed the one run does, with the same clock, voltages, currents, memory and networks; only the records of the probes
differ. -/
theorem C154_split (M M₁ M₂ : MTLN p) (T₁ T₂ T dt : ℝ) (h₁ : M.runUntil T₁ dt = .ok M₁) (h₂ : M₁.runUntil T₂ dt = .ok M₂)
    (hT : ⌊T / M.runDt dt⌋.toNat = ⌊T₁ / M.runDt dt⌋.toNat + ⌊T₂ / M.runDt dt⌋.toNat) :
    ∃ M₃, M.runUntil T dt = .ok M₃ ∧ M₂.Twin M₃ := by
  obtain ⟨hdt, hset⟩ := runDt_after h₁
  have hdt' : M₁.runDt dt = M.runDt dt := by
    rw [← hdt]
    show (M₁.overrideDt dt).dt = _
    rw [hset.over]
  obtain ⟨A, a1, a2⟩ := runUntil_iter.1 h₁
  obtain ⟨B, b1, b2⟩ := runUntil_iter.1 h₂
  rw [hdt'] at b1 b2
  obtain ⟨B', c1, c2⟩ := hset.restart T₂
  rw [hdt] at c1
  rw [c1] at b1
  obtain rfl : B' = B := by
    have := Except.ok.inj b1
    exact (Prod.mk.inj this).2
  obtain ⟨C, e1, e2⟩ := MTLN.start_twin a1 T
  rw [hT] at e1
  obtain ⟨A', f1, f2⟩ := e2.iter a2
  obtain ⟨M₃, g1, g2⟩ := (c2.symm.trans f2).iter b2
  refine ⟨M₃, runUntil_iter.2 ⟨C, by rw [hT]; exact e1, ?_⟩, g2⟩
  rw [hT, iterPy_add]
  exact bind_ok_iff.2 ⟨A', f1, g1⟩

/-- **C154**, the other way: if the one run succeeds so do the two. -/
theorem C154_join (M M₃ : MTLN p) (T₁ T₂ T dt : ℝ) (h : M.runUntil T dt = .ok M₃)
    (hT : ⌊T / M.runDt dt⌋.toNat = ⌊T₁ / M.runDt dt⌋.toNat + ⌊T₂ / M.runDt dt⌋.toNat) :
    ∃ M₁ M₂, M.runUntil T₁ dt = .ok M₁ ∧ M₁.runUntil T₂ dt = .ok M₂ ∧ M₂.Twin M₃ := by
  obtain ⟨C, c1, c2⟩ := runUntil_iter.1 h
  rw [hT, iterPy_add] at c2
  obtain ⟨D, d1, d2⟩ := bind_ok_iff.1 c2
  obtain ⟨A, a1, a2⟩ := MTLN.start_twin c1 T₁
  obtain ⟨M₁, e1, e2⟩ := a2.iter d1
  have h₁ : M.runUntil T₁ dt = .ok M₁ := runUntil_iter.2 ⟨A, a1, e1⟩
  obtain ⟨hdt, hset⟩ := runDt_after h₁
  have hdt' : M₁.runDt dt = M.runDt dt := by
    rw [← hdt]
    show (M₁.overrideDt dt).dt = _
    rw [hset.over]
  obtain ⟨B, b1, b2⟩ := hset.restart T₂
  rw [hdt] at b1
  obtain ⟨M₂, f1, f2⟩ := (e2.trans b2).iter d2
  exact ⟨M₁, M₂, h₁, runUntil_iter.2 ⟨B, by rw [hdt']; exact b1, by rw [hdt']; exact f1⟩, f2.symm⟩

/-- Non-vacuity of C154: the demo manager, any two times. -/
example (a b : ℕ) : ∃ M₁ M₂ M₃, demoManager.runUntil a 0 = .ok M₁ ∧ M₁.runUntil b 0 = .ok M₂ ∧
    demoManager.runUntil (a + b : ℕ) 0 = .ok M₃ ∧ M₂.Twin M₃ := by
  obtain ⟨M₃, h⟩ := demoManager_startable.run (a + b : ℕ)
  have hdt : demoManager.runDt 0 = 1 := by rw [MTLN.runDt_eq, if_neg (by simp)]; rfl
  obtain ⟨M₁, M₂, h1, h2, h3⟩ := C154_join demoManager M₃ a b (a + b : ℕ) 0 h (by
    rw [hdt, div_one, div_one, div_one, Int.floor_natCast, Int.floor_natCast, Int.floor_natCast]
    omega)
  exact ⟨M₁, M₂, M₃, h1, h2, h, h3⟩

end Mtln
