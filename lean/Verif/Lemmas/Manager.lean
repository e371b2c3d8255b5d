import Verif.Lemmas.Network
import Verif.Lemmas.Probes

/-! # Lemmas about the manager -/

namespace Mtln

variable {n p : ℕ}

/-! ## Assignments to the ends of bundles -/

/-- All assignments, in order, on one bundle. -/
noncomputable def MTLD.hit (ws : List Write) (b : MTLD n p) : MTLD n p := ws.foldl (fun b w => w.on b) b

theorem Write.on_rest (w : Write) (b : MTLD n p) : ∃ v, w.on b = { b with v := v } := by
  unfold Write.on
  split
  · exact ⟨_, rfl⟩
  · exact ⟨b.v, rfl⟩

theorem MTLD.hit_rest : ∀ (ws : List Write) (b : MTLD n p), ∃ v, b.hit ws = { b with v := v }
  | [], b => ⟨b.v, rfl⟩
  | w :: ws, b => by
    obtain ⟨v, hv⟩ := w.on_rest b
    obtain ⟨v', hv'⟩ := MTLD.hit_rest ws (w.on b)
    refine ⟨v', ?_⟩
    change (w.on b).hit ws = _
    rw [hv', hv]

theorem MTLD.hit_cons (w : Write) (ws : List Write) (b : MTLD n p) : b.hit (w :: ws) = (w.on b).hit ws := rfl

theorem MTLD.hit_append (l l' : List Write) (b : MTLD n p) : b.hit (l ++ l') = (b.hit l).hit l' :=
  List.foldl_append

theorem Write.on_name (w : Write) (b : MTLD n p) : (w.on b).name = b.name := by
  obtain ⟨v, hv⟩ := w.on_rest b; rw [hv]

theorem Write.on_m (w : Write) (b : MTLD n p) : (w.on b).m = b.m := by
  obtain ⟨v, hv⟩ := w.on_rest b; rw [hv]

theorem MTLD.hit_name (ws : List Write) (b : MTLD n p) : (b.hit ws).name = b.name := by
  obtain ⟨v, hv⟩ := b.hit_rest ws; rw [hv]

/-- Looking up a bundle after an update that keeps names. -/
theorem findBundle_map (bs : List (AnyBundle p)) (f : ∀ {n}, MTLD n p → MTLD n p)
    (hf : ∀ {n} (b : MTLD n p), (f b).name = b.name) (name : String) :
    findBundle (bs.map fun b => ⟨b.1, f b.2⟩) name = (findBundle bs name).map fun b => ⟨b.1, f b.2⟩ := by
  unfold findBundle
  rw [List.find?_map]
  congr 2
  funext b
  simp [hf]

theorem findBundle_some {bs : List (AnyBundle p)} {name : String} {b : AnyBundle p}
    (h : findBundle bs name = some b) : b ∈ bs ∧ b.2.name = name :=
  ⟨List.mem_of_find?_eq_some h, by simpa using List.find?_some h⟩

/-- The assignment is possible. -/
def Write.Valid (bs : List (AnyBundle p)) (w : Write) : Prop := ∃ b, findBundle bs w.bundle = some b ∧ w.row < b.1

theorem Write.run_ok_iff {bs bs' : List (AnyBundle p)} {w : Write} :
    w.run bs = .ok bs' ↔ w.Valid bs ∧ bs' = bs.map fun b => ⟨b.1, w.on b.2⟩ := by
  unfold Write.run Write.Valid
  cases findBundle bs w.bundle with
  | none => simp
  | some b =>
    by_cases h : w.row < b.1
    · simp [h, eq_comm]
    · simp [h]

theorem Write.valid_map {bs : List (AnyBundle p)} {w : Write} (f : ∀ {n}, MTLD n p → MTLD n p)
    (hf : ∀ {n} (b : MTLD n p), (f b).name = b.name) :
    w.Valid (bs.map fun b => ⟨b.1, f b.2⟩) ↔ w.Valid bs := by
  unfold Write.Valid
  rw [findBundle_map bs f hf]
  cases findBundle bs w.bundle <;> simp

theorem writes_ok_iff : ∀ {ws : List Write} {bs bs' : List (AnyBundle p)},
    ws.foldlM Write.run bs = .ok bs' ↔ (∀ w ∈ ws, w.Valid bs) ∧ bs' = bs.map fun b => ⟨b.1, b.2.hit ws⟩
  | [], bs, bs' => by
    simp only [List.foldlM_nil, pure, Except.pure, Except.ok.injEq, List.not_mem_nil, MTLD.hit, List.foldl_nil]
    simp [eq_comm]
  | w :: ws, bs, bs' => by
    simp only [List.foldlM_cons, bind_ok_iff, List.mem_cons, forall_eq_or_imp]
    constructor
    · rintro ⟨bs1, h1, h2⟩
      obtain ⟨hv, rfl⟩ := Write.run_ok_iff.1 h1
      obtain ⟨hvs, rfl⟩ := writes_ok_iff.1 h2
      refine ⟨⟨hv, fun w' hw' => (Write.valid_map w.on (w.on_name)).1 (hvs w' hw')⟩, ?_⟩
      rw [List.map_map]
      rfl
    · rintro ⟨⟨hv, hvs⟩, rfl⟩
      refine ⟨_, Write.run_ok_iff.2 ⟨hv, rfl⟩, writes_ok_iff.2 ⟨fun w' hw' =>
        (Write.valid_map w.on (w.on_name)).2 (hvs w' hw'), ?_⟩⟩
      rw [List.map_map]
      rfl

/-- The assignments of all networks, in order. -/
def allWrites (nws : List NetworkD) : List Write := nws.flatMap NetworkD.writes

theorem netsVoltage_ok_iff {time dt : ℝ} : ∀ {nws nws' : List NetworkD} {bs bs' : List (AnyBundle p)},
    netsVoltage time dt nws bs = .ok (nws', bs') ↔
      mapPy (NetworkD.advanceVoltage time dt) nws = .ok nws' ∧ (∀ w ∈ allWrites nws', w.Valid bs) ∧
        bs' = bs.map fun b => ⟨b.1, b.2.hit (allWrites nws')⟩
  | [], nws', bs, bs' => by
    simp only [netsVoltage, mapPy, Except.ok.injEq, Prod.mk.injEq]
    constructor
    · rintro ⟨rfl, rfl⟩
      simp [allWrites, MTLD.hit]
    · rintro ⟨rfl, -, rfl⟩
      simp [allWrites, MTLD.hit]
  | nw :: nws, nws', bs, bs' => by
    simp only [netsVoltage, mapPy, bind_ok_iff, Except.ok.injEq, Prod.mk.injEq]
    constructor
    · rintro ⟨nw1, h1, bs1, h2, ⟨nws1, bs2⟩, h3, rfl, rfl⟩
      obtain ⟨h4, h5, rfl⟩ := netsVoltage_ok_iff.1 h3
      obtain ⟨h6, rfl⟩ := writes_ok_iff.1 h2
      refine ⟨⟨nw1, h1, nws1, h4, rfl⟩, ?_, ?_⟩
      · intro w hw
        rcases List.mem_append.1 (show w ∈ nw1.writes ++ allWrites nws1 from hw) with hw | hw
        · exact h6 w hw
        · exact (Write.valid_map (MTLD.hit nw1.writes) (MTLD.hit_name _)).1 (h5 w hw)
      · rw [List.map_map]
        apply List.map_congr_left
        intro b _
        show (⟨b.1, (b.2.hit nw1.writes).hit (allWrites nws1)⟩ : AnyBundle p) = ⟨b.1, b.2.hit (nw1.writes ++ allWrites nws1)⟩
        rw [MTLD.hit_append]
    · rintro ⟨⟨nw1, h1, nws1, h4, rfl⟩, h5, rfl⟩
      have h5' : ∀ w ∈ nw1.writes ++ allWrites nws1, w.Valid bs := h5
      refine ⟨nw1, h1, _, writes_ok_iff.2 ⟨fun w hw => h5' w (List.mem_append_left _ hw), rfl⟩, _,
        netsVoltage_ok_iff.2 ⟨h4, fun w hw => (Write.valid_map (MTLD.hit nw1.writes) (MTLD.hit_name _)).2
          (h5' w (List.mem_append_right _ hw)), rfl⟩, rfl, ?_⟩
      rw [List.map_map]
      apply List.map_congr_left
      intro b _
      show (⟨b.1, (b.2.hit nw1.writes).hit (allWrites nws1)⟩ : AnyBundle p) = ⟨b.1, b.2.hit (nw1.writes ++ allWrites nws1)⟩
      rw [MTLD.hit_append]

/-! ## One step of a bundle -/

/-- What a step does with one bundle, given the assignments of the networks. -/
noncomputable def MTLD.stepWith (time dt : ℝ) (ws : List Write) (b : MTLD n p) : Py (MTLD n p) := do
  let b1 ← b.stepVoltage time dt
  let b2 ← (b1.hit ws).stepCurrent time dt
  b2.updateProbes (time + dt)

theorem MTLD.updateProbes_ok_iff {time : ℝ} {b b' : MTLD n p} : b.updateProbes time = .ok b' ↔
    (∀ q ∈ b.probes, q.Valid) ∧
      b' = { b with probes := b.probes.map fun q => q.saveFrame (q.stamp time) (q.column b.m b.v b.i) } := by
  simp only [MTLD.updateProbes, bind_ok_iff, Mtln.updateProbes_ok_iff, Except.ok.injEq]
  constructor
  · rintro ⟨_, ⟨h, rfl⟩, rfl⟩; exact ⟨h, rfl⟩
  · rintro ⟨h, rfl⟩; exact ⟨_, ⟨h, rfl⟩, rfl⟩

/-- The fields after a step, given coefficients and assignments. -/
noncomputable def MTLD.fieldsWith (lr : LR n) (cg : CG n) (time dt : ℝ) (ws : List Write) (b : MTLD n p) : MTLD n p :=
  let b1 := ({ b with v := advanceVoltage b.m cg (b.sample time dt) b.v b.i } : MTLD n p).hit ws
  let i' := advanceCurrent b.m lr b.dun (b.tz.q3phi b.phi) (b.sample time dt) b1.v b.i
  { b with v := b1.v, i := i', phi := b.tz.updatePhi b.phi i' i' }

theorem MTLD.stepWith_ok_iff {time dt : ℝ} {ws : List Write} {b b' : MTLD n p} :
    b.stepWith time dt ws = .ok b' ↔ ∃ lr cg, b.lr = some lr ∧ b.cg = some cg ∧ (∀ q ∈ b.probes, q.Valid) ∧
      b' = { b.fieldsWith lr cg time dt ws with
        probes := b.probes.map fun q => q.saveFrame (q.stamp (time + dt))
          (q.column b.m (b.fieldsWith lr cg time dt ws).v (b.fieldsWith lr cg time dt ws).i) } := by
  simp only [MTLD.stepWith, bind_ok_iff, MTLD.stepVoltage_ok_iff, MTLD.stepCurrent_ok_iff, MTLD.updateProbes_ok_iff]
  constructor
  · rintro ⟨_, ⟨cg, hcg, rfl⟩, _, ⟨lr, hlr, rfl⟩, hp, rfl⟩
    obtain ⟨v, hv⟩ := MTLD.hit_rest ws { b with v := advanceVoltage b.m cg (b.sample time dt) b.v b.i }
    rw [hv] at hlr hp
    refine ⟨lr, cg, hlr, hcg, hp, ?_⟩
    unfold MTLD.fieldsWith
    rw [hv]
    rfl
  · rintro ⟨lr, cg, hlr, hcg, hp, rfl⟩
    obtain ⟨v, hv⟩ := MTLD.hit_rest ws { b with v := advanceVoltage b.m cg (b.sample time dt) b.v b.i }
    refine ⟨_, ⟨cg, hcg, rfl⟩, _, ⟨lr, ?_, rfl⟩, ?_, ?_⟩
    · rw [hv]; exact hlr
    · rw [hv]; exact hp
    · unfold MTLD.fieldsWith
      rw [hv]
      rfl

/-! ## Lists -/

theorem mapPy_comp {α β γ : Type} {f : α → Py β} {g : β → Py γ} : ∀ {l : List α} {l'' : List γ},
    (∃ l', mapPy f l = .ok l' ∧ mapPy g l' = .ok l'') ↔ mapPy (fun a => f a >>= g) l = .ok l''
  | [], l'' => by simp [mapPy]
  | a :: l, l'' => by
    simp only [mapPy, bind_ok_iff, ← mapPy_comp (l := l), Except.ok.injEq]
    constructor
    · rintro ⟨_, ⟨b, h1, l1, h2, rfl⟩, h⟩
      simp only [mapPy, bind_ok_iff, Except.ok.injEq] at h
      obtain ⟨c, h3, l2, h4, rfl⟩ := h
      exact ⟨c, ⟨b, h1, h3⟩, l2, ⟨l1, h2, h4⟩, rfl⟩
    · rintro ⟨c, ⟨b, h1, h3⟩, l2, ⟨l1, h2, h4⟩, rfl⟩
      refine ⟨b :: l1, ⟨b, h1, l1, h2, rfl⟩, ?_⟩
      simp only [mapPy, bind_ok_iff]
      exact ⟨c, h3, l2, h4, rfl⟩

theorem mapPy_map {α β γ : Type} (f : α → β) {g : β → Py γ} : ∀ (l : List α),
    mapPy g (l.map f) = mapPy (fun a => g (f a)) l
  | [] => rfl
  | a :: l => by simp only [List.map_cons, mapPy, mapPy_map f l]

theorem mapPy_congr {α β : Type} {f g : α → Py β} {l : List α} (h : ∀ a ∈ l, f a = g a) :
    mapPy f l = mapPy g l := by
  induction l with
  | nil => rfl
  | cons a l ih =>
    simp only [mapPy]
    rw [h a (List.mem_cons_self ..), ih fun b hb => h b (List.mem_cons_of_mem _ hb)]

theorem onBundle_ok_iff {f : ∀ {n}, MTLD n p → Py (MTLD n p)} {b b' : AnyBundle p} :
    onBundle f b = .ok b' ↔ ∃ c, f b.2 = .ok c ∧ b' = ⟨b.1, c⟩ := by
  simp only [onBundle, bind_ok_iff, Except.ok.injEq]
  constructor
  · rintro ⟨c, h, rfl⟩; exact ⟨c, h, rfl⟩
  · rintro ⟨c, h, rfl⟩; exact ⟨c, h, rfl⟩

theorem onAny_ok_iff {f : ∀ {N S}, Network N S → Py (Network N S)} {nw nw' : AnyNetwork} :
    onAny f nw = .ok nw' ↔ ∃ c, f nw.2.2 = .ok c ∧ nw' = ⟨nw.1, nw.2.1, c⟩ := by
  simp only [onAny, bind_ok_iff, Except.ok.injEq]
  constructor
  · rintro ⟨c, h, rfl⟩; exact ⟨c, h, rfl⟩
  · rintro ⟨c, h, rfl⟩; exact ⟨c, h, rfl⟩

/-- A property of every bundle that survives a step of it survives on the list. -/
theorem mapPy_onBundle_find {f : ∀ {n}, MTLD n p → Py (MTLD n p)}
    (hname : ∀ {n} {b b' : MTLD n p}, f b = .ok b' → b'.name = b.name) :
    ∀ {bs bs' : List (AnyBundle p)}, mapPy (onBundle f) bs = .ok bs' → ∀ name,
      (findBundle bs name = none → findBundle bs' name = none) ∧
      ∀ b, findBundle bs name = some b → ∃ c, f b.2 = .ok c ∧ findBundle bs' name = some ⟨b.1, c⟩
  | [], bs', h, name => by
    simp only [mapPy, Except.ok.injEq] at h
    subst h
    simp [findBundle]
  | b :: bs, bs', h, name => by
    simp only [mapPy, bind_ok_iff, Except.ok.injEq, onBundle_ok_iff] at h
    obtain ⟨_, ⟨c, h1, rfl⟩, bs1, h2, rfl⟩ := h
    have ih := mapPy_onBundle_find hname h2 name
    have hn := hname h1
    unfold findBundle at ih ⊢
    by_cases hb : b.2.name = name
    · simp only [List.find?_cons, hn, hb, decide_true]
      refine ⟨by simp, ?_⟩
      intro b' hb'
      simp only [Option.some.injEq] at hb'
      subst hb'
      exact ⟨c, h1, rfl⟩
    · simp only [List.find?_cons, hn, hb, decide_false]
      exact ih

/-! ## Currents -/

theorem updateCurrentsFold {N S : ℕ} {bs : List (AnyBundle p)} : ∀ {l : List (Fin N)} {nw nw' : Network N S}, l.Nodup →
    ((l.foldlM (fun (nw : Network N S) a => do
      let x ← readCurrent bs (nw.nodes a)
      .ok { nw with i := Function.update nw.i a x }) nw : Py (Network N S)) = .ok nw' ↔
    ∃ i', (∀ a ∈ l, readCurrent bs (nw.nodes a) = .ok (i' a)) ∧ (∀ a ∉ l, i' a = nw.i a) ∧ nw' = { nw with i := i' })
  | [], nw, nw', _ => by
    simp only [List.foldlM_nil, pure, Except.pure, Except.ok.injEq, List.not_mem_nil, not_false_eq_true, forall_true_left,
      false_imp_iff, implies_true, true_and]
    constructor
    · rintro rfl; exact ⟨nw.i, fun _ => rfl, rfl⟩
    · rintro ⟨i', h, rfl⟩
      have : i' = nw.i := funext h
      rw [this]
  | a :: l, nw, nw', hl => by
    obtain ⟨ha, hl⟩ := List.nodup_cons.1 hl
    simp only [List.foldlM_cons, bind_ok_iff, Except.ok.injEq, updateCurrentsFold hl, List.mem_cons, forall_eq_or_imp]
    constructor
    · rintro ⟨_, ⟨x, hx, rfl⟩, i', h1, h2, rfl⟩
      refine ⟨i', ⟨?_, h1⟩, ?_, rfl⟩
      · rw [h2 a ha]; simpa using hx
      · intro b hb
        push Not at hb
        rw [h2 b hb.2]
        simp [hb.1]
    · rintro ⟨i', ⟨hx, h1⟩, h2, rfl⟩
      refine ⟨_, ⟨i' a, hx, rfl⟩, i', h1, ?_, rfl⟩
      intro b hb
      by_cases hab : b = a
      · subst hab; simp
      · simp [hab]; exact h2 b (by push Not; exact ⟨hab, hb⟩)

theorem updateCurrents_ok_iff {N S : ℕ} {bs : List (AnyBundle p)} {nw nw' : Network N S} :
    nw.updateCurrents bs = .ok nw' ↔
      ∃ i', (∀ a, readCurrent bs (nw.nodes a) = .ok (i' a)) ∧ nw' = { nw with i := i' } := by
  unfold Network.updateCurrents
  rw [updateCurrentsFold (List.nodup_finRange _)]
  constructor
  · rintro ⟨i', h1, -, rfl⟩; exact ⟨i', fun a => h1 a (List.mem_finRange a), rfl⟩
  · rintro ⟨i', h1, rfl⟩; exact ⟨i', fun a _ => h1 a, fun a ha => absurd (List.mem_finRange a) ha, rfl⟩

/-- Reading currents depends on nothing but the currents of the bundles. -/
theorem readCurrent_updateProbes {time : ℝ} {bs bs' : List (AnyBundle p)}
    (h : mapPy (onBundle (MTLD.updateProbes time)) bs = .ok bs') (d : Node) :
    readCurrent bs' d = readCurrent bs d := by
  have hname : ∀ {n} {b b' : MTLD n p}, b.updateProbes time = .ok b' → b'.name = b.name := by
    intro n b b' h
    obtain ⟨-, rfl⟩ := MTLD.updateProbes_ok_iff.1 h
    rfl
  have := mapPy_onBundle_find hname h d.bundleName
  unfold readCurrent
  cases hf : findBundle bs d.bundleName with
  | none => rw [this.1 hf]
  | some b =>
    obtain ⟨c, hc, hf'⟩ := this.2 b hf
    obtain ⟨-, rfl⟩ := MTLD.updateProbes_ok_iff.1 hc
    rw [hf']

theorem updateCurrents_updateProbes {time : ℝ} {bs bs' : List (AnyBundle p)}
    (h : mapPy (onBundle (MTLD.updateProbes time)) bs = .ok bs') (nws : List NetworkD) :
    mapPy (NetworkD.updateCurrents bs') nws = mapPy (NetworkD.updateCurrents bs) nws := by
  refine mapPy_congr fun nwd _ => ?_
  refine mapPy_congr fun e _ => ?_
  have : e.2.2.2.updateCurrents bs' = e.2.2.2.updateCurrents bs := by
    unfold Network.updateCurrents
    simp only [readCurrent_updateProbes h]
  simp only [onAny, this]

/-! ## One step of the manager -/

theorem MTLN.step_ok_iff {M M' : MTLN p} : M.step = .ok M' ↔ ∃ nws1 bs2 nws2,
    mapPy (NetworkD.advanceVoltage M.time M.dt) M.networks = .ok nws1 ∧
    (∀ w ∈ allWrites nws1, w.Valid M.bundles) ∧
    mapPy (onBundle (MTLD.stepWith M.time M.dt (allWrites nws1))) M.bundles = .ok bs2 ∧
    mapPy (NetworkD.updateCurrents bs2) nws1 = .ok nws2 ∧
    M' = { M with bundles := bs2, networks := nws2, time := M.time + M.dt } := by
  have hname : ∀ {n} {b b' : MTLD n p}, b.stepVoltage M.time M.dt = .ok b' → b'.name = b.name := by
    intro n b b' h
    obtain ⟨cg, -, rfl⟩ := MTLD.stepVoltage_ok_iff.1 h
    rfl
  have hvalid : ∀ {b1 : List (AnyBundle p)}, mapPy (onBundle (MTLD.stepVoltage M.time M.dt)) M.bundles = .ok b1 →
      ∀ w : Write, w.Valid b1 ↔ w.Valid M.bundles := by
    intro b1 h w
    have := mapPy_onBundle_find hname h w.bundle
    unfold Write.Valid
    cases hf : findBundle M.bundles w.bundle with
    | none => rw [this.1 hf]
    | some b =>
      obtain ⟨c, -, hf'⟩ := this.2 b hf
      rw [hf']; simp
  have hcomp : ∀ (ws : List Write) (bs3 : List (AnyBundle p)),
      mapPy (onBundle (MTLD.stepWith M.time M.dt ws)) M.bundles = .ok bs3 ↔
      ∃ b1, mapPy (onBundle (MTLD.stepVoltage M.time M.dt)) M.bundles = .ok b1 ∧
        ∃ b2, mapPy (onBundle (MTLD.stepCurrent M.time M.dt)) (b1.map fun b => ⟨b.1, b.2.hit ws⟩) = .ok b2 ∧
        mapPy (onBundle (MTLD.updateProbes (M.time + M.dt))) b2 = .ok bs3 := by
    intro ws bs3
    simp only [mapPy_map, mapPy_comp]
    rw [mapPy_congr]
    intro b _
    simp only [onBundle, MTLD.stepWith, bind_assoc]
    rfl
  simp only [MTLN.step, bind_ok_iff, Except.ok.injEq]
  constructor
  · rintro ⟨b1, h1, ⟨nws1, b1'⟩, h2, b2, h3, nws2, h4, b3, h5, rfl⟩
    obtain ⟨h6, h7, rfl⟩ := netsVoltage_ok_iff.1 h2
    refine ⟨nws1, b3, nws2, h6, fun w hw => (hvalid h1 w).1 (h7 w hw), (hcomp _ _).2 ⟨b1, h1, b2, h3, h5⟩, ?_, rfl⟩
    rw [updateCurrents_updateProbes h5]
    exact h4
  · rintro ⟨nws1, b3, nws2, h6, h7, h8, h4, rfl⟩
    obtain ⟨b1, h1, b2, h3, h5⟩ := (hcomp _ _).1 h8
    refine ⟨b1, h1, _, netsVoltage_ok_iff.2 ⟨h6, fun w hw => (hvalid h1 w).2 (h7 w hw), rfl⟩, b2, h3, nws2, ?_, b3, h5, rfl⟩
    rw [updateCurrents_updateProbes h5] at h4
    exact h4

/-! ## Start of a run -/

theorem MTLD.start_ok_iff {k : ℕ} {b b' : MTLD n p} : b.start k = .ok b' ↔
    ∃ lr cg, updateLr b.m b.dt b.dun b.l b.r b.tz = .ok lr ∧ updateCg b.m b.dt b.dun b.c b.g = .ok cg ∧
      b' = { b with lr := some lr, cg := some cg, probes := b.probes.map (Probe.resizeFrames k) } := by
  simp only [MTLD.start, MTLD.updateLrTerms, MTLD.updateCgTerms, bind_ok_iff, Except.ok.injEq]
  constructor
  · rintro ⟨_, ⟨lr, h1, rfl⟩, _, ⟨cg, h2, rfl⟩, rfl⟩
    exact ⟨lr, cg, h1, h2, rfl⟩
  · rintro ⟨lr, cg, h1, h2, rfl⟩
    exact ⟨_, ⟨lr, h1, rfl⟩, _, ⟨cg, h2, rfl⟩, rfl⟩

theorem timeRangeLen_ok_iff {T dt : ℝ} {k : ℕ} : timeRangeLen T dt = .ok k ↔ dt ≠ 0 ∧ k = ⌊T / dt⌋.toNat := by
  unfold timeRangeLen
  split <;> simp_all [eq_comm]

/-- The time step of a run. -/
noncomputable def MTLN.runDt (M : MTLN p) (dt : ℝ) : ℝ := (M.overrideDt dt).dt

open Classical in
theorem MTLN.runDt_eq (M : MTLN p) (dt : ℝ) : M.runDt dt = if dt ≠ 0 then dt else M.dt := by
  unfold MTLN.runDt MTLN.overrideDt
  split <;> rfl

theorem MTLN.start_ok_iff {T dt : ℝ} {M M0 : MTLN p} {k : ℕ} : M.start T dt = .ok (k, M0) ↔
    ∃ nws bs, mapPy (NetworkD.computeVTerms (M.runDt dt)) M.networks = .ok nws ∧
      M.runDt dt ≠ 0 ∧ k = ⌊T / M.runDt dt⌋.toNat ∧
      mapPy (onBundle (MTLD.start k)) (M.overrideDt dt).bundles = .ok bs ∧
      M0 = { M.overrideDt dt with networks := nws, bundles := bs } := by
  have hn : (M.overrideDt dt).networks = M.networks := by unfold MTLN.overrideDt; split <;> rfl
  simp only [MTLN.start, bind_ok_iff, timeRangeLen_ok_iff, Except.ok.injEq, Prod.mk.injEq, hn]
  constructor
  · rintro ⟨nws, h1, k', ⟨h2, rfl⟩, bs, h3, rfl, rfl⟩
    exact ⟨nws, bs, h1, h2, rfl, h3, rfl⟩
  · rintro ⟨nws, bs, h1, h2, rfl, h3, rfl⟩
    exact ⟨nws, h1, _, ⟨h2, rfl⟩, bs, h3, rfl, rfl⟩

theorem MTLN.runUntil_ok_iff {T dt : ℝ} {M M' : MTLN p} : M.runUntil T dt = .ok M' ↔
    ∃ k M0, M.start T dt = .ok (k, M0) ∧ ∃ tr : ℕ → MTLN p, tr 0 = M0 ∧ tr k = M' ∧
      ∀ j < k, (tr j).step = .ok (tr (j + 1)) := by
  simp only [MTLN.runUntil, bind_ok_iff, iterPy_ok_iff]
  constructor
  · rintro ⟨⟨k, M0⟩, h1, h2⟩; exact ⟨k, M0, h1, h2⟩
  · rintro ⟨k, M0, h1, h2⟩; exact ⟨⟨k, M0⟩, h1, h2⟩

end Mtln
