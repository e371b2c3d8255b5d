import Verif.Props.ManagerOrder

/-!
# C148: parts of a manager that no network joins do not interact
-/

namespace Mtln

variable {n p : ℕ}

/-- A network between bundles with names in `P`. -/
def NetworkD.within (P : String → Bool) (nwd : NetworkD) : Bool := nwd.nodes.all fun d => P d.bundleName

/-- The bundles with names in `P` and the networks between them. -/
def MTLN.part (P : String → Bool) (M : MTLN p) : MTLN p :=
  { M with bundles := M.bundles.filter fun b => P b.2.name, networks := M.networks.filter (NetworkD.within P) }

/-- No network joins a bundle with a name in `P` to another one. -/
def SeparateNets (P : String → Bool) (nws : List NetworkD) : Prop :=
  ∀ nwd ∈ nws, (∀ d ∈ nwd.nodes, P d.bundleName = true) ∨ ∀ d ∈ nwd.nodes, P d.bundleName = false

theorem mapPy_filter {α β : Type} {f : α → Py β} {P : α → Bool} {Q : β → Bool} : ∀ {l : List α} {l' : List β},
    mapPy f l = .ok l' → (∀ a ∈ l, ∀ b, f a = .ok b → Q b = P a) → mapPy f (l.filter P) = .ok (l'.filter Q)
  | [], l', h, _ => by
    simp only [mapPy, Except.ok.injEq] at h
    subst h
    rfl
  | a :: l, l', h, hPQ => by
    simp only [mapPy, bind_ok_iff, Except.ok.injEq] at h
    obtain ⟨b, hb, l1, hl, rfl⟩ := h
    have ih := mapPy_filter hl fun a' ha' => hPQ a' (List.mem_cons_of_mem _ ha')
    have e := hPQ a (List.mem_cons_self ..) b hb
    cases hP : P a with
    | true =>
      rw [List.filter_cons_of_pos (by simpa using hP), List.filter_cons_of_pos (by rw [e]; simpa using hP)]
      simp only [mapPy, bind_ok_iff]
      exact ⟨b, hb, _, ih, rfl⟩
    | false =>
      rw [List.filter_cons_of_neg (by simp [hP]), List.filter_cons_of_neg (by simp [e, hP])]
      exact ih

theorem mapPy_ok_of_mem {α β : Type} {f : α → Py β} {l : List α} {l' : List β} (h : mapPy f l = .ok l') : ∀ a ∈ l, ∃ b, f a = .ok b := by
  intro a ha
  obtain ⟨x, hx⟩ := List.getElem?_of_mem ha
  obtain ⟨b, -, hb⟩ := (mapPy_getElem? h x).2 a hx
  exact ⟨b, hb⟩

theorem forAll_nodes {f : ∀ {N S}, Network N S → Py (Network N S)}
    (hf : ∀ {N S} {nw nw' : Network N S}, f nw = .ok nw' → nw'.nodes = nw.nodes) {nwd nwd' : NetworkD}
    (h : nwd.forAll f = .ok nwd') : nwd'.nodes = nwd.nodes := by
  refine (flatMap_congr₂ ?_ (forAll_ok_iff.1 h)).symm
  rintro e ⟨l, nw'⟩ ⟨-, h⟩
  obtain ⟨c, hc, rfl⟩ := onAny_ok_iff.1 h
  show List.ofFn e.2.2.2.nodes = List.ofFn c.nodes
  rw [hf hc]

theorem advanceVoltage_nodes {time dt : ℝ} {nwd nwd' : NetworkD} (h : nwd.advanceVoltage time dt = .ok nwd') :
    nwd'.nodes = nwd.nodes := by
  refine forAll_nodes (f := Network.advanceVoltage time dt) ?_ h
  intro N S nw nw' h
  obtain ⟨v, X, rfl⟩ := advanceVoltage_rest h
  rfl

theorem updateCurrents_nodes {bs : List (AnyBundle p)} {nwd nwd' : NetworkD} (h : nwd.updateCurrents bs = .ok nwd') :
    nwd'.nodes = nwd.nodes := by
  refine forAll_nodes (f := Network.updateCurrents bs) ?_ h
  intro N S nw nw' h
  obtain ⟨i', -, rfl⟩ := updateCurrents_ok_iff.1 h
  rfl

theorem computeVTerms_nodes {dt : ℝ} {nwd nwd' : NetworkD} (h : nwd.computeVTerms dt = .ok nwd') : nwd'.nodes = nwd.nodes := by
  refine forAll_nodes (f := Network.computeVTerms dt) ?_ h
  intro N S nw nw' h
  obtain ⟨-, -, rfl⟩ := computeVTerms_ok_iff.1 h
  rfl

theorem separate_mapPy {P : String → Bool} {f : NetworkD → Py NetworkD} (hf : ∀ {x y}, f x = .ok y → y.nodes = x.nodes)
    {nws nws' : List NetworkD} (h : mapPy f nws = .ok nws') (hs : SeparateNets P nws) : SeparateNets P nws' := by
  intro nwd hn
  obtain ⟨x, hx, hfx⟩ := mapPy_mem h nwd hn
  rw [hf hfx]
  exact hs x hx

theorem within_eq {P : String → Bool} {x y : NetworkD} (h : y.nodes = x.nodes) : y.within P = x.within P := by
  unfold NetworkD.within
  rw [h]

theorem findBundle_filter {P : String → Bool} {bs : List (AnyBundle p)} {name : String} (h : P name = true) :
    findBundle (bs.filter fun b => P b.2.name) name = findBundle bs name := by
  unfold findBundle
  rw [List.find?_filter]
  congr 1
  funext b
  by_cases hb : b.2.name = name
  · simp [hb, h]
  · simp [hb]

theorem readCurrent_filter {P : String → Bool} {bs : List (AnyBundle p)} {d : Node} (h : P d.bundleName = true) :
    readCurrent (bs.filter fun b => P b.2.name) d = readCurrent bs d := by
  unfold readCurrent
  rw [findBundle_filter h]

theorem updateCurrents_filter {P : String → Bool} {bs : List (AnyBundle p)} {nwd : NetworkD} (h : nwd.within P = true) :
    nwd.updateCurrents (bs.filter fun b => P b.2.name) = nwd.updateCurrents bs := by
  refine mapPy_congr fun e he => ?_
  have h' : ∀ a, P (e.2.2.2.nodes a).bundleName = true := by
    intro a
    have := List.all_eq_true.1 h (e.2.2.2.nodes a) (List.mem_flatMap.2 ⟨e, he, List.mem_ofFn.2 ⟨a, rfl⟩⟩)
    simpa using this
  have key : ∀ nw', e.2.2.2.updateCurrents (bs.filter fun b => P b.2.name) = .ok nw' ↔ e.2.2.2.updateCurrents bs = .ok nw' := by
    intro nw'
    rw [updateCurrents_ok_iff, updateCurrents_ok_iff]
    simp only [readCurrent_filter (h' _)]
  have fold : ∀ (l : List (Fin e.2.1)) (nw : Network e.2.1 e.2.2.1), nw.nodes = e.2.2.2.nodes →
      l.foldlM (fun (nw : Network _ _) a => (do
        let x ← readCurrent (bs.filter fun b => P b.2.name) (nw.nodes a)
        .ok { nw with i := Function.update nw.i a x } : Py (Network _ _))) nw =
      l.foldlM (fun (nw : Network _ _) a => (do
        let x ← readCurrent bs (nw.nodes a)
        .ok { nw with i := Function.update nw.i a x } : Py (Network _ _))) nw := by
    intro l
    induction l with
    | nil => intro nw _; rfl
    | cons a l ih =>
      intro nw hnw
      simp only [List.foldlM_cons]
      rw [readCurrent_filter (by rw [hnw]; exact h' a)]
      cases readCurrent bs (nw.nodes a) with
      | error err => rfl
      | ok x => exact ih _ hnw
  have e1 : e.2.2.2.updateCurrents (bs.filter fun b => P b.2.name) = e.2.2.2.updateCurrents bs := fold _ _ rfl
  simp only [onAny, e1]

theorem writes_bundle {nwd : NetworkD} {w : Write} (hw : w ∈ nwd.writes) : ∃ d ∈ nwd.nodes, w.bundle = d.bundleName := by
  obtain ⟨e, he, hw⟩ := List.mem_flatMap.1 hw
  obtain ⟨a, rfl⟩ := List.mem_ofFn.1 hw
  exact ⟨e.2.2.2.nodes a, List.mem_flatMap.2 ⟨e, he, List.mem_ofFn.2 ⟨a, rfl⟩⟩, rfl⟩

theorem allWrites_filter {P : String → Bool} : ∀ {nws : List NetworkD}, SeparateNets P nws →
    allWrites (nws.filter (NetworkD.within P)) = (allWrites nws).filter fun w => P w.bundle
  | [], _ => rfl
  | nwd :: nws, h => by
    have ih := allWrites_filter (P := P) (nws := nws) fun x hx => h x (List.mem_cons_of_mem _ hx)
    have e : allWrites (nwd :: nws) = nwd.writes ++ allWrites nws := rfl
    rw [e, List.filter_append, ← ih]
    rcases h nwd (List.mem_cons_self ..) with h' | h'
    · have hw : nwd.within P = true := List.all_eq_true.2 fun d hd => by simpa using h' d hd
      rw [List.filter_cons_of_pos hw]
      have : nwd.writes.filter (fun w => P w.bundle) = nwd.writes := by
        rw [List.filter_eq_self]
        intro w hw
        obtain ⟨d, hd, e⟩ := writes_bundle hw
        rw [e]
        exact h' d hd
      rw [this]
      rfl
    · have : nwd.writes.filter (fun w => P w.bundle) = [] := by
        rw [List.filter_eq_nil_iff]
        intro w hw
        obtain ⟨d, hd, e⟩ := writes_bundle hw
        rw [e, h' d hd]
        simp
      rw [this, List.nil_append]
      cases hw : nwd.within P with
      | false => rw [List.filter_cons_of_neg (by simp [hw])]
      | true =>
        rw [List.filter_cons_of_pos hw]
        have hnil : nwd.writes = [] := by
          rw [List.eq_nil_iff_forall_not_mem]
          intro w hw'
          obtain ⟨d, hd, -⟩ := writes_bundle hw'
          have h1 := List.all_eq_true.1 hw d hd
          rw [h' d hd] at h1
          exact Bool.noConfusion h1
        show nwd.writes ++ allWrites (nws.filter (NetworkD.within P)) = _
        rw [hnil, List.nil_append]

theorem hit_filter {P : String → Bool} : ∀ {ws : List Write} {b : MTLD n p}, P b.name = true →
    b.hit (ws.filter fun w => P w.bundle) = b.hit ws
  | [], _, _ => rfl
  | w :: ws, b, h => by
    cases hw : P w.bundle with
    | true =>
      rw [List.filter_cons_of_pos (p := fun w : Write => P w.bundle) hw, MTLD.hit_cons, MTLD.hit_cons]
      exact hit_filter (by rw [w.on_name]; exact h)
    | false =>
      rw [List.filter_cons_of_neg (by simp [hw]), MTLD.hit_cons]
      have : w.on b = b := by
        unfold Write.on
        rw [if_neg]
        intro e
        rw [e, hw] at h
        exact Bool.noConfusion h
      rw [this]
      exact hit_filter h

theorem stepWith_filter {P : String → Bool} {time dt : ℝ} {ws : List Write} {b : MTLD n p} (h : P b.name = true) :
    b.stepWith time dt (ws.filter fun w => P w.bundle) = b.stepWith time dt ws := by
  simp only [MTLD.stepWith]
  cases hc : b.stepVoltage time dt with
  | error e => rfl
  | ok c =>
    have hn : c.name = b.name := by
      obtain ⟨cg, -, rfl⟩ := MTLD.stepVoltage_ok_iff.1 hc
      rfl
    simp only [bind, Except.bind]
    rw [hit_filter (by rw [hn]; exact h)]

theorem onBundle_stepWith_filter {P : String → Bool} {time dt : ℝ} {ws : List Write} {b : AnyBundle p} (h : P b.2.name = true) :
    onBundle (MTLD.stepWith time dt (ws.filter fun w => P w.bundle)) b = onBundle (MTLD.stepWith time dt ws) b := by
  simp only [onBundle, stepWith_filter h]

/-- A step of a part is the part of a step. -/
theorem MTLN.part_step {P : String → Bool} {M M' : MTLN p} (hs : SeparateNets P M.networks) (h : M.step = .ok M') :
    (M.part P).step = .ok (M'.part P) ∧ SeparateNets P M'.networks := by
  obtain ⟨nws1, bs2, nws2, h1, h2, h3, h4, rfl⟩ := MTLN.step_ok_iff.1 h
  have hs1 := separate_mapPy advanceVoltage_nodes h1 hs
  have g1 := mapPy_filter (P := NetworkD.within P) (Q := NetworkD.within P) h1 fun a _ b hb => within_eq (advanceVoltage_nodes hb)
  refine ⟨MTLN.step_ok_iff.2 ⟨_, bs2.filter fun b => P b.2.name, nws2.filter (NetworkD.within P), g1, ?_, ?_, ?_, rfl⟩,
    separate_mapPy updateCurrents_nodes h4 hs1⟩
  · rw [allWrites_filter hs1]
    intro w hw
    obtain ⟨hw1, hw2⟩ := List.mem_filter.1 hw
    obtain ⟨b, hb, hr⟩ := h2 w hw1
    exact ⟨b, by rw [show (M.part P).bundles = M.bundles.filter fun b => P b.2.name from rfl, findBundle_filter hw2]; exact hb, hr⟩
  · rw [allWrites_filter hs1]
    have g3 := mapPy_filter (P := fun b : AnyBundle p => P b.2.name) (Q := fun b : AnyBundle p => P b.2.name) h3 (by
      intro a _ b hb
      obtain ⟨c, hc, rfl⟩ := onBundle_ok_iff.1 hb
      show P c.name = P a.2.name
      rw [stepWith_name hc])
    rw [← g3]
    refine mapPy_congr fun b hb => onBundle_stepWith_filter ?_
    simpa using (List.mem_filter.1 hb).2
  · have g4 := mapPy_filter (P := NetworkD.within P) (Q := NetworkD.within P) h4 fun a _ b hb => within_eq (updateCurrents_nodes hb)
    rw [← g4]
    exact mapPy_congr fun nwd hn => updateCurrents_filter (List.mem_filter.1 hn).2

theorem MTLN.part_iterate {P : String → Bool} : ∀ {k : ℕ} {M M' : MTLN p}, SeparateNets P M.networks →
    iterPy MTLN.step k M = .ok M' → iterPy MTLN.step k (M.part P) = .ok (M'.part P)
  | 0, M, M', _, h => by
    simp only [iterPy, Except.ok.injEq] at h
    subst h
    rfl
  | k + 1, M, M', hs, h => by
    simp only [iterPy, bind_ok_iff] at h ⊢
    obtain ⟨N, h1, h2⟩ := h
    obtain ⟨g1, hs1⟩ := MTLN.part_step hs h1
    exact ⟨_, g1, MTLN.part_iterate hs1 h2⟩

theorem MTLN.part_override (P : String → Bool) (M : MTLN p) (dt : ℝ) : (M.part P).overrideDt dt = (M.overrideDt dt).part P := by
  unfold MTLN.overrideDt
  split
  · simp only [MTLN.part]
    congr 1
    rw [List.filter_map]
    rfl
  · rfl

theorem MTLN.part_start {P : String → Bool} {T dt : ℝ} {k : ℕ} {M M' : MTLN p} (hs : SeparateNets P M.networks)
    (h : M.start T dt = .ok (k, M')) : (M.part P).start T dt = .ok (k, M'.part P) ∧ SeparateNets P M'.networks := by
  obtain ⟨nws, bs, h1, h2, rfl, h3, rfl⟩ := MTLN.start_ok_iff.1 h
  have hdt : (M.part P).runDt dt = M.runDt dt := by rw [MTLN.runDt_eq, MTLN.runDt_eq]; rfl
  refine ⟨MTLN.start_ok_iff.2 ⟨nws.filter (NetworkD.within P), bs.filter fun b => P b.2.name, ?_, by rw [hdt]; exact h2,
    by rw [hdt], ?_, ?_⟩, separate_mapPy computeVTerms_nodes h1 hs⟩
  · rw [hdt]
    exact mapPy_filter (P := NetworkD.within P) (Q := NetworkD.within P) h1 fun a _ b hb => within_eq (computeVTerms_nodes hb)
  · rw [MTLN.part_override]
    refine mapPy_filter (P := fun b : AnyBundle p => P b.2.name) (Q := fun b : AnyBundle p => P b.2.name) h3 ?_
    intro a _ b hb
    obtain ⟨c, hc, rfl⟩ := onBundle_ok_iff.1 hb
    obtain ⟨lr, cg, -, -, rfl⟩ := MTLD.start_ok_iff.1 hc
    rfl
  · rw [MTLN.part_override]
    rfl

/-- **C148** No network joins a bundle with a name in `P` to another one.  Then a run of the manager that has only the bundles in
`P` and the networks between them, with the same time step, leaves these bundles and networks as the run of the whole manager
does: voltages, currents, memory, probes. -/
theorem C148_part {P : String → Bool} {T dt : ℝ} {M M' : MTLN p} (hs : SeparateNets P M.networks)
    (h : M.runUntil T dt = .ok M') : (M.part P).runUntil T dt = .ok (M'.part P) := by
  simp only [MTLN.runUntil, bind_ok_iff] at h ⊢
  obtain ⟨⟨k, M0⟩, h1, h2⟩ := h
  obtain ⟨g1, hs1⟩ := MTLN.part_start hs h1
  exact ⟨_, g1, MTLN.part_iterate hs1 h2⟩

/-! ## Success -/

theorem SeparateNets.not {P : String → Bool} {nws : List NetworkD} (h : SeparateNets P nws) : SeparateNets (fun s => !P s) nws := by
  intro nwd hn
  rcases h nwd hn with h' | h'
  · exact Or.inr fun d hd => by simp [h' d hd]
  · exact Or.inl fun d hd => by simp [h' d hd]

theorem within_or {P : String → Bool} {nws : List NetworkD} (h : SeparateNets P nws) {nwd : NetworkD} (hn : nwd ∈ nws) :
    nwd ∈ nws.filter (NetworkD.within P) ∨ nwd ∈ nws.filter (NetworkD.within fun s => !P s) := by
  rcases h nwd hn with h' | h'
  · exact Or.inl (List.mem_filter.2 ⟨hn, List.all_eq_true.2 fun d hd => by simpa using h' d hd⟩)
  · exact Or.inr (List.mem_filter.2 ⟨hn, List.all_eq_true.2 fun d hd => by simpa using h' d hd⟩)

theorem networks_exist {P : String → Bool} {f : NetworkD → Py NetworkD} {nws a b : List NetworkD} (hs : SeparateNets P nws)
    (ha : mapPy f (nws.filter (NetworkD.within P)) = .ok a) (hb : mapPy f (nws.filter (NetworkD.within fun s => !P s)) = .ok b) :
    ∃ c, mapPy f nws = .ok c := by
  refine mapPy_exists fun nwd hn => ?_
  rcases within_or hs hn with h | h
  · exact mapPy_ok_of_mem ha nwd h
  · exact mapPy_ok_of_mem hb nwd h

theorem bundles_exist {P : String → Bool} {f : AnyBundle p → Py (AnyBundle p)} {bs a b : List (AnyBundle p)}
    (ha : mapPy f (bs.filter fun b => P b.2.name) = .ok a) (hb : mapPy f (bs.filter fun b => !P b.2.name) = .ok b) :
    ∃ c, mapPy f bs = .ok c := by
  refine mapPy_exists fun x hx => ?_
  cases hP : P x.2.name with
  | true => exact mapPy_ok_of_mem ha x (List.mem_filter.2 ⟨hx, hP⟩)
  | false => exact mapPy_ok_of_mem hb x (List.mem_filter.2 ⟨hx, by simp [hP]⟩)

theorem MTLN.step_exists {P : String → Bool} {M A B : MTLN p} (hs : SeparateNets P M.networks) (hA : (M.part P).step = .ok A)
    (hB : (M.part fun s => !P s).step = .ok B) : ∃ M', M.step = .ok M' := by
  obtain ⟨na, ba, ca, a1, a2, a3, a4, -⟩ := MTLN.step_ok_iff.1 hA
  obtain ⟨nb, bb, cb, b1, b2, b3, b4, -⟩ := MTLN.step_ok_iff.1 hB
  obtain ⟨nws1, h1⟩ := networks_exist hs a1 b1
  have hs1 := separate_mapPy advanceVoltage_nodes h1 hs
  have ea : na = nws1.filter (NetworkD.within P) := by
    have := mapPy_filter (P := NetworkD.within P) (Q := NetworkD.within P) h1 fun a _ b hb => within_eq (advanceVoltage_nodes hb)
    exact Except.ok.inj (a1.symm.trans this)
  have eb : nb = nws1.filter (NetworkD.within fun s => !P s) := by
    have := mapPy_filter (P := NetworkD.within fun s => !P s) (Q := NetworkD.within fun s => !P s) h1
      fun a _ b hb => within_eq (advanceVoltage_nodes hb)
    exact Except.ok.inj (b1.symm.trans this)
  rw [ea, allWrites_filter hs1] at a2 a3
  rw [eb, allWrites_filter hs1.not] at b2 b3
  have a3' : mapPy (onBundle (MTLD.stepWith M.time M.dt (allWrites nws1))) (M.bundles.filter fun b => P b.2.name) = .ok ba := by
    rw [← a3]
    exact (mapPy_congr fun b hb => onBundle_stepWith_filter (by simpa using (List.mem_filter.1 hb).2)).symm
  have b3' : mapPy (onBundle (MTLD.stepWith M.time M.dt (allWrites nws1))) (M.bundles.filter fun b => !P b.2.name) = .ok bb := by
    rw [← b3]
    exact (mapPy_congr fun b hb => onBundle_stepWith_filter (P := fun s => !P s) (List.mem_filter.1 hb).2).symm
  obtain ⟨bs2, h3⟩ := bundles_exist a3' b3'
  have nm : ∀ (P : String → Bool) (a b : AnyBundle p), onBundle (MTLD.stepWith M.time M.dt (allWrites nws1)) a = .ok b →
      P b.2.name = P a.2.name := by
    intro P a b hb
    obtain ⟨c, hc, rfl⟩ := onBundle_ok_iff.1 hb
    show P c.name = P a.2.name
    rw [stepWith_name hc]
  have fa : ba = bs2.filter fun b => P b.2.name :=
    Except.ok.inj (a3'.symm.trans (mapPy_filter (P := fun b : AnyBundle p => P b.2.name) (Q := fun b : AnyBundle p => P b.2.name) h3
      fun a _ b hb => nm P a b hb))
  have fb : bb = bs2.filter fun b => !P b.2.name :=
    Except.ok.inj (b3'.symm.trans (mapPy_filter (P := fun b : AnyBundle p => !P b.2.name) (Q := fun b : AnyBundle p => !P b.2.name) h3
      fun a _ b hb => nm (fun s => !P s) a b hb))
  have a4' : mapPy (NetworkD.updateCurrents bs2) (nws1.filter (NetworkD.within P)) = .ok ca := by
    rw [← a4, ea, fa]
    exact (mapPy_congr fun nwd hn => updateCurrents_filter (List.mem_filter.1 hn).2).symm
  have b4' : mapPy (NetworkD.updateCurrents bs2) (nws1.filter (NetworkD.within fun s => !P s)) = .ok cb := by
    rw [← b4, eb, fb]
    exact (mapPy_congr fun nwd hn => updateCurrents_filter (P := fun s => !P s) (List.mem_filter.1 hn).2).symm
  obtain ⟨nws2, h4⟩ := networks_exist hs1 a4' b4'
  refine ⟨_, MTLN.step_ok_iff.2 ⟨nws1, bs2, nws2, h1, ?_, h3, h4, rfl⟩⟩
  intro w hw
  cases hP : P w.bundle with
  | true =>
    obtain ⟨b, hb, hr⟩ := a2 w (List.mem_filter.2 ⟨hw, hP⟩)
    exact ⟨b, by rw [← findBundle_filter hP]; exact hb, hr⟩
  | false =>
    obtain ⟨b, hb, hr⟩ := b2 w (List.mem_filter.2 ⟨hw, by simp [hP]⟩)
    exact ⟨b, by rw [← findBundle_filter (P := fun s => !P s) (by simp [hP])]; exact hb, hr⟩

theorem MTLN.iterate_exists {P : String → Bool} : ∀ {k : ℕ} {M A B : MTLN p}, SeparateNets P M.networks →
    iterPy MTLN.step k (M.part P) = .ok A → iterPy MTLN.step k (M.part fun s => !P s) = .ok B → ∃ M', iterPy MTLN.step k M = .ok M'
  | 0, M, _, _, _, _, _ => ⟨M, rfl⟩
  | k + 1, M, A, B, hs, hA, hB => by
    simp only [iterPy, bind_ok_iff] at hA hB ⊢
    obtain ⟨A1, a1, a2⟩ := hA
    obtain ⟨B1, b1, b2⟩ := hB
    obtain ⟨M1, h1⟩ := MTLN.step_exists hs a1 b1
    obtain ⟨g1, hs1⟩ := MTLN.part_step hs h1
    obtain ⟨g2, -⟩ := MTLN.part_step hs.not h1
    rw [Except.ok.inj (a1.symm.trans g1)] at a2
    rw [Except.ok.inj (b1.symm.trans g2)] at b2
    obtain ⟨M', h2⟩ := MTLN.iterate_exists hs1 a2 b2
    exact ⟨M', M1, h1, h2⟩

theorem MTLN.start_exists {P : String → Bool} {T dt : ℝ} {M : MTLN p} {A B : ℕ × MTLN p} (hs : SeparateNets P M.networks)
    (hA : (M.part P).start T dt = .ok A) (hB : (M.part fun s => !P s).start T dt = .ok B) : ∃ x, M.start T dt = .ok x := by
  obtain ⟨ka, A⟩ := A
  obtain ⟨kb, B⟩ := B
  obtain ⟨na, ba, a1, a2, rfl, a3, -⟩ := MTLN.start_ok_iff.1 hA
  obtain ⟨nb, bb, b1, -, rfl, b3, -⟩ := MTLN.start_ok_iff.1 hB
  have hdt : ∀ P, (M.part P).runDt dt = M.runDt dt := fun P => by rw [MTLN.runDt_eq, MTLN.runDt_eq]; rfl
  rw [hdt] at a1 a2 a3 b1 b3
  rw [MTLN.part_override] at a3 b3
  obtain ⟨nws, h1⟩ := networks_exist hs a1 b1
  obtain ⟨bs, h3⟩ := bundles_exist a3 b3
  exact ⟨_, MTLN.start_ok_iff.2 ⟨nws, bs, h1, a2, rfl, h3, rfl⟩⟩

/-- **C148** The whole manager can be run if and only if both parts can. -/
theorem C148_succeeds {P : String → Bool} {T dt : ℝ} {M : MTLN p} (hs : SeparateNets P M.networks) :
    (∃ M', M.runUntil T dt = .ok M') ↔ (∃ A, (M.part P).runUntil T dt = .ok A) ∧ ∃ B, (M.part fun s => !P s).runUntil T dt = .ok B := by
  constructor
  · rintro ⟨M', h⟩
    exact ⟨⟨_, C148_part hs h⟩, _, C148_part hs.not h⟩
  · rintro ⟨⟨A, hA⟩, B, hB⟩
    simp only [MTLN.runUntil, bind_ok_iff] at hA hB ⊢
    obtain ⟨A0, a1, a2⟩ := hA
    obtain ⟨B0, b1, b2⟩ := hB
    obtain ⟨⟨k, M0⟩, h1⟩ := MTLN.start_exists hs a1 b1
    obtain ⟨g1, hs1⟩ := MTLN.part_start hs h1
    obtain ⟨g2, -⟩ := MTLN.part_start hs.not h1
    rw [Except.ok.inj (a1.symm.trans g1)] at a2
    rw [Except.ok.inj (b1.symm.trans g2)] at b2
    obtain ⟨M', h2⟩ := MTLN.iterate_exists hs1 a2 b2
    exact ⟨M', _, h1, h2⟩

/-! ## The parts as programs -/

theorem registered_filter {P : String → Bool} {bs : List (AnyBundle p)} {level : ℕ} {d : Node} (h : P d.bundleName = true) :
    d.registered (bs.filter fun b => P b.2.name) level = d.registered bs level := by
  unfold Node.registered
  rw [findBundle_filter h]

theorem registered_bundleName (bs : List (AnyBundle p)) (level : ℕ) (d : Node) : (d.registered bs level).bundleName = d.bundleName := by
  unfold Node.registered
  split <;> rfl

theorem updateIndexNumbers_within {P : String → Bool} {bs : List (AnyBundle p)} {x y : NetworkD} (h : x.updateIndexNumbers bs = .ok y) :
    (∀ b : Bool, (∀ d ∈ y.nodes, P d.bundleName = b) ↔ ∀ d ∈ x.nodes, P d.bundleName = b) := by
  obtain ⟨-, rfl⟩ := updateIndexNumbers_ok_iff.1 h
  intro b
  simp only [NetworkD.nodes, List.mem_flatMap, List.mem_map, forall_exists_index, and_imp]
  constructor
  · intro hy d e he hd
    obtain ⟨a, rfl⟩ := (List.mem_ofFn' _ _).1 hd
    rw [← registered_bundleName bs e.1]
    exact hy _ _ e he rfl ((List.mem_ofFn' _ _).2 ⟨a, rfl⟩)
  · rintro hx d _ e he rfl hd
    obtain ⟨a, rfl⟩ := (List.mem_ofFn' _ _).1 hd
    show P ((e.2.2.2.nodes a).registered bs e.1).bundleName = b
    rw [registered_bundleName]
    exact hx _ e he ((List.mem_ofFn' _ _).2 ⟨a, rfl⟩)

theorem updateIndexNumbers_filter {P : String → Bool} {bs : List (AnyBundle p)} {x y : NetworkD} (hx : x.within P = true)
    (h : x.updateIndexNumbers bs = .ok y) : x.updateIndexNumbers (bs.filter fun b => P b.2.name) = .ok y := by
  have hP : ∀ e ∈ x, ∀ a, P (e.2.2.2.nodes a).bundleName = true := by
    intro e he a
    have := List.all_eq_true.1 hx (e.2.2.2.nodes a) (List.mem_flatMap.2 ⟨e, he, (List.mem_ofFn' _ _).2 ⟨a, rfl⟩⟩)
    simpa using this
  obtain ⟨h1, rfl⟩ := updateIndexNumbers_ok_iff.1 h
  refine updateIndexNumbers_ok_iff.2 ⟨fun e he a => by rw [findBundle_filter (hP e he a)]; exact h1 e he a, ?_⟩
  refine List.map_congr_left fun e he => ?_
  have : e.2.2.2.registered (bs.filter fun b => P b.2.name) e.1 = e.2.2.2.registered bs e.1 := by
    unfold Network.registered
    congr 1
    funext a
    exact registered_filter (hP e he a)
  rw [this]

theorem within_iff {P : String → Bool} {x : NetworkD} : x.within P = true ↔ ∀ d ∈ x.nodes, P d.bundleName = true := by
  unfold NetworkD.within
  rw [List.all_eq_true]

/-- **C148** A program that leaves out the bundles and networks of the other part gets, for its own ones, what the program with
all of them gets, provided that it runs with the same time step. -/
theorem C148_program {P : String → Bool} {bs : List (AnyBundle p)} {nws : List NetworkD} {M : MTLN p} (hs : SeparateNets P nws)
    (h : MTLN.new bs nws = .ok M) : ∃ R, MTLN.new (bs.filter fun b => P b.2.name) (nws.filter (NetworkD.within P)) = .ok R ∧
      ∀ T dt M', dt ≠ 0 ∨ R.dt = M.dt → M.runUntil T dt = .ok M' → ∃ R', R.runUntil T dt = .ok R' ∧
        R'.bundles = M'.bundles.filter (fun b => P b.2.name) ∧ R'.networks = M'.networks.filter (NetworkD.within P) := by
  obtain ⟨h1, h2, h3, h4, h5⟩ := managerNew_ok_iff.1 h
  obtain ⟨t, ht, hle⟩ := Set.exists_min_image ({10 ^ 10} ∪ {t | ∃ b ∈ bs.filter fun b => P b.2.name, t = b.2.dt}) (fun t : ℝ => t)
    (by
      refine (Set.finite_singleton _).union ?_
      refine (((bs.filter fun b => P b.2.name).map fun b => b.2.dt).finite_toSet).subset ?_
      rintro t ⟨b, hb, rfl⟩
      exact List.mem_map.2 ⟨b, hb, rfl⟩) ⟨_, Or.inl rfl⟩
  have hs' : SeparateNets P M.networks := by
    intro y hy
    obtain ⟨x, hx, hxy⟩ := mapPy_mem h4 y hy
    rcases hs x hx with g | g
    · exact Or.inl ((updateIndexNumbers_within hxy true).2 g)
    · exact Or.inr ((updateIndexNumbers_within hxy false).2 g)
  refine ⟨{ M.part P with dt := t }, managerNew_ok_iff.2 ⟨(List.filter_sublist.map _).nodup h1, ⟨ht, hle⟩, ?_, ?_, h5⟩, ?_⟩
  · show M.bundles.filter _ = _
    rw [h3]
  · have := mapPy_filter (P := NetworkD.within P) (Q := NetworkD.within P) h4 fun a _ b hb => by
      rw [Bool.eq_iff_iff, within_iff, within_iff]
      exact updateIndexNumbers_within hb true
    refine Eq.trans (mapPy_congr fun x hx => ?_) this
    obtain ⟨y, hy⟩ := mapPy_ok_of_mem this x hx
    rw [hy]
    exact updateIndexNumbers_filter (List.mem_filter.1 hx).2 hy
  · intro T dt M' hdt hrun
    have hr := C148_part hs' hrun
    refine ⟨M'.part P, ?_, rfl, rfl⟩
    rcases hdt with hdt | hdt
    · rw [← hr]
      have : (⟨(M.part P).bundles, (M.part P).networks, t, (M.part P).time⟩ : MTLN p).overrideDt dt = (M.part P).overrideDt dt := by
        unfold MTLN.overrideDt
        rw [if_pos hdt, if_pos hdt]
      unfold MTLN.runUntil MTLN.start
      rw [this]
    · have : t = M.dt := hdt
      subst this
      exact hr

/-- Non-vacuity of C148: a line with two networks, and a line with none. -/
example (T : ℝ) : ∃ M', demoTwo.runUntil T 0 = .ok M' ∧ SeparateNets (fun s => s = "demo") demoTwo.networks ∧
    (demoTwo.part fun s => s = "demo").bundles = [⟨1, demoOne⟩] ∧ (demoTwo.part fun s => s = "demo").networks.length = 2 ∧
    (demoTwo.part fun s => s = "demo").runUntil T 0 = .ok (M'.part fun s => s = "demo") ∧
    (demoTwo.part fun s => !decide (s = "demo")).bundles = [⟨1, MTLD.single demoSlow "slow"⟩] ∧
    (demoTwo.part fun s => !decide (s = "demo")).runUntil T 0 = .ok (M'.part fun s => !decide (s = "demo")) := by
  obtain ⟨M', h⟩ := demoTwo_startable.run T
  have hn : ∀ nwd ∈ demoTwo.networks, ∀ d ∈ nwd.nodes, d.bundleName = "demo" := by
    intro nwd hnwd d hd
    have : nwd = [(0, ⟨1, 0, demoTerm⟩)] ∨ nwd = [(0, ⟨1, 0, demoTermL⟩)] := by simpa [demoTwo] using hnwd
    rcases this with rfl | rfl
    · have : d = demoNode [] := by simpa [NetworkD.nodes, demoTerm, demoNet, NetBuild.finish, demoNode] using hd
      subst this; rfl
    · have : d = { demoNode [] with side := .L } := by simpa [NetworkD.nodes, demoTermL] using hd
      subst this; rfl
  have hs : SeparateNets (fun s => s = "demo") demoTwo.networks := fun nwd hnwd => Or.inl fun d hd => by
    simpa using hn nwd hnwd d hd
  refine ⟨M', h, hs, ?_, ?_, C148_part hs h, ?_, C148_part hs.not h⟩
  · simp [MTLN.part, demoTwo, demoOne, MTLD.single]
  · simp only [MTLN.part]
    rw [List.filter_eq_self.2]
    · rfl
    · intro nwd hnwd
      exact within_iff.2 fun d hd => by simpa using hn nwd hnwd d hd
  · simp [MTLN.part, demoTwo, demoOne, MTLD.single]

end Mtln
