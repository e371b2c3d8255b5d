import Verif.Props.Circuit

/-! # Sources and terminations of networks: C51, C56, C57 -/

namespace Mtln

open Matrix

variable {N S : ℕ}

/-- A call whose source is given. -/
def Call.Sourced (c : Call) : Prop := ¬ c.Unsourced

/-- The current which the source of a call is meant to drive into the node `id` through the resistance of the call. -/
noncomputable def Call.injection (id : ℤ) (t : ℝ) : Call → ℝ
  | .ground node R (some f) => if node = id then f t / R else 0
  | .groundLCpRs node R _ _ (some f) => if node = id then f t / R else 0
  | .branch node1 node2 R (some f) => (if node1 = id then f t / R else 0) - (if node2 = id then f t / R else 0)
  | _ => 0

/-- Row `a` of `Ps` is zero off the diagonal. -/
theorem Ps_diagonal {nw nw' : Network N S} {l : List Call} (h : nw.calls l = .ok nw')
    (h0 : ∀ i j, i ≠ j → nw.Ps i j = 0) : ∀ i j, i ≠ j → nw'.Ps i j = 0 := by
  refine calls_induct (Q := fun nw => ∀ i j, i ≠ j → nw.Ps i j = 0) (A := fun _ => True) ?_ (fun _ _ => trivial) h h0
  intro nw nw' c _ hd hc i j hij
  have h1 := hd i j hij
  obtain ⟨E, hE, rfl⟩ := call_ok_iff.1 hc
  show (E.Ps i j).app (nw.Ps i j) = 0
  rw [h1]
  have hn : ∀ a : Fin N, ¬ (i = a ∧ j = a) := fun a h => hij (h.1.trans h.2.symm)
  cases c with
  | ground id R Vt =>
    obtain ⟨a, -, -, rfl⟩ := hE
    simp only
    rw [if_neg fun h => hn a ⟨h.1, h.2.1⟩]; simp [Upd.app]
  | groundLCpRs id R L C Vt =>
    obtain ⟨a, x, y, -, -, -, -, -, -, -, -, rfl⟩ := hE
    simp only
    rw [if_neg fun h => hn a ⟨h.1, h.2.1⟩]; simp [Upd.app]
  | groundC id C Vt => obtain ⟨a, -, rfl⟩ := hE; simp [Upd.app]
  | shortGround id => obtain ⟨a, -, rfl⟩ := hE; simp [Upd.app]
  | branch id1 id2 R Vt =>
    obtain ⟨a, b, -, -, -, rfl⟩ := hE
    simp [Upd.app, hn]
  | short id1 id2 => obtain ⟨a, b, -, -, rfl⟩ := hE; simp [Upd.app]

/-- A call without source, or that does not name a node, leaves the source entries of the node alone. -/
theorem call_source {nw nw' : Network N S} {c : Call} (hc : nw.call c = .ok nw') {a : Fin N}
    (h : c.Unsourced ∨ (nw.nodes a).id ∉ c.nodes) :
    nw'.Ps a a = nw.Ps a a ∧ nw'.vSources a = nw.vSources a ∧ nw'.Qs a a = nw.Qs a a := by
  obtain ⟨E, hE, rfl⟩ := call_ok_iff.1 hc
  show (E.Ps a a).app _ = _ ∧ (E.src a).app _ = _ ∧ (E.Qs a a).app _ = _
  suffices E.Ps a a = .add 0 ∧ E.src a = .add 0 ∧ E.Qs a a = .add 0 by
    rw [this.1, this.2.1, this.2.2]; simp [Upd.app]
  rcases h with h | h
  · cases c with
    | ground id R Vt =>
      obtain rfl : Vt = none := h
      obtain ⟨b, -, -, rfl⟩ := hE
      simp [srcUpd]
    | groundLCpRs id R L C Vt =>
      obtain rfl : Vt = none := h
      obtain ⟨b, x, y, -, -, -, -, -, -, -, -, rfl⟩ := hE
      simp [srcUpd]
    | groundC id C Vt =>
      obtain rfl : Vt = none := h
      obtain ⟨b, -, rfl⟩ := hE
      simp [srcUpd]
    | shortGround id => obtain ⟨b, -, rfl⟩ := hE; simp
    | branch id1 id2 R Vt =>
      obtain rfl : Vt = none := h
      obtain ⟨b, d, -, -, -, rfl⟩ := hE
      simp
    | short id1 id2 => obtain ⟨b, d, -, -, rfl⟩ := hE; simp
  · have w := hE.within
    exact ⟨w.Ps a a fun h' => h h'.1, w.src a h, w.Qs a a fun h' => h h'.1⟩

theorem calls_source {l : List Call} {nw nw' : Network N S} (hc : nw.calls l = .ok nw') {a : Fin N}
    (h : ∀ c ∈ l, c.Unsourced ∨ (nw.nodes a).id ∉ c.nodes) :
    nw'.Ps a a = nw.Ps a a ∧ nw'.vSources a = nw.vSources a ∧ nw'.Qs a a = nw.Qs a a := by
  refine (calls_induct (Q := fun x => x.nodes = nw.nodes ∧ x.Ps a a = nw.Ps a a ∧ x.vSources a = nw.vSources a ∧
    x.Qs a a = nw.Qs a a) (A := fun c => c.Unsourced ∨ (nw.nodes a).id ∉ c.nodes) ?_ h hc ⟨rfl, rfl, rfl, rfl⟩).2
  rintro nx nx' c h1 ⟨hn, h2, h3, h4⟩ h5
  rw [← hn] at h1
  obtain ⟨h6, h7, h8⟩ := call_source h5 h1
  exact ⟨(call_nodes h5).trans hn, h6.trans h2, h7.trans h3, h8.trans h4⟩

/-- **C51 (partial)** If only one call with a source names a node, the sources drive the current of that call, `V/R`,
into the node. -/
theorem C51_single_source_partial {l1 l2 : List Call} {c : Call} {nw nw' : Network N S} (hi : nw.IdsInjective)
    (h0 : nw.Ps = 0) (hs : nw.vSources = 0) (hc : nw.calls (l1 ++ c :: l2) = .ok nw') {a : Fin N}
    (h1 : ∀ c ∈ l1, c.Unsourced ∨ (nw.nodes a).id ∉ c.nodes)
    (h2 : ∀ c ∈ l2, c.Unsourced ∨ (nw.nodes a).id ∉ c.nodes) (t : ℝ) :
    nw'.Ps.mulVec (fun b => nw'.vSources b t) a = c.injection (nw.nodes a).id t := by
  have hd := Ps_diagonal hc (by simp [h0])
  have e : nw'.Ps.mulVec (fun b => nw'.vSources b t) a = nw'.Ps a a * nw'.vSources a t := by
    rw [mulVec, dotProduct]
    exact Finset.sum_eq_single a (fun b _ hb => by rw [hd a b hb.symm, zero_mul]) (by simp)
  rw [e]
  obtain ⟨n1, g1, g2⟩ := calls_append.1 hc
  obtain ⟨n2, g3, g4⟩ := calls_cons.1 g2
  have hn1 := calls_nodes g1
  have hn2 := (call_nodes g3).trans hn1
  obtain ⟨p1, s1, -⟩ := calls_source g1 h1
  obtain ⟨p2, s2, -⟩ := calls_source (a := a) g4 (by rw [hn2]; exact h2)
  rw [h0] at p1
  rw [hs] at s1
  rw [p2, s2]
  obtain ⟨E, hE, rfl⟩ := call_ok_iff.1 g3
  rw [hasEffect_congr hn1] at hE
  show (E.Ps a a).app _ * (E.src a).app _ t = _
  rw [p1, s1]
  simp only [Pi.zero_apply, Matrix.zero_apply]
  have hfind : ∀ {id b}, nw.find id = some b → ((id = (nw.nodes a).id) ↔ a = b) := by
    intro id b hb
    rw [← find_some hb]
    exact ⟨fun h => (hi h).symm, fun h => by rw [h]⟩
  cases c with
  | ground id R Vt =>
    obtain ⟨b, hb, -, rfl⟩ := hE
    cases Vt with
    | none => simp [Call.injection, Upd.app]
    | some f =>
      simp only [Call.injection, hfind hb]
      by_cases hab : a = b
      · simp [hab, Upd.app, srcUpd]; ring
      · simp [hab, Upd.app]
  | groundLCpRs id R L C Vt =>
    obtain ⟨b, x, y, hb, -, -, -, -, -, -, -, rfl⟩ := hE
    cases Vt with
    | none => simp [Call.injection, Upd.app]
    | some f =>
      simp only [Call.injection, hfind hb]
      by_cases hab : a = b
      · simp [hab, Upd.app, srcUpd]; ring
      · simp [hab, Upd.app]
  | groundC id C Vt =>
    obtain ⟨b, hb, rfl⟩ := hE
    cases Vt <;> simp [Call.injection, Upd.app]
  | shortGround id => obtain ⟨b, -, rfl⟩ := hE; simp [Call.injection, Upd.app]
  | branch id1 id2 R Vt =>
    obtain ⟨b, d, hb, hd, -, rfl⟩ := hE
    cases Vt with
    | none => simp [Call.injection, Upd.app]
    | some f =>
      simp only [Call.injection, hfind hb, hfind hd]
      by_cases h1 : a = b <;> by_cases h2 : a = d
      · subst h1; subst h2; simp [Upd.app]
      · subst h1; simp [Upd.app, h2]; ring
      · subst h2; simp [Upd.app, h1]; ring
      · simp [Upd.app, h1, h2]
  | short id1 id2 => obtain ⟨b, d, -, -, rfl⟩ := hE; simp [Call.injection, Upd.app]

/-- **C51** is false: two parallel branches of 1 Ω with sources of 1 V should drive 2 A into their first node, but the
network computes 4 A, because both the conductances and the voltages of the node are added up before they are
multiplied. -/
theorem C51_cross_terms : ∃ nw nw' : Network 2 0, Network.new demoPair = .ok ⟨2, 0, nw⟩ ∧
    nw.calls [.branch 0 1 1 (some fun _ => 1), .branch 0 1 1 (some fun _ => 1)] = .ok nw' ∧
    nw'.Ps.mulVec (fun b => nw'.vSources b 0) 0 = 4 ∧
    ([Call.branch 0 1 1 (some fun _ => 1), .branch 0 1 1 (some fun _ => 1)].map (Call.injection 0 0)).sum = 2 := by
  obtain ⟨nw, h, h0, h1, -, hP, hPs, hsrc, -⟩ := demoPair_new
  have e1 : ∃ E : Effect 2 0, (Call.branch 0 1 1 (some fun _ => 1)).HasEffect nw E ∧ E.Ps 0 0 = .add 1 ∧
      E.Ps 0 1 = .add 0 ∧ E.src 0 = .add (fun _ => 1) :=
    ⟨_, ⟨0, 1, h0, h1, one_ne_zero, rfl⟩, by simp, by simp, by simp⟩
  obtain ⟨E, hE, b1, b2, b3⟩ := e1
  refine ⟨nw, E.apply (E.apply nw), h, ?_, ?_, ?_⟩
  · exact calls_cons.2 ⟨_, call_ok_iff.2 ⟨E, hE, rfl⟩, calls_cons.2 ⟨_, call_ok_iff.2
      ⟨E, (hasEffect_congr (nw := nw) rfl).2 hE, rfl⟩, calls_nil.2 rfl⟩⟩
  · have e00 : (E.apply (E.apply nw)).Ps 0 0 = 2 := by
      show (E.Ps 0 0).app ((E.Ps 0 0).app (nw.Ps 0 0)) = 2
      rw [b1, hPs]; norm_num [Upd.app]
    have e01 : (E.apply (E.apply nw)).Ps 0 1 = 0 := by
      show (E.Ps 0 1).app ((E.Ps 0 1).app (nw.Ps 0 1)) = 0
      rw [b2, hPs]; norm_num [Upd.app]
    have es : (E.apply (E.apply nw)).vSources 0 0 = 2 := by
      show (E.src 0).app ((E.src 0).app (nw.vSources 0)) 0 = 2
      rw [b3, hsrc]; norm_num [Upd.app]
    rw [mulVec, dotProduct, Fin.sum_univ_two, e00, e01, es]; norm_num
  · norm_num [Call.injection]

/-- Non-vacuity of `C51_single_source_partial`. -/
example : ∃ nw nw' : Network 2 0, nw.IdsInjective ∧ nw.Ps = 0 ∧ nw.vSources = 0 ∧
    nw.calls ([.branch 0 1 5 none] ++ Call.branch 0 1 2 (some fun t => t) :: []) = .ok nw' := by
  obtain ⟨nw, h, h0, h1, -, hP, hPs, hsrc, -⟩ := demoPair_new
  exact ⟨nw, _, (C53_ids h).1, hPs, hsrc, calls_cons.2 ⟨_, call_ok_iff.2 ⟨_, ⟨0, 1, h0, h1, by norm_num, rfl⟩, rfl⟩,
    calls_cons.2 ⟨_, call_ok_iff.2 ⟨_, ⟨0, 1, h0, h1, two_ne_zero, rfl⟩, rfl⟩, calls_nil.2 rfl⟩⟩⟩

/-! ## Terminations of a single node -/

/-- The current that leaves the line end of node `a` into the network, averaged over a step: the line current into the
end minus the charging current of the half cell. -/
noncomputable def Network.drawn (nw nw' : Network N S) (time dt : ℝ) (a : Fin N) : ℝ :=
  -(nw.i a + (1 / 2) * (1 / dt) * nw.dxc.mulVec ((nw'.v - nw.v) + fun a => (nw.nodes a).eT time - (nw.nodes a).eT (time - dt)) a)

/-- The node equation of a node, solved for the current that it draws. -/
theorem drawn_eq {nw nw' : Network N S} {time dt : ℝ} (hp : nw.Prepared dt) (h : nw.advanceVoltage time dt = .ok nw')
    (a : Fin N) : nw.drawn nw' time dt a = -(1 / 2) * (nw.P1.mulVec (nw'.v + nw.v) a + nw.O.mulVec (nw'.X + nw.X) a
      + nw.Ps.mulVec ((fun b => nw.vSources b time) + fun b => nw.vSources b (time - dt)) a
      + (1 / dt) * nw.Q1.mulVec (nw'.v - nw.vPrev) a
      + (1 / dt) * nw.Qs.mulVec ((fun b => nw.vSources b time) - fun b => nw.vSources b (time - 2 * dt)) a) := by
  obtain ⟨-, h1, -⟩ := (C46_node_equations hp).1 h
  have h2 := congrFun h1 a
  simp only [Pi.add_apply, Pi.sub_apply, Pi.smul_apply, smul_eq_mul] at h2
  unfold Network.drawn
  rw [mulVec_add, Pi.add_apply]
  have e : (fun a => (nw.nodes a).eT time - (nw.nodes a).eT (time - dt)) =
    (fun a => (nw.nodes a).eT time) - fun a => (nw.nodes a).eT (time - dt) := rfl
  rw [e]
  linarith

/-- A call that does not name node `a` leaves its rows alone. -/
theorem call_row {nw nw' : Network N S} {c : Call} (hc : nw.call c = .ok nw') {a : Fin N}
    (h : (nw.nodes a).id ∉ c.nodes) :
    (∀ b, nw'.P1 a b = nw.P1 a b ∧ nw'.Q1 a b = nw.Q1 a b ∧ nw'.Ps a b = nw.Ps a b ∧ nw'.Qs a b = nw.Qs a b) ∧
      (∀ x, nw'.O a x = nw.O a x) ∧ nw'.vSources a = nw.vSources a := by
  obtain ⟨E, hE, rfl⟩ := call_ok_iff.1 hc
  have w := hE.within
  refine ⟨fun b => ⟨?_, ?_, ?_, ?_⟩, fun x => ?_, ?_⟩
  · show (E.P1 a b).app _ = _; rw [w.P1 a b fun h' => h h'.1]; simp [Upd.app]
  · show (E.Q1 a b).app _ = _; rw [w.Q1 a b fun h' => h h'.1]; simp [Upd.app]
  · show (E.Ps a b).app _ = _; rw [w.Ps a b fun h' => h h'.1]; simp [Upd.app]
  · show (E.Qs a b).app _ = _; rw [w.Qs a b fun h' => h h'.1]; simp [Upd.app]
  · show (E.O a x).app _ = _; rw [w.O a x fun h' => h h'.1]; simp [Upd.app]
  · show (E.src a).app _ = _; rw [w.src a h]; simp [Upd.app]

theorem calls_row {l : List Call} {nw nw' : Network N S} (hc : nw.calls l = .ok nw') {a : Fin N}
    (h : ∀ c ∈ l, (nw.nodes a).id ∉ c.nodes) :
    (∀ b, nw'.P1 a b = nw.P1 a b ∧ nw'.Q1 a b = nw.Q1 a b ∧ nw'.Ps a b = nw.Ps a b ∧ nw'.Qs a b = nw.Qs a b) ∧
      (∀ x, nw'.O a x = nw.O a x) ∧ nw'.vSources a = nw.vSources a := by
  refine (calls_induct (Q := fun x => x.nodes = nw.nodes ∧ (∀ b, x.P1 a b = nw.P1 a b ∧ x.Q1 a b = nw.Q1 a b ∧
    x.Ps a b = nw.Ps a b ∧ x.Qs a b = nw.Qs a b) ∧ (∀ y, x.O a y = nw.O a y) ∧ x.vSources a = nw.vSources a)
    (A := fun c => (nw.nodes a).id ∉ c.nodes) ?_ h hc ⟨rfl, fun _ => ⟨rfl, rfl, rfl, rfl⟩, fun _ => rfl, rfl⟩).2
  rintro nx nx' c h1 ⟨hn, h2, h3, h4⟩ h5
  rw [← hn] at h1
  obtain ⟨h6, h7, h8⟩ := call_row h5 h1
  exact ⟨(call_nodes h5).trans hn, fun b => ⟨(h6 b).1.trans (h2 b).1, (h6 b).2.1.trans (h2 b).2.1,
    (h6 b).2.2.1.trans (h2 b).2.2.1, (h6 b).2.2.2.trans (h2 b).2.2.2⟩, fun x => (h7 x).trans (h3 x), h8.trans h4⟩

/-- A network before any call. -/
structure Network.Fresh (nw : Network N S) : Prop where
  P1 : nw.P1 = 0
  Ps : nw.Ps = 0
  Q1 : nw.Q1 = 0
  Qs : nw.Qs = 0
  M : nw.M = 0
  N1 : nw.N1 = 0
  Ns : nw.Ns = 0
  O : nw.O = 0
  src : nw.vSources = 0
  ids : nw.IdsInjective
  slots : nw.SlotsDisjoint
  slotsNodup : ∀ a, (nw.nodes a).stateIndex.Nodup

/-- Networks are fresh when the constructor leaves them. -/
theorem new_fresh {p : ℕ} {d : List (LineConnections p)} {nw : AnyNetwork} (h : Network.new d = .ok nw) :
    nw.2.2.Fresh := by
  have h1 := C53_slots h
  have h2 : ((List.ofFn fun a => (nw.2.2.nodes a).stateIndex).flatten).Nodup := h1 ▸ List.nodup_range
  have h3 := (List.nodup_flatten.1 h2).1
  have hi := (C53_ids h).1
  have hd := C53_disjoint h
  obtain ⟨B, -, rfl⟩ := networkNew_ok_iff.1 h
  exact ⟨rfl, rfl, rfl, rfl, rfl, rfl, rfl, rfl, rfl, hi, hd, fun a => h3 _ (List.mem_ofFn.2 ⟨a, rfl⟩)⟩

/-- The same circuit, possibly in another state. -/
structure Network.SameCircuit (nw nw' : Network N S) : Prop where
  nodes : nw'.nodes = nw.nodes
  P1 : nw'.P1 = nw.P1
  Ps : nw'.Ps = nw.Ps
  Q1 : nw'.Q1 = nw.Q1
  Qs : nw'.Qs = nw.Qs
  M : nw'.M = nw.M
  N1 : nw'.N1 = nw.N1
  Ns : nw'.Ns = nw.Ns
  O : nw'.O = nw.O
  src : nw'.vSources = nw.vSources

theorem mulVec_row {P : Matrix (Fin N) (Fin N) ℝ} {a : Fin N} {y : ℝ} (h : ∀ b, P a b = if b = a then y else 0)
    (x : Fin N → ℝ) : P.mulVec x a = y * x a := by
  simp [mulVec, dotProduct, h]

/-- **C46** A resistor from a node to ground, with or without a voltage source in series, obeys Ohm's law for the
averages of old and new voltages, if no other call names the node. -/
theorem C46_ohm {l1 l2 : List Call} {id : ℤ} {R : ℝ} {Vt : Option (ℝ → ℝ)} {nw0 nb nw nw' : Network N S} {time dt : ℝ}
    (h0 : nw0.Fresh) (hb : nw0.calls (l1 ++ .ground id R Vt :: l2) = .ok nb) (hs : nb.SameCircuit nw) (hR : R ≠ 0)
    (h1 : ∀ c ∈ l1, id ∉ c.nodes) (h2 : ∀ c ∈ l2, id ∉ c.nodes) (hp : nw.Prepared dt)
    (h : nw.advanceVoltage time dt = .ok nw') {a : Fin N} (ha : (nw.nodes a).id = id) :
    nw.drawn nw' time dt a = ((nw'.v a + nw.v a) / 2 - (Vt.getD 0 time + Vt.getD 0 (time - dt)) / 2) / R := by
  obtain ⟨n1, g1, g2⟩ := calls_append.1 hb
  obtain ⟨n2, g3, g4⟩ := calls_cons.1 g2
  have hn1 := calls_nodes g1
  have hn2 := (call_nodes g3).trans hn1
  have hn3 := (calls_nodes g4).trans hn2
  have ha0 : (nw0.nodes a).id = id := by rw [← ha, hs.nodes, hn3]
  obtain ⟨r1, o1, s1⟩ := calls_row (a := a) g1 (by rw [ha0]; exact h1)
  obtain ⟨r3, o3, s3⟩ := calls_row (a := a) g4 (by rw [hn2, ha0]; exact h2)
  obtain ⟨E, hE, rfl⟩ := call_ok_iff.1 g3
  rw [hasEffect_congr hn1] at hE
  obtain ⟨b, hfb, -, rfl⟩ := hE
  obtain rfl : b = a := h0.ids ((find_some hfb).trans ha0.symm)
  simp only [h0.P1, h0.Ps, h0.Q1, h0.Qs, h0.O, h0.src, Matrix.zero_apply, Pi.zero_apply] at r1 o1 s1
  have eP : ∀ j, nw.P1 b j = if j = b then -1 / R else 0 := by
    intro j
    rw [hs.P1, (r3 j).1]
    show Upd.app _ (n1.P1 b j) = _
    rw [(r1 j).1]
    by_cases hj : j = b <;> simp [hj, hR, Upd.app]
  have eQ : ∀ j, nw.Q1 b j = 0 := by
    intro j
    rw [hs.Q1, (r3 j).2.1]
    show Upd.app (.add 0) (n1.Q1 b j) = _
    rw [(r1 j).2.1]; simp [Upd.app]
  have ePs : ∀ j, nw.Ps b j = if j = b then (if Vt ≠ none then 1 / R else 0) else 0 := by
    intro j
    rw [hs.Ps, (r3 j).2.2.1]
    show Upd.app _ (n1.Ps b j) = _
    rw [(r1 j).2.2.1]
    by_cases hj : j = b <;> by_cases hV : Vt = none <;> simp [hj, hV, Upd.app]
  have eQs : ∀ j, nw.Qs b j = 0 := by
    intro j
    rw [hs.Qs, (r3 j).2.2.2]
    show Upd.app (.add 0) (n1.Qs b j) = _
    rw [(r1 j).2.2.2]; simp [Upd.app]
  have eO : ∀ x, nw.O b x = 0 := by
    intro x
    rw [hs.O, o3]
    show Upd.app (.add 0) (n1.O b x) = _
    rw [o1]; simp [Upd.app]
  have es : Vt ≠ none → nw.vSources b = Vt.getD 0 := by
    intro hV
    rw [hs.src, s3]
    show Upd.app _ (n1.vSources b) = _
    cases Vt with
    | none => exact absurd rfl hV
    | some f => simp [Upd.app, srcUpd]
  rw [drawn_eq hp h b, mulVec_row eP, mulVec_row ePs]
  have z1 : nw.Q1.mulVec (nw'.v - nw.vPrev) b = 0 := by simp [mulVec, dotProduct, eQ]
  have z2 : ∀ x, nw.Qs.mulVec x b = 0 := fun x => by simp [mulVec, dotProduct, eQs]
  have z3 : ∀ x, nw.O.mulVec x b = 0 := fun x => by simp [mulVec, dotProduct, eO]
  rw [z1, z2, z3]
  simp only [Pi.add_apply]
  by_cases hV : Vt = none
  · subst hV; simp; ring
  · rw [if_pos hV, es hV]; ring

/-- **C56** A capacitor from a node to ground draws `C` times the central difference of the voltage across it: the
node voltage, minus the voltage of the source in series if there is one. -/
theorem C56_capacitor {l1 l2 : List Call} {id : ℤ} {C : ℝ} {Vt : Option (ℝ → ℝ)} {nw0 nb nw nw' : Network N S}
    {time dt : ℝ} (h0 : nw0.Fresh) (hb : nw0.calls (l1 ++ .groundC id C Vt :: l2) = .ok nb) (hs : nb.SameCircuit nw)
    (h1 : ∀ c ∈ l1, id ∉ c.nodes) (h2 : ∀ c ∈ l2, id ∉ c.nodes) (hp : nw.Prepared dt)
    (h : nw.advanceVoltage time dt = .ok nw') {a : Fin N} (ha : (nw.nodes a).id = id) :
    nw.drawn nw' time dt a =
      C * ((nw'.v a - Vt.getD 0 time) - (nw.vPrev a - Vt.getD 0 (time - 2 * dt))) / (2 * dt) := by
  obtain ⟨n1, g1, g2⟩ := calls_append.1 hb
  obtain ⟨n2, g3, g4⟩ := calls_cons.1 g2
  have hn1 := calls_nodes g1
  have hn2 := (call_nodes g3).trans hn1
  have hn3 := (calls_nodes g4).trans hn2
  have ha0 : (nw0.nodes a).id = id := by rw [← ha, hs.nodes, hn3]
  obtain ⟨r1, o1, s1⟩ := calls_row (a := a) g1 (by rw [ha0]; exact h1)
  obtain ⟨r3, o3, s3⟩ := calls_row (a := a) g4 (by rw [hn2, ha0]; exact h2)
  obtain ⟨E, hE, rfl⟩ := call_ok_iff.1 g3
  rw [hasEffect_congr hn1] at hE
  obtain ⟨b, hfb, rfl⟩ := hE
  obtain rfl : b = a := h0.ids ((find_some hfb).trans ha0.symm)
  simp only [h0.P1, h0.Ps, h0.Q1, h0.Qs, h0.O, h0.src, Matrix.zero_apply, Pi.zero_apply] at r1 o1 s1
  have eP : ∀ j, nw.P1 b j = 0 := by
    intro j
    rw [hs.P1, (r3 j).1]
    show Upd.app (.add 0) (n1.P1 b j) = _
    rw [(r1 j).1]; simp [Upd.app]
  have eQ : ∀ j, nw.Q1 b j = if j = b then -C else 0 := by
    intro j
    rw [hs.Q1, (r3 j).2.1]
    show Upd.app _ (n1.Q1 b j) = _
    rw [(r1 j).2.1]
    by_cases hj : j = b <;> by_cases hC : C = 0 <;> simp [hj, hC, Upd.app]
  have ePs : ∀ j, nw.Ps b j = 0 := by
    intro j
    rw [hs.Ps, (r3 j).2.2.1]
    show Upd.app (.add 0) (n1.Ps b j) = _
    rw [(r1 j).2.2.1]; simp [Upd.app]
  have eQs : ∀ j, nw.Qs b j = if j = b then (if Vt ≠ none then C else 0) else 0 := by
    intro j
    rw [hs.Qs, (r3 j).2.2.2]
    show Upd.app _ (n1.Qs b j) = _
    rw [(r1 j).2.2.2]
    by_cases hj : j = b <;> by_cases hV : Vt = none <;> simp [hj, hV, Upd.app]
  have eO : ∀ x, nw.O b x = 0 := by
    intro x
    rw [hs.O, o3]
    show Upd.app (.add 0) (n1.O b x) = _
    rw [o1]; simp [Upd.app]
  have es : Vt ≠ none → nw.vSources b = Vt.getD 0 := by
    intro hV
    rw [hs.src, s3]
    show Upd.app _ (n1.vSources b) = _
    cases Vt with
    | none => exact absurd rfl hV
    | some f => simp [Upd.app, srcUpd]
  rw [drawn_eq hp h b, mulVec_row eQ, mulVec_row eQs]
  have z1 : ∀ x, nw.P1.mulVec x b = 0 := fun x => by simp [mulVec, dotProduct, eP]
  have z2 : ∀ x, nw.Ps.mulVec x b = 0 := fun x => by simp [mulVec, dotProduct, ePs]
  have z3 : ∀ x, nw.O.mulVec x b = 0 := fun x => by simp [mulVec, dotProduct, eO]
  rw [z1, z2, z3]
  have hdt : dt ≠ 0 := (Network.Prepared.iff.1 hp).2.1
  simp only [Pi.sub_apply]
  by_cases hV : Vt = none
  · subst hV; simp; field_simp
  · rw [if_pos hV, es hV]; field_simp; ring

/-! ## C57 -/

/-- A call that does not name the node of a state variable leaves its rows alone. -/
theorem call_stateRow {nw nw' : Network N S} (hd : nw.SlotsDisjoint) {c : Call} (hc : nw.call c = .ok nw') {a : Fin N}
    {x : Fin S} (hx : (x : ℕ) ∈ (nw.nodes a).stateIndex) (h : (nw.nodes a).id ∉ c.nodes) :
    (∀ z, nw'.M x z = nw.M x z) ∧ (∀ b, nw'.N1 x b = nw.N1 x b) ∧ (∀ b, nw'.Ns x b = nw.Ns x b) := by
  obtain ⟨E, hE, rfl⟩ := call_ok_iff.1 hc
  have w := hE.within
  have hx' : ¬ ∃ b, (nw.nodes b).id ∈ c.nodes ∧ (x : ℕ) ∈ (nw.nodes b).stateIndex := by
    rintro ⟨b, h1, h2⟩
    by_cases hab : a = b
    · subst hab; exact h h1
    · exact hd a b hab _ hx h2
  refine ⟨fun z => ?_, fun b => ?_, fun b => ?_⟩
  · show (E.M x z).app _ = _; rw [w.M x z fun h' => hx' h'.1]; simp [Upd.app]
  · show (E.N1 x b).app _ = _; rw [w.N1 x b fun h' => hx' h'.1]; simp [Upd.app]
  · show (E.Ns x b).app _ = _; rw [w.Ns x b fun h' => hx' h'.1]; simp [Upd.app]

theorem calls_stateRow {l : List Call} {nw nw' : Network N S} (hd : nw.SlotsDisjoint) (hc : nw.calls l = .ok nw')
    {a : Fin N} {x : Fin S} (hx : (x : ℕ) ∈ (nw.nodes a).stateIndex) (h : ∀ c ∈ l, (nw.nodes a).id ∉ c.nodes) :
    (∀ z, nw'.M x z = nw.M x z) ∧ (∀ b, nw'.N1 x b = nw.N1 x b) ∧ (∀ b, nw'.Ns x b = nw.Ns x b) := by
  refine (calls_induct (Q := fun y => y.nodes = nw.nodes ∧ (∀ z, y.M x z = nw.M x z) ∧ (∀ b, y.N1 x b = nw.N1 x b) ∧
    (∀ b, y.Ns x b = nw.Ns x b)) (A := fun c => (nw.nodes a).id ∉ c.nodes) ?_ h hc
    ⟨rfl, fun _ => rfl, fun _ => rfl, fun _ => rfl⟩).2
  rintro nx nx' c h1 ⟨hn, h2, h3, h4⟩ h5
  rw [← hn] at h1 hx
  obtain ⟨h6, h7, h8⟩ := call_stateRow (by unfold Network.SlotsDisjoint; rw [hn]; exact hd) h5 hx h1
  exact ⟨(call_nodes h5).trans hn, fun z => (h6 z).trans (h2 z), fun z => (h7 z).trans (h3 z),
    fun z => (h8 z).trans (h4 z)⟩

theorem sum_pair {x y : Fin S} (hxy : x ≠ y) {f : Fin S → ℝ} (h : ∀ z, z ≠ x → z ≠ y → f z = 0) :
    ∑ z, f z = f x + f y := by
  rw [← Finset.sum_pair hxy]
  symm
  refine Finset.sum_subset (Finset.subset_univ _) fun z _ hz => ?_
  simp only [Finset.mem_insert, Finset.mem_singleton, not_or] at hz
  exact h z hz.1 hz.2

/-- The equations that the code solves for an `LCpRs` termination.  `x` and `y` are the two state variables, `vC = X x`
and `iL = - X y`. -/
theorem lcprs_equations {l1 l2 : List Call} {id : ℤ} {R L C : ℝ} {Vt : Option (ℝ → ℝ)} {nw0 nb nw nw' : Network N S}
    {time dt : ℝ} (h0 : nw0.Fresh) (hb : nw0.calls (l1 ++ .groundLCpRs id R L C Vt :: l2) = .ok nb)
    (hs : nb.SameCircuit nw) (h1 : ∀ c ∈ l1, id ∉ c.nodes) (h2 : ∀ c ∈ l2, id ∉ c.nodes) (hp : nw.Prepared dt)
    (h : nw.advanceVoltage time dt = .ok nw') {a : Fin N} (ha : (nw.nodes a).id = id) {x y : Fin S}
    (hxy : (nw.nodes a).stateIndex = [(x : ℕ), (y : ℕ)]) :
    nw.drawn nw' time dt a = ((nw'.v a + nw.v a) / 2 - (Vt.getD 0 time + Vt.getD 0 (time - dt)) / 2
      - (nw'.X x + nw.X x) / 2) / R ∧
    nw'.X y = nw.X y + dt * (-1 / L * nw'.X x) ∧
    nw'.X x = nw.X x + dt * (1 / (R * C) * nw'.X x + 1 / C * nw'.X y - 1 / (R * C) * nw'.v a
      + 1 / (R * C) * Vt.getD 0 time) ∧ R ≠ 0 ∧ L ≠ 0 ∧ C ≠ 0 ∧ dt ≠ 0 := by
  obtain ⟨n1, g1, g2⟩ := calls_append.1 hb
  obtain ⟨n2, g3, g4⟩ := calls_cons.1 g2
  have hn1 := calls_nodes g1
  have hn2 := (call_nodes g3).trans hn1
  have hn3 := (calls_nodes g4).trans hn2
  have ha0 : (nw0.nodes a).id = id := by rw [← ha, hs.nodes, hn3]
  rw [hs.nodes, hn3] at hxy
  have hne : x ≠ y := by
    rintro rfl
    have := h0.slotsNodup a
    rw [hxy] at this
    simp at this
  obtain ⟨r1, o1, s1⟩ := calls_row (a := a) g1 (by rw [ha0]; exact h1)
  obtain ⟨r3, o3, s3⟩ := calls_row (a := a) g4 (by rw [hn2, ha0]; exact h2)
  obtain ⟨mx1, nx1, sx1⟩ := calls_stateRow h0.slots g1 (a := a) (x := x) (by simp [hxy]) (by rw [ha0]; exact h1)
  obtain ⟨my1, ny1, sy1⟩ := calls_stateRow h0.slots g1 (a := a) (x := y) (by simp [hxy]) (by rw [ha0]; exact h1)
  have hd2 : n2.SlotsDisjoint := by unfold Network.SlotsDisjoint; rw [hn2]; exact h0.slots
  obtain ⟨mx3, nx3, sx3⟩ := calls_stateRow hd2 g4 (a := a) (x := x) (by simp [hn2, hxy])
    (by rw [hn2, ha0]; exact h2)
  obtain ⟨my3, ny3, sy3⟩ := calls_stateRow hd2 g4 (a := a) (x := y) (by simp [hn2, hxy])
    (by rw [hn2, ha0]; exact h2)
  obtain ⟨E, hE, rfl⟩ := call_ok_iff.1 g3
  rw [hasEffect_congr hn1] at hE
  obtain ⟨b, x', y', hfb, -, -, -, hRC, hC, hL, hxy', rfl⟩ := hE
  obtain rfl : b = a := h0.ids ((find_some hfb).trans ha0.symm)
  have hR : R ≠ 0 := left_ne_zero_of_mul hRC
  obtain ⟨rfl, rfl⟩ : x' = x ∧ y' = y := by
    rw [hxy'] at hxy
    simp only [List.cons.injEq, and_true] at hxy
    exact ⟨Fin.ext hxy.1, Fin.ext hxy.2⟩
  have hne' : y' ≠ x' := Ne.symm hne
  simp only [h0.P1, h0.Ps, h0.Q1, h0.Qs, h0.O, h0.src, h0.M, h0.N1, h0.Ns, Matrix.zero_apply, Pi.zero_apply]
    at r1 o1 s1 mx1 nx1 sx1 my1 ny1 sy1
  have eP : ∀ j, nw.P1 b j = if j = b then -1 / R else 0 := by
    intro j
    rw [hs.P1, (r3 j).1]
    show Upd.app _ (n1.P1 b j) = _
    rw [(r1 j).1]
    by_cases hj : j = b <;> simp [hj, Upd.app]
  have eQ : ∀ j, nw.Q1 b j = 0 := by
    intro j
    rw [hs.Q1, (r3 j).2.1]
    show Upd.app (.add 0) (n1.Q1 b j) = _
    rw [(r1 j).2.1]; simp [Upd.app]
  have ePs : ∀ j, nw.Ps b j = if j = b then (if Vt ≠ none then 1 / R else 0) else 0 := by
    intro j
    rw [hs.Ps, (r3 j).2.2.1]
    show Upd.app _ (n1.Ps b j) = _
    rw [(r1 j).2.2.1]
    by_cases hj : j = b <;> by_cases hV : Vt = none <;> simp [hj, hV, Upd.app]
  have eQs : ∀ j, nw.Qs b j = 0 := by
    intro j
    rw [hs.Qs, (r3 j).2.2.2]
    show Upd.app (.add 0) (n1.Qs b j) = _
    rw [(r1 j).2.2.2]; simp [Upd.app]
  have eO : ∀ z, nw.O b z = if z = x' then 1 / R else 0 := by
    intro z
    rw [hs.O, o3]
    show Upd.app _ (n1.O b z) = _
    rw [o1]
    by_cases hz : z = x'
    · subst hz; simp [hne, Upd.app]
    · by_cases hz' : z = y'
      · subst hz'; simp [hne', Upd.app]
      · simp [hz, hz', Upd.app]
  have es : Vt ≠ none → nw.vSources b = Vt.getD 0 := by
    intro hV
    rw [hs.src, s3]
    show Upd.app _ (n1.vSources b) = _
    cases Vt with
    | none => exact absurd rfl hV
    | some f => simp [Upd.app, srcUpd]
  have eMx : ∀ z, nw.M x' z = if z = x' then 1 / (R * C) else if z = y' then 1 / C else 0 := by
    intro z
    rw [hs.M, mx3]
    show Upd.app _ (n1.M x' z) = _
    rw [mx1]
    by_cases hz : z = x'
    · subst hz; simp [hne, Upd.app]
    · by_cases hz' : z = y'
      · subst hz'; simp [hne, hne', Upd.app]
      · simp [hz, hz', hne, Upd.app]
  have eMy : ∀ z, nw.M y' z = if z = x' then -1 / L else 0 := by
    intro z
    rw [hs.M, my3]
    show Upd.app _ (n1.M y' z) = _
    rw [my1]
    by_cases hz : z = x'
    · subst hz; simp [hne, Upd.app]
    · by_cases hz' : z = y'
      · subst hz'; simp [hne', Upd.app]
      · simp [hz, hz', hne', Upd.app]
  have eNx : ∀ j, nw.N1 x' j = if j = b then -1 / (R * C) else 0 := by
    intro j
    rw [hs.N1, nx3]
    show Upd.app _ (n1.N1 x' j) = _
    rw [nx1]
    by_cases hj : j = b <;> simp [hj, hne, Upd.app]
  have eNy : ∀ j, nw.N1 y' j = 0 := by
    intro j
    rw [hs.N1, ny3]
    show Upd.app _ (n1.N1 y' j) = _
    rw [ny1]
    by_cases hj : j = b <;> simp [hj, Upd.app]
  have eSx : ∀ j, nw.Ns x' j = if j = b then (if Vt ≠ none then 1 / (R * C) else 0) else 0 := by
    intro j
    rw [hs.Ns, sx3]
    show Upd.app _ (n1.Ns x' j) = _
    rw [sx1]
    by_cases hj : j = b <;> by_cases hV : Vt = none <;> simp [hj, hne, hV, Upd.app]
  have eSy : ∀ j, nw.Ns y' j = 0 := by
    intro j
    rw [hs.Ns, sy3]
    show Upd.app _ (n1.Ns y' j) = _
    rw [sy1]
    by_cases hj : j = b <;> by_cases hV : Vt = none <;> simp [hj, hne', hV, Upd.app]
  have hdt : dt ≠ 0 := (Network.Prepared.iff.1 hp).2.1
  obtain ⟨-, -, hst, -⟩ := (C46_node_equations hp).1 h
  have hstx := congrFun hst x'
  have hsty := congrFun hst y'
  simp only [Pi.add_apply, Pi.smul_apply, smul_eq_mul] at hstx hsty
  have mMx : nw.M.mulVec nw'.X x' = 1 / (R * C) * nw'.X x' + 1 / C * nw'.X y' := by
    rw [mulVec, dotProduct, sum_pair hne]
    · rw [eMx, eMx, if_pos rfl, if_neg hne', if_pos rfl]
    · intro z hz hz'; rw [eMx, if_neg hz, if_neg hz', zero_mul]
  have mMy : nw.M.mulVec nw'.X y' = -1 / L * nw'.X x' := by
    simp [mulVec, dotProduct, eMy]
  have mNx : nw.N1.mulVec nw'.v x' = -1 / (R * C) * nw'.v b := by simp [mulVec, dotProduct, eNx]
  have mNy : nw.N1.mulVec nw'.v y' = 0 := by simp [mulVec, dotProduct, eNy]
  have mSx : nw.Ns.mulVec (fun a => nw.vSources a time) x' = 1 / (R * C) * Vt.getD 0 time := by
    have : nw.Ns.mulVec (fun a => nw.vSources a time) x' = (if Vt ≠ none then 1 / (R * C) else 0) * nw.vSources b time := by
      simp [mulVec, dotProduct, eSx]
    rw [this]
    by_cases hV : Vt = none
    · subst hV; simp
    · rw [if_pos hV, es hV]
  have mSy : nw.Ns.mulVec (fun a => nw.vSources a time) y' = 0 := by simp [mulVec, dotProduct, eSy]
  rw [mMx, mNx, mSx] at hstx
  rw [mMy, mNy, mSy] at hsty
  refine ⟨?_, by linarith, ?_, hR, hL, hC, hdt⟩
  · rw [drawn_eq hp h b, mulVec_row eP, mulVec_row ePs]
    have z1 : nw.Q1.mulVec (nw'.v - nw.vPrev) b = 0 := by simp [mulVec, dotProduct, eQ]
    have z2 : ∀ x, nw.Qs.mulVec x b = 0 := fun x => by simp [mulVec, dotProduct, eQs]
    have z3 : ∀ X, nw.O.mulVec X b = 1 / R * X x' := fun X => by simp [mulVec, dotProduct, eO]
    rw [z1, z2, z3]
    simp only [Pi.add_apply]
    by_cases hV : Vt = none
    · subst hV; simp; ring
    · rw [if_pos hV, es hV]; ring
  · rw [neg_div, neg_mul] at hstx
    linarith

/-- **C57 (partial)** With `vC = X x` the voltage of the parallel branch and `iL = - X y` the current of the inductor,
the current drawn from the node is that of the series resistance, and the inductor obeys `L iL' = vC`. -/
theorem C57_current_and_inductor_partial {l1 l2 : List Call} {id : ℤ} {R L C : ℝ} {Vt : Option (ℝ → ℝ)}
    {nw0 nb nw nw' : Network N S} {time dt : ℝ} (h0 : nw0.Fresh)
    (hb : nw0.calls (l1 ++ .groundLCpRs id R L C Vt :: l2) = .ok nb)
    (hs : nb.SameCircuit nw) (h1 : ∀ c ∈ l1, id ∉ c.nodes) (h2 : ∀ c ∈ l2, id ∉ c.nodes) (hp : nw.Prepared dt)
    (h : nw.advanceVoltage time dt = .ok nw') {a : Fin N} (ha : (nw.nodes a).id = id) {x y : Fin S}
    (hxy : (nw.nodes a).stateIndex = [(x : ℕ), (y : ℕ)]) :
    nw.drawn nw' time dt a = ((nw'.v a + nw.v a) / 2 - (Vt.getD 0 time + Vt.getD 0 (time - dt)) / 2
      - (nw'.X x + nw.X x) / 2) / R ∧
    L * ((-nw'.X y) - (-nw.X y)) / dt = nw'.X x := by
  obtain ⟨e1, e2, -, hR, hL, hC, hdt⟩ := lcprs_equations h0 hb hs h1 h2 hp h ha hxy
  refine ⟨e1, ?_⟩
  rw [e2]
  field_simp
  ring

/-- **C57**, what the call raises: the first of these conditions that is met decides. -/
theorem C57_errors_partial {N S : ℕ} (nw : Network N S) (id : ℤ) (R L C : ℝ) (Vt : Option (ℝ → ℝ)) :
    (nw.find id = none → nw.connectToGroundLCpRs id R L C Vt = .error .AssertionError) ∧
    ∀ a, nw.find id = some a →
      (R < 0 ∨ L < 0 ∨ 10 ^ 22 ≤ C → nw.connectToGroundLCpRs id R L C Vt = .error .AssertionError) ∧
      (0 ≤ R → 0 ≤ L → C < 10 ^ 22 →
        (R = 0 ∨ C = 0 ∨ L = 0 → nw.connectToGroundLCpRs id R L C Vt = .error .ZeroDivisionError) ∧
        (R ≠ 0 → C ≠ 0 → L ≠ 0 →
          ((nw.nodes a).stateIndex = [] → nw.connectToGroundLCpRs id R L C Vt = .error .IndexError) ∧
          ((nw.nodes a).stateIndex ≠ [] → (nw.nodes a).stateIndex.length ≠ 2 →
            nw.connectToGroundLCpRs id R L C Vt = .error .ValueError))) := by
  constructor
  · intro h
    simp [Network.connectToGroundLCpRs, Network.assertNode, h, bind, Except.bind]
  intro a ha
  have hn : nw.assertNode id = .ok a := by simp [Network.assertNode, ha]
  refine ⟨fun h => ?_, fun h1 h2 h3 => ⟨fun h => ?_, fun h4 h5 h6 => ⟨fun h => ?_, fun h7 h8 => ?_⟩⟩⟩
  all_goals simp only [Network.connectToGroundLCpRs, hn, bind, Except.bind, pyAssert, raiseIf]
  · rw [if_neg]
    rintro ⟨g1, g2, g3⟩
    rcases h with h | h | h <;> linarith
  · rw [if_pos ⟨h1, h2, h3⟩]
    simp only
    rw [if_pos]
    rcases h with h | h | h
    · exact Or.inl (by rw [h, zero_mul])
    · exact Or.inr (Or.inl h)
    · exact Or.inr (Or.inr h)
  · rw [if_pos ⟨h1, h2, h3⟩]
    simp only
    rw [if_neg (by simp [h4, h5, h6])]
    simp [h]
  · rw [if_pos ⟨h1, h2, h3⟩]
    simp only
    rw [if_neg (by simp [h4, h5, h6])]
    simp only
    rw [if_neg h7]
    simp only
    split
    · rename_i x y hxy
      rw [hxy] at h8
      exact absurd rfl h8
    · rfl

/-- **C57** is false of the capacitor: its equation `C vC' = i - iL`, with `i = (v - Vt - vC) / R` the current through the
resistor, holds after a step only if that current is zero; the code has the opposite sign of `i`. -/
theorem C57_capacitor_sign {l1 l2 : List Call} {id : ℤ} {R L C : ℝ} {Vt : Option (ℝ → ℝ)}
    {nw0 nb nw nw' : Network N S} {time dt : ℝ} (h0 : nw0.Fresh)
    (hb : nw0.calls (l1 ++ .groundLCpRs id R L C Vt :: l2) = .ok nb)
    (hs : nb.SameCircuit nw) (h1 : ∀ c ∈ l1, id ∉ c.nodes) (h2 : ∀ c ∈ l2, id ∉ c.nodes) (hp : nw.Prepared dt)
    (h : nw.advanceVoltage time dt = .ok nw') {a : Fin N} (ha : (nw.nodes a).id = id) {x y : Fin S}
    (hxy : (nw.nodes a).stateIndex = [(x : ℕ), (y : ℕ)]) :
    C * (nw'.X x - nw.X x) / dt = -((nw'.v a - Vt.getD 0 time - nw'.X x) / R) - (-nw'.X y) ∧
    (C * (nw'.X x - nw.X x) / dt = (nw'.v a - Vt.getD 0 time - nw'.X x) / R - (-nw'.X y) ↔
      (nw'.v a - Vt.getD 0 time - nw'.X x) / R = 0) := by
  obtain ⟨-, -, e3, hR, hL, hC, hdt⟩ := lcprs_equations h0 hb hs h1 h2 hp h ha hxy
  have e : C * (nw'.X x - nw.X x) / dt = -((nw'.v a - Vt.getD 0 time - nw'.X x) / R) - (-nw'.X y) := by
    have : nw'.X x - nw.X x = dt * (1 / (R * C) * nw'.X x + 1 / C * nw'.X y - 1 / (R * C) * nw'.v a
      + 1 / (R * C) * Vt.getD 0 time) := by linarith
    rw [this]
    field_simp
    ring
  refine ⟨e, ?_⟩
  rw [e]
  constructor <;> intro h' <;> linarith

end Mtln
