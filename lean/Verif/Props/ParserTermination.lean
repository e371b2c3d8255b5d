import Verif.Props.Tank
import Verif.Props.ParserLookup

/-!
# Terminations of the parser (C58, C85, C86, C103, C104)
-/

namespace Mtln

open Matrix

variable {N S p : ℕ}

/-! ## C58 -/

/-- A connector of type `Conn_sRLC` with the same resistance and other inductance and capacitance. -/
def Pin.withLC (e : Pin) (L C : Option ℝ) : Pin :=
  { e with connector := { e.connector with inductance := L, capacitance := C } }

/-- **C58 is false**: the inductance and the capacitance of the file are not used. -/
theorem C58_refuted (nw : Network N S) {e : Pin} (ht : e.connector.connectorType = "Conn_sRLC") (L C : Option ℝ) :
    nw.terminateSingle (e.withLC L C) = nw.terminateSingle e := by
  have h1 : ¬ e.connector.connectorType = "Conn_short" := by rw [ht]; decide
  have h2 : (e.withLC L C).connector.connectorType = e.connector.connectorType := rfl
  have h3 : (e.withLC L C).connector.resistance = e.connector.resistance := rfl
  unfold Network.terminateSingle
  rw [h2, h3, if_neg h1, if_pos (Or.inl ht), if_neg h1, if_pos (Or.inl ht)]
  rfl

/-- **C58 is false**: whatever L and C are, the termination draws the current of the resistance alone. -/
theorem C58_refuted_ohm {e : Pin} {R : ℝ} (ht : e.connector.connectorType = "Conn_sRLC")
    (hr : e.connector.resistance = some R) (hR : R ≠ 0) {nw0 nb nw nw' : Network N S} {time dt : ℝ} (h0 : nw0.Fresh)
    (hb : nw0.terminateSingle e = .ok nb) (hs : nb.SameCircuit nw) (hp : nw.Prepared dt)
    (h : nw.advanceVoltage time dt = .ok nw') {a : Fin N} (ha : (nw.nodes a).id = e.node) :
    nw.drawn nw' time dt a = ((nw'.v a + nw.v a) / 2 - (e.source.getD 0 time + e.source.getD 0 (time - dt)) / 2) / R := by
  have h1 : ¬ e.connector.connectorType = "Conn_short" := by rw [ht]; decide
  have hc : nw0.calls ([] ++ .ground e.node R e.source :: []) = .ok nb := by
    refine calls_cons.2 ⟨nb, ?_, calls_nil.2 rfl⟩
    unfold Network.terminateSingle at hb
    rw [if_neg h1, if_pos (Or.inl ht), hr] at hb
    exact hb
  exact C46_ohm h0 hc hs hR (by simp) (by simp) hp h ha

/-- **C58 (part)**: without inductor and capacitor the termination is right. -/
theorem C58_resistor_partial {e : Pin} {R : ℝ} (ht : e.connector.connectorType = "Conn_sRLC")
    (hr : e.connector.resistance = some R) (hR : R ≠ 0) (_hL : e.connector.inductance = some 0)
    (_hC : ∀ C, e.connector.capacitance = some C → 10 ^ 22 ≤ C) {nw0 nb nw nw' : Network N S} {time dt : ℝ} (h0 : nw0.Fresh)
    (hb : nw0.terminateSingle e = .ok nb) (hs : nb.SameCircuit nw) (hp : nw.Prepared dt)
    (h : nw.advanceVoltage time dt = .ok nw') {a : Fin N} (ha : (nw.nodes a).id = e.node) :
    R * nw.drawn nw' time dt a = (nw'.v a + nw.v a) / 2 - (e.source.getD 0 time + e.source.getD 0 (time - dt)) / 2 := by
  rw [C58_refuted_ohm ht hr hR h0 hb hs hp h ha]
  field_simp

/-- One node at the left end of the demo line with a series RLC termination, R = L = C = 1, and a source of 1 V. -/
noncomputable def demoRLC : Pin where
  node := 0
  connector := { connectorType := "Conn_sRLC", resistance := some 1, inductance := some 1, capacitance := some 1 }
  conductor := 0
  source := some fun _ => 1

theorem demoRLC_new : Network.new [({ line := ⟨1, demoBare 0⟩, side := "S", bundleName := "demo", connections :=
    [{ id := 0, conductor := 0, connector := demoRLC.connector }] } : LineConnections 0)]
    = .ok ⟨1, 2, demoNet [0, 1] 2⟩ := by
  refine networkNew_ok_iff.2 ⟨⟨[demoNode [0, 1]], 2, [⟨1, (demoBare 0).c 0⟩]⟩, ?_, rfl⟩
  simp [NetBuild.addLine, NetBuild.addNode, bind, Except.bind, pyAssert, raiseIf, stateVarsIn, demoRLC,
    List.insertionSort, List.orderedInsert, demoBare, pure, Except.pure, demoNode, show (1 : ℝ) < 10 ^ 22 by norm_num, List.range_succ]

/-- **C58 is false**, a witness: R = L = C = 1 and a source of 1 V, from rest.  In the first step of length 1 a series
RLC with current `i` drawn over the step obeys `v/2 - 1 = R i + L i + i / C` (backward differences, no current before);
the network does not. -/
theorem C58_refuted_example : ∃ nb nw nw' : Network 1 2, (demoNet [0, 1] 2).terminateSingle demoRLC = .ok nb ∧
    nb.SameCircuit nw ∧ nw.v = 0 ∧ nw.i = 0 ∧ nw.Prepared 1 ∧ nw.advanceVoltage 0 1 = .ok nw' ∧
    nw.drawn nw' 0 1 0 = (nw'.v 0 / 2 - 1) / 1 ∧
    ¬ (nw'.v 0 / 2 - 1 = 1 * nw.drawn nw' 0 1 0 + 1 * nw.drawn nw' 0 1 0 + nw.drawn nw' 0 1 0 / 1) := by
  have h0 := new_fresh demoRLC_new
  have hE : ∃ E : Effect 1 2, (Call.ground 0 1 (some fun _ => 1)).HasEffect (demoNet [0, 1] 2) E ∧
      E.P1 0 0 = .set (-1) ∧ E.Q1 0 0 = .add 0 ∧ (∀ x y, E.M x y = .add 0) ∧ (∀ x, E.N1 x 0 = .add 0) ∧
      ∀ x, E.O 0 x = .add 0 :=
    ⟨_, ⟨0, demoNet_find _ _, by simp, rfl⟩, by simp, by simp, by simp, by simp, by simp⟩
  obtain ⟨E, hE, p, q, m, n, o⟩ := hE
  have hb : (demoNet [0, 1] 2).calls ([] ++ .ground 0 1 (some fun _ => 1) :: []) = .ok (E.apply (demoNet [0, 1] 2)) :=
    calls_cons.2 ⟨_, call_ok_iff.2 ⟨E, hE, rfl⟩, calls_nil.2 rfl⟩
  have hbt : (demoNet [0, 1] 2).terminateSingle demoRLC = .ok (E.apply (demoNet [0, 1] 2)) := by
    have : (demoNet [0, 1] 2).terminateSingle demoRLC = (demoNet [0, 1] 2).connectToGround 0 1 (some fun _ => 1) := by
      simp [Network.terminateSingle, demoRLC, pyKey, bind, Except.bind]
    rw [this]
    exact call_ok_iff.2 ⟨E, hE, rfl⟩
  have hP : (E.apply (demoNet [0, 1] 2)).P1 0 0 = -1 := by show (E.P1 0 0).app _ = _; rw [p]; rfl
  have hQ : (E.apply (demoNet [0, 1] 2)).Q1 0 0 = 0 := by show (E.Q1 0 0).app 0 = _; rw [q]; simp [Upd.app]
  have hM : ∀ x y, (E.apply (demoNet [0, 1] 2)).M x y = 0 := by
    intro x y; show (E.M x y).app 0 = _; rw [m]; simp [Upd.app]
  have hN : ∀ x, (E.apply (demoNet [0, 1] 2)).N1 x 0 = 0 := by
    intro x; show (E.N1 x 0).app 0 = _; rw [n]; simp [Upd.app]
  have hO : ∀ x, (E.apply (demoNet [0, 1] 2)).O 0 x = 0 := by
    intro x; show (E.O 0 x).app 0 = _; rw [o]; simp [Upd.app]
  have hdx : (E.apply (demoNet [0, 1] 2)).dxc = 1 := demoNet_dxc [0, 1] 2
  have hdet : ((E.apply (demoNet [0, 1] 2)).system 1).det ≠ 0 := by
    apply det_ne_zero_of_injective
    intro x hx
    have e0 := congrFun hx (.inl 0)
    have e1 := congrFun hx (.inr 0)
    have e2 := congrFun hx (.inr 1)
    simp only [Network.system, mulVec, dotProduct, Fintype.sum_sum_type, Fin.sum_univ_two, Finset.univ_unique,
      Fin.default_eq_zero, Finset.sum_singleton, fromBlocks_apply₁₁, fromBlocks_apply₁₂, fromBlocks_apply₂₁,
      fromBlocks_apply₂₂, Matrix.sub_apply, Matrix.neg_apply, Matrix.smul_apply, hP, hQ, hM, hN, hO,
      hdx, Matrix.one_apply, smul_eq_mul, Pi.zero_apply] at e0 e1 e2
    norm_num at e0 e1 e2
    funext z
    rcases z with z | z
    · fin_cases z; exact e0
    · fin_cases z
      · exact e1
      · exact e2
  obtain ⟨nw, nw', hs, hp, h, hv, hX, hi, -, hdx'⟩ := takes_step hb rfl one_ne_zero hdet 0
  have hv' : nw.v = 0 := hv
  have hi' : nw.i = 0 := hi
  have hid : (nw.nodes 0).id = 0 := by rw [hs.nodes]; rfl
  have heT : ∀ t, (nw.nodes 0).eT t = 0 := by intro t; rw [hs.nodes]; rfl
  have e1 := C46_ohm h0 hb hs one_ne_zero (by simp) (by simp) hp h hid
  have ed : nw.drawn nw' 0 1 0 = -(1 / 2) * nw'.v 0 := by
    unfold Network.drawn
    rw [hdx', hdx, one_mulVec]
    simp [heT, hv', hi']
  simp only [hv', Pi.zero_apply, Option.getD_some] at e1
  refine ⟨_, nw, nw', hbt, hs, hv', hi', hp, h, ?_, ?_⟩
  · rw [e1]; ring
  · rw [ed] at e1 ⊢
    intro hc
    norm_num at e1 hc
    linarith

/-! ## C85 -/

/-- The termination of a group in which every node is terminated with entry `conductor` of its own connector and its own
source. -/
noncomputable def terminateOwn (nw : Network N S) (e : Pin) : Py (Network N S) :=
  nw.terminateWith e.node e.conductor e.connector (.ok e.source)

theorem foldlM_congr' {α β : Type} {f g : β → α → Py β} {l : List α} (h : ∀ a ∈ l, ∀ b, f b a = g b a) (b : β) :
    l.foldlM f b = l.foldlM g b := by
  induction l generalizing b with
  | nil => rfl
  | cons a l ih =>
    rw [List.foldlM_cons, List.foldlM_cons, h a (by simp)]
    congr 1
    funext c
    exact ih (fun x hx => h x (by simp [hx])) c

/-- **C85 (part)**: in groups that list the conductors 0, 1, … in order, every node has its own connector and source. -/
theorem C85_ordered_partial (nw : Network N S) {group : List Pin} (h2 : 2 ≤ group.length)
    (h : ∀ (k : ℕ) (e : Pin), group[k]? = some e → e.conductor = k) :
    nw.terminate group = group.foldlM terminateOwn nw := by
  match group, h2 with
  | a :: b :: l, _ =>
    unfold Network.terminate
    refine foldlM_congr' (fun e he nw => ?_) nw
    obtain ⟨k, hk⟩ := List.getElem?_of_mem he
    unfold Network.terminateMulti terminateOwn
    rw [h k e hk, pyIndex_ok_iff.2 hk]
    rfl

/-- **C85 is false**: in a group of two nodes listed in reverse, each gets the connector and the source of the other. -/
theorem C85_refuted_swap (nw : Network N S) {e0 e1 : Pin} (h0 : e0.conductor = 0) (h1 : e1.conductor = 1) :
    nw.terminate [e1, e0] = (do
      let nw ← nw.terminateWith e1.node 1 e0.connector (.ok e0.source)
      nw.terminateWith e0.node 0 e1.connector (.ok e1.source)) := by
  simp only [Network.terminate, List.foldlM_cons, List.foldlM_nil, Network.terminateMulti, h0, h1, pyIndex, bind,
    Except.bind, pure, Except.pure, List.getElem?_cons_zero, List.getElem?_cons_succ]
  cases nw.terminateWith e1.node 1 e0.connector (.ok e0.source) with
  | error x => rfl
  | ok y => simp only; cases y.terminateWith e0.node 0 e1.connector (.ok e1.source) <;> rfl

/-- **C85 is false**: a group of fewer nodes than its first conductor number is rejected. -/
theorem C85_refuted_index (nw : Network N S) {e f : Pin} {l : List Pin} (h : l.length + 2 ≤ e.conductor) :
    nw.terminate (e :: f :: l) = .error .IndexError := by
  unfold Network.terminate
  rw [List.foldlM_cons]
  unfold Network.terminateMulti
  have : pyIndex (e :: f :: l) e.conductor = .error .IndexError := by
    unfold pyIndex
    rw [List.getElem?_eq_none (by simp; omega)]
  rw [this]
  rfl

/-- The multiwire connector of the demo: two resistors of 1 Ω. -/
noncomputable def demoMulti : Connector where
  connectorType := "MultiwireConnector"
  connections := some ["Conn_R", "Conn_R"]
  resistanceVector := some [1, 1]

/-- **C85 is false**, a witness: two nodes listed in reverse, one with a source and one without; the source ends up at
the wrong node. -/
theorem C85_refuted_example (f : ℝ → ℝ) : ∃ nw nw' nw'' : Network 2 0, Network.new demoPair = .ok ⟨2, 0, nw⟩ ∧
    (nw.nodes 0).id = 0 ∧ (nw.nodes 1).id = 1 ∧
    nw.terminate [⟨1, demoMulti, 1, some f⟩, ⟨0, demoMulti, 0, none⟩] = .ok nw' ∧ nw'.vSources 1 = 0 ∧ nw'.vSources 0 = f ∧
    [(⟨1, demoMulti, 1, some f⟩ : Pin), ⟨0, demoMulti, 0, none⟩].foldlM terminateOwn nw = .ok nw'' ∧
    nw''.vSources 1 = f ∧ nw''.vSources 0 = 0 := by
  obtain ⟨nw, h, f0, f1, -, -, -, hs, -⟩ := demoPair_new
  have g : ∀ (nw : Network 2 0) (id : ℤ) (a : Fin 2) (src : Option (ℝ → ℝ)), nw.find id = some a →
      ∃ nw', nw.connectToGround id 1 src = .ok nw' ∧ nw'.find = nw.find ∧
        nw'.vSources = (match src with | none => nw.vSources | some f => Function.update nw.vSources a f) := by
    intro nw id a src ha
    cases src with
    | none =>
      exact ⟨{ nw with P1 := putEntry nw.P1 a a (-1) },
        by simp [Network.connectToGround, Network.assertNode, ha, bind, Except.bind], rfl, rfl⟩
    | some f =>
      exact ⟨{ nw with P1 := putEntry nw.P1 a a (-1), vSources := Function.update nw.vSources a f,
                       Ps := putEntry nw.Ps a a 1 },
        by simp [Network.connectToGround, Network.assertNode, ha, raiseIf, bind, Except.bind], rfl, rfl⟩
  have t : ∀ (nw : Network 2 0) (id : ℤ) (k : Fin 2) (src : Option (ℝ → ℝ)),
      nw.terminateWith id k demoMulti (.ok src) = nw.connectToGround id 1 src := by
    intro nw id k src
    fin_cases k <;> simp [Network.terminateWith, demoMulti, vectorEntry, pyIndex, pyKey, bind, Except.bind]
  have t0 := fun nw id src => t nw id 0 src
  have t1 := fun nw id src => t nw id 1 src
  simp only [Fin.val_zero, Fin.val_one] at t0 t1
  obtain ⟨n1, a1, b1, c1⟩ := g nw 1 1 none f1
  obtain ⟨n2, a2, b2, c2⟩ := g n1 0 0 (some f) (by rw [b1]; exact f0)
  obtain ⟨m1, d1, e1, g1⟩ := g nw 1 1 (some f) f1
  obtain ⟨m2, d2, e2, g2⟩ := g m1 0 0 none (by rw [e1]; exact f0)
  refine ⟨nw, n2, m2, h, (find_some f0), (find_some f1), ?_, ?_, ?_, ?_, ?_, ?_⟩
  · rw [C85_refuted_swap nw rfl rfl]
    simp only [t0, t1, a1, bind, Except.bind]
    exact a2
  · rw [c2, c1, hs]; simp
  · rw [c2]; simp
  · simp only [List.foldlM_cons, List.foldlM_nil, terminateOwn, t0, t1, d1, d2, bind, Except.bind, pure, Except.pure]
  · rw [g2, g1]; simp
  · rw [g2, g1, hs]; simp

/-! ## C103 -/

/-- **C103 is false**: a single node with a connector of another type, for example a `MultiwireConnector`, stays open. -/
theorem C103_refuted_single (nw : Network N S) {e : Pin}
    (h : e.connector.connectorType ∉ ["Conn_short", "Conn_sRLC", "Conn_R", "Conn_C", "Conn_LCpRs"]) :
    nw.terminate [e] = .ok nw := by
  simp only [List.mem_cons, List.not_mem_nil, or_false, not_or] at h
  obtain ⟨h1, h2, h3, h4, h5⟩ := h
  show nw.terminateSingle e = _
  unfold Network.terminateSingle
  rw [if_neg h1, if_neg (not_or.2 ⟨h2, h3⟩), if_neg h4, if_neg h5]

/-- **C103 is false**: several nodes with connectors of any type but `MultiwireConnector` stay open. -/
theorem C103_refuted_several (nw : Network N S) {group : List Pin} (h2 : 2 ≤ group.length)
    (hi : ∀ e ∈ group, e.conductor < group.length)
    (h : ∀ e ∈ group, e.connector.connectorType ≠ "MultiwireConnector") : nw.terminate group = .ok nw := by
  have key : ∀ l : List Pin, (∀ e ∈ l, e ∈ group) → l.foldlM (Network.terminateMulti group) nw = .ok nw := by
    intro l hl
    induction l with
    | nil => rfl
    | cons a l ih =>
      have ha : Network.terminateMulti group nw a = .ok nw := by
        have hk := hi a (hl a (by simp))
        unfold Network.terminateMulti
        rw [pyIndex_ok_iff.2 (List.getElem?_eq_getElem hk)]
        show nw.terminateWith _ _ _ _ = _
        unfold Network.terminateWith
        rw [if_neg (h _ (List.getElem_mem hk))]
      rw [List.foldlM_cons, ha]
      exact ih fun e he => hl e (by simp [he])
  match group, h2 with
  | a :: b :: l, _ => exact key _ fun e he => he

/-- **C103 (part)**: a single node with one of the five known types is changed by the matching call, with the values of
the file. -/
theorem C103_single_partial (nw : Network N S) (e : Pin) {R L C : ℝ} (hR : e.connector.resistance = some R)
    (hL : e.connector.inductance = some L) (hC : e.connector.capacitance = some C) :
    (e.connector.connectorType = "Conn_short" → nw.terminate [e] = nw.call (.shortGround e.node)) ∧
    (e.connector.connectorType = "Conn_R" → nw.terminate [e] = nw.call (.ground e.node R e.source)) ∧
    (e.connector.connectorType = "Conn_C" → nw.terminate [e] = nw.call (.groundC e.node C e.source)) ∧
    (e.connector.connectorType = "Conn_LCpRs" → nw.terminate [e] = nw.call (.groundLCpRs e.node R L C e.source)) := by
  refine ⟨fun h => ?_, fun h => ?_, fun h => ?_, fun h => ?_⟩ <;>
  · show nw.terminateSingle e = _
    simp [Network.terminateSingle, h, hR, hL, hC, pyKey, bind, Except.bind, Network.call]

/-! ## C104 -/

/-- **C104 is false**: a resistance of 0 without a source changes nothing, so the node is open. -/
theorem C104_refuted {nw : Network N S} {id : ℤ} {a : Fin N} (h : nw.find id = some a) :
    nw.connectToGround id 0 none = .ok nw := by
  simp [Network.connectToGround, Network.assertNode, h, bind, Except.bind]

/-- **C104 is false**: with a source the call raises `ZeroDivisionError`. -/
theorem C104_refuted_source {nw : Network N S} {id : ℤ} {a : Fin N} (h : nw.find id = some a) (f : ℝ → ℝ) :
    nw.connectToGround id 0 (some f) = .error .ZeroDivisionError := by
  simp [Network.connectToGround, Network.assertNode, h, raiseIf, bind, Except.bind]

/-- **C104 is false**: after such a call on a fresh network the nodes draw no current, whatever the voltages are. -/
theorem C104_refuted_open {nw0 nb nw nw' : Network N S} {id : ℤ} {time dt : ℝ} (h0 : nw0.Fresh)
    (hb : nw0.connectToGround id 0 none = .ok nb) (hs : nb.SameCircuit nw) (hp : nw.Prepared dt)
    (h : nw.advanceVoltage time dt = .ok nw') (a : Fin N) : nw.drawn nw' time dt a = 0 := by
  have e : nb = nw0 := by
    obtain ⟨a, ha, -⟩ := bind_ok_iff.1 hb
    unfold Network.assertNode at ha
    cases hf : nw0.find id with
    | none => rw [hf] at ha; cases ha
    | some b => rw [C104_refuted hf] at hb; exact (Except.ok.inj hb).symm
  subst e
  rw [drawn_eq hp h, hs.P1, hs.O, hs.Ps, hs.Q1, hs.Qs, h0.P1, h0.O, h0.Ps, h0.Q1, h0.Qs]
  simp

/-- **C104 (part)**: with a resistance that is not 0 the voltage is at most the resistance times the current. -/
theorem C104_small_partial {nw0 nb nw nw' : Network N S} {id : ℤ} {R time dt : ℝ} (h0 : nw0.Fresh) (hR : R ≠ 0)
    (hb : nw0.connectToGround id R none = .ok nb) (hs : nb.SameCircuit nw) (hp : nw.Prepared dt)
    (h : nw.advanceVoltage time dt = .ok nw') {a : Fin N} (ha : (nw.nodes a).id = id) :
    |(nw'.v a + nw.v a) / 2| = |R| * |nw.drawn nw' time dt a| := by
  have hc : nw0.calls ([] ++ .ground id R none :: []) = .ok nb := calls_cons.2 ⟨nb, hb, calls_nil.2 rfl⟩
  rw [C46_ohm h0 hc hs hR (by simp) (by simp) hp h ha, ← abs_mul]
  congr 1
  simp only [Option.getD_none, Pi.zero_apply]
  field_simp
  ring

/-! ## C86 -/

/-- **C86 is false**: of two joints of one position whose networks have the same level only the second is kept. -/
theorem C86_refuted (P : Parsed p) (once : Bool) (f : ∀ {N S}, Network N S → List Pin → Py (Network N S)) {t1 t2 : Joint}
    {level : ℕ} {n1 n2 : AnyNetwork} (h1 : P.jointNetwork once f t1 = .ok (level, n1))
    (h2 : P.jointNetwork once f t2 = .ok (level, n2)) : P.jointNetworks once f [t1, t2] = .ok [(level, n2)] := by
  simp [Parsed.jointNetworks, h1, h2, bind, Except.bind, dictSet, pure, Except.pure]

/-- A new key goes to the end of a dictionary. -/
theorem dictSet_new {α β : Type} [DecidableEq α] {d : List (α × β)} {k : α} {x : β} (h : k ∉ d.map Prod.fst) :
    dictSet d k x = d ++ [(k, x)] := if_neg h

/-- **C86 (part)**: if the levels of the joints of one position are different, the networks are all kept. -/
theorem C86_levels_partial (P : Parsed p) (once : Bool) (f : ∀ {N S}, Network N S → List Pin → Py (Network N S))
    {ts : List Joint} {d : NetworkD} (h : P.jointNetworks once f ts = .ok d) :
    ∃ rs : List (ℕ × AnyNetwork), mapPy (P.jointNetwork once f) ts = .ok rs ∧ ((rs.map Prod.fst).Nodup → d = rs) := by
  have key : ∀ (ts : List Joint) (d0 d : NetworkD), ts.foldlM (fun (d : NetworkD) t => do
      let r ← P.jointNetwork once f t
      .ok (dictSet d r.1 r.2)) d0 = .ok d → ∃ rs : List (ℕ × AnyNetwork), mapPy (P.jointNetwork once f) ts = .ok rs ∧
        (((d0 ++ rs).map Prod.fst).Nodup → d = d0 ++ rs) := by
    intro ts
    induction ts with
    | nil =>
      intro d0 d h
      exact ⟨[], rfl, fun _ => by rw [List.append_nil]; exact (Except.ok.inj h).symm⟩
    | cons t ts ih =>
      intro d0 d h
      rw [List.foldlM_cons] at h
      obtain ⟨d1, h1, h⟩ := bind_ok_iff.1 h
      obtain ⟨r, hr, h1⟩ := bind_ok_iff.1 h1
      obtain rfl := Except.ok.inj h1
      obtain ⟨rs, h2, h3⟩ := ih _ _ h
      refine ⟨r :: rs, ?_, fun hn => ?_⟩
      · unfold mapPy
        rw [hr, h2]
        rfl
      · have e : dictSet d0 r.1 r.2 = d0 ++ [r] := by
          refine dictSet_new fun hm => ?_
          rw [List.map_append, List.map_cons] at hn
          exact (List.disjoint_of_nodup_append hn) hm (by simp)
        rw [e, List.append_assoc, List.singleton_append] at h3
        exact h3 hn
  obtain ⟨rs, h1, h2⟩ := key ts [] d h
  exact ⟨rs, h1, h2⟩

end Mtln
