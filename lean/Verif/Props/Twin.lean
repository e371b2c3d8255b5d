import Verif.Lemmas.Twin
import Verif.Props.ManagerOrder
import Verif.Props.Terminations
import Verif.Props.Registration

/-! # C63: terminations of lines and of networks -/

namespace Mtln

open Matrix

variable {n p : ℕ}

/-! ## The networks -/

theorem addNodes_config {side : Side} {line : AnyLine p} {name : String} {P : Node → Prop}
    (hP : ∀ (c : Connection) (k x : ℕ) (h : c.conductor < line.1), P
      { id := c.id
        lineName := line.2.name
        lineIndex := c.conductor
        side := side
        bundleName := name
        stateIndex := (List.range k).map (x + ·)
        dx := line.2.dun (match side with | .S => 0 | .L => line.2.m - 1)
        eT := line.2.eT (match side with | .S => 0 | .L => line.2.m) ⟨c.conductor, h⟩ }) :
    ∀ {cs : List Connection} {B B' : NetBuild}, (∀ d ∈ B.nodes, P d) →
      cs.foldlM (fun (B : NetBuild) c => B.addNode side line name c) B = .ok B' →
      (∀ d ∈ B'.nodes, P d) ∧ B'.blocks = B.blocks
  | [], B, B', hB, h => by
    simp only [List.foldlM_nil, pure, Except.pure, Except.ok.injEq] at h
    subst h; exact ⟨hB, rfl⟩
  | c :: cs, B, B', hB, h => by
    simp only [List.foldlM_cons, bind_ok_iff] at h
    obtain ⟨B1, h1, h2⟩ := h
    obtain ⟨-, -, k, -, -, hc, rfl⟩ := NetBuild.addNode_ok_iff.1 h1
    have h3 := fun hB1 => addNodes_config hP (P := P) hB1 h2
    refine h3 ?_
    intro d hd
    rcases List.mem_append.1 hd with hd | hd
    · exact hB d hd
    · obtain rfl := List.mem_singleton.1 hd
      exact hP c k B.stateVars hc

/-- The name of a side in the description of a network. -/
def Side.letter : Side → String
  | .S => "S"
  | .L => "L"

/-- The network built for all conductors at one end of a line and connected to ground. -/
theorem grounds_new {N S : ℕ} {L : MTL n p} {conns : List Connection} {name : String} {side : Side} {nw0 nw : Network N S}
    {R : ℕ → ℝ} {V : ℕ → Option (ℝ → ℝ)} (hE : L.eT = fun _ _ _ => 0)
    (hperm : (conns.map Connection.conductor).Perm (List.range n))
    (hnew : Network.new [⟨⟨n, L⟩, conns, side.letter, name⟩] = .ok ⟨N, S, nw0⟩)
    (hcalls : nw0.calls (conns.map fun c => .ground c.id (R c.conductor) (V c.conductor)) = .ok nw)
    (hR : ∀ j < n, R j ≠ 0) :
    ∃ w : Network n S, (⟨N, S, nw⟩ : AnyNetwork) = ⟨n, S, w⟩ ∧
      w.Grounds name side (L.dun (side.cell L.m)) (L.c (side.node L.m)) (fun a => R a) (fun a => (V a).getD 0) ∧
      w.v = 0 ∧ w.i = 0 := by
  set d : LineConnections p := ⟨⟨n, L⟩, conns, side.letter, name⟩ with hd
  have hside : d.end' = side := by cases side <;> rfl
  have hord := C53_order hnew
  simp only [List.flatMap_cons, List.flatMap_nil, List.append_nil] at hord
  have hsort := C53_sorted d
  have hrange : d.ordered.map Connection.conductor = List.range n := by
    refine List.Perm.eq_of_pairwise (le := fun a b => a ≤ b) (fun a b _ _ => le_antisymm) ?_ ?_
      ((hsort.1.map _).trans hperm)
    · exact List.pairwise_map.2 hsort.2
    · exact (List.pairwise_lt_range (n := n)).imp fun h => le_of_lt h
  have hN : N = n := by
    have h1 := congrArg List.length hord
    have h2 := congrArg List.length hrange
    simp only [List.length_ofFn, List.length_map, List.length_range] at h1 h2
    omega
  subst hN
  have hfresh := new_fresh hnew
  simp only at hfresh
  -- origins
  have horig : ∀ a, ∃ c ∈ conns, (nw0.nodes a).origin = d.origin c := by
    intro a
    have : (nw0.nodes a).origin ∈ d.ordered.map d.origin := by
      rw [← hord]; exact List.mem_ofFn.2 ⟨a, rfl⟩
    obtain ⟨c, hc, e⟩ := List.mem_map.1 this
    exact ⟨c, hsort.1.mem_iff.1 hc, e.symm⟩
  have hrow : ∀ a, (nw0.nodes a).lineIndex = a := by
    have h1 : (List.ofFn fun a => (nw0.nodes a).lineIndex) = List.range N := by
      rw [← hrange]
      have := congrArg (List.map fun x : ℤ × String × ℕ × Side × String => x.2.2.1) hord
      rw [List.map_ofFn, List.map_map] at this
      exact this
    intro a
    have h2 := congrArg (fun l => l[(a : ℕ)]?) h1
    simpa using h2
  -- the rest of the nodes, and the capacitances
  obtain ⟨B, hB, hBe⟩ := networkNew_ok_iff.1 hnew
  simp only [List.foldlM_cons, List.foldlM_nil, bind_ok_iff, pure, Except.pure, Except.ok.injEq, exists_eq_right] at hB
  obtain ⟨-, hB⟩ := NetBuild.addLine_ok_iff.1 hB
  obtain ⟨hnodes, hblocks⟩ := addNodes_config
    (P := fun e => e.dx = L.dun (side.cell L.m) ∧ ∀ t, e.eT t = 0) (by
      intro c k x hc
      refine ⟨?_, fun t => ?_⟩
      · rw [hside]
        cases side <;> rfl
      · show L.eT _ _ _ = 0
        rw [hE]) (by simp) hB
  have hcfg : (∀ a, (nw0.nodes a).dx = L.dun (side.cell L.m) ∧ ∀ t, (nw0.nodes a).eT t = 0) ∧ nw0.cSize = N ∧
      (∀ a b : Fin N, nw0.c a b = L.c (side.node L.m) a b) ∧ nw0.v = 0 ∧ nw0.i = 0 := by
    have hc : ∀ (x : AnyNetwork), x = ⟨_, _, B.finish⟩ → (∀ a, (x.2.2.nodes a).dx = L.dun (side.cell L.m) ∧
        ∀ t, (x.2.2.nodes a).eT t = 0) ∧ x.2.2.cSize = N ∧
        (∀ a b : Fin N, x.2.2.c a b = L.c (side.node L.m) a b) ∧ x.2.2.v = 0 ∧ x.2.2.i = 0 := by
      rintro x rfl
      refine ⟨fun a => hnodes _ (List.get_mem ..), ?_, ?_, rfl, rfl⟩
      · show (B.blocks.map Sigma.fst).sum = N
        rw [hblocks]
        simp [hd]
      · intro a b
        show blockEntry 0 B.blocks a b = _
        rw [hblocks, hside]
        have := blockEntry_inside (z := (0 : ℝ)) (post := []) (A := L.c (side.node L.m)) [] a b
        simp only [List.nil_append, List.map_nil, List.sum_nil, zero_add] at this
        rw [← this]
        cases side <;> rfl
    exact hc _ hBe
  -- the calls
  have hkeep : nw.nodes = nw0.nodes ∧ nw.cSize = nw0.cSize ∧ nw.c = nw0.c ∧ nw.Q1 = 0 ∧ nw.Qs = 0 ∧ nw.O = 0 ∧ nw.M = 0 ∧
      nw.N1 = 0 ∧ nw.Ns = 0 ∧ nw.v = nw0.v ∧ nw.i = nw0.i := by
    refine calls_induct (Q := fun x => x.nodes = nw0.nodes ∧ x.cSize = nw0.cSize ∧ x.c = nw0.c ∧ x.Q1 = 0 ∧ x.Qs = 0 ∧
      x.O = 0 ∧ x.M = 0 ∧ x.N1 = 0 ∧ x.Ns = 0 ∧ x.v = nw0.v ∧ x.i = nw0.i)
      (A := fun c => ∃ id R V, c = .ground id R V) ?_ ?_ hcalls
      ⟨rfl, rfl, rfl, hfresh.Q1, hfresh.Qs, hfresh.O, hfresh.M, hfresh.N1, hfresh.Ns, rfl, rfl⟩
    · rintro x x' _ ⟨id, R, V, rfl⟩ hx hc
      simp only [Network.call, Network.connectToGround, bind_ok_iff] at hc
      obtain ⟨a, -, hc⟩ := hc
      cases V with
      | none =>
        simp only [Except.ok.injEq] at hc
        subst hc
        exact hx
      | some f =>
        simp only [bind_ok_iff, Except.ok.injEq] at hc
        obtain ⟨_, -, rfl⟩ := hc
        exact hx
    · intro c hc
      obtain ⟨x, -, rfl⟩ := List.mem_map.1 hc
      exact ⟨_, _, _, rfl⟩
  obtain ⟨kn, kc, kcc, kQ, kQs, kO, kM, kN1, kNs, kv, ki⟩ := hkeep
  have hids : (conns.map Connection.id).Nodup := by
    have h1 : (List.ofFn fun a => (nw0.nodes a).id) = d.ordered.map Connection.id := by
      have := congrArg (List.map fun x : ℤ × String × ℕ × Side × String => x.1) hord
      rw [List.map_ofFn, List.map_map] at this
      exact this
    have h2 : (d.ordered.map Connection.id).Nodup := by
      rw [← h1]
      exact List.nodup_ofFn.2 hfresh.ids
    exact (hsort.1.map Connection.id).nodup_iff.1 h2
  have hrows : ∀ a, (∀ x, nw.P1.mulVec x a = -(x a / R a)) ∧
      ∀ t, nw.Ps.mulVec (fun b => nw.vSources b t) a = (V a).getD 0 t / R a := by
    intro a
    obtain ⟨c, hc, ho⟩ := horig a
    have hcid : (nw0.nodes a).id = c.id := congrArg (fun x => x.1) ho
    have hcc : c.conductor = a := (congrArg (fun x => x.2.2.1) ho).symm.trans (hrow a)
    obtain ⟨l1, l2, hl⟩ := List.append_of_mem hc
    rw [hl] at hcalls hids
    rw [List.map_append, List.map_cons, List.nodup_append, List.nodup_cons] at hids
    have n1 : ∀ e ∈ l1.map (fun c => Call.ground c.id (R c.conductor) (V c.conductor)), (nw0.nodes a).id ∉ e.nodes := by
      intro e he
      obtain ⟨x, hx, rfl⟩ := List.mem_map.1 he
      rw [hcid]
      simp only [Call.nodes, List.mem_singleton]
      exact fun h => hids.2.2 _ (List.mem_map_of_mem hx) _ (List.mem_cons_self ..) h.symm
    have n2 : ∀ e ∈ l2.map (fun c => Call.ground c.id (R c.conductor) (V c.conductor)), (nw0.nodes a).id ∉ e.nodes := by
      intro e he
      obtain ⟨x, hx, rfl⟩ := List.mem_map.1 he
      rw [hcid]
      simp only [Call.nodes, List.mem_singleton]
      intro h
      exact hids.2.1.1 (List.mem_map.2 ⟨x, hx, h.symm⟩)
    rw [List.map_append, List.map_cons] at hcalls
    have hsrc := fun t => C51_single_source_partial hfresh.ids hfresh.Ps hfresh.src hcalls
      (fun e he => Or.inr (n1 e he)) (fun e he => Or.inr (n2 e he)) t
    obtain ⟨x1, g1, g2⟩ := calls_append.1 hcalls
    obtain ⟨x2, g3, g4⟩ := calls_cons.1 g2
    have hn1 := calls_nodes g1
    have hn2 := (call_nodes g3).trans hn1
    obtain ⟨r1, -, -⟩ := calls_row (a := a) g1 n1
    obtain ⟨r3, -, -⟩ := calls_row (a := a) g4 (by rw [hn2]; exact n2)
    obtain ⟨E, hE', rfl⟩ := call_ok_iff.1 g3
    rw [hasEffect_congr hn1] at hE'
    obtain ⟨b, hfb, -, rfl⟩ := hE'
    obtain rfl : b = a := hfresh.ids ((find_some hfb).trans hcid.symm)
    have hRb : R b ≠ 0 := hR b b.2
    have eP : ∀ j, nw.P1 b j = if j = b then -1 / R b else 0 := by
      intro j
      rw [(r3 j).1]
      show Upd.app _ (x1.P1 b j) = _
      rw [(r1 j).1, hfresh.P1]
      by_cases hj : j = b <;> simp [hj, hRb, hcc, Upd.app]
    refine ⟨fun x => ?_, fun t => ?_⟩
    · rw [mulVec_row eP]; ring
    · rw [hsrc t, hcid, hcc]
      cases hV : V b with
      | none => simp [Call.injection]
      | some f => simp [Call.injection]
  refine ⟨nw, rfl, ?_, kv.trans hcfg.2.2.2.1, ki.trans hcfg.2.2.2.2⟩
  refine ⟨?_, ?_, ?_, ?_, ?_, ?_, fun x a => (hrows a).1 x, fun t a => (hrows a).2 t, kQ, kQs, kO, kM, kN1, kNs⟩
  · intro a
    rw [kn]
    obtain ⟨c, -, ho⟩ := horig a
    exact congrArg (fun x => x.2.2.2.2) ho
  · rw [kn]; exact hrow
  · intro a
    rw [kn]
    obtain ⟨c, -, ho⟩ := horig a
    exact (congrArg (fun x => x.2.2.2.1) ho).trans hside
  · rw [kn]; exact fun a => (hcfg.1 a).2
  · rw [kc]; exact hcfg.2.1
  · ext a b
    rw [Network.dxc, Matrix.of_apply, kn, kcc, (hcfg.1 a).1, hcfg.2.2.1]
    rfl

/-! ## The manager -/

theorem register_level_zero {bs : List (AnyBundle p)} {N S : ℕ} {w : Network N S} {b : AnyBundle p}
    (hb : ∀ a, findBundle bs (w.nodes a).bundleName = some b) :
    NetworkD.updateIndexNumbers bs [(0, ⟨N, S, w⟩)] = .ok [(0, ⟨N, S, w⟩)] := by
  rw [updateIndexNumbers_ok_iff]
  refine ⟨?_, ?_⟩
  · intro e he a
    obtain rfl := List.mem_singleton.1 he
    rw [hb a]
    simp
  · have h1 : w.registered bs 0 = w := by
      unfold Network.registered
      have : (fun a => (w.nodes a).registered bs 0) = w.nodes := by
        funext a
        unfold Node.registered
        rw [hb a]
        rfl
      rw [this]
    simp only [List.map_cons, List.map_nil, h1]

/-- The manager with the bundle of one line and its two networks of grounds follows the line. -/
theorem twin_manager (keep : Bool) {L L' : MTL n p} {name : String} {cS cL : List Connection}
    {NS SS NL SL : ℕ} {uS wS : Network NS SS} {uL wL : Network NL SL} {RS RL : ℕ → ℝ} {VS VL : ℕ → Option (ℝ → ℝ)}
    {T : ℝ} {B : MTLD n p} (hB : B = { MTLD.single L name with probes := if keep then L.probes else [] })
    -- the line: at rest, without fields, with consistent terms
    (hm : L.m ≠ 0) (hdt : L.dt ≤ 10 ^ 10) (hv : L.v = fun _ => 0) (hi : L.i = fun _ => 0) (hphi : L.phi = fun _ _ => 0)
    (htime : L.time = 0) (heL : L.eL = fun _ _ _ => 0) (heT : L.eT = fun _ _ _ => 0) (hterm : L.TermConsistent)
    (hsum : L.conn.SumsCached) (hgS : L.g 0 = 0) (hgL : L.g L.m = 0)
    -- its terminations
    (hzs : L.zs = diagonal fun a : Fin n => RS a) (hzl : L.zl = diagonal fun a : Fin n => RL a)
    (hRS : ∀ j < n, 0 < RS j) (hRL : ∀ j < n, 0 < RL j)
    (hsS : ∀ a : Fin n, L.vSources 0 a = (VS a).getD 0) (hsL : ∀ a : Fin n, L.vSources L.m a = (VL a).getD 0)
    -- the manager
    (hcS : (cS.map Connection.conductor).Perm (List.range n)) (hcL : (cL.map Connection.conductor).Perm (List.range n))
    (hnS : Network.new [⟨⟨n, L⟩, cS, "S", name⟩] = .ok ⟨NS, SS, uS⟩)
    (hnL : Network.new [⟨⟨n, L⟩, cL, "L", name⟩] = .ok ⟨NL, SL, uL⟩)
    (hwS : uS.calls (cS.map fun c => .ground c.id (RS c.conductor) (VS c.conductor)) = .ok wS)
    (hwL : uL.calls (cL.map fun c => .ground c.id (RL c.conductor) (VL c.conductor)) = .ok wL)
    (hrun : L.runUntil T = .ok L') :
    ∃ (M M' : MTLN p) (b : MTLD n p), MTLN.new [⟨n, B⟩] [[(0, ⟨NS, SS, wS⟩)], [(0, ⟨NL, SL, wL⟩)]] = .ok M ∧
      M.runUntil T 0 = .ok M' ∧ M'.bundles = [⟨n, b⟩] ∧ b.v = L'.v ∧ b.i = L'.i ∧
      b.probes = if keep then L'.probes else [] := by
  obtain ⟨w₁, e₁, g₁, v₁, i₁⟩ := grounds_new (side := .S) heT hcS hnS hwS fun j hj => (hRS j hj).ne'
  obtain ⟨w₂, e₂, g₂, v₂, i₂⟩ := grounds_new (side := .L) heT hcL hnL hwL fun j hj => (hRL j hj).ne'
  rw [e₁, e₂]
  obtain ⟨hdt0, hN⟩ : L.dt ≠ 0 ∧ True := ⟨((runUntil_ok_iff _ _ _).1 hrun).1, trivial⟩
  have hsdt : B.dt = L.dt := by
    rw [hB]
    show (if L.dt < 10 ^ 10 then L.dt else 10 ^ 10) = L.dt
    split
    · rfl
    · linarith
  have hfS : ∀ a, findBundle [(⟨n, B⟩ : AnyBundle p)] (w₁.nodes a).bundleName = some ⟨n, B⟩ := by
    intro a; rw [g₁.bundle]; simp [findBundle, hB, MTLD.single]
  have hfL : ∀ a, findBundle [(⟨n, B⟩ : AnyBundle p)] (w₂.nodes a).bundleName = some ⟨n, B⟩ := by
    intro a; rw [g₂.bundle]; simp [findBundle, hB, MTLD.single]
  have hnew : MTLN.new [⟨n, B⟩] [[(0, ⟨n, SS, w₁⟩)], [(0, ⟨n, SL, w₂⟩)]] =
      .ok (twinManager B w₁ w₂ 0 L.dt) := by
    rw [managerNew_ok_iff]
    refine ⟨by simp [names], ?_, rfl, ?_, rfl⟩
    · rw [show (twinManager B w₁ w₂ 0 L.dt).dt = L.dt from rfl]
      constructor
      · right
        exact ⟨_, List.mem_singleton_self _, hsdt.symm⟩
      · rintro t (rfl | ⟨b, hb, rfl⟩)
        · exact hdt
        · obtain rfl := List.mem_singleton.1 hb
          exact hsdt.ge
    · simp only [mapPy, register_level_zero hfS, register_level_zero hfL, bind, Except.bind, twinManager]
  -- the start of the runs
  have hrun' := hrun
  unfold MTL.runUntil at hrun'
  simp only [bind_ok_iff] at hrun'
  obtain ⟨N, hlen, L1, h1, L2, h2, hiter⟩ := hrun'
  obtain ⟨lr, hlr, rfl⟩ : ∃ lr, updateLr L.m L.dt L.dun L.l L.r L.conn = .ok lr ∧ L1 = { L with lr := some lr } := by
    simp only [MTL.updateLrTerms, bind_ok_iff, Except.ok.injEq] at h1
    obtain ⟨lr, a, rfl⟩ := h1
    exact ⟨lr, a, rfl⟩
  obtain ⟨cg, hcg, rfl⟩ : ∃ cg, updateCg L.m L.dt L.dun L.c L.g = .ok cg ∧ L2 = { L with lr := some lr, cg := some cg } := by
    simp only [MTL.updateCgTerms, bind_ok_iff, Except.ok.injEq] at h2
    obtain ⟨cg, a, rfl⟩ := h2
    exact ⟨cg, a, rfl⟩
  obtain ⟨c₁, hc₁⟩ : ∃ c₁, w₁.computeVTerms L.dt = .ok c₁ := by
    unfold Network.computeVTerms
    simp only [bind_ok_iff, raiseIf_ok_iff, not_not]
    exact ⟨_, (), g₁.cSize, (), hdt0, rfl⟩
  obtain ⟨c₂, hc₂⟩ : ∃ c₂, w₂.computeVTerms L.dt = .ok c₂ := by
    unfold Network.computeVTerms
    simp only [bind_ok_iff, raiseIf_ok_iff, not_not]
    exact ⟨_, (), g₂.cSize, (), hdt0, rfl⟩
  obtain ⟨b0, hb0⟩ : ∃ b0 : MTLD n p, b0 = { B with lr := some lr, cg := some cg, probes := B.probes.map (Probe.resizeFrames N) } := ⟨_, rfl⟩
  have htz : ∀ k, lrF1 L.dt L.dun L.l L.r B.tz k = lrF1 L.dt L.dun L.l L.r L.conn k ∧
      lrF2 L.dt L.dun L.l L.r B.tz k = lrF2 L.dt L.dun L.l L.r L.conn k := by
    intro k
    simp only [lrF1, lrF2, hB, MTLD.single, hsum.q1, hsum.q2, and_self]
  have hbstart : B.start N = .ok b0 := by
    rw [MTLD.start_ok_iff]
    refine ⟨lr, cg, ?_, ?_, ?_⟩
    · rw [← hlr, hsdt]
      subst hB
      show updateLr L.m L.dt L.dun L.l L.r _ = _
      unfold updateLr
      simp only [fun k => (htz k).1, fun k => (htz k).2]
    · rw [← hcg, hsdt]
      subst hB
      rfl
    · rw [hb0]
  have hstart : (twinManager B w₁ w₂ 0 L.dt).start T 0 = .ok (N, twinManager b0 c₁ c₂ 0 L.dt) := by
    have hov : (twinManager B w₁ w₂ 0 L.dt).overrideDt 0 =
        twinManager B w₁ w₂ 0 L.dt := by
      unfold MTLN.overrideDt
      rw [if_neg (by simp)]
    have hrd : (twinManager B w₁ w₂ 0 L.dt).runDt 0 = L.dt := by
      unfold MTLN.runDt
      rw [hov]
      rfl
    rw [MTLN.start_ok_iff, hrd, hov]
    obtain ⟨-, hNe⟩ := timeRangeLen_ok_iff.1 hlen
    have f₁ := forAll_single (f := Network.computeVTerms L.dt) hc₁
    have f₂ := forAll_single (f := Network.computeVTerms L.dt) hc₂
    refine ⟨[[(0, ⟨n, SS, c₁⟩)], [(0, ⟨n, SL, c₂⟩)]], [⟨n, b0⟩], ?_, hdt0, hNe, ?_, rfl⟩
    · simp only [twinManager, mapPy, NetworkD.computeVTerms, f₁, f₂, bind, Except.bind]
    · simp [twinManager, mapPy, onBundle, hbstart, bind, Except.bind]
  have htwin : Twin keep (fun a => RS a) (fun a => RL a) (fun a => (VS a).getD 0) (fun a => (VL a).getD 0) name
      { L with lr := some lr, cg := some cg, probes := L.probes.map (Probe.resizeFrames N) } 0 b0 c₁ c₂ := by
    obtain ⟨-, -, q₁⟩ := computeVTerms_ok_iff.1 hc₁
    obtain ⟨-, -, q₂⟩ := computeVTerms_ok_iff.1 hc₂
    subst hb0
    subst hB
    constructor
    · exact hm
    · exact hzs
    · exact hzl
    · exact hgS
    · exact hgL
    · intro a t; exact congrFun (hsS a) t
    · intro a t; exact congrFun (hsL a) t
    · exact heL
    · exact heT
    · exact ⟨hterm.det_left, hterm.det_right, hterm.left1, hterm.left2, hterm.right1, hterm.right2⟩
    · rfl
    · rfl
    · rfl
    · rfl
    · funext ph x y
      rfl
    · rfl
    · rfl
    · cases keep <;> rfl
    · rfl
    · rfl
    · exact htime.symm
    · exact hv.symm
    · exact hi.symm
    · exact hphi.symm
    · rw [q₁]; exact g₁.sameCircuit ⟨rfl, rfl, rfl, rfl, rfl, rfl, rfl, rfl, rfl, rfl⟩ rfl rfl
    · rw [q₂]; exact g₂.sameCircuit ⟨rfl, rfl, rfl, rfl, rfl, rfl, rfl, rfl, rfl, rfl⟩ rfl rfl
    · exact computeVTerms_prepared hc₁
    · exact computeVTerms_prepared hc₂
    · rw [q₁]; exact v₁.trans (congrFun hv 0).symm
    · rw [q₂]; exact v₂.trans (congrFun hv L.m).symm
    · rw [q₁]; exact i₁.trans (congrFun hi 0).symm
    · rw [q₂]; exact i₂.trans (by rw [hi]; simp)
  obtain ⟨b', w₁', w₂', time', hi', htw⟩ := htwin.iterate (fun a => (hRS a a.2).ne') (fun a => (hRL a a.2).ne') hiter
  refine ⟨_, _, b', hnew, bind_ok_iff.2 ⟨_, hstart, hi'⟩, rfl, htw.v, htw.i, htw.bprobes⟩

/-- **C63.** A line at rest with diagonal termination impedances and without conductance at its two ends, and the same
line in a manager whose networks connect each conductor to ground through the same resistance and source, have the same
voltages and currents. -/
theorem C63_terminations {L L' : MTL n p} {B : AnyBundle p} {name : String} {cS cL : List Connection}
    {NS SS NL SL : ℕ} {uS wS : Network NS SS} {uL wL : Network NL SL} {RS RL : ℕ → ℝ} {VS VL : ℕ → Option (ℝ → ℝ)}
    {T : ℝ}
    -- the line: at rest, without fields, with consistent terms
    (hm : L.m ≠ 0) (hdt : L.dt ≤ 10 ^ 10) (hv : L.v = fun _ => 0) (hi : L.i = fun _ => 0) (hphi : L.phi = fun _ _ => 0)
    (htime : L.time = 0) (heL : L.eL = fun _ _ _ => 0) (heT : L.eT = fun _ _ _ => 0) (hterm : L.TermConsistent)
    (hsum : L.conn.SumsCached) (hgS : L.g 0 = 0) (hgL : L.g L.m = 0)
    -- its terminations
    (hzs : L.zs = diagonal fun a : Fin n => RS a) (hzl : L.zl = diagonal fun a : Fin n => RL a)
    (hRS : ∀ j < n, 0 < RS j) (hRL : ∀ j < n, 0 < RL j)
    (hsS : ∀ a : Fin n, L.vSources 0 a = (VS a).getD 0) (hsL : ∀ a : Fin n, L.vSources L.m a = (VL a).getD 0)
    -- the manager
    (hB : MTLD.new [[⟨n, L⟩]] name = .ok B)
    (hcS : (cS.map Connection.conductor).Perm (List.range n)) (hcL : (cL.map Connection.conductor).Perm (List.range n))
    (hnS : Network.new [⟨⟨n, L⟩, cS, "S", name⟩] = .ok ⟨NS, SS, uS⟩)
    (hnL : Network.new [⟨⟨n, L⟩, cL, "L", name⟩] = .ok ⟨NL, SL, uL⟩)
    (hwS : uS.calls (cS.map fun c => .ground c.id (RS c.conductor) (VS c.conductor)) = .ok wS)
    (hwL : uL.calls (cL.map fun c => .ground c.id (RL c.conductor) (VL c.conductor)) = .ok wL)
    (hrun : L.runUntil T = .ok L') :
    ∃ (M M' : MTLN p) (b : MTLD n p), MTLN.new [B] [[(0, ⟨NS, SS, wS⟩)], [(0, ⟨NL, SL, wL⟩)]] = .ok M ∧
      M.runUntil T 0 = .ok M' ∧ M'.bundles = [⟨n, b⟩] ∧ b.v = L'.v ∧ b.i = L'.i := by
  rw [single_new, Except.ok.injEq] at hB
  subst hB
  obtain ⟨M, M', b, h1, h2, h3, h4, h5, -⟩ := twin_manager false (B := MTLD.single L name) rfl hm hdt hv hi hphi htime heL heT
    hterm hsum hgS hgL hzs hzl hRS hRL hsS hsL hcS hcL hnS hnL hwS hwL hrun
  exact ⟨M, M', b, h1, h2, h3, h4, h5⟩

theorem demoTwin_net (side : Side) : ∃ (u : Network 1 0), Network.new
    [⟨⟨1, demoLine 0⟩, [{ id := 0, conductor := 0, connector := { connectorType := "Conn_R" } }], side.letter, "b"⟩] =
      .ok ⟨1, 0, u⟩ ∧ (u.nodes 0).id = 0 := by
  refine ⟨NetBuild.finish ⟨[⟨0, "demo", 0, side, "b", [], 1, fun _ => 0⟩], 0, [⟨1, fun _ _ => 1⟩]⟩,
    networkNew_ok_iff.2 ⟨⟨[⟨0, "demo", 0, side, "b", [], 1, fun _ => 0⟩], 0, [⟨1, fun _ _ => 1⟩]⟩, ?_, rfl⟩, rfl⟩
  have h1 : ((1 : Mat 1) : Mat 1) = fun _ _ => 1 := by
    ext a b
    rw [Subsingleton.elim a b, Matrix.one_apply_eq]
  cases side <;>
  simp [NetBuild.addLine, NetBuild.addNode, bind, Except.bind, pyAssert, raiseIf, stateVarsIn,
    List.insertionSort, List.orderedInsert, demoLine, demoBare, pure, Except.pure, Side.letter, h1]

/-- Non-vacuity of C63: the demo line with its step source at the left end. -/
example (T : ℝ) : ∃ (L' : MTL 1 0) (B : AnyBundle 0) (M M' : MTLN 0) (b : MTLD 1 0) (wS wL : Network 1 0),
    (demoLine 0).runUntil T = .ok L' ∧ MTLD.new [[⟨1, demoLine 0⟩]] "b" = .ok B ∧
    MTLN.new [B] [[(0, ⟨1, 0, wS⟩)], [(0, ⟨1, 0, wL⟩)]] = .ok M ∧ M.runUntil T 0 = .ok M' ∧ M'.bundles = [⟨1, b⟩] ∧
    b.v = L'.v ∧ b.i = L'.i := by
  obtain ⟨L', hL'⟩ := demo_run 0 T
  obtain ⟨uS, hS, iS⟩ := demoTwin_net .S
  obtain ⟨uL, hL, iL⟩ := demoTwin_net .L
  have hcall : ∀ (u : Network 1 0) (V : Option (ℝ → ℝ)), (u.nodes 0).id = 0 → ∃ w, u.calls [.ground 0 1 V] = .ok w := by
    intro u V hu
    have hf : u.find 0 = some 0 := by
      unfold Network.find
      simp [List.finRange_succ, hu]
    cases V <;> simp [Network.calls, Network.call, Network.connectToGround, Network.assertNode, hf, bind, Except.bind,
      raiseIf, pure, Except.pure]
  obtain ⟨wS, hwS⟩ := hcall uS (some fun t => if 0 ≤ t then 1 else 0) iS
  obtain ⟨wL, hwL⟩ := hcall uL none iL
  obtain ⟨M, M', b, h1, h2, h3, h4, h5⟩ := C63_terminations (L := demoLine 0) (RS := fun _ => 1) (RL := fun _ => 1)
    (VS := fun _ => some fun t => if 0 ≤ t then 1 else 0) (VL := fun _ => none) (by simp [demoLine, demoBare])
    (by norm_num [demoLine, demoBare]) rfl rfl rfl rfl rfl rfl (demo_termConsistent 0)
    ⟨by funext k; ext a b; simp [demoLine, demoBare, Disp.new, vSum, QEntry.val, poleSum],
      by funext k; ext a b; simp [demoLine, demoBare, Disp.new, vSum, QEntry.val, poleSum]⟩ rfl rfl
    (by rw [show (demoLine 0).zs = 1 from rfl, diagonal_one]) (by rw [show (demoLine 0).zl = 1 from rfl, diagonal_one])
    (fun _ _ => one_pos) (fun _ _ => one_pos)
    (by intro a; funext t; simp [demoLine]) (by intro a; funext t; simp [demoLine, demoBare])
    (single_new _ "b") (by simp) (by simp) hS hL hwS hwL hL'
  exact ⟨L', _, M, M', b, wS, wL, hL', single_new _ "b", h1, h2, h3, h4, h5⟩

end Mtln
