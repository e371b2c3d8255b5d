import Verif.Lemmas.ManagerRun
import Verif.Lemmas.Block

/-! # Bundles of one line, and managers whose runs succeed -/

namespace Mtln

variable {n p : ℕ}

/-- The bundle of one line. -/
noncomputable def MTLD.single (L : MTL n p) (name : String) : MTLD n p where
  name := name
  m := L.m
  u := L.u
  du := L.du
  dun := L.dun
  l := L.l
  c := L.c
  r := L.r
  g := L.g
  dt := if L.dt < 10 ^ 10 then L.dt else 10 ^ 10
  v := fun _ => 0
  i := fun _ => 0
  phi := fun _ _ => 0
  probes := []
  tz :=
    { dt := if L.dt < 10 ^ 10 then L.dt else 10 ^ 10
      q1 := L.conn.q1
      q2 := L.conn.q2
      q3 := L.conn.q3
      d := L.conn.d
      e := L.conn.e
      q1sum := vSum L.conn.q1
      q2sum := vSum L.conn.q2 }
  eL := fun _ _ _ => 0
  eT := fun _ _ _ => 0
  inLevel := [n]
  lr := none
  cg := none

theorem blockMat_single (L : MTL n p) (f : ∀ {n}, MTL n p → ℕ → Mat n) :
    (blockMat n [⟨n, L⟩] f : ℕ → Mat n) = f L := by
  funext k
  ext a b
  simp [blockMat, blockEntry]

theorem blockQ_single (L : MTL n p) (f : ∀ {n}, MTL n p → ℕ → Fin n → Fin n → QEntry p) :
    (blockQ n [⟨n, L⟩] f : ℕ → Fin n → Fin n → QEntry p) = f L := by
  funext k a b
  simp [blockQ, blockEntry]

theorem single_new (L : MTL n p) (name : String) :
    MTLD.new [[⟨n, L⟩]] name = .ok ⟨n, MTLD.single L name⟩ := by
  have e : MTLD.assemble ⟨n, L⟩ [[⟨n, L⟩]] name = MTLD.single L name := by
    unfold MTLD.assemble MTLD.single
    have h1 := fun (f : ∀ {n}, MTL n p → ℕ → Mat n) => blockMat_single L f
    have h2 := fun (f : ∀ {n}, MTL n p → ℕ → Fin n → Fin n → QEntry p) => blockQ_single L f
    congr 1
    · exact h1 _
    · exact h1 _
    · exact h1 _
    · exact h1 _
    · congr 1
      · exact h2 _
      · exact h2 _
      · exact h2 _
      · exact h1 _
      · exact h1 _
      · exact congrArg vSum (h2 _)
      · exact congrArg vSum (h2 _)
  unfold MTLD.new
  simp only
  rw [if_pos]
  · exact congrArg (fun b => Except.ok (⟨n, b⟩ : Σ n, MTLD n p)) e
  · intro L' hL
    simp at hL
    subst hL
    exact ⟨rfl, fun _ _ => rfl⟩

/-- Everything a run needs. -/
structure MTLN.Startable (M : MTLN p) (dt : ℝ) : Prop where
  step : M.runDt dt ≠ 0
  bundles : ∀ b ∈ (M.overrideDt dt).bundles, (∃ lr, updateLr b.2.m b.2.dt b.2.dun b.2.l b.2.r b.2.tz = .ok lr) ∧
    (∃ cg, updateCg b.2.m b.2.dt b.2.dun b.2.c b.2.g = .ok cg) ∧ ∀ q ∈ b.2.probes, q.Valid
  nets : ∀ nwd ∈ M.networks, ∀ e ∈ nwd, e.2.2.2.cSize = e.2.1 ∧ (e.2.2.2.system (M.runDt dt)).det ≠ 0
  nodes : ∀ d ∈ allNodes M.networks, ∃ b, findBundle M.bundles d.bundleName = some b ∧ d.lineIndex < b.1 ∧ b.2.m ≠ 0

theorem MTLN.Startable.start {M : MTLN p} {dt : ℝ} (h : M.Startable dt) (T : ℝ) :
    ∃ k M0, M.start T dt = .ok (k, M0) ∧ M0.Runnable := by
  obtain ⟨nws, h1⟩ : ∃ nws, mapPy (NetworkD.computeVTerms (M.runDt dt)) M.networks = .ok nws := by
    refine mapPy_exists fun nwd hnwd => mapPy_exists fun e he => ?_
    obtain ⟨hc, hd⟩ := h.nets nwd hnwd e he
    obtain ⟨c, hc⟩ : ∃ c, e.2.2.2.computeVTerms (M.runDt dt) = .ok c := by
      unfold Network.computeVTerms
      simp only [bind_ok_iff, raiseIf_ok_iff, not_not]
      exact ⟨_, (), hc, (), h.step, rfl⟩
    simp only [bind_ok_iff, onAny]
    exact ⟨_, _, ⟨c, hc, rfl⟩, rfl⟩
  obtain ⟨bs, h2⟩ : ∃ bs, mapPy (onBundle (MTLD.start ⌊T / M.runDt dt⌋.toNat)) (M.overrideDt dt).bundles = .ok bs := by
    refine mapPy_exists fun b hb => ?_
    obtain ⟨⟨lr, hlr⟩, ⟨cg, hcg⟩, hp⟩ := h.bundles b hb
    simp only [onBundle_ok_iff, MTLD.start_ok_iff]
    exact ⟨_, _, ⟨lr, cg, hlr, hcg, rfl⟩, rfl⟩
  have hname : ∀ {n} {b b' : MTLD n p}, b.start ⌊T / M.runDt dt⌋.toNat = .ok b' → b'.name = b.name := by
    intro n b b' h
    obtain ⟨lr, cg, -, -, rfl⟩ := MTLD.start_ok_iff.1 h
    rfl
  refine ⟨_, _, MTLN.start_ok_iff.2 ⟨nws, bs, h1, h.step, rfl, h2, rfl⟩, ?_, ?_, ?_, ?_⟩
  · exact h.step
  · intro b hb
    obtain ⟨b0, hb0, hs⟩ := mapPy_mem h2 b hb
    obtain ⟨-, -, hp⟩ := h.bundles b0 hb0
    obtain ⟨c, hs', rfl⟩ := onBundle_ok_iff.1 hs
    obtain ⟨lr, cg, -, -, rfl⟩ := MTLD.start_ok_iff.1 hs'
    refine ⟨⟨lr, rfl⟩, ⟨cg, rfl⟩, ?_⟩
    intro q hq
    obtain ⟨q0, hq0, rfl⟩ := List.mem_map.1 hq
    exact hp q0 hq0
  · intro nwd hnwd e he
    obtain ⟨nwd0, hnwd0, hs⟩ := mapPy_mem h1 nwd hnwd
    obtain ⟨e0, he0, hs'⟩ := mapPy_mem hs e he
    obtain ⟨hc, hd⟩ := h.nets nwd0 hnwd0 e0 he0
    simp only [bind_ok_iff, onAny_ok_iff, Except.ok.injEq] at hs'
    obtain ⟨_, ⟨nw, h3, rfl⟩, rfl⟩ := hs'
    obtain ⟨-, -, rfl⟩ := computeVTerms_ok_iff.1 h3
    exact ⟨_, rfl, hc, hd⟩
  · intro d hd
    rw [show allNodes _ = allNodes M.networks from allNodes_compute h1] at hd
    obtain ⟨b, hb, hrow, hm⟩ := h.nodes d hd
    have hfind := mapPy_onBundle_find (f := MTLD.start ⌊T / M.runDt dt⌋.toNat) hname h2
    have hb' : ∃ b', findBundle (M.overrideDt dt).bundles d.bundleName = some b' ∧ b'.1 = b.1 ∧ b'.2.m = b.2.m := by
      unfold MTLN.overrideDt
      split
      · refine ⟨⟨b.1, b.2.withDt dt⟩, ?_, rfl, rfl⟩
        rw [findBundle_map M.bundles (fun b => b.withDt dt) (fun b => rfl), hb]
        rfl
      · exact ⟨b, hb, rfl, rfl⟩
    obtain ⟨b', hb', e1, e2⟩ := hb'
    obtain ⟨c, hc, hf⟩ := (hfind d.bundleName).2 b' hb'
    obtain ⟨lr, cg, -, -, rfl⟩ := MTLD.start_ok_iff.1 hc
    exact ⟨_, hf, by rw [← e1] at hrow; exact hrow, by rw [← e2] at hm; exact hm⟩

/-- A run whose preconditions hold succeeds. -/
theorem MTLN.Startable.run {M : MTLN p} {dt : ℝ} (h : M.Startable dt) (T : ℝ) : ∃ M', M.runUntil T dt = .ok M' := by
  obtain ⟨k, M0, h0, hr⟩ := h.start T
  obtain ⟨M', h'⟩ := hr.iter k
  exact ⟨M', bind_ok_iff.2 ⟨(k, M0), h0, h'⟩⟩

end Mtln
