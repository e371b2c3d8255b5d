import Verif.Lemmas.ManagerRun
import Verif.Props.Registration

/-! # Properties of the manager: C02, C44, C52, C59, C60 -/

namespace Mtln

variable {n p : ℕ}

/-! ## C02 -/

/-- **C02.** After `run_until(T, dt)` every probe of every bundle holds exactly `⌊T/dt⌋` frames (none if that is
negative), where `dt` is the time step of the manager in that run; frame `j` has time `t₀ + (j+1) dt` (plus half the
probe's own `dt` for current probes) and the values the bundle has at the probe's node (cell) after `j + 1` steps. -/
theorem C02_run_frames (M M' : MTLN p) (T dt : ℝ) (h : M.runUntil T dt = .ok M') :
    ∃ (M0 : MTLN p) (tr : ℕ → MTLN p), M.start T dt = .ok (⌊T / M.runDt dt⌋.toNat, M0) ∧ tr 0 = M0 ∧
      tr ⌊T / M.runDt dt⌋.toNat = M' ∧ (∀ j < ⌊T / M.runDt dt⌋.toNat, (tr j).step = .ok (tr (j + 1))) ∧
      ∀ (x n : ℕ) (b : MTLD n p), M.bundles[x]? = some ⟨n, b⟩ → ∃ f : ℕ → MTLD n p,
        (∀ j ≤ ⌊T / M.runDt dt⌋.toNat, (tr j).bundles[x]? = some ⟨n, f j⟩) ∧
        (f ⌊T / M.runDt dt⌋.toNat).probes.length = b.probes.length ∧
        ∀ (a : ℕ) (q q' : Probe n), b.probes[a]? = some q → (f ⌊T / M.runDt dt⌋.toNat).probes[a]? = some q' →
          q'.type = q.type ∧ q'.index = q.index ∧
          q'.t = (List.range ⌊T / M.runDt dt⌋.toNat).map (fun j : ℕ =>
            if q.type = "voltage" then M.time + (j + 1) * M.runDt dt else M.time + (j + 1) * M.runDt dt + q.dt / 2) ∧
          q'.val = .rows ((List.range ⌊T / M.runDt dt⌋.toNat).map fun j =>
            if q.type = "voltage" then (f (j + 1)).v q.index
            else if q.index = b.m then (f (j + 1)).i (q.index - 1) else (f (j + 1)).i q.index) := by
  obtain ⟨k, M0, h0, tr, htr0, htrk, hs⟩ := MTLN.runUntil_ok_iff.1 h
  obtain ⟨e1, e2, e3, -, -⟩ := MTLN.start_config h0
  subst e3
  refine ⟨M0, tr, h0, htr0, htrk, hs, ?_⟩
  intro x n b hb
  obtain ⟨lr, cg, hb0, -, -⟩ := MTLN.start_bundle h0 hb
  rw [← htr0] at hb0
  obtain ⟨f, hf0, hf, hstep⟩ := MTLN.trace_bundle hs hb0
  have hstep' : ∀ j < ⌊T / M.runDt dt⌋.toNat, ∃ ws,
      (f j).stepWith (M.time + j * M.runDt dt) (M.runDt dt) ws = .ok (f (j + 1)) := by
    intro j hj
    obtain ⟨nws1, -, hws⟩ := hstep j hj
    obtain ⟨c1, c2, -⟩ := MTLN.trace_config hs j hj.le
    rw [c1, c2, htr0, e1, e2] at hws
    exact ⟨_, hws⟩
  have hp := probes_along (ps := b.probes) (by rw [hf0]) hstep' _ le_rfl
  obtain ⟨-, hp⟩ := hp
  have hm : (f 0).m = b.m := by rw [hf0]
  refine ⟨f, hf, by rw [hp, List.length_map], ?_⟩
  intro a q q' hq hq'
  rw [hp, List.getElem?_map, hq] at hq'
  simp only [Option.map_some, Option.some.injEq] at hq'
  subst hq'
  refine ⟨rfl, rfl, ?_, ?_⟩
  · simp only [Probe.recorded, filled_full, Probe.stamp]
    push_cast
    rfl
  · simp only [Probe.recorded, filled_full, Probe.column, hm]

/-- **C02**, the time step: the given one, or, for the default `0`, the manager's. -/
theorem C02_time_step (M M' : MTLN p) (T dt : ℝ) (h : M.runUntil T dt = .ok M') :
    (dt ≠ 0 → M.runDt dt = dt) ∧ (dt = 0 → M.runDt dt = M.dt) ∧ M'.dt = M.runDt dt ∧
      M'.time = M.time + ⌊T / M.runDt dt⌋.toNat * M.runDt dt := by
  refine ⟨fun hdt => by rw [MTLN.runDt_eq, if_pos hdt], fun hdt => by rw [MTLN.runDt_eq, if_neg (not_not.2 hdt)], ?_⟩
  obtain ⟨k, M0, h0, tr, htr0, htrk, hs⟩ := MTLN.runUntil_ok_iff.1 h
  obtain ⟨e1, e2, e3, -, -⟩ := MTLN.start_config h0
  subst e3
  obtain ⟨c1, c2, -⟩ := MTLN.trace_config hs _ le_rfl
  rw [htrk, htr0] at c1 c2
  exact ⟨by rw [c2, e2], by rw [c1, e1, e2]⟩

/-! ## C44 -/

/-- **C44.** The end voltage of a bundle conductor to which no network node is attached is the same after a run (of any
length) as before. -/
theorem C44_unconnected_ends (M M' : MTLN p) (T dt : ℝ) (h : M.runUntil T dt = .ok M') (x : ℕ) (b : MTLD n p)
    (hb : M.bundles[x]? = some ⟨n, b⟩) : ∃ b' : MTLD n p, M'.bundles[x]? = some ⟨n, b'⟩ ∧
      ∀ (side : Side) (j : Fin n),
        (∀ nwd ∈ M.networks, ∀ e ∈ nwd, ∀ a, ¬ ((e.2.2.2.nodes a).bundleName = b.name ∧
          (e.2.2.2.nodes a).side.node b.m = side.node b.m ∧ (e.2.2.2.nodes a).lineIndex = j)) →
        b'.v (side.node b.m) j = b.v (side.node b.m) j := by
  obtain ⟨k, M0, h0, tr, htr0, htrk, hs⟩ := MTLN.runUntil_ok_iff.1 h
  obtain ⟨lr, cg, hb0, -, -⟩ := MTLN.start_bundle h0 hb
  obtain ⟨-, -, -, hnodes, -⟩ := MTLN.start_config h0
  rw [← htr0] at hb0 hnodes
  obtain ⟨f, hf0, hf, hstep⟩ := MTLN.trace_bundle hs hb0
  refine ⟨f k, by rw [← htrk]; exact hf k le_rfl, ?_⟩
  intro side j hfree
  have hfree' : ∀ d ∈ allNodes M.networks, ¬ (d.bundleName = b.name ∧ d.side.node b.m = side.node b.m ∧
      d.lineIndex = j) := by
    intro d hd
    simp only [allNodes, List.mem_flatMap] at hd
    obtain ⟨nwd, hnwd, e, he, hd⟩ := hd
    simp only [List.mem_ofFn] at hd
    obtain ⟨a, rfl⟩ := hd
    exact hfree nwd hnwd e he a
  have key : ∀ i ≤ k, (f i).name = b.name ∧ (f i).m = b.m ∧ (f i).v (side.node b.m) j = b.v (side.node b.m) j := by
    intro i
    induction i with
    | zero => intro _; rw [hf0]; exact ⟨rfl, rfl, rfl⟩
    | succ i ih =>
      intro hi
      obtain ⟨h1, h2, h3⟩ := ih (by omega)
      obtain ⟨nws1, hadv, hst⟩ := hstep i (by omega)
      obtain ⟨lr', cg', -, -, -, he⟩ := MTLD.stepWith_ok_iff.1 hst
      refine ⟨by rw [he]; exact h1, by rw [he]; exact h2, ?_⟩
      rw [he]
      show (MTLD.hit (allWrites nws1) _).v _ _ = _
      rw [MTLD.hit_other]
      · show advanceVoltage (f i).m cg' _ _ _ _ _ = _
        rw [h2, ← h3]
        unfold advanceVoltage
        rw [if_neg]
        cases side <;> simp [Side.node]
      · intro w hw
        obtain ⟨d, hd, hd'⟩ := allWrites_mem hw
        rw [allNodes_advance hadv, (MTLN.trace_config hs i (by omega)).2.2, hnodes] at hd
        rintro ⟨t1, t2, t3⟩
        simp only [Node.end', Write.target, End.mk.injEq] at hd' t1 t2 t3
        refine hfree' d hd ⟨by rw [hd'.1, ← t1, h1], ?_, by rw [hd'.2.1, t3]⟩
        rw [hd'.2.2, ← h2, ← t2, h2]
  exact (key k le_rfl).2.2

/-! ## C52 -/

/-- **C52**, voltages: `update_voltages` succeeds if and only if every node's bundle exists and has the node's row. -/
theorem C52_succeeds_iff {N S : ℕ} (nw : Network N S) (bs : List (AnyBundle p)) :
    (∃ bs', nw.updateVoltages bs = .ok bs') ↔
      ∀ a, ∃ b, findBundle bs (nw.nodes a).bundleName = some b ∧ (nw.nodes a).lineIndex < b.1 := by
  simp only [Network.updateVoltages, writes_ok_iff]
  constructor
  · rintro ⟨_, h, -⟩ a
    exact h _ (List.mem_ofFn.2 ⟨a, rfl⟩)
  · intro h
    refine ⟨_, fun w hw => ?_, rfl⟩
    obtain ⟨a, rfl⟩ := List.mem_ofFn.1 hw
    exact h a

/-- **C52**, voltages: nothing but voltages changes; the entries of no node are unchanged; an entry to which exactly one
node is attached carries that node's voltage. -/
theorem C52_voltages {N S : ℕ} (nw : Network N S) (bs bs' : List (AnyBundle p)) (h : nw.updateVoltages bs = .ok bs') :
    bs'.length = bs.length ∧ ∀ (x n : ℕ) (b : MTLD n p), bs[x]? = some ⟨n, b⟩ →
      ∃ v, bs'[x]? = some ⟨n, { b with v := v }⟩ ∧
        (∀ k j, (∀ a, ¬ (nw.nodes a).end'.At b k j) → v k j = b.v k j) ∧
        (∀ a k j, (nw.nodes a).end'.At b k j → (∀ a', (nw.nodes a').end'.At b k j → a' = a) → v k j = nw.v a) := by
  obtain ⟨-, rfl⟩ := writes_ok_iff.1 h
  refine ⟨List.length_map .., ?_⟩
  intro x n b hb
  obtain ⟨v, hv⟩ := MTLD.hit_rest nw.writes b
  have hv' : (b.hit nw.writes).v = v := by rw [hv]
  refine ⟨v, ?_, ?_, ?_⟩
  · rw [List.getElem?_map, hb, Option.map_some, hv]
  · intro k j hk
    rw [← hv', MTLD.hit_other]
    intro w hw
    obtain ⟨a, rfl⟩ := List.mem_ofFn.1 hw
    exact hk a
  · intro a k j ha hu
    rw [← hv']
    refine MTLD.hit_value ⟨_, List.mem_ofFn.2 ⟨a, rfl⟩, ha⟩ ?_
    intro w hw hat
    obtain ⟨a', rfl⟩ := List.mem_ofFn.1 hw
    rw [hu a' hat]

/-- **C52**, currents: `update_currents` succeeds if and only if every node's bundle exists, has cells and the node's
row; then nothing but the currents of the network changes, and every node reads the current of its row in the first
cell, or minus that in the last cell. -/
theorem C52_currents {N S : ℕ} (nw nw' : Network N S) (bs : List (AnyBundle p)) :
    nw.updateCurrents bs = .ok nw' ↔ ∃ i, nw' = { nw with i := i } ∧
      ∀ a, ∃ (n : ℕ) (b : MTLD n p) (hj : (nw.nodes a).lineIndex < n),
        findBundle bs (nw.nodes a).bundleName = some ⟨n, b⟩ ∧ b.m ≠ 0 ∧
        i a = match (nw.nodes a).side with
          | .S => b.i 0 ⟨_, hj⟩
          | .L => -b.i (b.m - 1) ⟨_, hj⟩ := by
  rw [updateCurrents_ok_iff]
  have hread : ∀ (d : Node) (x : ℝ), readCurrent bs d = .ok x ↔
      ∃ (n : ℕ) (b : MTLD n p) (hj : d.lineIndex < n), findBundle bs d.bundleName = some ⟨n, b⟩ ∧ b.m ≠ 0 ∧
        x = match d.side with
          | .S => b.i 0 ⟨_, hj⟩
          | .L => -b.i (b.m - 1) ⟨_, hj⟩ := by
    intro d x
    unfold readCurrent
    cases hf : findBundle bs d.bundleName with
    | none => simp
    | some b =>
      obtain ⟨n, b⟩ := b
      by_cases hc : d.lineIndex < n ∧ b.m ≠ 0
      · simp only [dif_pos hc, Except.ok.injEq, Option.some.injEq]
        constructor
        · rintro rfl
          refine ⟨n, b, hc.1, rfl, hc.2, ?_⟩
          cases d.side <;> simp [Side.factor, Side.cell]
        · rintro ⟨n', b', hj, he, -, rfl⟩
          cases he
          cases d.side <;> simp [Side.factor, Side.cell]
      · simp only [dif_neg hc, Option.some.injEq]
        constructor
        · intro h; simp at h
        · rintro ⟨n', b', hj, he, hm, -⟩
          cases he
          exact absurd ⟨hj, hm⟩ hc
  simp only [hread]
  constructor
  · rintro ⟨i, h1, h2⟩; exact ⟨i, h2, h1⟩
  · rintro ⟨i, h2, h1⟩; exact ⟨i, h1, h2⟩

/-! ## C59 -/

/-- **C59.** Adding bundles one after the other succeeds exactly if their names are pairwise different (and different
from those already there); the manager then holds them in order and its time step is the smallest of its former one and
theirs. -/
theorem C59_add_bundles (M M' : MTLN p) (bs : List (AnyBundle p)) (hM : (M.bundles.map fun b => b.2.name).Nodup) :
    bs.foldlM MTLN.addBundle M = .ok M' ↔ ((M.bundles ++ bs).map fun b => b.2.name).Nodup ∧
      M'.bundles = M.bundles ++ bs ∧ M'.networks = M.networks ∧ M'.time = M.time ∧
      IsLeast ({M.dt} ∪ {t | ∃ b ∈ bs, t = b.2.dt}) M'.dt := by
  induction bs generalizing M with
  | nil =>
    simp only [List.foldlM_nil, pure, Except.pure, Except.ok.injEq, List.append_nil, hM, true_and, List.not_mem_nil,
      false_and, exists_false, Set.setOf_false, Set.union_empty, isLeast_singleton]
    constructor
    · rintro rfl; exact ⟨rfl, rfl, rfl, isLeast_singleton⟩
    · rintro ⟨h1, h2, h3, h4⟩
      have h5 : M'.dt = M.dt := h4.1
      cases M; cases M'
      simp_all
  | cons b bs ih =>
    simp only [List.foldlM_cons, bind_ok_iff, MTLN.addBundle, pyAssert_ok_iff, Except.ok.injEq]
    constructor
    · rintro ⟨M1, ⟨_, h1, rfl⟩, h2⟩
      have hnd : ((M.bundles ++ [b]).map fun b => b.2.name).Nodup := by
        rw [List.map_append, List.nodup_append]
        refine ⟨hM, by simp, ?_⟩
        intro a ha c hc hac
        simp only [List.map_cons, List.map_nil, List.mem_singleton] at hc
        exact h1 (by rw [← hc, ← hac]; exact ha)
      obtain ⟨h3, h4, h5, h6, h7⟩ := (ih _ hnd).1 h2
      refine ⟨by simpa using h3, by simpa using h4, h5, h6, ?_⟩
      constructor
      · rcases h7.1 with h8 | ⟨b', hb', h8⟩
        · rw [Set.mem_singleton_iff] at h8
          simp only at h8
          split at h8
          · exact Or.inr ⟨b, List.mem_cons_self .., h8⟩
          · exact Or.inl h8
        · exact Or.inr ⟨b', List.mem_cons_of_mem _ hb', h8⟩
      · have hle : M'.dt ≤ if b.2.dt < M.dt then b.2.dt else M.dt := h7.2 (Or.inl rfl)
        rintro t (h8 | ⟨b', hb', rfl⟩)
        · rw [Set.mem_singleton_iff] at h8
          subst h8
          split at hle <;> linarith
        · rcases List.mem_cons.1 hb' with rfl | hb'
          · split at hle <;> linarith
          · exact h7.2 (Or.inr ⟨b', hb', rfl⟩)
    · rintro ⟨h3, h4, h5, h6, h7⟩
      have hnd : ((M.bundles ++ [b]).map fun b => b.2.name).Nodup := by
        have : M.bundles ++ b :: bs = (M.bundles ++ [b]) ++ bs := by simp
        rw [this, List.map_append] at h3
        exact (List.nodup_append.1 h3).1
      have hb : b.2.name ∉ M.bundles.map fun b => b.2.name := by
        rw [List.map_append, List.nodup_append] at hnd
        intro hmem
        exact hnd.2.2 _ hmem _ (by simp) rfl
      refine ⟨_, ⟨(), hb, rfl⟩, (ih _ hnd).2 ⟨by simpa using h3, by simpa using h4, h5, h6, ?_⟩⟩
      have l1 : M'.dt ≤ M.dt := h7.2 (Or.inl rfl)
      have l2 : M'.dt ≤ b.2.dt := h7.2 (Or.inr ⟨b, List.mem_cons_self .., rfl⟩)
      constructor
      · rcases h7.1 with h8 | ⟨b', hb', h8⟩
        · rw [Set.mem_singleton_iff] at h8
          left
          rw [Set.mem_singleton_iff]
          simp only
          split <;> linarith
        · rcases List.mem_cons.1 hb' with rfl | hb'
          · by_cases hlt : b'.2.dt < M.dt
            · left; rw [Set.mem_singleton_iff]; simp only [if_pos hlt]; exact h8
            · left; rw [Set.mem_singleton_iff]; simp only [if_neg hlt]; linarith
          · exact Or.inr ⟨b', hb', h8⟩
      · rintro t (h8 | ⟨b', hb', rfl⟩)
        · rw [Set.mem_singleton_iff] at h8
          subst h8
          simp only
          split <;> assumption
        · exact h7.2 (Or.inr ⟨b', List.mem_cons_of_mem _ hb', rfl⟩)

/-- **C59**, the fresh manager: its time step is the smallest of `1e10` and the time steps of the bundles. -/
theorem C59_fresh_manager (M' : MTLN p) (bs : List (AnyBundle p)) (h : bs.foldlM MTLN.addBundle ({} : MTLN p) = .ok M') :
    M'.bundles = bs ∧ (bs.map fun b => b.2.name).Nodup ∧ IsLeast ({10 ^ 10} ∪ {t | ∃ b ∈ bs, t = b.2.dt}) M'.dt := by
  obtain ⟨h1, h2, -, -, h3⟩ := (C59_add_bundles _ _ _ (by simp)).1 h
  exact ⟨by simpa using h2, by simpa using h1, h3⟩

/-- **C59**, duplicates: adding a bundle fails exactly if its name is taken, with `AssertionError`. -/
theorem C59_duplicate (M : MTLN p) (b : AnyBundle p) :
    (M.addBundle b = .error .AssertionError ↔ ∃ b' ∈ M.bundles, b'.2.name = b.2.name) ∧
    ((¬ ∃ b' ∈ M.bundles, b'.2.name = b.2.name) → ∃ M', M.addBundle b = .ok M') := by
  have hmem : b.2.name ∈ (M.bundles.map fun b => b.2.name) ↔ ∃ b' ∈ M.bundles, b'.2.name = b.2.name := by
    simp [List.mem_map]
  unfold MTLN.addBundle pyAssert
  by_cases h : b.2.name ∈ (M.bundles.map fun b => b.2.name)
  · rw [if_neg (not_not.2 h)]
    simp [bind, Except.bind, ← hmem, h]
  · rw [if_pos h]
    simp [bind, Except.bind, ← hmem, h]

/-! ## C60 -/

/-- **C60**, for an explicit time step: in `run_until(T, dt)` with `dt ≠ 0` the coefficients of every bundle are
computed with `dt`, the step by which the manager advances time.  (The coefficients of dispersive elements, computed when
the elements were added, are not recomputed: `tz` is that of before.) -/
theorem C60_explicit_dt_partial (M M0 : MTLN p) (T dt : ℝ) (k : ℕ) (hdt : dt ≠ 0) (h : M.start T dt = .ok (k, M0)) (x : ℕ)
    (b : MTLD n p) (hb : M.bundles[x]? = some ⟨n, b⟩) : M0.dt = dt ∧ ∃ b0 : MTLD n p, M0.bundles[x]? = some ⟨n, b0⟩ ∧
      b0.dt = M0.dt ∧ b0.tz = b.tz ∧ ∃ lr cg, b0.lr = some lr ∧ b0.cg = some cg ∧
      updateLr b.m M0.dt b.dun b.l b.r b.tz = .ok lr ∧ updateCg b.m M0.dt b.dun b.c b.g = .ok cg := by
  have e : M0.dt = dt := by rw [(MTLN.start_config h).2.1, MTLN.runDt_eq, if_pos hdt]
  obtain ⟨lr, cg, h0, h1, h2⟩ := MTLN.start_bundle h hb
  rw [if_pos hdt] at h1 h2
  exact ⟨e, _, h0, by rw [e]; exact if_pos hdt, rfl, lr, cg, rfl, rfl, by rw [e]; exact h1, by rw [e]; exact h2⟩

/-- **C60**, without an explicit time step: a bundle uses its own time step, hence the manager's if and only if they
agree. -/
theorem C60_default_dt_partial (M M0 : MTLN p) (T : ℝ) (k : ℕ) (h : M.start T 0 = .ok (k, M0)) (x : ℕ)
    (b : MTLD n p) (hb : M.bundles[x]? = some ⟨n, b⟩) : M0.dt = M.dt ∧ ∃ b0 : MTLD n p, M0.bundles[x]? = some ⟨n, b0⟩ ∧
      b0.dt = b.dt ∧ ∃ lr cg, b0.lr = some lr ∧ b0.cg = some cg ∧
      updateLr b.m b.dt b.dun b.l b.r b.tz = .ok lr ∧ updateCg b.m b.dt b.dun b.c b.g = .ok cg := by
  have e : M0.dt = M.dt := by rw [(MTLN.start_config h).2.1, MTLN.runDt_eq, if_neg (by simp)]
  obtain ⟨lr, cg, h0, h1, h2⟩ := MTLN.start_bundle h hb
  rw [if_neg (by simp)] at h1 h2
  exact ⟨e, _, h0, by simp, lr, cg, rfl, rfl, h1, h2⟩

end Mtln
