import Verif.Props.ManagerDemo
import Verif.Props.ManagerEnergy
import Mathlib.Analysis.SpecificLimits.Normed

/-!
# C150: a termination with an inductor makes a stable line grow without bound

`connect_to_ground_LCpRs` uses the wrong sign in the equation of the capacitor (C57), so that the circuit that is
simulated is not passive.
-/

namespace Mtln

open Matrix

/-- The termination of the witness: 1 Ω in series with 26 H parallel to 1/2 F, driven by `s` V. -/
noncomputable def tankCall (s : ℝ) : Call := .groundLCpRs 0 1 26 (1 / 2) (some fun _ => s)

/-- The state of the line and its termination: voltages of the two nodes that change, currents of the two cells, and the two
state variables of the network. -/
structure TankState where
  v0 : ℝ
  v1 : ℝ
  i0 : ℝ
  i1 : ℝ
  x1 : ℝ
  x2 : ℝ

namespace TankState

/-- One step of half a second, with a source of `s` V. -/
noncomputable def next (s : ℝ) (q : TankState) : TankState :=
  let x2 := (52 * q.x2 - 2 * q.x1 - s + q.v0 - 2 * q.i0) / 55
  let v0 := q.x1 + s + x2
  let v1 := q.v1 - (q.i1 - q.i0) / 2
  ⟨v0, v1, q.i0 - (v1 - v0) / 2, q.i1 + v1 / 2, 52 * (q.x2 - x2), x2⟩

/-- The component that doubles in every step. -/
def mode (q : TankState) : ℝ := -4 * q.v0 - 4 * q.v1 + 12 * q.i0 + 4 * q.i1 + 9 * q.x1 + 26 * q.x2

theorem mode_next (s : ℝ) (q : TankState) : (q.next s).mode = 2 * q.mode + 10 * s := by
  simp only [mode, next]
  ring

/-- From rest, with 1 V. -/
noncomputable def after (k : ℕ) : TankState := (next 1)^[k] ⟨0, 0, 0, 0, 0, 0⟩

theorem after_succ (k : ℕ) : after (k + 1) = (after k).next 1 := Function.iterate_succ_apply' ..

/-- Without source, from the growing eigenstate. -/
noncomputable def free (k : ℕ) : TankState := (next 0)^[k] ⟨12, 3, 9, 3, 26, -1⟩

theorem free_eq (k : ℕ) : free k = ⟨12 * 2 ^ k, 3 * 2 ^ k, 9 * 2 ^ k, 3 * 2 ^ k, 26 * 2 ^ k, -2 ^ k⟩ := by
  induction k with
  | zero => simp [free]
  | succ k ih =>
    rw [show free (k + 1) = (free k).next 0 from Function.iterate_succ_apply' .., ih]
    simp only [next, TankState.mk.injEq]
    refine ⟨?_, ?_, ?_, ?_, ?_, ?_⟩ <;> ring

theorem mode_after (k : ℕ) : (after k).mode = 10 * (2 ^ k - 1) := by
  induction k with
  | zero => simp [after, mode]
  | succ k ih => rw [after_succ, mode_next, ih]; ring

/-- If voltages and currents were bounded, the state variables would grow at most linearly. -/
theorem linear {K : ℝ} (h : ∀ k, |(after k).v0| ≤ K ∧ |(after k).v1| ≤ K ∧ |(after k).i0| ≤ K ∧ |(after k).i1| ≤ K)
    (k : ℕ) : |(after k).x1| ≤ k * (8 * K + 2) ∧ |(after k).x2| ≤ (k + 1) * (9 * K + 3) := by
  have hK : 0 ≤ K := (abs_nonneg _).trans (h 0).1
  induction k with
  | zero => simp [after]; nlinarith
  | succ k ih =>
    obtain ⟨a1, -, a3, -⟩ := h k
    obtain ⟨b1, -, -, -⟩ := h (k + 1)
    have e1 : (after (k + 1)).x1 = 3 * (after (k + 1)).v0 - (after k).v0 - (after k).x1 - 2 + 2 * (after k).i0 := by
      rw [after_succ]; simp only [next]; ring
    have e2 : (after (k + 1)).x2 = (after (k + 1)).v0 - (after k).x1 - 1 := by
      rw [after_succ]; simp only [next]; ring
    obtain ⟨a1, a1'⟩ := abs_le.1 a1
    obtain ⟨a3, a3'⟩ := abs_le.1 a3
    obtain ⟨b1, b1'⟩ := abs_le.1 b1
    obtain ⟨c1, c1'⟩ := abs_le.1 ih.1
    have hk : (0 : ℝ) ≤ k := Nat.cast_nonneg k
    have := mul_nonneg hk hK
    push_cast
    rw [e1, e2, abs_le, abs_le]
    refine ⟨⟨?_, ?_⟩, ?_, ?_⟩ <;> nlinarith

theorem unbounded : ¬ ∃ K, ∀ k, |(after k).v0| ≤ K ∧ |(after k).v1| ≤ K ∧ |(after k).i0| ≤ K ∧ |(after k).i1| ≤ K := by
  rintro ⟨K, h⟩
  have hK : 0 ≤ K := (abs_nonneg _).trans (h 0).1
  have hb : ∀ k : ℕ, (2 : ℝ) ^ k ≤ ((k : ℝ) + 1) * (100 * (K + 1)) := by
    intro k
    obtain ⟨l1, l2⟩ := linear h k
    obtain ⟨a1, a2, a3, a4⟩ := h k
    have hm := mode_after k
    unfold mode at hm
    have hk : (0 : ℝ) ≤ k := Nat.cast_nonneg k
    have := mul_nonneg hk hK
    have a1 := (abs_le.1 a1).1
    have a2 := (abs_le.1 a2).1
    have a3 := (abs_le.1 a3).2
    have a4 := (abs_le.1 a4).2
    have l1 := (abs_le.1 l1).2
    have l2 := (abs_le.1 l2).2
    nlinarith
  have ht := tendsto_pow_const_div_const_pow_of_one_lt 1 (one_lt_two : (1 : ℝ) < 2)
  obtain ⟨c, hc⟩ : ∃ c, c = 200 * (K + 1) := ⟨_, rfl⟩
  have hc0 : 0 < c := by rw [hc]; linarith
  obtain ⟨k, hk, hk1⟩ := ((ht.eventually (gt_mem_nhds (show (0 : ℝ) < 1 / c by positivity))).and
    (Filter.eventually_ge_atTop 1)).exists
  have h2 : (0 : ℝ) < 2 ^ k := by positivity
  rw [div_lt_div_iff₀ h2 hc0, one_mul, pow_one] at hk
  have := hb k
  have hk1' : (1 : ℝ) ≤ k := by exact_mod_cast hk1
  rw [hc] at hk
  nlinarith

end TankState

/-- The state of the witness within a run. -/
structure Tank (nb : Network 1 2) (q : TankState) (M : MTLN 0) (b : MTLD 1 0) (nw : Network 1 2) : Prop where
  bundles : M.bundles = [⟨1, b⟩]
  networks : M.networks = [[(0, ⟨1, 2, nw⟩)]]
  dt : M.dt = 1 / 2
  m : b.m = 2
  name : b.name = "demo"
  eL : b.eL = fun _ _ _ => 0
  eT : b.eT = fun _ _ _ => 0
  lr : ∃ lr, b.lr = some lr ∧ ∀ k < 2, lr.iTerm k = 1 ∧ lr.vDiff k = (1 / 2 : ℝ) • 1
  cg : ∃ cg, b.cg = some cg ∧ cg.vTerm 1 = 1 ∧ cg.iDiff 1 = (1 / 2 : ℝ) • 1
  circuit : nb.SameCircuit nw
  prepared : nw.Prepared (1 / 2)
  dxc : nw.dxc = 1
  nv : nw.v 0 = q.v0
  ni : nw.i 0 = q.i0
  nx1 : nw.X 0 = q.x1
  nx2 : nw.X 1 = q.x2
  v0 : b.v 0 0 = q.v0
  v1 : b.v 1 0 = q.v1
  v2 : b.v 2 0 = 0
  i0 : b.i 0 0 = q.i0
  i1 : b.i 1 0 = q.i1

theorem tank_q3phi (b : MTLD 1 0) (k : ℕ) : b.tz.q3phi b.phi k = 0 := by
  funext x
  simp [Disp.q3phi, poleSum]

theorem tank_find {d : MTLD 1 0} (h : d.name = "demo") : findBundle [(⟨1, d⟩ : AnyBundle 0)] "demo" = some ⟨1, d⟩ := by
  simp [findBundle, h]

/-- One step of the witness. -/
theorem Tank.step {s : ℝ} {nb : Network 1 2} (hb : (demoNet [0, 1] 2).calls ([] ++ tankCall s :: []) = .ok nb) {q : TankState}
    {M M' : MTLN 0} {b : MTLD 1 0} {nw : Network 1 2} (h : Tank nb q M b nw) (hs : M.step = .ok M') :
    ∃ b' nw', Tank nb (q.next s) M' b' nw' := by
  obtain ⟨nws1, bs2, nws2, h1, -, h3, h4, rfl⟩ := MTLN.step_ok_iff.1 hs
  rw [h.networks, h.dt] at h1
  rw [h.bundles, h.dt] at h3
  simp only [mapPy, NetworkD.advanceVoltage, NetworkD.forAll, onAny, bind_ok_iff, Except.ok.injEq] at h1
  obtain ⟨_, ⟨_, ⟨_, ⟨nw1, ha, rfl⟩, rfl⟩, _, rfl, rfl⟩, _, rfl, rfl⟩ := h1
  have hnodes : nw.nodes = fun _ => demoNode [0, 1] := by
    rw [h.circuit.nodes, calls_nodes hb]
    funext x
    fin_cases x
    rfl
  obtain ⟨e1, e2, e3, -⟩ := lcprs_equations (new_fresh demoTank_new) hb h.circuit (by simp) (by simp) h.prepared ha
    (a := 0) (by rw [hnodes]; rfl) (x := 0) (y := 1) (by rw [hnodes]; rfl)
  obtain ⟨-, v', X', -, -, rfl⟩ := (advance_ok_iff h.prepared).1 ha
  have hw : allWrites [[(0, (⟨1, 2, { nw with v := v', X := X', vPrev := nw.v }⟩ : AnyNetwork))]] =
      [⟨"demo", 0, .S, v' 0⟩] := by
    simp [allWrites, NetworkD.writes, Network.writes, hnodes, demoNode]
  rw [hw] at h3
  simp only [mapPy, bind_ok_iff, Except.ok.injEq, onBundle_ok_iff] at h3
  obtain ⟨_, ⟨b', hb', rfl⟩, _, rfl, rfl⟩ := h3
  obtain ⟨lr, cg, hlr, hcg, -, rfl⟩ := MTLD.stepWith_ok_iff.1 hb'
  obtain ⟨lr', hlr', hlr0⟩ := h.lr
  obtain ⟨cg', hcg', hcg0, hcg1⟩ := h.cg
  obtain rfl : lr' = lr := Option.some.inj (hlr'.symm.trans hlr)
  obtain rfl : cg' = cg := Option.some.inj (hcg'.symm.trans hcg)
  have hsam : ∀ k, (b.sample M.time (1 / 2)).eTNow k = 0 ∧ (b.sample M.time (1 / 2)).eTPrev k = 0 ∧
      (b.sample M.time (1 / 2)).eLNow k = 0 ∧ (b.sample M.time (1 / 2)).eLPrev k = 0 := by
    intro k
    simp only [MTLD.sample, sampleSources, h.eL, h.eT]
    exact ⟨rfl, rfl, rfl, rfl⟩
  -- the equations of the termination
  rw [Network.drawn, h.dxc, one_mulVec] at e1
  simp only [hnodes, Pi.add_apply, Pi.sub_apply, demoNode, sub_self, add_zero, Option.getD_some, h.nv, h.ni, h.nx1,
    h.nx2] at e1 e2 e3
  have g2 : X' 1 = (q.next s).x2 := by simp only [TankState.next]; linarith
  have g1 : X' 0 = (q.next s).x1 := by
    rw [show (q.next s).x1 = 52 * (q.x2 - (q.next s).x2) from rfl, ← g2]; linarith
  have g0 : v' 0 = (q.next s).v0 := by
    rw [show (q.next s).v0 = q.x1 + s + (q.next s).x2 from rfl, ← g2]; linarith
  -- the new voltages and currents of the bundle
  obtain ⟨c, hc⟩ : ∃ c, c = b.fieldsWith lr' cg' M.time (1 / 2) [⟨"demo", 0, .S, v' 0⟩] := ⟨_, rfl⟩
  have hcv : ∀ k, c.v k 0 = if k = 0 then v' 0 else
      advanceVoltage b.m cg' (b.sample M.time (1 / 2)) b.v b.i k 0 := by
    intro k
    rw [hc]
    simp only [MTLD.fieldsWith, MTLD.hit, List.foldl_cons, List.foldl_nil]
    split
    · rename_i hk
      exact (Write.on_v _ _ _ _).1 ⟨h.name, hk.symm ▸ rfl, rfl⟩
    · rename_i hk
      exact (Write.on_v _ _ _ _).2 fun hat => hk hat.2.1
  have hci : ∀ k < 2, c.i k 0 = b.i k 0 - (1 / 2) * (c.v (k + 1) 0 - c.v k 0) := by
    intro k hk
    rw [hc]
    simp only [MTLD.fieldsWith, advanceCurrent, h.m, if_pos hk, (hlr0 k hk).1, (hlr0 k hk).2, hsam, tank_q3phi]
    simp [smul_mulVec]
  have cv0 : c.v 0 0 = (q.next s).v0 := by rw [hcv, if_pos rfl, g0]
  have cv1 : c.v 1 0 = (q.next s).v1 := by
    rw [hcv, if_neg one_ne_zero, advanceVoltage, h.m, if_pos (by norm_num), hcg0, hcg1, (hsam 1).1, (hsam 1).2.1]
    simp [smul_mulVec, h.v1, h.i0, h.i1, TankState.next]
    ring
  have cv2 : c.v 2 0 = 0 := by
    rw [hcv, if_neg two_ne_zero, advanceVoltage, h.m, if_neg (by norm_num), h.v2]
  have ci0 : c.i 0 0 = (q.next s).i0 := by
    rw [hci 0 (by norm_num), cv1, cv0, h.i0]
    simp only [TankState.next]; ring
  have ci1 : c.i 1 0 = (q.next s).i1 := by
    rw [hci 1 (by norm_num), cv1, cv2, h.i1]
    simp only [TankState.next]; ring
  have hrest : c.m = b.m ∧ c.name = b.name ∧ c.eL = b.eL ∧ c.eT = b.eT ∧ c.lr = b.lr ∧ c.cg = b.cg := by
    rw [hc]; exact ⟨rfl, rfl, rfl, rfl, rfl, rfl⟩
  rw [← hc] at h4 ⊢
  obtain ⟨r1, r2, r3, r4, r5, r6⟩ := hrest
  simp only [mapPy, NetworkD.updateCurrents, NetworkD.forAll, onAny, bind_ok_iff, Except.ok.injEq] at h4
  obtain ⟨_, ⟨_, ⟨_, ⟨nw2, hu, rfl⟩, rfl⟩, _, rfl, rfl⟩, _, rfl, rfl⟩ := h4
  obtain ⟨i', rfl, hi'⟩ := (C52_currents _ _ _).1 hu
  have hi0 : i' 0 = (q.next s).i0 := by
    obtain ⟨n, d, hj, hf, -, hd⟩ := hi' 0
    simp only [hnodes, demoNode] at hj hf hd
    rw [tank_find (by exact r2.trans h.name)] at hf
    obtain ⟨rfl, hf⟩ := Sigma.mk.inj (Option.some.inj hf)
    rw [← eq_of_heq hf] at hd
    rw [hd]
    exact ci0
  refine ⟨_, _, rfl, rfl, h.dt, r1.trans h.m, r2.trans h.name, r3.trans h.eL, r4.trans h.eT, ?_, ?_, ?_,
    h.prepared.congr ⟨_, _, _, _, rfl⟩, h.dxc, g0, hi0, g1, g2, cv0, cv1, cv2, ci0, ci1⟩
  · exact ⟨lr', r5.trans hlr', hlr0⟩
  · exact ⟨cg', r6.trans hcg', hcg0, hcg1⟩
  · exact ⟨h.circuit.nodes, h.circuit.P1, h.circuit.Ps, h.circuit.Q1, h.circuit.Qs, h.circuit.M, h.circuit.N1,
      h.circuit.Ns, h.circuit.O, h.circuit.src⟩

/-- The manager of the witness. -/
noncomputable def tankManager (v i : Grid 1) (nb : Network 1 2) : MTLN 0 :=
  { bundles := [⟨1, { demoOne with v := v, i := i }⟩], networks := [[(0, ⟨1, 2, nb⟩)]], dt := 1 }

theorem tank_nodes {s : ℝ} {nb : Network 1 2} (hb : (demoNet [0, 1] 2).calls ([] ++ tankCall s :: []) = .ok nb) :
    nb.nodes = fun _ => demoNode [0, 1] := by
  rw [calls_nodes hb]
  funext x
  fin_cases x
  rfl

theorem tank_new {nb : Network 1 2} (hn : nb.nodes = fun _ => demoNode [0, 1]) :
    MTLN.new [⟨1, demoOne⟩] [[(0, ⟨1, 2, nb⟩)]] = .ok (tankManager demoOne.v demoOne.i nb) := by
  have h1 : MTLN.addBundle {} ⟨1, demoOne⟩ = .ok ({ bundles := [⟨1, demoOne⟩], dt := 1 } : MTLN 0) := by
    simp only [MTLN.addBundle, bind_ok_iff, pyAssert_ok_iff]
    refine ⟨(), by simp, ?_⟩
    have e : demoOne.dt = 1 := by norm_num [demoOne, MTLD.single, demoBare]
    simp only [List.nil_append, e]
    norm_num
  have h2 : MTLN.addNetwork ({ bundles := [⟨1, demoOne⟩], dt := 1 } : MTLN 0) [(0, ⟨1, 2, nb⟩)] =
      .ok (tankManager demoOne.v demoOne.i nb) := by
    obtain ⟨M', hM', -⟩ := addNetwork_exists (M := ({ bundles := [⟨1, demoOne⟩], dt := 1 } : MTLN 0))
      (nwd := [(0, ⟨1, 2, nb⟩)]) (by
        intro e he a
        obtain rfl := List.mem_singleton.1 he
        simp [findBundle, demoOne, MTLD.single, hn, demoNode])
    have hn := C55_level_zero_partial (by simp) hM'
    rw [hM']
    simp only [MTLN.addNetwork, bind_ok_iff, Except.ok.injEq] at hM'
    obtain ⟨nw', -, rfl⟩ := hM'
    simp only at hn
    rw [hn]
    rfl
  unfold MTLN.new
  simp only [List.foldlM_cons, List.foldlM_nil, h1, h2, bind, Except.bind, pure, Except.pure]

theorem tank_calls (s : ℝ) : ∃ nb : Network 1 2, (demoNet [0, 1] 2).calls ([] ++ tankCall s :: []) = .ok nb ∧
    nb.dxc = 1 ∧ nb.cSize = 1 ∧ nb.v = 0 ∧ nb.X = 0 ∧ nb.i = 0 ∧ (∀ t, nb.vSources 0 t = s) ∧
    (nb.system (1 / 2)).det ≠ 0 := by
  have hE : ∃ E : Effect 1 2, (tankCall s).HasEffect (demoNet [0, 1] 2) E ∧
      E.P1 0 0 = .set (-1 / 1) ∧ (E.M 0 0 = .set (1 / (1 * (1 / 2)))) ∧ E.M 0 1 = .set (1 / (1 / 2)) ∧
      E.M 1 0 = .set (-1 / 26) ∧ E.M 1 1 = .set 0 ∧ E.N1 0 0 = .set (-1 / (1 * (1 / 2))) ∧ E.N1 1 0 = .set 0 ∧
      E.O 0 0 = .set (1 / 1) ∧ E.O 0 1 = .set 0 ∧ E.Q1 0 0 = .add 0 ∧
      E.src 0 = .set (fun _ => s) :=
    ⟨_, ⟨0, 0, 1, demoNet_find _ _, by norm_num, by norm_num, by norm_num, by norm_num, by norm_num, by norm_num, rfl,
      rfl⟩, by simp, by simp, by simp, by simp, by simp, by simp, by simp, by simp, by simp, by simp, by simp [srcUpd]⟩
  obtain ⟨E, hE, p, m00, m01, m10, m11, n0, n1, o0, o1, q, hsrc⟩ := hE
  have hP : (E.apply (demoNet [0, 1] 2)).P1 0 0 = -1 / 1 := by show (E.P1 0 0).app _ = _; rw [p]; rfl
  have hQ : (E.apply (demoNet [0, 1] 2)).Q1 0 0 = 0 := by
    show (E.Q1 0 0).app 0 = _; rw [q]; simp [Upd.app]
  have hM00 : (E.apply (demoNet [0, 1] 2)).M 0 0 = 1 / (1 * (1 / 2)) := by show (E.M 0 0).app _ = _; rw [m00]; rfl
  have hM01 : (E.apply (demoNet [0, 1] 2)).M 0 1 = 1 / (1 / 2) := by show (E.M 0 1).app _ = _; rw [m01]; rfl
  have hM10 : (E.apply (demoNet [0, 1] 2)).M 1 0 = -1 / 26 := by show (E.M 1 0).app _ = _; rw [m10]; rfl
  have hM11 : (E.apply (demoNet [0, 1] 2)).M 1 1 = 0 := by show (E.M 1 1).app _ = _; rw [m11]; rfl
  have hN0 : (E.apply (demoNet [0, 1] 2)).N1 0 0 = -1 / (1 * (1 / 2)) := by show (E.N1 0 0).app _ = _; rw [n0]; rfl
  have hN1 : (E.apply (demoNet [0, 1] 2)).N1 1 0 = 0 := by show (E.N1 1 0).app _ = _; rw [n1]; rfl
  have hO0 : (E.apply (demoNet [0, 1] 2)).O 0 0 = 1 / 1 := by show (E.O 0 0).app _ = _; rw [o0]; rfl
  have hO1 : (E.apply (demoNet [0, 1] 2)).O 0 1 = 0 := by show (E.O 0 1).app _ = _; rw [o1]; rfl
  have hdx : (E.apply (demoNet [0, 1] 2)).dxc = 1 := demoNet_dxc [0, 1] 2
  refine ⟨_, calls_cons.2 ⟨_, call_ok_iff.2 ⟨E, hE, rfl⟩, calls_nil.2 rfl⟩, hdx, rfl, rfl, rfl, rfl, ?_, ?_⟩
  · intro t
    show (E.src 0).app _ t = s
    rw [hsrc]
    rfl
  apply det_ne_zero_of_injective
  intro x hx
  have e0 := congrFun hx (.inl 0)
  have e1 := congrFun hx (.inr 0)
  have e2 := congrFun hx (.inr 1)
  simp only [Network.system, mulVec, dotProduct, Fintype.sum_sum_type, Fin.sum_univ_two, Finset.univ_unique,
    Fin.default_eq_zero, Finset.sum_singleton, fromBlocks_apply₁₁, fromBlocks_apply₁₂, fromBlocks_apply₂₁,
    fromBlocks_apply₂₂, Matrix.sub_apply, Matrix.neg_apply, Matrix.smul_apply, hP, hQ, hM00, hM01, hM10, hM11, hN0,
    hN1, hO0, hO1, hdx, Matrix.one_apply, smul_eq_mul, Pi.zero_apply] at e0 e1 e2
  norm_num at e0 e1 e2
  have x2 : x (.inr 1) = 0 := by linarith
  have x0 : x (.inl 0) = 0 := by linarith
  have x1 : x (.inr 0) = 0 := by linarith
  funext z
  rcases z with z | z
  · fin_cases z; exact x0
  · fin_cases z
    · exact x1
    · exact x2

theorem tank_runDt (v i : Grid 1) (nb : Network 1 2) : (tankManager v i nb).runDt (1 / 2) = 1 / 2 := by
  rw [MTLN.runDt_eq, if_pos (by norm_num)]

theorem tank_override (v i : Grid 1) (nb : Network 1 2) : (tankManager v i nb).overrideDt (1 / 2) =
    { bundles := [⟨1, { demoOne with v := v, i := i, dt := 1 / 2 }⟩], networks := [[(0, ⟨1, 2, nb⟩)]], dt := 1 / 2 } := by
  unfold MTLN.overrideDt
  rw [if_pos (by norm_num)]
  rfl

theorem tank_startable {v i : Grid 1} {nb : Network 1 2} (hn : nb.nodes = fun _ => demoNode [0, 1]) (hc : nb.cSize = 1)
    (hd : (nb.system (1 / 2)).det ≠ 0) : (tankManager v i nb).Startable (1 / 2) := by
  refine ⟨by rw [tank_runDt]; norm_num, ?_, ?_, ?_⟩
  · intro b hb
    rw [tank_override] at hb
    obtain rfl := List.mem_singleton.1 hb
    obtain ⟨h1, h2⟩ := demo_single_terms (demoBare 0) (d := 1) (dt := 1 / 2) one_ne_zero (by norm_num) rfl
      (fun k hk => if_pos hk) rfl rfl rfl rfl rfl rfl
    refine ⟨h1, h2, ?_⟩
    intro q hq
    have : q ∈ demoOne.probes := hq
    simp only [demoOne, List.mem_singleton] at this
    subst this
    exact Or.inl rfl
  · intro nwd hnwd e he
    obtain rfl := List.mem_singleton.1 hnwd
    obtain rfl := List.mem_singleton.1 he
    rw [tank_runDt]
    exact ⟨hc, hd⟩
  · intro d hd
    have : d = demoNode [0, 1] := by simpa [allNodes, tankManager, hn] using hd
    subst this
    exact ⟨⟨1, { demoOne with v := v, i := i }⟩, by simp [findBundle, tankManager, demoOne, MTLD.single, demoNode], by simp [demoNode], by
      show (2 : ℕ) ≠ 0; norm_num⟩

/-- The coefficients of the line. -/
theorem tank_terms : (∀ k < 2, lrF1 (demoOne.withDt (1 / 2)).dt (demoOne.withDt (1 / 2)).dun (demoOne.withDt (1 / 2)).l
      (demoOne.withDt (1 / 2)).r (demoOne.withDt (1 / 2)).tz k = (2 : ℝ) • 1 ∧
    lrF2 (demoOne.withDt (1 / 2)).dt (demoOne.withDt (1 / 2)).dun (demoOne.withDt (1 / 2)).l (demoOne.withDt (1 / 2)).r
      (demoOne.withDt (1 / 2)).tz k = (2 : ℝ) • 1) ∧
    cgF1 (demoOne.withDt (1 / 2)).m (demoOne.withDt (1 / 2)).dt (demoOne.withDt (1 / 2)).dun (demoOne.withDt (1 / 2)).c
      (demoOne.withDt (1 / 2)).g 1 = (2 : ℝ) • 1 ∧
    cgF2 (demoOne.withDt (1 / 2)).m (demoOne.withDt (1 / 2)).dt (demoOne.withDt (1 / 2)).dun (demoOne.withDt (1 / 2)).c
      (demoOne.withDt (1 / 2)).g 1 = (2 : ℝ) • 1 := by
  have hbt : (demoOne.withDt (1 / 2)).dt = 1 / 2 := rfl
  have hbm : (demoOne.withDt (1 / 2)).m = 2 := rfl
  have hbc : (demoOne.withDt (1 / 2)).c 1 = 1 := rfl
  have hbl : ∀ k, (demoOne.withDt (1 / 2)).l k = 1 := fun _ => rfl
  have hbe : ∀ k, (demoOne.withDt (1 / 2)).tz.e k = 0 := fun _ => rfl
  have hbd : ∀ k, (demoOne.withDt (1 / 2)).tz.d k = 0 := fun _ => rfl
  have hbr : ∀ k, (demoOne.withDt (1 / 2)).r k = 0 := fun _ => rfl
  have hbg : (demoOne.withDt (1 / 2)).g 1 = 0 := rfl
  have hbdun : ∀ k < 2, (demoOne.withDt (1 / 2)).dun k = 1 := fun k hk => if_pos hk
  have hq1 : ∀ k, (demoOne.withDt (1 / 2)).tz.q1sum k = 0 := fun k => by
    exact demo_q1sum (demoBare 0) k
  have hq2 : ∀ k, (demoOne.withDt (1 / 2)).tz.q2sum k = 0 := fun k => by
    show vSum (demoBare 0).conn.q2 k = 0
    ext a b
    unfold vSum QEntry.val poleSum
    simp
  have hnod : nodalLength 2 (demoOne.withDt (1 / 2)).dun 1 = 1 := by
    simp only [nodalLength, hbdun 1 (by norm_num), hbdun 0 (by norm_num)]
    norm_num
  refine ⟨fun k hk => ⟨?_, ?_⟩, ?_, ?_⟩
  · rw [lrF1, hbdun k hk, hbl, hbd, hbe, hbr, hq1, hbt]
    simp
  · rw [lrF2, hbdun k hk, hbl, hbd, hbe, hbr, hq2, hbt]
    simp
  · rw [cgF1, hbc, hbg, hbt, hbm, hnod]
    simp
  · rw [cgF2, hbc, hbg, hbt, hbm, hnod]
    simp

/-- The start of a run of the witness. -/
theorem tank_start {v i : Grid 1} {nb0 nb : Network 1 2} {q : TankState} (hs : nb0.SameCircuit nb) (hdx : nb.dxc = 1)
    (hv : nb.v 0 = q.v0) (hX : nb.X 0 = q.x1 ∧ nb.X 1 = q.x2) (hi : nb.i 0 = q.i0)
    (hb : v 0 0 = q.v0 ∧ v 1 0 = q.v1 ∧ v 2 0 = 0 ∧ i 0 0 = q.i0 ∧ i 1 0 = q.i1) {T : ℝ} {k : ℕ}
    {M0 : MTLN 0} (h : (tankManager v i nb).start T (1 / 2) = .ok (k, M0)) :
    k = ⌊T / (1 / 2)⌋.toNat ∧ ∃ b nw, Tank nb0 q M0 b nw := by
  obtain ⟨nws, bs, h1, -, hk, h2, rfl⟩ := MTLN.start_ok_iff.1 h
  rw [tank_runDt] at hk h1
  rw [tank_override] at h2 ⊢
  refine ⟨hk, ?_⟩
  simp only [tankManager, mapPy, NetworkD.computeVTerms, NetworkD.forAll, onAny, bind_ok_iff, Except.ok.injEq] at h1
  obtain ⟨_, ⟨_, ⟨_, ⟨nw, hc, rfl⟩, rfl⟩, _, rfl, rfl⟩, _, rfl, rfl⟩ := h1
  simp only [mapPy, bind_ok_iff, Except.ok.injEq, onBundle_ok_iff] at h2
  obtain ⟨_, ⟨b, hb', rfl⟩, _, rfl, rfl⟩ := h2
  obtain ⟨lr, cg, hlr, hcg, rfl⟩ := MTLD.start_ok_iff.1 hb'
  have hp := computeVTerms_prepared hc
  obtain ⟨-, -, hlr⟩ := updateLr_ok_iff.1 hlr
  obtain ⟨-, -, hcg⟩ := updateCg_ok_iff.1 hcg
  obtain ⟨-, -, hnw⟩ := computeVTerms_ok_iff.1 hc
  have half : ((2 : ℝ) • (1 : Mat 1))⁻¹ = (1 / 2 : ℝ) • 1 := by
    rw [inv_eq_right_inv]
    rw [smul_mul_smul_comm, one_mul]
    norm_num
  obtain ⟨hL, hC⟩ := tank_terms
  have h12 : ((1 / 2 : ℝ) • (1 : Mat 1)) * ((2 : ℝ) • 1) = 1 := by
    rw [smul_mul_smul_comm, one_mul]
    norm_num
  refine ⟨_, _, rfl, rfl, rfl, rfl, rfl, rfl, rfl, ⟨lr, rfl, ?_⟩, ⟨cg, rfl, ?_⟩, ?_, hp, ?_, ?_, ?_, ?_, ?_, hb.1,
    hb.2.1, hb.2.2.1, hb.2.2.2.1, hb.2.2.2.2⟩
  · intro k hk
    rw [hlr]
    exact ⟨(congrArg₂ (fun A B : Mat 1 => A⁻¹ * B) (hL k hk).1 (hL k hk).2).trans (by rw [half, h12]),
      (congrArg (fun A : Mat 1 => A⁻¹) (hL k hk).1).trans half⟩
  · rw [hcg]
    exact ⟨(congrArg₂ (fun A B : Mat 1 => A⁻¹ * B) hC.1 hC.2).trans (by rw [half, h12]),
      (congrArg (fun A : Mat 1 => A⁻¹) hC.1).trans half⟩
  all_goals subst hnw
  · exact ⟨hs.nodes, hs.P1, hs.Ps, hs.Q1, hs.Qs, hs.M, hs.N1, hs.Ns, hs.O, hs.src⟩
  · exact hdx
  · exact hv
  · exact hi
  · exact hX.1
  · exact hX.2

/-- A run of the witness. -/
theorem tank_run {s : ℝ} {v i : Grid 1} {nb0 nb : Network 1 2} {q : TankState}
    (hb : (demoNet [0, 1] 2).calls ([] ++ tankCall s :: []) = .ok nb0) (hs : nb0.SameCircuit nb) (hdx : nb.dxc = 1)
    (hv : nb.v 0 = q.v0) (hX : nb.X 0 = q.x1 ∧ nb.X 1 = q.x2) (hi : nb.i 0 = q.i0)
    (hvi : v 0 0 = q.v0 ∧ v 1 0 = q.v1 ∧ v 2 0 = 0 ∧ i 0 0 = q.i0 ∧ i 1 0 = q.i1) {k : ℕ} {M' : MTLN 0}
    (h : (tankManager v i nb).runUntil (k / 2) (1 / 2) = .ok M') :
    ∃ b nw, Tank nb0 ((TankState.next s)^[k] q) M' b nw := by
  obtain ⟨j, M0, hst, tr, h0, rfl, ht⟩ := MTLN.runUntil_ok_iff.1 h
  obtain ⟨hj, hT⟩ := tank_start hs hdx hv hX hi hvi hst
  have hjk : j = k := by
    rw [hj, show (k : ℝ) / 2 / (1 / 2) = ((k : ℤ) : ℝ) by push_cast; ring, Int.floor_intCast]
    simp
  subst hjk
  have key : ∀ l ≤ j, ∃ b nw, Tank nb0 ((TankState.next s)^[l] q) (tr l) b nw := by
    intro l
    induction l with
    | zero => intro _; rw [h0]; exact hT
    | succ l ih =>
      intro hl
      obtain ⟨b, nw, hbn⟩ := ih (by omega)
      rw [Function.iterate_succ_apply']
      exact hbn.step hb (ht l (by omega))
  exact key j le_rfl

theorem tank_bundle (v i : Grid 1) : ∀ b ∈ ((tankManager v i nb).overrideDt (1 / 2)).bundles,
    b.2.asLine.Passive ∧ b.2.dt = 1 / 2 ∧ b.2.Stable := by
  intro b hb
  rw [tank_override] at hb
  obtain rfl := List.mem_singleton.1 hb
  obtain ⟨-, h2, -, -, -, h6, -⟩ := demoCharged_hyps (dt := 1 / 2) (by norm_num) (by norm_num)
  have e0 : (demoCharged.overrideDt (1 / 2)).bundles =
      [⟨1, { demoOne with v := fun k _ => if k = 2 then 0 else 1, dt := 1 / 2 }⟩] := by
    unfold MTLN.overrideDt
    rw [if_pos (by norm_num)]
    rfl
  have hmem := List.mem_cons_self (a := (⟨1, { demoOne with v := fun k _ => if k = 2 then 0 else 1, dt := 1 / 2 }⟩ :
    AnyBundle 0)) (l := [])
  rw [← e0] at hmem
  obtain ⟨hp, -⟩ := h2.bundles _ hmem
  obtain ⟨C, d, hr, hd1, hd2⟩ := h6 _ hmem
  exact ⟨⟨hp.cells, hp.dt_pos, hp.dun, hp.l, hp.c, hp.r, hp.g, hp.zs, hp.zl, hp.q1, hp.q2, hp.q3⟩, rfl, C, d,
    ⟨hr.c, hr.c_spd, hr.l_spd, hr.e, hr.dun⟩, hd1, hd2⟩

/-- **C150** is false for terminations with an inductor: a lossless line at rest, with a time step of half its stability
limit, is driven by a constant source of 1 V through 1 Ω in series with 26 H parallel to 1/2 F.  Every run succeeds, and
no bound holds for the voltages and currents of all runs: a component of the state doubles in every step. -/
theorem C150_refuted : ∃ (nb : Network 1 2) (M : MTLN 0),
    Network.new (demoEnd "Conn_LCpRs") = .ok ⟨1, 2, demoNet [0, 1] 2⟩ ∧
    (demoNet [0, 1] 2).calls [.groundLCpRs 0 1 26 (1 / 2) (some fun _ => 1)] = .ok nb ∧
    MTLN.new [⟨1, demoOne⟩] [[(0, ⟨1, 2, nb⟩)]] = .ok M ∧ (∀ T, ∃ M', M.runUntil T (1 / 2) = .ok M') ∧
    (∀ b ∈ (M.overrideDt (1 / 2)).bundles, b.2.asLine.Passive ∧ b.2.Stable) ∧
    ¬ ∃ K, ∀ T M', M.runUntil T (1 / 2) = .ok M' → ∀ b ∈ M'.bundles,
      (∀ k ≤ b.2.m, ∀ a, |b.2.v k a| ≤ K) ∧ ∀ k < b.2.m, ∀ a, |b.2.i k a| ≤ K := by
  obtain ⟨nb, hb, hdx, hc, hv, hX, hi, -, hd⟩ := tank_calls 1
  have hn := tank_nodes hb
  have hst := tank_startable (v := demoOne.v) (i := demoOne.i) hn hc hd
  refine ⟨nb, tankManager demoOne.v demoOne.i nb, demoTank_new, hb, tank_new hn, hst.run,
    fun b hb => ⟨(tank_bundle _ _ b hb).1, (tank_bundle _ _ b hb).2.2⟩, ?_⟩
  rintro ⟨K, hK⟩
  refine TankState.unbounded ⟨K, fun k => ?_⟩
  obtain ⟨M', hM'⟩ := hst.run (k / 2)
  obtain ⟨b, nw, h⟩ := tank_run (q := ⟨0, 0, 0, 0, 0, 0⟩) hb ⟨rfl, rfl, rfl, rfl, rfl, rfl, rfl, rfl, rfl, rfl⟩ hdx
    (congrFun hv 0) ⟨congrFun hX 0, congrFun hX 1⟩ (congrFun hi 0) ⟨rfl, rfl, rfl, rfl, rfl⟩ hM'
  obtain ⟨g1, g2⟩ := hK _ _ hM' ⟨1, b⟩ (by rw [h.bundles]; exact List.mem_cons_self)
  simp only [h.m] at g1 g2
  rw [TankState.after, ← h.v0, ← h.v1, ← h.i0, ← h.i1]
  exact ⟨g1 0 (by norm_num) 0, g1 1 (by norm_num) 0, g2 0 (by norm_num) 0, g2 1 (by norm_num) 0⟩

/-- The initial state of the second witness. -/
noncomputable def tankV : Grid 1 := fun k _ => if k = 0 then 12 else if k = 1 then 3 else 0

/-- The initial currents of the second witness. -/
noncomputable def tankI : Grid 1 := fun k _ => if k = 0 then 9 else 3

/-- The second witness satisfies all hypotheses of C134 but the one about the elements of the networks; its end voltage
after `k` steps is 12 · 2^k. -/
theorem C150_refuted_free : ∃ (nb : Network 1 2) (M : MTLN 0),
    (demoNet [0, 1] 2).calls [.groundLCpRs 0 1 26 (1 / 2) (some fun _ => 0)] = .ok nb ∧
    M.networks = [[(0, ⟨1, 2, { nb with v := fun _ => 12, i := fun _ => 9, X := ![26, -1] }⟩)]] ∧
    (M.bundles.map fun b => b.2.name).Nodup ∧ ((allNodes M.networks).map Node.end').Nodup ∧
    (∀ b ∈ (M.overrideDt (1 / 2)).bundles, b.2.asLine.Passive ∧ b.2.dt = 1 / 2 ∧ b.2.Stable) ∧
    (M.overrideDt (1 / 2)).Linked ∧ (M.overrideDt (1 / 2)).Unexcited ∧ (M.overrideDt (1 / 2)).Matched ∧
    ∀ k : ℕ, ∃ M' b, M.runUntil (k / 2) (1 / 2) = .ok M' ∧ M'.bundles = [⟨1, b⟩] ∧ b.v 0 0 = 12 * 2 ^ k := by
  obtain ⟨nb, hb, hdx, hc, hv, hX, hi, hsr, hd⟩ := tank_calls 0
  have hn := tank_nodes hb
  obtain ⟨W, hW⟩ : ∃ W : Network 1 2, W = { nb with v := fun _ => 12, i := fun _ => 9, X := ![26, -1] } := ⟨_, rfl⟩
  have hWn : W.nodes = fun _ => demoNode [0, 1] := by rw [hW]; exact hn
  have hWd : W.dxc = 1 := by rw [hW]; exact hdx
  have hst := tank_startable (v := tankV) (i := tankI) hWn (by rw [hW]; exact hc) (by rw [hW]; exact hd)
  have hnodes : allNodes [[((0 : ℕ), (⟨1, 2, W⟩ : AnyNetwork))]] = [demoNode [0, 1]] := by
    simp [allNodes, hWn]
  have hsrc : ∀ x t, W.vSources x t = 0 := by
    intro x t
    rw [hW, Subsingleton.elim x 0]
    exact hsr t
  obtain ⟨B, hB⟩ : ∃ B : MTLD 1 0, B = { demoOne with v := tankV, i := tankI, dt := 1 / 2 } := ⟨_, rfl⟩
  have hbm : B.m = 2 := by rw [hB]; rfl
  have hbname : B.name = "demo" := by rw [hB]; rfl
  have hbc : ∀ k, B.c k = 1 := fun _ => by rw [hB]; rfl
  have hbdun : B.dun 0 = 1 := by rw [hB]; show (demoBare 0).dun 0 = 1; simp [demoBare]
  have hbv : B.v = tankV := by rw [hB]
  have hbi : B.i = tankI := by rw [hB]
  have hfind : findBundle [(⟨1, B⟩ : AnyBundle 0)] "demo" = some ⟨1, B⟩ := tank_find hbname
  have hM : (tankManager tankV tankI W).overrideDt (1 / 2) =
      { bundles := [⟨1, B⟩], networks := [[(0, ⟨1, 2, W⟩)]], dt := 1 / 2 } := by rw [tank_override, hB]
  have hmem : ∀ {P : NetworkD → ℕ × AnyNetwork → Prop}, P [(0, ⟨1, 2, W⟩)] (0, ⟨1, 2, W⟩) →
      ∀ nwd ∈ [[((0 : ℕ), (⟨1, 2, W⟩ : AnyNetwork))]], ∀ e ∈ nwd, P nwd e := by
    intro P hP nwd hn e he
    obtain rfl := List.mem_singleton.1 hn
    obtain rfl := List.mem_singleton.1 he
    exact hP
  have hend : ∀ a, (W.nodes a).end' = ⟨"demo", 0, .S⟩ := fun a => by rw [hWn]; rfl
  refine ⟨nb, tankManager tankV tankI W, hb, by rw [hW]; rfl, by simp [tankManager], ?_, tank_bundle _ _, ?_, ?_, ?_, ?_⟩
  · show ((allNodes [[((0 : ℕ), (⟨1, 2, W⟩ : AnyNetwork))]]).map Node.end').Nodup
    rw [hnodes]; simp
  · rw [hM]
    refine ⟨hmem ?_, hmem ?_, ?_⟩
    · intro a
      show W.v a = endV [⟨1, B⟩] (W.nodes a).end'
      rw [hend, hW]
      unfold endV
      rw [hfind]
      simp [Side.node, hbv, tankV]
    · intro a
      show W.i a = endI [⟨1, B⟩] (W.nodes a).end'
      rw [hend, hW]
      unfold endI
      rw [hfind]
      simp [Side.cell, Side.factor, hbi, tankI]
    · intro x hx
      change x ∉ (allNodes [[((0 : ℕ), (⟨1, 2, W⟩ : AnyNetwork))]]).map Node.end' at hx
      rw [hnodes] at hx
      show endV [⟨1, B⟩] x = 0
      unfold endV
      cases hf : findBundle [(⟨1, B⟩ : AnyBundle 0)] x.bundle with
      | none => rfl
      | some b =>
        obtain ⟨hb, hnm⟩ := findBundle_some hf
        obtain rfl := List.mem_singleton.1 hb
        simp only
        split
        · rename_i hr
          obtain ⟨nm, row, side⟩ := x
          cases side with
          | S =>
            exfalso
            apply hx
            have h2 : row = 0 := by simpa using hr
            have h3 : nm = "demo" := by rw [← hbname]; exact hnm.symm
            subst h2; subst h3
            simp [Node.end', demoNode]
          | L => simp [Side.node, hbm, hbv, tankV]
        · rfl
  · rw [hM]
    refine ⟨?_, hmem ⟨hsrc, ?_⟩⟩
    · intro b hb
      obtain rfl := List.mem_singleton.1 hb
      rw [hB]
      exact ⟨fun _ _ _ => rfl, fun _ _ _ => rfl⟩
    · intro a t
      show (W.nodes a).eT t = 0
      rw [hWn]
      rfl
  · rw [hM]
    refine ⟨?_, hmem ?_, hmem ?_⟩
    · intro d hd
      change d ∈ allNodes [[((0 : ℕ), (⟨1, 2, W⟩ : AnyNetwork))]] at hd
      rw [hnodes] at hd
      obtain rfl := List.mem_singleton.1 hd
      exact mem_allEnds.2 ⟨⟨1, B⟩, by simp, hbname, by simp [Node.end', demoNode]⟩
    · intro a b
      show W.dxc a b = endCap [⟨1, B⟩] (W.nodes a).end' (W.nodes b).end'
      rw [hWd, hend, hend]
      fin_cases a
      fin_cases b
      simp [endCap, hfind, Side.cell, Side.node, hbc, hbdun]
    · intro a y hy hne
      exfalso
      change y ∈ (allNodes [[((0 : ℕ), (⟨1, 2, W⟩ : AnyNetwork))]]).map Node.end' at hy
      rw [hnodes] at hy
      obtain rfl := List.mem_singleton.1 hy
      exact hne 0 (hend 0)
  · intro k
    obtain ⟨M', hM'⟩ := hst.run (k / 2)
    obtain ⟨b, nw, h⟩ := tank_run (q := ⟨12, 3, 9, 3, 26, -1⟩) hb (nb := W) (by
      rw [hW]; exact ⟨rfl, rfl, rfl, rfl, rfl, rfl, rfl, rfl, rfl, rfl⟩) hWd
      (by rw [hW]) (by rw [hW]; exact ⟨rfl, rfl⟩) (by rw [hW]) (by simp [tankV, tankI]) hM'
    exact ⟨M', b, hM', h.bundles, by rw [h.v0]; exact congrArg TankState.v0 (TankState.free_eq k)⟩

/-- **C150**, for resistors and capacitors: stable passive bundles whose networks come from the constructor and calls that
connect positive resistors and capacitors to ground, without sources and fields, stay below one bound in runs of any length,
whatever the initial state. -/
theorem C150_rc_partial {p : ℕ} (M : MTLN p) (dt : ℝ) (hdt : 0 < M.runDt dt)
    (hnames : ((M.overrideDt dt).bundles.map fun b => b.2.name).Nodup)
    (hends : ((allNodes (M.overrideDt dt).networks).map Node.end').Nodup)
    (hb : ∀ b ∈ (M.overrideDt dt).bundles, b.2.asLine.Passive ∧ b.2.dt = (M.overrideDt dt).dt ∧ b.2.Stable)
    (hn : ∀ nwd ∈ (M.overrideDt dt).networks, ∀ e ∈ nwd, ∃ (d : List (LineConnections p)) (nw0 nb : Network e.2.1 e.2.2.1)
      (l : List Call), Network.new d = .ok ⟨e.2.1, e.2.2.1, nw0⟩ ∧ nw0.dxcᵀ = nw0.dxc ∧ nw0.calls l = .ok nb ∧
      (∀ c ∈ l, c.IsResistive ∨ ∃ id C Vt, 0 ≤ C ∧ c = .groundC id C Vt) ∧ (∀ c ∈ l, c.Positive) ∧
      (l.Pairwise fun c c' => c.IsBranch → ¬ c'.IsBranch → ∀ id ∈ c.nodes, id ∉ c'.nodes) ∧
      nb.SameCircuit e.2.2.2 ∧ e.2.2.2.dxc = nb.dxc)
    (hl : (M.overrideDt dt).Linked) (hx : (M.overrideDt dt).Unexcited) (hm : (M.overrideDt dt).Matched) :
    ∃ K, ∀ T M', M.runUntil T dt = .ok M' → ∀ b ∈ M'.bundles,
      (∀ k ≤ b.2.m, ∀ a, |b.2.v k a| ≤ K) ∧ ∀ k < b.2.m, ∀ a, |b.2.i k a| ≤ K := by
  refine C134_bounded M dt hdt ⟨hnames, fun b h => ⟨(hb b h).1, (hb b h).2.1⟩, ?_, hends⟩ hl hx hm
    fun b h => (hb b h).2.2
  intro nwd hnwd e he
  obtain ⟨d, nw0, nb, l, h0, hc, h1, h2, h3, h4, h5, h6⟩ := hn nwd hnwd e he
  have hf := new_fresh h0
  have hr := C133_elements hf.P1 hf.Q1 hf.O hc h2 h3 h4 h1
  refine ⟨?_, ?_, ?_, ?_, ?_⟩
  · rw [h5.Q1]; exact hr.Q1_symm
  · rw [h5.Q1]; exact hr.Q1
  · rw [h5.O]; exact hr.O
  · rw [h6]; exact hr.dxc
  · rw [h5.P1]; exact hr.P1

/-- Non-vacuity of C150_rc_partial: a charged line with a resistor stays bounded. -/
example {dt : ℝ} (h0 : 0 < dt) (h1 : dt < 1) : ∃ K, ∀ T M', demoCharged.runUntil T dt = .ok M' → ∀ b ∈ M'.bundles,
    (∀ k ≤ b.2.m, ∀ a, |b.2.v k a| ≤ K) ∧ ∀ k < b.2.m, ∀ a, |b.2.i k a| ≤ K := by
  obtain ⟨a1, a2, a3, a4, a5, a6, -⟩ := demoCharged_hyps h0 h1
  refine C150_rc_partial demoCharged dt a1 a2.names a2.ends
    (fun b hb => ⟨(a2.bundles b hb).1, (a2.bundles b hb).2, a6 b hb⟩) ?_ a3 a4 a5
  have e : (demoCharged.overrideDt dt).networks =
      [[(0, ⟨1, 0, { demoTerm with vSources := fun _ _ => 0, v := fun _ => 1 }⟩)]] := by
    unfold MTLN.overrideDt
    rw [if_pos h0.ne']
    rfl
  rw [e]
  intro nwd hn e' he
  obtain rfl := List.mem_singleton.1 hn
  obtain rfl := List.mem_singleton.1 he
  have hc : (demoNet [] 0).calls [.ground 0 1 (some fun _ => 0)] =
      .ok { demoTerm with vSources := fun _ _ => 0 } := by
    refine calls_cons.2 ⟨_, ?_, calls_nil.2 rfl⟩
    show (demoNet [] 0).connectToGround 0 1 (some fun _ => 0) = _
    unfold Network.connectToGround Network.assertNode
    rw [demoNet_find]
    simp [bind, Except.bind, raiseIf, demoTerm, demoNet, NetBuild.finish, Function.update_eq_self_iff]
  refine ⟨_, _, _, _, demoRes_new, by rw [demoNet_dxc]; simp, hc, ?_, ?_, by simp,
    ⟨rfl, rfl, rfl, rfl, rfl, rfl, rfl, rfl, rfl, rfl⟩, rfl⟩
  · intro c hc
    obtain rfl := List.mem_singleton.1 hc
    exact Or.inl trivial
  · intro c hc
    obtain rfl := List.mem_singleton.1 hc
    simp [Call.Positive]

end Mtln
