import Verif.Model.LineApi
import Verif.Props.Runs
import Verif.Props.Construct

/-!
# Probes: C03, C05, C06 (acceptance)
-/

namespace Mtln

open Matrix

variable {n p : ℕ}

theorem nearest_first (u : ℕ → V3) (m : ℕ) : nearest u m (u 0) = 0 := by
  obtain ⟨-, -, h⟩ := C25_nearest u m (u 0)
  rcases Nat.eq_zero_or_pos (nearest u m (u 0)) with h0 | h0
  · exact h0
  · have := h 0 h0
    rw [sub_self, norm3_eq_zero.2 rfl] at this
    exact absurd this (not_lt.2 (norm3_nonneg _))

/-- Nodes of a mesh without repetitions are found exactly. -/
theorem nearest_node (u : ℕ → V3) (m k : ℕ) (hk : k ≤ m) (hinj : ∀ a ≤ m, u a = u k → a = k) :
    nearest u m (u k) = k :=
  hinj _ (C25_nearest u m (u k)).1 (C25_exact_node u m k hk)

theorem addProbe_ok_iff {s s' : MTL n p} {pos : Pos} {type : String} :
    s.addProbe pos type = .ok s' ↔ (∀ j, s.u 0 j ≤ pos.toV3 j ∧ pos.toV3 j ≤ s.u s.m j) ∧
      s' = { s with probes := s.probes ++ [Probe.new pos.toV3 type s.dt s.u s.m] } := by
  unfold MTL.addProbe
  rw [bind_ok_iff]
  have : (¬ outOfBox (s.u 0) (s.u s.m) pos.toV3) ↔ ∀ j, s.u 0 j ≤ pos.toV3 j ∧ pos.toV3 j ≤ s.u s.m j := by
    unfold outOfBox
    push Not
    exact ⟨fun h j => ⟨h.2 j, h.1 j⟩, fun h => ⟨fun j => (h j).2, fun j => (h j).1⟩⟩
  constructor
  · rintro ⟨_, h1, h2⟩
    injection h2 with h2
    exact ⟨this.1 (raiseIf_ok_iff.1 h1), h2.symm⟩
  · rintro ⟨h1, rfl⟩
    exact ⟨(), raiseIf_ok_iff.2 (this.2 h1), rfl⟩

/-! ## C03 -/

/-- **C03** where it holds: in every run, for every voltage probe and every current probe that was added with
the time step the run uses (no change of `dt` in between), sample `k` of the current probe is stamped exactly
`dt/2` after sample `k` of the voltage probe. -/
theorem C03_half_step_partial {s s' : MTL n p} {T : ℝ} (h : s.runUntil T = .ok s') (a b : ℕ)
    (qv qi qv' qi' : Probe n) (hv : s.probes[a]? = some qv) (hi : s.probes[b]? = some qi)
    (hv' : s'.probes[a]? = some qv') (hi' : s'.probes[b]? = some qi') (tv : qv.type = "voltage")
    (ti : qi.type = "current") (hdt : qi.dt = s.dt) (k : ℕ) (hk : k < ⌊T / s.dt⌋.toNat) :
    ∃ x, qv'.t[k]? = some x ∧ qi'.t[k]? = some (x + s.dt / 2) := by
  obtain ⟨tr, -, -, H⟩ := C01_run_frames s s' T h
  obtain ⟨-, -, h1, -⟩ := H a qv qv' hv hv'
  obtain ⟨-, -, h2, -⟩ := H b qi qi' hi hi'
  refine ⟨s.time + (k + 1) * s.dt, ?_, ?_⟩
  · rw [h1]
    simp [tv, hk]
  · rw [h2]
    simp [ti, hk, hdt]

/-- `add_probe` stores the present time step in the probe (hypothesis of `C03_half_step_partial`). -/
theorem C03_probe_dt {s s' : MTL n p} {pos : Pos} {type : String} (h : s.addProbe pos type = .ok s') :
    ∃ q, s'.probes = s.probes ++ [q] ∧ q.type = type ∧ q.dt = s'.dt := by
  obtain ⟨-, rfl⟩ := addProbe_ok_iff.1 h
  exact ⟨_, rfl, rfl, rfl⟩

theorem demoBare_u (p : ℕ) : (demoBare p).u 0 = ![0, 0, 0] ∧ (demoBare p).u 2 = ![0, 0, 2] := by
  constructor <;> simp [demoBare]

theorem demo_addProbe (s : MTL 1 p) (hu : s.u = (demoBare p).u) (hm : s.m = 2) (z : ℝ) (h0 : 0 ≤ z)
    (h2 : z ≤ 2) (type : String) : s.addProbe (.float z) type
      = .ok { s with probes := s.probes ++ [Probe.new ![0, 0, z] type s.dt s.u s.m] } := by
  refine addProbe_ok_iff.2 ⟨?_, rfl⟩
  intro j
  rw [hu, hm, (demoBare_u p).1, (demoBare_u p).2]
  fin_cases j <;> simp [Pos.toV3, h0, h2]

theorem demo_lr_dt (dt : ℝ) (hdt : 0 < dt) : ∃ lr, updateLr (demoBare p).m dt (demoBare p).dun (demoBare p).l
    (demoBare p).r (demoBare p).conn = .ok lr := by
  unfold updateLr
  rw [if_neg hdt.ne', if_neg]
  · exact ⟨_, rfl⟩
  · rintro ⟨k, hk, h⟩
    have hk' : k < 2 := hk
    have : (dt⁻¹ : ℝ) ≠ 0 := inv_ne_zero hdt.ne'
    interval_cases k <;> simp [lrF1, demoBare, Disp.new, this] at h

theorem demo_cg_dt (dt : ℝ) (hdt : 0 < dt) : ∃ cg, updateCg (demoBare p).m dt (demoBare p).dun (demoBare p).c
    (demoBare p).g = .ok cg := by
  unfold updateCg
  rw [if_neg hdt.ne', if_neg]
  · exact ⟨_, rfl⟩
  · rintro ⟨k, hk, h⟩
    have hk' : k ≤ 2 := hk
    have : (dt⁻¹ : ℝ) ≠ 0 := inv_ne_zero hdt.ne'
    interval_cases k <;> norm_num [cgF1, nodalLength, demoBare, this, hdt.ne'] at h

/-- **C03** is false of the code when `dt` is changed after the probes were added: on the demo line, built
with `dt = 1`, add both probes, then `set_time_step(4, 2)` (so `dt = 1/2`) and run: the current samples are
stamped `1/2` later than the voltage samples, not `dt/2 = 1/4`. -/
theorem C03_override_fails : ∃ s₁ s₂ s₃ s₄ : MTL 1 p, ∃ qv qi : Probe 1,
    (demoBare p).addProbe (.float 0) "voltage" = .ok s₁ ∧ s₁.addProbe (.float 2) "current" = .ok s₂ ∧
    s₂.setTimeStep 4 2 = .ok s₃ ∧ s₃.runUntil 2 = .ok s₄ ∧ s₄.probes = [qv, qi] ∧ s₃.dt = 1 / 2 ∧
    ∃ x, qv.t[0]? = some x ∧ qi.t[0]? = some (x + 1 / 2) := by
  set s₁ : MTL 1 p := { demoBare p with probes := [Probe.new ![0, 0, 0] "voltage" 1 (demoBare p).u 2] } with e1
  set s₂ : MTL 1 p := { demoBare p with probes := [Probe.new ![0, 0, 0] "voltage" 1 (demoBare p).u 2,
    Probe.new ![0, 0, 2] "current" 1 (demoBare p).u 2] } with e2
  set s₃ : MTL 1 p := { s₂ with dt := 1 / 2 } with e3
  have h1 : (demoBare p).addProbe (.float 0) "voltage" = .ok s₁ :=
    demo_addProbe (demoBare p) rfl rfl 0 le_rfl (by norm_num) "voltage"
  have h2 : s₁.addProbe (.float 2) "current" = .ok s₂ :=
    demo_addProbe s₁ rfl rfl 2 (by norm_num) le_rfl "current"
  have h3 : s₂.setTimeStep 4 2 = .ok s₃ := by
    unfold MTL.setTimeStep
    refine bind_ok_iff.2 ⟨(), raiseIf_ok_iff.2 (by norm_num), ?_⟩
    congr 1
    rw [e3]
    norm_num
  obtain ⟨s₄, h4⟩ : ∃ s₄, s₃.runUntil 2 = .ok s₄ := by
    refine (runUntil_success_iff _ _).2 ⟨by norm_num [e3], demo_lr_dt (p := p) _ (by norm_num), demo_cg_dt (p := p) _ (by norm_num),
      Or.inr ?_⟩
    intro q hq
    have hq' : q ∈ [Probe.new ![0, 0, 0] "voltage" 1 (demoBare p).u 2,
      Probe.new ![0, 0, 2] "current" 1 (demoBare p).u 2] := hq
    simp only [List.mem_cons, List.not_mem_nil, or_false] at hq'
    rcases hq' with rfl | rfl <;> simp [Probe.Valid, Probe.new]
  obtain ⟨tr, -, hlen, H⟩ := C01_run_frames s₃ s₄ 2 h4
  have hl : s₃.probes.length = 2 := rfl
  rw [hl] at hlen
  obtain ⟨qv, qi, hq⟩ := List.length_eq_two.1 hlen
  have hN : ⌊(2 : ℝ) / s₃.dt⌋.toNat = 4 := by
    have : (2 : ℝ) / s₃.dt = ((4 : ℤ) : ℝ) := by simp only [e3]; norm_num
    rw [this, Int.floor_intCast]
    rfl
  obtain ⟨-, -, a1, -⟩ := H 0 _ qv rfl (by rw [hq]; rfl)
  obtain ⟨-, -, a2, -⟩ := H 1 _ qi rfl (by rw [hq]; rfl)
  refine ⟨s₁, s₂, s₃, s₄, qv, qi, h1, h2, h3, h4, hq, rfl, s₃.time + (0 + 1) * s₃.dt, ?_, ?_⟩
  · rw [a1, hN]
    simp [Probe.new]
  · rw [a2, hN]
    simp [Probe.new]

/-! ## C05 -/

/-- The contents of a probe that owns its samples (as after any run). -/
structure Probe.Owns (q : Probe n) (r : List (Col n)) : Prop where
  val : q.val = .rows r
  len : r.length = q.t.length
  frame : q.currentFrame = q.t.length

/-- **C05** where it holds.  A probe that owns its samples (in particular every probe that took part in a
run, `C05_after_run`) gets exactly one frame appended by each manual `step()`: earlier frames are kept, the
new ones are stamped with the successive times and hold the values of the successive states. -/
theorem C05_manual_steps_partial (s : MTL n p) (st : ℕ → MTL n p) (N : ℕ) (h0 : st 0 = s)
    (hs : ∀ j < N, (st j).step = .ok (st (j + 1))) (a : ℕ) (q : Probe n) (hq : s.probes[a]? = some q)
    (r : List (Col n)) (ho : q.Owns r) :
    ∃ q', (st N).probes[a]? = some q' ∧
      q'.t = q.t ++ (List.range N).map (fun j : ℕ => q.stamp (s.time + (j + 1) * s.dt)) ∧
      q'.val = .rows (r ++ (List.range N).map fun j => q.column s.m (st (j + 1)).v (st (j + 1)).i) := by
  have key : ∀ j ≤ N, s.SameConfig (st j) ∧ (st j).time = s.time + j * s.dt ∧
      ∃ q', (st j).probes[a]? = some q' ∧ q'.type = q.type ∧ q'.index = q.index ∧ q'.dt = q.dt ∧
        q'.t = q.t ++ (List.range j).map (fun j : ℕ => q.stamp (s.time + (j + 1) * s.dt)) ∧
        q'.Owns (r ++ (List.range j).map fun j => q.column s.m (st (j + 1)).v (st (j + 1)).i) := by
    intro j
    induction j with
    | zero =>
      intro _
      rw [h0]
      refine ⟨MTL.SameConfig.refl s, by simp, q, hq, rfl, rfl, rfl, by simp, ?_⟩
      simpa using ho
    | succ j ih =>
      intro hj
      obtain ⟨hc, ht, q1, hq1, e1, e2, e3, e4, e5⟩ := ih (by omega)
      have hst := hs j (by omega)
      refine ⟨hc.trans (step_sameConfig hst), ?_, ?_⟩
      · rw [step_time hst, ht, hc.dt]
        push_cast
        ring
      obtain ⟨lr, cg, ps, hlr, hcg, hps, he⟩ := (step_ok_iff _ _).1 hst
      obtain ⟨-, hps⟩ := (updateProbes_ok_iff _ _ _ _ _ _).1 hps
      have hv : ((st j).advanceFields lr cg).v = (st (j + 1)).v := by rw [he]
      have hi : ((st j).advanceFields lr cg).i = (st (j + 1)).i := by rw [he]
      have hp : (st (j + 1)).probes = ps := by rw [he]
      have hstamp : q1.stamp ((st j).time + (st j).dt) = q.stamp (s.time + (j + 1) * s.dt) := by
        have e : s.time + (j : ℝ) * s.dt + s.dt = s.time + (j + 1) * s.dt := by ring
        simp only [Probe.stamp, e1, e3, ht, hc.dt, e]
      have hcol : q1.column (st j).m (st (j + 1)).v (st (j + 1)).i
          = q.column s.m (st (j + 1)).v (st (j + 1)).i := by
        simp only [Probe.column, e1, e2, hc.m]
      refine ⟨q1.saveFrame (q.stamp (s.time + (j + 1) * s.dt)) (q.column s.m (st (j + 1)).v (st (j + 1)).i),
        ?_, ?_⟩
      · rw [hp, hps, List.getElem?_map, hq1, hv, hi]
        simp only [Option.map_some, hstamp, hcol]
      · have hn : ¬ q1.currentFrame < q1.t.length := by rw [e5.frame]; omega
        unfold Probe.saveFrame
        rw [if_neg hn]
        refine ⟨e1, e2, e3, ?_, ⟨?_, ?_, ?_⟩⟩
        · simp only [e4, List.range_succ, List.map_append, List.map_cons, List.map_nil, List.append_assoc]
        · simp only [e5.val, List.range_succ, List.map_append, List.map_cons, List.map_nil, List.append_assoc]
        · have := e5.len
          simp only [List.length_append, List.length_map, List.length_range, List.length_cons,
            List.length_nil] at this ⊢
          omega
        · simp [e5.frame]
  obtain ⟨-, -, q', h1, -, -, -, h2, h3⟩ := key N le_rfl
  exact ⟨q', h1, h2, h3.val⟩

/-- Every probe owns its samples after a run. -/
theorem C05_after_run {s s' : MTL n p} {T : ℝ} (h : s.runUntil T = .ok s') (a : ℕ) (q' : Probe n)
    (hq : s'.probes[a]? = some q') : ∃ r, q'.Owns r := by
  obtain ⟨-, N, tr, R⟩ := (runUntil_ok_iff _ _ _).1 h
  have := R.probes N le_rfl
  rw [R.final] at this
  rw [this, List.getElem?_map] at hq
  obtain ⟨q, -, rfl⟩ := Option.map_eq_some_iff.1 hq
  refine ⟨_, rfl, ?_, ?_⟩
  · simp [Probe.recorded, filled_length]
  · simp [Probe.recorded, filled_length]

/-- The code disagrees with **C05** for probes that have never taken part in a run: after two manual steps
the first row is not the first sample, both rows hold the second sample (`self.val = new_values` stored a view
of the live array). -/
theorem C05_virgin_probe (s s₁ s₂ : MTL n p) (h1 : s.step = .ok s₁) (h2 : s₁.step = .ok s₂) (a : ℕ)
    (q : Probe n) (hq : s.probes[a]? = some q) (ht : q.t = []) (hval : q.val = .empty) (hf : q.currentFrame = 0) :
    ∃ q₂, s₂.probes[a]? = some q₂ ∧ q₂.val = .rows [q.column s.m s₂.v s₂.i, q.column s.m s₂.v s₂.i] := by
  obtain ⟨lr, cg, ps, -, -, hps, he⟩ := (step_ok_iff _ _).1 h1
  obtain ⟨-, hps⟩ := (updateProbes_ok_iff _ _ _ _ _ _).1 hps
  have q1 : s₁.probes[a]? = some (q.saveFrame (q.stamp (s.time + s.dt))
      (q.column s.m (s.advanceFields lr cg).v (s.advanceFields lr cg).i)) := by
    rw [he]
    simp only [hps, List.getElem?_map, hq, Option.map_some]
  have hm : s₁.m = s.m := (step_sameConfig h1).m
  generalize (s.advanceFields lr cg).v = w at q1
  generalize (s.advanceFields lr cg).i = x at q1
  obtain ⟨lr', cg', ps', -, -, hps', he'⟩ := (step_ok_iff _ _).1 h2
  obtain ⟨-, hps'⟩ := (updateProbes_ok_iff _ _ _ _ _ _).1 hps'
  have hv : (s₁.advanceFields lr' cg').v = s₂.v := by rw [he']
  have hi : (s₁.advanceFields lr' cg').i = s₂.i := by rw [he']
  have hp : s₂.probes = ps' := by rw [he']
  refine ⟨_, by rw [hp, hps', List.getElem?_map, q1, Option.map_some], ?_⟩
  rw [hv, hi, hm]
  simp [Probe.saveFrame, ht, hval, hf, Probe.column]

/-- An impulse. -/
noncomputable def impulse : ℝ → ℝ := fun t => if t = 0 then 1 else 0

/-- **C05** is false of the code: on the demo line with an impulse source at its left end, after a run of zero
steps, add a voltage probe at the source and make two manual steps: the two states have different voltages
there (`1/2`, then `0`), but the first recorded row is not the first of them. -/
theorem C05_append_fails : ∃ s₀ s₁ s₂ s₃ : MTL 1 p, ∃ q r,
    ((demoBare p).addVoltageSource (.float 0) 0 impulse).runUntil 0 = .ok s₀ ∧
    s₀.addProbe (.float 0) "voltage" = .ok s₁ ∧ s₁.step = .ok s₂ ∧ s₂.step = .ok s₃ ∧
    s₃.probes = [q] ∧ q.index = 0 ∧ q.val = .rows r ∧ r[0]? ≠ some (s₂.v 0) := by
  set s : MTL 1 p := (demoBare p).addVoltageSource (.float 0) 0 impulse with hs
  obtain ⟨lr, hlr⟩ := demo_lr_dt (p := p) 1 one_pos
  obtain ⟨cg, hcg⟩ := demo_cg_dt (p := p) 1 one_pos
  set s₀ : MTL 1 p := { s with lr := some lr, cg := some cg } with e0
  have h0 : s.runUntil 0 = .ok s₀ := by
    refine (runUntil_ok_iff _ _ _).2 ⟨by simp [hs, MTL.addVoltageSource, demoBare], 0, fun _ => s₀, by simp,
      ⟨lr, cg, hlr, hcg, ?_⟩, by simp, rfl⟩
    rfl
  set s₁ : MTL 1 p := { s₀ with probes := [Probe.new ![0, 0, 0] "voltage" 1 (demoBare p).u 2] } with e1
  have h1 : s₀.addProbe (.float 0) "voltage" = .ok s₁ :=
    demo_addProbe s₀ rfl rfl 0 le_rfl (by norm_num) "voltage"
  have step : ∀ t : MTL 1 p, t.lr = some lr → t.cg = some cg → (∀ q ∈ t.probes, q.Valid) →
      ∃ t', t.step = .ok t' ∧ (∀ q ∈ t'.probes, q.Valid) := by
    intro t a b c
    refine ⟨_, (step_ok_iff _ _).2 ⟨lr, cg, _, a, b, (updateProbes_ok_iff _ _ _ _ _ _).2 ⟨c, rfl⟩, rfl⟩, ?_⟩
    intro q hq
    obtain ⟨q0, hq0, rfl⟩ := List.mem_map.1 hq
    exact (q0.saveFrame_valid _ _).2 (c q0 hq0)
  obtain ⟨s₂, h2, hv2⟩ := step s₁ rfl rfl (by
    intro q hq
    have : q = Probe.new ![0, 0, 0] "voltage" 1 (demoBare p).u 2 := by simpa [e1] using hq
    subst this
    left; rfl)
  obtain ⟨hl2, hc2⟩ := step_coeffs h2
  obtain ⟨s₃, h3, -⟩ := step s₂ hl2 hc2 hv2
  have hn0 : nearest (demoBare p).u 2 ![0, 0, 0] = 0 := by
    have := nearest_first (demoBare p).u 2
    rwa [(demoBare_u p).1] at this
  have hprobe : (Probe.new ![0, 0, 0] "voltage" 1 (demoBare p).u 2 : Probe 1).index = 0 := hn0
  obtain ⟨q, hq, hqv⟩ := C05_virgin_probe s₁ s₂ s₃ h2 h3 0 _ rfl rfl rfl rfl
  have hF1 : s₁.Fresh lr cg := ⟨rfl, rfl, hlr, hcg⟩
  have hF2 : s₂.Fresh lr cg := (step_sameConfig h2).fresh (step_coeffs h2) hF1
  obtain ⟨v1, i1, -⟩ := hF1.step_fields h2
  obtain ⟨v2, -, -⟩ := hF2.step_fields h3
  obtain ⟨-, -, elr⟩ := updateLr_ok_iff.1 hlr
  have inv2 : ((termF1 1 1 1 1 0 : Mat 1))⁻¹ = (1 / 2 : ℝ) • 1 := by
    rw [demo_termF1]
    refine Matrix.inv_eq_right_inv ?_
    rw [smul_mul_smul_comm]
    norm_num
  have hL2 : s₁.left2 = (1 / 2 : ℝ) • 1 := inv2
  have hL1 : s₁.left1 = 0 := by
    show (termF1 1 1 1 1 0 : Mat 1)⁻¹ * termF2 1 1 1 1 0 = 0
    have : (termF2 1 1 1 1 0 : Mat 1) = 0 := by
      unfold termF2
      simp
    rw [this, mul_zero]
  have hvS : ∀ k t, s₁.vSources k 0 t = if k = 0 then impulse t else 0 := by
    intro k t
    show ((demoBare p).addVoltageSource (.float 0) 0 impulse).vSources k 0 t = _
    simp only [MTL.addVoltageSource]
    have : nearest (demoBare p).u (demoBare p).m (Pos.float 0).toV3 = 0 := hn0
    rw [this]
    by_cases hk : k = 0 <;> simp [hk, demoBare]
  have hv10 : s₂.v 0 = fun _ => 1 / 2 := by
    rw [v1, advanceFields_v_left _ _ _ (by norm_num [e1, e0, hs, MTL.addVoltageSource, demoBare])]
    rw [hL1, hL2]
    ext j
    fin_cases j
    have : s₁.i 0 = 0 := rfl
    have a1 : s₁.sample.vNow 0 0 = 1 := by
      show s₁.vSources 0 0 0 = 1
      simp [hvS, impulse]
    have a2 : s₁.sample.vPrev 0 0 = 0 := by
      show s₁.vSources 0 0 (0 - 1) = 0
      simp [hvS, impulse]
    have a3 : s₁.sample.eTNow 0 - s₁.sample.eTPrev 0 = 0 := by
      ext j
      simp [MTL.sample, sampleSources, e1, e0, hs, MTL.addVoltageSource, demoBare]
    simp [this, a1, a2, a3, smul_mulVec]
  have hv11 : s₂.v 1 = 0 := by
    rw [v1, advanceFields_v_interior _ _ _ 1 one_pos (by norm_num [e1, e0, hs, MTL.addVoltageSource, demoBare])]
    have b1 : s₁.v 1 = 0 := rfl
    have b2 : s₁.i 1 = 0 := rfl
    have b3 : s₁.i (1 - 1) = 0 := rfl
    have a3 : s₁.sample.eTNow 1 - s₁.sample.eTPrev 1 = 0 := by
      ext j
      simp [MTL.sample, sampleSources, e1, e0, hs, MTL.addVoltageSource, demoBare]
    rw [b1, b2, b3, a3]
    simp
  have hi10 : s₂.i 0 = fun _ => 1 / 2 := by
    rw [i1, advanceFields_i _ _ _ 0 (by norm_num [e1, e0, hs, MTL.addVoltageSource, demoBare]), ← v1, hv10,
      zero_add, hv11]
    have b2 : s₁.i 0 = 0 := rfl
    have c1 : s₁.sample.eTNow 1 - s₁.sample.eTNow 0 = 0 := by
      ext j
      simp [MTL.sample, sampleSources, e1, e0, hs, MTL.addVoltageSource, demoBare]
    have c2 : s₁.sample.eLNow 0 + s₁.sample.eLPrev 0 = 0 := by
      ext j
      simp [MTL.sample, sampleSources, e1, e0, hs, MTL.addVoltageSource, demoBare]
    have c3 : s₁.conn.q3phi s₁.phi 0 = 0 := by
      ext j
      simp [Disp.q3phi, poleSum, e1, e0, hs, MTL.addVoltageSource, demoBare]
    have c4 : lr.vDiff 0 = 1 := by
      rw [elr]
      simp [lrF1, demoBare, Disp.new]
    rw [b2, c1, c2, c3, c4]
    ext j
    simp
  have hv20 : s₃.v 0 = 0 := by
    have hc := step_sameConfig h2
    rw [v2, advanceFields_v_left _ _ _ (by rw [hc.m]; norm_num [e1, e0, hs, MTL.addVoltageSource, demoBare]), hc.left1,
      hc.left2, hL1, hL2, hi10, hc.zs]
    have ht : s₂.time = 1 := by
      rw [step_time h2]
      show (0 : ℝ) + 1 = 1
      norm_num
    have hdt : s₂.dt = 1 := hc.dt
    have a1 : s₂.sample.vNow 0 0 = 0 := by
      show s₂.vSources 0 0 s₂.time = 0
      rw [hc.vSources, hvS, ht]
      simp [impulse]
    have a2 : s₂.sample.vPrev 0 0 = 1 := by
      show s₂.vSources 0 0 (s₂.time - s₂.dt) = 1
      rw [hc.vSources, hvS, ht, hdt]
      simp [impulse]
    have a3 : s₂.sample.eTNow 0 - s₂.sample.eTPrev 0 = 0 := by
      ext j
      simp only [MTL.sample, sampleSources, hc.eT]
      simp [e1, e0, hs, MTL.addVoltageSource, demoBare]
    have hz : s₁.zs = 1 := rfl
    ext j
    fin_cases j
    simp [a1, a2, a3, hz, smul_mulVec]
  have hlen : s₃.probes.length = 1 := by
    have e : ∀ {t t' : MTL 1 p}, t.step = .ok t' → t'.probes.length = t.probes.length := by
      intro t t' h
      obtain ⟨_, _, ps, -, -, hps, he⟩ := (step_ok_iff _ _).1 h
      obtain ⟨-, hps⟩ := (updateProbes_ok_iff _ _ _ _ _ _).1 hps
      rw [he]
      simp [hps]
    rw [e h3, e h2]
    rfl
  obtain ⟨q0, hq0⟩ := List.length_eq_one_iff.1 hlen
  rw [hq0] at hq
  simp only [List.getElem?_cons_zero, Option.some.injEq] at hq
  subst hq
  have hidx : q0.index = 0 := by
    have e : ∀ {t t' : MTL 1 p}, t.step = .ok t' → (∀ q ∈ t.probes, q.index = 0) → ∀ q ∈ t'.probes, q.index = 0 := by
      intro t t' h hq q hq'
      obtain ⟨_, _, ps, -, -, hps, he⟩ := (step_ok_iff _ _).1 h
      obtain ⟨-, hps⟩ := (updateProbes_ok_iff _ _ _ _ _ _).1 hps
      rw [he] at hq'
      simp only [hps, List.mem_map] at hq'
      obtain ⟨q1, hq1, rfl⟩ := hq'
      unfold Probe.saveFrame
      split <;> exact hq q1 hq1
    refine e h3 (e h2 ?_) q0 (by rw [hq0]; simp)
    intro q hq
    have : q = Probe.new ![0, 0, 0] "voltage" 1 (demoBare p).u 2 := by simpa [e1] using hq
    rw [this, hprobe]
  refine ⟨s₀, s₁, s₂, s₃, q0, _, h0, h1, h2, h3, hq0, hidx, hqv, ?_⟩
  simp only [List.getElem?_cons_zero, ne_eq, Option.some.injEq]
  have : (Probe.new ![0, 0, 0] "voltage" 1 (demoBare p).u 2 : Probe 1).column s₁.m s₃.v s₃.i = s₃.v 0 := by
    unfold Probe.column
    rw [hprobe]
    rfl
  rw [this, hv20, hv10]
  intro h
  have := congrFun h 0
  norm_num at this

/-! ## C06 -/

/-- **C06**: `add_probe` accepts any type string at a position inside the box of the line.  The name is
checked no earlier than the first step (`C06_unknown_probe_raises`). -/
theorem C06_accepted (s : MTL n p) (pos : Pos) (type : String)
    (h : ∀ j, s.u 0 j ≤ pos.toV3 j ∧ pos.toV3 j ≤ s.u s.m j) :
    ∃ s', s.addProbe pos type = .ok s' ∧ ∃ q, s'.probes = s.probes ++ [q] ∧ q.type = type :=
  ⟨_, addProbe_ok_iff.2 ⟨h, rfl⟩, _, rfl, rfl⟩

/-- **C06**, last part: valid probes never raise.  Whether a run succeeds depends on the time step and the line's
matrices only. -/
theorem C06_valid_never_raise (s : MTL n p) (T : ℝ) (h : ∀ q ∈ s.probes, q.type = "voltage" ∨ q.type = "current") :
    (∃ s', s.runUntil T = .ok s') ↔ ∃ s', ({ s with probes := [] } : MTL n p).runUntil T = .ok s' := by
  rw [runUntil_success_iff, runUntil_success_iff]
  constructor
  · rintro ⟨h1, h2, h3, -⟩
    exact ⟨h1, h2, h3, Or.inr (by simp)⟩
  · rintro ⟨h1, h2, h3, -⟩
    exact ⟨h1, h2, h3, Or.inr h⟩

/-- Both halves of **C06** together on the demo line: a probe of type `"power"` is accepted, and every run
of at least one step then raises `ValueError`. -/
example : ∃ s' : MTL 1 p, (demoBare p).addProbe (.float 1) "power" = .ok s' ∧
    s'.runUntil 3 = .error .ValueError := by
  refine ⟨_, demo_addProbe (demoBare p) rfl rfl 1 (by norm_num) (by norm_num) "power", ?_⟩
  refine C06_unknown_probe_raises _ 3 (Probe.new ![0, 0, 1] "power" 1 (demoBare p).u 2) ?_ ?_ ?_ ?_ ?_ ?_
  · show _ ∈ [] ++ [_]
    simp [demoBare]
  · simp [Probe.new]
  · norm_num [demoBare]
  · exact demo_lr_dt 1 one_pos
  · exact demo_cg_dt (p := p) 1 one_pos
  · have : (3 : ℝ) / (demoBare p).dt = ((3 : ℤ) : ℝ) := by simp [demoBare]
    show ⌊(3 : ℝ) / (demoBare p).dt⌋.toNat ≠ 0
    rw [this, Int.floor_intCast]
    norm_num

end Mtln
