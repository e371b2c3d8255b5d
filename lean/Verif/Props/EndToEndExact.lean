import Verif.Props.EndToEnd
import Verif.Props.Exact

/-!
# Files with one lossless cable of one conductor (C142)

The probes of such a file record the exact solution of the telegrapher's equations.  There is exactly one (`C129_solution`,
`C129_unique`) for each source that is off before the time zero.
-/

namespace Mtln

open Matrix

variable {p : ℕ}

theorem File.ProbeAt.unique {F : File} {cable : Cable} {d : ProbeDesc} {x y : V3} (hx : F.ProbeAt cable d x)
    (hy : F.ProbeAt cable d y) : x = y := by
  obtain ⟨id, c, h1, h2, h3, -⟩ := hx
  obtain ⟨id', c', h1', h2', h3', -⟩ := hy
  obtain rfl := Option.some.inj (h1.symm.trans h1')
  obtain rfl := Except.ok.inj (h2.symm.trans h2')
  exact Except.ok.inj (h3.symm.trans h3')

/-- A straight lossless line of one conductor between two points, as the constructor makes it. -/
theorem straight_ideal {L C Zs Zl : ℝ} {m : ℕ} {name : String} {s : MTL 1 p} {a b : V3} {length : ℝ} (hL : 0 < L) (hC : 0 < C)
    (hab : a ≠ b) (hs : 0 ≤ Zs) (hl : 0 ≤ Zl) (hm : 0 < m)
    (h : MTL.new p (.scalar L) (.scalar C) (.scalar 0) (.scalar 0) length [a, b] [m] (.vec [Zs]) (.vec [Zl]) name = .ok ⟨1, s⟩)
    (Vs : ℝ → ℝ) (ps : List (Probe 1)) :
    ({ s.withEndSources (fun _ => some Vs) (fun _ => none) with probes := ps } : MTL 1 p).Ideal (norm3 (b - a) / m) L C Zs Zl Vs ∧
      ({ s.withEndSources (fun _ => some Vs) (fun _ => none) with probes := ps } : MTL 1 p).AtRest ∧ s.time = 0 ∧ s.m = m ∧
      (∀ k ≤ m, s.u k = fun j => a j + k * ((b j - a j) / m)) ∧ ∀ k < m, s.du k = fun j => (b j - a j) / m := by
  obtain ⟨-, -, -, -, el, ec, er, eg, ezs, ezl, -, -, -, hdun, hconn⟩ := new_ok_contents h
  obtain ⟨em, eu, edu, eu0, -⟩ := straight_mesh (a := a) (b := b) hm rfl h
  have hm' : (0 : ℝ) < m := by exact_mod_cast hm
  have hD : 0 < norm3 (b - a) := lt_of_le_of_ne (norm3_nonneg _) fun e => hab (sub_eq_zero.1 (norm3_eq_zero.1 e.symm)).symm
  have hd : 0 < norm3 (b - a) / m := by positivity
  have hdu : ∀ k < s.m, s.dun k = norm3 (b - a) / m := by
    intro k hk
    rw [hdun]
    show norm3 (s.du k) = _
    rw [edu k (by omega)]
    have : (fun j => (b j - a j) / m) = (1 / (m : ℝ)) • (b - a) := by
      funext j
      simp
      ring
    rw [this, norm3_smul, abs_of_pos (by positivity)]
    ring
  obtain ⟨la, ca, ga, ra, zsa, zla, mem, dt, h1, h2, h3, h4, h5, h6, h7, h8⟩ := new_ok_iff.1 h
  obtain ⟨-, -, -, e⟩ := computeTerminalTerms_ok_iff.1 h8
  have eeL : s.eL = fun _ _ _ => 0 := by rw [e]; rfl
  have eeT : s.eT = fun _ _ _ => 0 := by rw [e]; rfl
  have etime : s.time = 0 := by rw [e]; rfl
  have ev : s.v = fun _ => 0 := by rw [e]; rfl
  have ei : s.i = fun _ => 0 := by rw [e]; rfl
  have ephi : s.phi = fun _ _ => 0 := by rw [e]; rfl
  have hcou : s.dt = norm3 (b - a) / m * Real.sqrt (L * C) := by
    obtain ⟨k, hk, -, -, q⟩ := C21_one_conductor h
    rw [q, hdu k hk]
  have mat : ∀ x : ℝ, (Arg.scalar x).matrix 1 = x • (1 : Mat 1) := by
    intro x
    ext a b
    fin_cases a; fin_cases b
    simp [Arg.matrix]
  have zmat : ∀ x : ℝ, Matrix.diagonal (fun i : Fin 1 => (ZArg.vec [x]).value i) = x • (1 : Mat 1) := by
    intro x
    ext a b
    fin_cases a; fin_cases b
    simp [ZArg.value]
  refine ⟨⟨?_, hd, hL, hC, hdu, ?_, ?_, ?_, ?_, hconn, ?_, ?_, hs, hl, ?_, ?_, ?_, ?_, hcou, ?_⟩, ⟨?_, ?_, ?_⟩, etime, em, eu, edu⟩
  · show 0 < s.m
    omega
  · intro k _
    show s.l k = _
    rw [el, mat]
  · intro k _
    show s.c k = _
    rw [ec, mat]
  · intro k _
    show s.r k = _
    rw [er, mat, zero_smul]
  · intro k _
    show s.g k = _
    rw [eg, mat, zero_smul]
  · show s.zs = _
    rw [ezs, zmat]
  · show s.zl = _
    rw [ezl, zmat]
  · simp [MTL.withEndSources]
  · intro t
    have : s.m ≠ 0 := by omega
    simp [MTL.withEndSources, this]
  · intro k x t
    show s.eL k x t = 0
    rw [eeL]
  · intro k x t
    show s.eT k x t = 0
    rw [eeT]
  · have := C09_constructed_consistent _ _ _ _ _ _ _ _ _ _ _ h
    exact ⟨this.1, this.2, this.3, this.4, this.5, this.6⟩
  · intro k
    show s.v k = 0
    rw [ev]
  · intro k
    show s.i k = 0
    rw [ei]
  · intro k x
    show s.phi k x = 0
    rw [ephi]

/-- The nodes of a straight cable with `m` cells. -/
noncomputable def straightNode (a b : V3) (m k : ℕ) : V3 := fun j => a j + k * ((b j - a j) / m)

section

variable {j : Json} {F : File} {cable : Cable} {bundle : String} {first last : ℕ → ℤ} {cS cL : Connector} {RS RL : ℕ → ℝ}
  {Vs : ℝ → ℝ} {order : List String → List String}

/-- **C142** A file with one straight lossless cable of one conductor, resistances at both ends, a source at its beginning, and
probes at its nodes: the parser accepts it, runs for any time, and each voltage probe records, with the time stamps
`(i + 1) dt`, the exact voltages at the times `i dt`; each current probe before the end of the cable records the exact currents
half a cell farther, half a time step later. -/
theorem C142_exact (h : Reads j F 1 cable bundle first last cS cL RS RL (fun _ => some Vs) (fun _ => none))
    (ho : ValidOrder order) {a b : V3} {w : Wire} {L C : ℝ} {m : ℕ} (hf : F.Finds cable.name cable [a, b] w) (hab : a ≠ b)
    (hwl : w.inductance = some (.float L)) (hwc : w.capacitance = some (.float C))
    (hwr : w.resistance = none ∨ w.resistance = some (.float 0)) (hL : 0 < L) (hC : 0 < C) (hm : 0 < m) (hnd : cable.ndiv = [m])
    {dt : ℝ} (hdt : dt = norm3 (b - a) / m * Real.sqrt (L * C)) (hdt' : dt ≤ 10 ^ 10)
    (hprobes : ∀ d ∈ F.probes, (d.type = "voltage" ∨ d.type = "current") ∧ ∃ k ≤ m, F.ProbeAt cable d (straightNode a b m k))
    {v i : ℝ → ℝ → ℝ} (ht : Mild L C (norm3 (b - a)) (RS 0) (RL 0) 0 Vs v i) (T : ℝ) :
    ∃ (P P' : Parsed p) (B : MTLD 1 p) (levels : List (List (AnyLine p))), Parsed.new p order j = .ok P ∧ P.run T 0 = .ok P' ∧
      P'.bundles = [⟨⟨1, B⟩, levels⟩] ∧
      ∀ (x : ℕ) d, F.probes[x]? = some d → ∀ k ≤ m, F.ProbeAt cable d (straightNode a b m k) → ∃ q, B.probes[x]? = some q ∧
        (d.type = "voltage" → q.t = (List.range ⌊T / dt⌋.toNat).map (fun y : ℕ => (y + 1) * dt) ∧
          q.val = .rows ((List.range ⌊T / dt⌋.toNat).map fun (y : ℕ) _ => v (k * (norm3 (b - a) / m)) (y * dt))) ∧
        (d.type = "current" → k < m → q.t = (List.range ⌊T / dt⌋.toNat).map (fun y : ℕ => (y + 1) * dt + dt / 2) ∧
          q.val = .rows ((List.range ⌊T / dt⌋.toNat).map fun (y : ℕ) _ =>
            i ((k + 1 / 2) * (norm3 (b - a) / m)) ((y + 1 / 2) * dt))) := by
  have hm' : (0 : ℝ) < m := by exact_mod_cast hm
  have hargs : w.args = .ok (.scalar L, .scalar C, .scalar 0) := by
    unfold Wire.args
    rw [hwl, hwc]
    rcases hwr with e | e <;> rw [e] <;> rfl
  have hRS := h.pos_S 0 one_pos
  have hRL := h.pos_L 0 one_pos
  obtain ⟨s, hs⟩ : ∃ s : MTL 1 p, MTL.new p (.scalar L) (.scalar C) (.scalar 0) (.scalar 0) 1 [a, b] [m] (.vec [RS 0])
      (.vec [RL 0]) cable.name = .ok ⟨1, s⟩ := by
    refine C32_physical_accepted (d := m) cable.name one_ne_zero (.floats L C) .zero .zero (.vectors _ _ rfl rfl)
      (spd_one hL) (spd_one hC) dissipative_zero ?_ ?_ hm (by simp) rfl (by simp) ⟨0, by simp, by simpa using hab⟩
    · intro x hx
      obtain rfl : x = 0 := by omega
      simpa [ZArg.value] using hRS.le
    · intro x hx
      obtain rfl : x = 0 := by omega
      simpa [ZArg.value] using hRL.le
  have hbuild : Builds p F 1 cable RS RL s := ⟨[a, b], w, _, _, _, hf, hargs, by rw [hnd]; exact hs⟩
  obtain ⟨hi0, -, htime, hsm, hu, hdu⟩ := straight_ideal hL hC hab hRS.le hRL.le hm hs Vs []
  have hsdt : s.dt = dt := by rw [hdt]; exact hi0.courant
  have hD : 0 < norm3 (b - a) := by
    have := hi0.d_pos
    by_contra hc
    have : norm3 (b - a) / m ≤ 0 := div_nonpos_of_nonpos_of_nonneg (not_lt.1 hc) hm'.le
    linarith
  have hacc : ∀ d ∈ F.probes, ∃ x, F.ProbeAt cable d x ∧ (MTLD.single s bundle).Accepts x := by
    intro d hd
    obtain ⟨-, k, hk, hp⟩ := hprobes d hd
    refine ⟨_, hp, ?_⟩
    have hseg : ∀ k ≤ m, segmentStart (s.u 0) s.du k = straightNode a b m k := by
      intro k
      induction k with
      | zero => intro _; rw [segmentStart, hu 0 (Nat.zero_le _)]; rfl
      | succ k ih =>
        intro hk
        rw [segmentStart, ih (by omega), hdu k (by omega)]
        funext x
        simp [straightNode]
        ring
    unfold MTLD.Accepts MTLD.addProbe
    simp only [bind_ok_iff, raiseIf_ok_iff, Except.ok.injEq]
    refine ⟨_, (), by show s.m ≠ 0; omega, (), not_not.2 ?_, rfl⟩
    have hcases : ∃ k' < m, k = k' ∨ k = k' + 1 := by
      rcases Nat.lt_or_ge k m with h | h
      · exact ⟨k, h, .inl rfl⟩
      · exact ⟨k - 1, by omega, .inr (by omega)⟩
    obtain ⟨k', hk', hkk⟩ := hcases
    left
    refine ⟨k', by show k' < s.m; omega, ?_⟩
    show pointInLine (straightNode a b m k) (segmentStart (s.u 0) s.du k') (segmentStart (s.u 0) s.du k' + s.du k')
    have e2 : segmentStart (s.u 0) s.du k' + s.du k' = straightNode a b m (k' + 1) := hseg (k' + 1) (by omega)
    rw [e2, hseg k' (by omega)]
    rcases hkk with rfl | rfl
    · simpa using C28_segment (straightNode a b m k) (straightNode a b m (k + 1)) 0 le_rfl zero_le_one
    · simpa using C28_segment (straightNode a b m k') (straightNode a b m (k' + 1)) 1 zero_le_one le_rfl
  obtain ⟨P, hP⟩ := (C142_accepted h ho hbuild).2 hacc
  obtain ⟨ps, hps, hsim⟩ := C142_simulation h ho hbuild (hsdt ▸ hdt') hP
  obtain ⟨hi, hr, -⟩ := straight_ideal hL hC hab hRS.le hRL.le hm hs Vs ps
  obtain ⟨s', hs'⟩ := hi.runs (by
    intro q hq
    obtain ⟨x, hx, rfl⟩ := List.mem_iff_getElem.1 hq
    have hx' : x < F.probes.length := by rw [hps.length_eq]; exact hx
    obtain ⟨y, -, e⟩ := hps.get hx' hx
    rw [List.get_eq_getElem] at e
    simp only at e ⊢
    rw [show ps[x] = _ from e]
    exact (hprobes _ (List.getElem_mem hx')).1) T
  obtain ⟨P', B, levels, r1, r2, r3, r4, r5⟩ := hsim T s' hs'
  refine ⟨P, P', B, levels, hP, r1, r2, fun x d hd k hk hpk => ?_⟩
  obtain ⟨hx', hd'⟩ := List.getElem?_eq_some_iff.1 hd
  have hx : x < ps.length := by rw [← hps.length_eq]; exact hx'
  obtain ⟨y, hy, e⟩ := hps.get hx' hx
  rw [List.get_eq_getElem, List.get_eq_getElem] at e
  rw [List.get_eq_getElem, hd'] at hy
  rw [hd'] at e
  obtain rfl := hy.unique hpk
  obtain ⟨tr, R, hlen, hfr⟩ := C01_run_frames _ _ _ hs'
  have hxs : x < s'.probes.length := by rw [hlen]; exact hx
  have hq0 : ({ s.withEndSources (fun _ => some Vs) (fun _ => none) with probes := ps } : MTL 1 p).probes[x]? = some ps[x] :=
    List.getElem?_eq_getElem hx
  obtain ⟨t1, t2, t3, t4⟩ := hfr x ps[x] s'.probes[x] hq0 (List.getElem?_eq_getElem hxs)
  have hidx : ps[x].index = k := by
    rw [e]
    show nearest s.u s.m (straightNode a b m k) = k
    rw [show straightNode a b m k = s.u k from (hu k hk).symm]
    refine nearest_node _ _ _ (by omega) ?_
    intro y1 h1 h12
    rw [hu y1 (by omega), hu k hk] at h12
    obtain ⟨z, hz⟩ : ∃ z, a z ≠ b z := by
      by_contra hc
      push Not at hc
      exact hab (funext hc)
    have := congrFun h12 z
    simp only [add_right_inj] at this
    have hne : (b z - a z) / m ≠ 0 := div_ne_zero (sub_ne_zero.2 (Ne.symm hz)) hm'.ne'
    exact_mod_cast mul_right_cancel₀ hne this
  have hpdt : ps[x].dt = s.dt := by rw [e]; rfl
  have hpty : ps[x].type = d.type := by rw [e]; rfl
  have hTdt : ({ s.withEndSources (fun _ => some Vs) (fun _ => none) with probes := ps } : MTL 1 p).dt = dt := hsdt
  have hT0 : ({ s.withEndSources (fun _ => some Vs) (fun _ => none) with probes := ps } : MTL 1 p).time = 0 := htime
  have hTm : ({ s.withEndSources (fun _ => some Vs) (fun _ => none) with probes := ps } : MTL 1 p).m = m := hsm
  have htel : Mild L C (({ s.withEndSources (fun _ => some Vs) (fun _ => none) with probes := ps } : MTL 1 p).m * (norm3 (b - a) / m))
      (RS 0) (RL 0) ({ s.withEndSources (fun _ => some Vs) (fun _ => none) with probes := ps } : MTL 1 p).time Vs v i := by
    rw [hTm, hT0, mul_div_cancel₀ _ hm'.ne']
    exact ht
  have ex := C129_mild R hi hr htel
  rw [hTdt, hT0, hTm] at ex
  rw [hTdt, hT0, hpty, hpdt, hsdt] at t3
  rw [hTdt, hTm, hpty, hidx] at t4
  refine ⟨s'.probes[x], by rw [r5]; exact List.getElem?_eq_getElem hxs, fun hv => ⟨?_, ?_⟩, fun hc hkm => ⟨?_, ?_⟩⟩
  · rw [t3]
    simp [hv]
  · rw [t4]
    simp only [hv, if_true]
    congr 1
    refine List.map_congr_left fun y hy => ?_
    have hy' := List.mem_range.1 hy
    funext z
    obtain rfl : z = 0 := Subsingleton.elim _ _
    rw [(ex (y + 1) (by omega)).1 k hk]
    congr 1
    push_cast
    ring
  · rw [t3]
    simp [hc]
  · rw [t4]
    have hne : ¬ d.type = "voltage" := by rw [hc]; decide
    simp only [if_neg hne, if_neg hkm.ne]
    congr 1
    refine List.map_congr_left fun y hy => ?_
    have hy' := List.mem_range.1 hy
    funext z
    obtain rfl : z = 0 := Subsingleton.elim _ _
    rw [(ex (y + 1) (by omega)).2 k hkm]
    congr 1
    push_cast
    ring

end

/-! ## An example -/

/-- A file with a straight cable of two cells, resistances at both ends, a ramp at its beginning, and two probes. -/
noncomputable def demoSingle : Json where
  coordinates := some [(1, ![0, 0, 0]), (2, ![0, 0, 1]), (3, ![0, 0, 2])]
  elements := some [("node", [[7, 1], [8, 2]]), ("line", [[1, 0, 1, 1, 3]])]
  materials := some [.wire { materialId := 1, inductance := some (.float 1), capacitance := some (.float 1) },
    .connector { materialId := 5, connector := { connectorType := "Conn_R", resistance := some 1 } },
    .connector { materialId := 6, connector := { connectorType := "Conn_R", resistance := some 3 } }]
  cables := some [{ name := "o", materialId := 1, elemIds := [1], ndiv := [2], initialConnectorId := some 5,
                    endConnectorId := some 6 }]
  bundles := some [⟨"B", .ids [1]⟩]
  terminations := some [⟨"first", [[1]]⟩, ⟨"second", [[3]]⟩]
  sources := some [{ sourceType := "TerminalSource", type := "voltage", elemIds := [7],
                     magnitude := { type := "ramp", amplitude := some 1, t0 := some 1 } }]
  probes := some [{ name := "v", type := "voltage", elemIds := [8], cable := some "o" },
    { name := "i", type := "current", elemIds := [7], cable := some "o" }]

/-- The file as the parser reads it. -/
noncomputable def demoSingleFile : File where
  coordinates := [(1, ![0, 0, 0]), (2, ![0, 0, 1]), (3, ![0, 0, 2])]
  nodes := [[7, 1], [8, 2]]
  lines := [[1, 0, 1, 1, 3]]
  wires := [{ materialId := 1, inductance := some (.float 1), capacitance := some (.float 1) }]
  connectors := [{ materialId := 5, connector := { connectorType := "Conn_R", resistance := some 1 } },
    { materialId := 6, connector := { connectorType := "Conn_R", resistance := some 3 } }]
  cables := [{ name := "o", materialId := 1, elemIds := [1], ndiv := [2], initialConnectorId := some 5,
               endConnectorId := some 6 }]
  bundles := [⟨"B", .ids [1]⟩]
  terminations := [⟨"first", [[1]]⟩, ⟨"second", [[3]]⟩]
  sources := [{ sourceType := "TerminalSource", type := "voltage", elemIds := [7],
                magnitude := { type := "ramp", amplitude := some 1, t0 := some 1 } }]
  probes := [{ name := "v", type := "voltage", elemIds := [8], cable := some "o" },
    { name := "i", type := "current", elemIds := [7], cable := some "o" }]

/-- Its cable. -/
noncomputable def demoSingleCable : Cable :=
  { name := "o", materialId := 1, elemIds := [1], ndiv := [2], initialConnectorId := some 5, endConnectorId := some 6 }

/-- Its source. -/
noncomputable def demoSingleRamp (t : ℝ) : ℝ := t * ind (t ≤ 1) * ind (t ≥ 0) + ind (t ≥ 1)

theorem demoSingle_ne : (![0, 0, 0] : V3) ≠ ![0, 0, 2] := fun e => by
  have := congrFun e 2
  simp at this

theorem demoSingle_read : demoSingle.read = .ok demoSingleFile := by
  simp [Json.read, demoSingle, demoSingleFile, needSection, bind, Except.bind, readCoordinates, dictSet, readElements]

theorem demoSingle_magnitude : Magnitude.function { type := "ramp", amplitude := some 1, t0 := some 1 } = .ok demoSingleRamp := by
  have h : ∀ t, Magnitude.eval { type := "ramp", amplitude := some 1, t0 := some 1 } t = .ok (some (demoSingleRamp t)) := by
    intro t
    simp [Magnitude.eval, pyKey, rampPulse, demoSingleRamp, bind, Except.bind]
  have hex : ∃ f : ℝ → ℝ, ∀ t, Magnitude.eval { type := "ramp", amplitude := some 1, t0 := some 1 } t = .ok (some (f t)) :=
    ⟨_, h⟩
  unfold Magnitude.function
  rw [dif_pos hex]
  congr 1
  funext t
  have := (hex.choose_spec t).symm.trans (h t)
  simpa using this

theorem demoSingle_reads : Reads demoSingle demoSingleFile 1 demoSingleCable "B" (fun _ => 1) (fun _ => 3)
    { connectorType := "Conn_R", resistance := some 1 } { connectorType := "Conn_R", resistance := some 3 }
    (fun _ => 1) (fun _ => 3) (fun _ => some demoSingleRamp) (fun _ => none) := by
  refine ⟨demoSingle_read, ?_, .inl ⟨rfl, rfl, .inl rfl⟩, .inl ⟨rfl, rfl, .inl rfl⟩, fun _ _ => one_pos, fun _ _ => by norm_num,
    fun _ _ => ?_, fun _ _ => ?_⟩
  · refine ⟨rfl, rfl, rfl, one_pos, by simp [demoSingleCable], rfl, ?_, by simp, fun _ _ => by norm_num, ?_, ?_, ?_, ?_, rfl, rfl,
      rfl, ?_⟩
    · intro j hj
      obtain rfl : j = 0 := by omega
      exact ⟨[1, 0, 1, 1, 3], rfl, by simp, rfl, rfl, rfl⟩
    · exact ⟨5, { materialId := 5, connector := { connectorType := "Conn_R", resistance := some 1 } }, rfl,
        by simp [demoSingleFile, firstMatch_cons], rfl⟩
    · exact ⟨6, { materialId := 6, connector := { connectorType := "Conn_R", resistance := some 3 } }, rfl,
        by simp [demoSingleFile, firstMatch_cons], rfl⟩
    · exact ⟨_, _, rfl, rfl, rfl⟩
    · refine ⟨_, _, rfl, rfl, fun e => ?_⟩
      exact demoSingle_ne e
    · simp [demoSingleFile]
  · simp [File.terminalSource, File.terminalSource.go, File.terminalSource.inner, demoSingleFile, pyIndex, pyLast,
      demoSingle_magnitude, bind, Except.bind]
  · simp [File.terminalSource, File.terminalSource.go, File.terminalSource.inner, demoSingleFile, pyIndex, pyLast,
      bind, Except.bind]

theorem demoSingle_finds : demoSingleFile.Finds demoSingleCable.name demoSingleCable [![0, 0, 0], ![0, 0, 2]]
    { materialId := 1, inductance := some (.float 1), capacitance := some (.float 1) } := by
  refine ⟨by simp [demoSingleFile, firstMatch_cons, demoSingleCable], ⟨1, [1, 0, 1, 1, 3], rfl, ?_, ?_⟩, ?_⟩
  · simp [demoSingleFile, firstMatch_cons]
  · exact .cons rfl (.cons rfl .nil)
  · simp [demoSingleFile, firstMatch_cons, demoSingleCable]

/-- **C142** is not empty: the probes of the file record the exact solution of a ramp at the node in the middle. -/
theorem C142_example (order : List String → List String) (ho : ValidOrder order) (T : ℝ) :
    ∃ (P P' : Parsed p) (B : MTLD 1 p) (levels : List (List (AnyLine p))), Parsed.new p order demoSingle = .ok P ∧
      P.run T 0 = .ok P' ∧ P'.bundles = [⟨⟨1, B⟩, levels⟩] ∧
      ∃ q, B.probes[0]? = some q ∧ q.val = .rows ((List.range ⌊T⌋.toNat).map fun (y : ℕ) _ =>
        exactV 1 1 2 1 3 demoSingleRamp 1 y) := by
  have hn : norm3 (![0, 0, 2] - ![0, 0, 0] : V3) = 2 := by
    simp [norm3]
  have hat1 : demoSingleFile.ProbeAt demoSingleCable { name := "v", type := "voltage", elemIds := [8], cable := some "o" }
      (straightNode ![0, 0, 0] ![0, 0, 2] 2 1) := by
    have e : straightNode ![0, 0, 0] ![0, 0, 2] 2 1 = ![0, 0, 1] := by
      funext j
      fin_cases j <;> simp [straightNode]
    rw [e]
    exact ⟨8, 2, rfl, rfl, rfl, fun _ h => (Option.some.inj h).symm, fun h => by simp at h⟩
  have hat0 : demoSingleFile.ProbeAt demoSingleCable { name := "i", type := "current", elemIds := [7], cable := some "o" }
      (straightNode ![0, 0, 0] ![0, 0, 2] 2 0) := by
    have e : straightNode ![0, 0, 0] ![0, 0, 2] 2 0 = ![0, 0, 0] := by
      funext j
      fin_cases j <;> simp [straightNode]
    rw [e]
    exact ⟨7, 1, rfl, rfl, rfl, fun _ h => (Option.some.inj h).symm, fun h => by simp at h⟩
  have hV : ∀ t < 0, demoSingleRamp t = 0 := by
    intro t ht
    simp [demoSingleRamp, ind, not_le.2 ht, not_le.2 (ht.trans one_pos)]
  obtain ⟨P, P', B, levels, h1, h2, h3, h4⟩ := C142_exact demoSingle_reads ho demoSingle_finds
    demoSingle_ne rfl rfl (.inl rfl) one_pos one_pos two_pos rfl (dt := 1)
    (by rw [hn]; norm_num) (by norm_num)
    (by
      intro d hd
      simp only [demoSingleFile, List.mem_cons, List.not_mem_nil, or_false] at hd
      rcases hd with rfl | rfl
      · exact ⟨.inl rfl, 1, by norm_num, hat1⟩
      · exact ⟨.inr rfl, 0, by norm_num, hat0⟩)
    (C129_solution one_pos one_pos (by rw [hn]; norm_num) zero_le_one (by norm_num) hV) T
  obtain ⟨q, h5, h6, -⟩ := h4 0 _ rfl 1 (by norm_num) hat1
  refine ⟨P, P', B, levels, h1, h2, h3, q, h5, ?_⟩
  rw [(h6 rfl).2, hn]
  norm_num

end Mtln
