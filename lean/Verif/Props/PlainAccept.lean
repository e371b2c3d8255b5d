import Verif.Lemmas.PlainAccept
import Verif.Props.PlainFile

/-! # Files of cables without shields are accepted: C162 -/

namespace Mtln

variable {n p : ℕ}

section

variable {order : List String → List String} {F : File} {j : Json}

/-- **C162.** The parser accepts every plain file whose references can be resolved. -/
theorem C162_accepted (ho : ValidOrder order) (hr : j.read = .ok F) (hF : F.Plain p) (hU : F.Usable p) :
    ∃ P : Parsed p, Parsed.new p order j = .ok P := by
  obtain ⟨P0, h0⟩ := bundles_accepted ho hF hU
  have hf0 := (C124_bundles h0).1
  have h00 := planned_start ho hF h0
  have h1 := sources_accepted hU hf0
  obtain ⟨P2, h2⟩ := probes_accepted ho hF hU h0 h00 hf0
  have q2 : Planned P0 P2 := by
    have h2' := h2
    unfold Parsed.addProbes at h2'
    exact h00.probes (fun _ h => h) h2'
  obtain ⟨P3, h3⟩ := networks_accepted ho hF hU h0 h00 q2 (q2.file.trans hf0)
  unfold Parsed.new
  exact ⟨P3, bind_ok_iff.2 ⟨F, hr, bind_ok_iff.2 ⟨P0, h0, bind_ok_iff.2 ⟨P0, h1, bind_ok_iff.2 ⟨P2, h2, h3⟩⟩⟩⟩⟩

theorem fitting_args {w : Wire} (hw : w.IsPhysical) (hf : w.Fits) : ∃ n l c r, n ≠ 0 ∧ w.args = .ok (l, c, r) ∧ GoodLC n l c ∧
    GoodRG n r := by
  rcases hf with ⟨⟨x, hx⟩, hR⟩ | ⟨n, A, hn, hA, hR⟩
  · rcases hw.lc with ⟨x', y, e1, e2, -⟩ | ⟨m, A, B, e1, -⟩
    · obtain ⟨z, hz⟩ : ∃ z, w.resistance.getD (.float 0) = .float z := by
        rcases hR with hR | ⟨z, hR⟩
        · exact ⟨0, by rw [hR]; rfl⟩
        · exact ⟨z, by rw [hR]; rfl⟩
      refine ⟨1, _, _, _, one_ne_zero, ?_, .floats x' y, .one z rfl⟩
      simp [Wire.args, e1, e2, hz, JVal.plain]
    · rw [hx] at e1
      cases e1
  · rcases hw.lc with ⟨x', y, e1, -⟩ | ⟨m, A', B, e1, e2, -⟩
    · rw [hA] at e1
      cases e1
    · rw [hA] at e1
      cases e1
      obtain ⟨a, ha⟩ : ∃ a, (w.resistance.getD (.float 0)).timesEye n = .ok (.mat n n a) := by
        rcases hR with hR | ⟨z, hR⟩ | ⟨R, hR⟩
        · exact ⟨_, by rw [hR]; rfl⟩
        · exact ⟨_, by rw [hR]; rfl⟩
        · exact ⟨fun i j => if i = j then R i j else 0, by rw [hR]; simp [JVal.timesEye]⟩
      refine ⟨n, _, _, _, hn, ?_, .matrices n A B, .matrix a⟩
      simp [Wire.args, hA, e2, ha, JVal.array, bind, Except.bind]

/-- **C162.** A cable of a physical wire whose resistance has the shape of its inductance gets its line. -/
theorem C162_lines (hW : F.WellFormed) (hF : F.PhysicalCables) (hf : ∀ w ∈ F.wires, w.Fits) (he : F.ends = []) {name : String}
    {c : Cable} {pos : List V3} {w : Wire} (hc : F.Finds name c pos w) (hlen : pos.length = c.ndiv.length + 1) (hne : c.ndiv ≠ []) :
    ∃ L, F.finishedLine p name = .ok L := by
  have hcm : c ∈ F.cables := hc.cable.mem
  have hwm : w ∈ F.wires := hc.wire.mem
  obtain ⟨n, l, c', r, hn, ha, hlc, hr⟩ := fitting_args (hF.wires w hwm) (hf w hwm)
  obtain ⟨s1, s2, -⟩ := physical_args (hF.wires w hwm) ha hlc hr
  obtain ⟨d, hd, hds⟩ := hF.cells c hcm
  have hp : pos ≠ [] := by rintro rfl; simp at hlen
  obtain ⟨id, e, h1, h2, h3⟩ := hc.element
  have hchain := hF.segments c hcm id pos h1 (((C111_coordinates hW id).1 pos).2 ⟨e, h2, h3⟩)
  have hpos : 0 < c.ndiv.length := List.length_pos_iff.2 hne
  obtain ⟨s, hs⟩ := C32_physical_accepted (p := p) (positions := pos) (length := 1) (Zs := .scalar 0)
    (Zl := .scalar 0) (g := .scalar 0) (ndiv := c.ndiv) c.name hn hlc hr .zero
    (.numbers 0 0) s1 s2 (by
      have : (Arg.scalar 0).matrix n = 0 := by ext i j; simp [Arg.matrix]
      rw [this]
      exact dissipative_zero) (fun _ _ => le_rfl) (fun _ _ => le_rfl) hd hds
    (pos := pos) (by rw [if_neg hp]) hlen ⟨0, hpos, by
      rw [List.getD_eq_getElem?_getD, List.getD_eq_getElem?_getD, List.getElem?_eq_getElem (by omega : 0 < pos.length),
        List.getElem?_eq_getElem (by omega : 0 + 1 < pos.length)]
      exact List.isChain_iff_getElem.1 hchain 0 (by omega)⟩
  have hb : F.buildLine p name = .ok ⟨n, s⟩ := (buildLine_iff hW).2 ⟨c, pos, w, _, _, _, hc, ha, hs⟩
  refine ⟨⟨n, s⟩, ?_⟩
  unfold File.finishedLine
  refine bind_ok_iff.2 ⟨_, hb, bind_ok_iff.2 ⟨⟨n, s⟩, ?_, (C84_first_partial (L' := ⟨n, s⟩)).1 hF.lumped⟩⟩
  unfold File.addEndResistances
  rw [he]
  generalize F.cables.filter _ = cs
  induction cs with
  | nil => rfl
  | cons a cs ih =>
    rw [List.foldlM_cons]
    exact bind_ok_iff.2 ⟨⟨n, s⟩, rfl, ih⟩

/-- **C162.** Any point of a cable can be probed. -/
theorem C162_point (hW : F.WellFormed) {name : String} {c : Cable} {pos : List V3} {w : Wire} (hc : F.Finds name c pos w) {d : ℕ}
    (hd : 0 < d) (hds : ∀ x ∈ c.ndiv, x = d) {i : ℕ} (hi : i < c.ndiv.length) (hlen : pos.length = c.ndiv.length + 1) {t : ℝ}
    (ht0 : 0 ≤ t) (ht1 : t ≤ 1) {L : AnyLine p} (hL : F.finishedLine p name = .ok L) :
    ∃ k < L.2.m, ∃ s : ℝ, 0 ≤ s ∧ s ≤ 1 ∧
      pos.getD i 0 + t • (pos.getD (i + 1) 0 - pos.getD i 0) = L.2.u k + s • (L.2.u (k + 1) - L.2.u k) := by
  obtain ⟨⟨n, s⟩, h1, e1, e2, -⟩ := finishedLine_base hL
  have hp : pos ≠ [] := by rintro rfl; simp at hlen
  have hsub := (C112_common hW h1 hc).2.2.2.2.2.2 d hd hds hp
  rw [e1, e2]
  exact subdivides_point hsub hi (by rw [hds _ (List.getElem_mem hi)]; exact hd) ht0 ht1

/-- **C162.** A plain file whose references can be resolved is simulated: the parser accepts it and runs it for any time, with the
time step of its lines or with any positive one. -/
theorem C162_runs (ho : ValidOrder order) (hr : j.read = .ok F) (hF : F.Plain p) (hU : F.Usable p) :
    ∃ P : Parsed p, Parsed.new p order j = .ok P ∧ ∀ dt : ℝ, 0 ≤ dt → ∀ T, ∃ P', P.run T dt = .ok P' := by
  obtain ⟨P, hP⟩ := C162_accepted ho hr hF hU
  exact ⟨P, hP, fun dt h0 T => C161_runs ho hr hP hF h0 T⟩

/-- **C162.** From the file alone, with nothing assumed about the parser: a plain file whose references can be resolved, with every
cable connected with the ground and with sources constant from a time on, settles at the solution of the direct current circuit. -/
theorem C162_settles (ho : ValidOrder order) (hr : j.read = .ok F) (hF : F.Plain p) (hU : F.Usable p)
    (hg : F.Grounded) {dt t₀ : ℝ} (h0 : 0 < dt) (hlt : ∀ name L, F.finishedLine p name = .ok L → dt < L.2.dt)
    (hs : F.SourcesIn {f | ∀ t, t₀ ≤ t → f t = f t₀}) :
    ∃ (P : Parsed p) (M : MTLN p), Parsed.new p order j = .ok P ∧ P.manager dt = .ok M ∧ ∃ V I, (M.withState V I).DC t₀ ∧
      (∀ x, x ∉ (allNodes M.networks).map Node.end' → endV (M.withState V I).bundles x = 0) ∧
      ∀ ε > 0, ∃ T₀, ∀ T ≥ T₀, ∃ P', P.run T dt = .ok P' ∧ ∀ B ∈ P'.bundles,
        (∀ k ≤ B.bundle.2.m, ∀ a : Fin B.bundle.1, |B.bundle.2.v k a - V B.bundle.2.name k a| ≤ ε) ∧
        ∀ k < B.bundle.2.m, ∀ a : Fin B.bundle.1, |B.bundle.2.i k a - I B.bundle.2.name k a| ≤ ε := by
  obtain ⟨P, hP⟩ := C162_accepted ho hr hF hU
  obtain ⟨M, hM, h⟩ := C161_settles ho hr hP hF hg h0 hlt hs
  exact ⟨P, M, hP, hM, h⟩

end

/-! ## An example -/

theorem demoSingle_lines : demoSingleFile.WellFormed := by
  intro e he
  simp only [demoSingleFile, List.mem_singleton] at he
  subst he
  simp

theorem demoSingle_fits : ∀ w ∈ demoSingleFile.wires, w.Fits := by
  intro w hw
  simp only [demoSingleFile, List.mem_singleton] at hw
  subst hw
  exact .inl ⟨⟨1, rfl⟩, .inl rfl⟩

theorem demoSingle_bundled {cable : String} : demoSingleFile.Bundled cable ↔ cable = "o" := by
  have e : demoSingleFile.cableNameOf 1 = .ok "o" := rfl
  constructor
  · rintro ⟨d, hd, ids, hids, id, hid, hc⟩
    simp only [demoSingleFile, List.mem_singleton] at hd
    subst hd
    cases hids
    rw [List.mem_singleton] at hid
    subst hid
    exact (Except.ok.inj (e.symm.trans hc)).symm
  · rintro rfl
    exact ⟨⟨"B", .ids [1]⟩, by simp [demoSingleFile], [1], rfl, 1, by simp, e⟩

theorem demoSingle_point {t : ℝ} (ht0 : 0 ≤ t) (ht1 : t ≤ 1) {L : AnyLine p} (hL : demoSingleFile.finishedLine p "o" = .ok L) :
    ∃ k < L.2.m, ∃ s : ℝ, 0 ≤ s ∧ s ≤ 1 ∧ (![0, 0, 2 * t] : V3) = L.2.u k + s • (L.2.u (k + 1) - L.2.u k) := by
  have := C162_point demoSingle_lines demoSingle_finds (d := 2) two_pos (by simp [demoSingleCable]) (i := 0) (by simp [demoSingleCable])
    (by simp [demoSingleCable]) ht0 ht1 hL
  have e : (![0, 0, 2 * t] : V3) = ([![0, 0, 0], ![0, 0, 2]] : List V3).getD 0 0 +
      t • (([![0, 0, 0], ![0, 0, 2]] : List V3).getD (0 + 1) 0 - ([![0, 0, 0], ![0, 0, 2]] : List V3).getD 0 0) := by
    funext j
    fin_cases j <;> simp [mul_comm]
  rw [e]
  exact this

theorem demoSingle_usable : demoSingleFile.Usable p := by
  have hone : ∀ {name : String} {L : AnyLine p}, demoSingleFile.finishedLine p name = .ok L → L.1 = 1 := by
    intro name L h
    refine (physical_lines demoSingle_physical h).2 fun w hw => ?_
    simp only [demoSingleFile, List.mem_singleton] at hw
    exact ⟨1, by rw [hw]⟩
  have hj : ∀ {t : Joint}, t ∈ demoSingleFile.terminations → t = ⟨"first", [[1]]⟩ ∨ t = ⟨"second", [[3]]⟩ := by
    intro t ht
    simpa [demoSingleFile] using ht
  refine ⟨?_, ?_, demoSingle_physical.cells, ?_, ?_, ?_, ?_, ?_, ?_, ?_, ?_⟩
  · intro d hd ids hids
    simp only [demoSingleFile, List.mem_singleton] at hd
    subst hd
    cases hids
    simp
  · intro cable hc
    rw [demoSingle_bundled] at hc
    subst hc
    exact C162_lines demoSingle_lines demoSingle_physical demoSingle_fits rfl demoSingle_finds (by simp [demoSingleCable])
      (by simp [demoSingleCable])
  · intro e he
    simp [demoSingleFile] at he
  · intro e he
    simp only [demoSingleFile, List.mem_cons, List.not_mem_nil, or_false] at he
    rcases he with rfl | rfl <;> simp
  · intro s hs
    simp only [demoSingleFile, List.mem_singleton] at hs
    subst hs
    decide
  · intro s hs _
    simp only [demoSingleFile, List.mem_singleton] at hs
    subst hs
    exact ⟨by simp, demoSingleRamp, fun t => by simp [Magnitude.eval, pyKey, rampPulse, demoSingleRamp, bind, Except.bind]⟩
  · intro q hq
    simp only [demoSingleFile, List.mem_cons, List.not_mem_nil, or_false] at hq
    rcases hq with rfl | rfl
    · refine ⟨8, 2, ![0, 0, 1], "o", rfl, rfl, rfl, demoSingle_bundled.2 rfl, ?_, fun h => by simp at h, fun L hL => ?_⟩
      · rintro name h
        obtain rfl := Option.some.inj h
        exact ⟨rfl, demoSingleCable, by simp [demoSingleFile, demoSingleCable], rfl⟩
      · have := demoSingle_point (t := 1 / 2) (by norm_num) (by norm_num) hL
        norm_num at this ⊢
        exact this
    · refine ⟨7, 1, ![0, 0, 0], "o", rfl, rfl, rfl, demoSingle_bundled.2 rfl, ?_, fun h => by simp at h, fun L hL => ?_⟩
      · rintro name h
        obtain rfl := Option.some.inj h
        exact ⟨rfl, demoSingleCable, by simp [demoSingleFile, demoSingleCable], rfl⟩
      · have := demoSingle_point (t := 0) le_rfl zero_le_one hL
        rw [mul_zero] at this
        exact this
  · intro t ht
    have ht : t ∈ demoSingleFile.terminations := by simpa [demoSingleFile] using ht
    rcases hj ht with rfl | rfl
    · refine ⟨⟨![0, 0, 0], 1, [], [], rfl, rfl⟩, ?_⟩
      simp only [List.flatten_cons, List.flatten_nil, List.append_nil, List.mem_singleton]
      rintro c rfl
      exact ⟨by norm_num, _, _, _, _, demoSingle_first, demoSingle_bundled.2 rfl, ⟨by simp, by simp⟩, fun L hL => by rw [hone hL]; exact one_pos⟩
    · refine ⟨⟨![0, 0, 2], 3, [], [], rfl, rfl⟩, ?_⟩
      simp only [List.flatten_cons, List.flatten_nil, List.append_nil, List.mem_singleton]
      rintro c rfl
      exact ⟨by norm_num, _, _, _, _, demoSingle_last, demoSingle_bundled.2 rfl, ⟨by simp, by simp⟩, fun L hL => by rw [hone hL]; exact one_pos⟩
  · intro t ht
    simp [demoSingleFile] at ht
  · intro t ht
    rcases hj ht with rfl | rfl
    · refine ⟨by simp, ?_, ?_⟩
      · intro c hc x cable k s f h1 _
        obtain rfl : c = 1 := by simpa using hc
        rw [demoSingle_first] at h1
        obtain rfl := (Prod.mk.inj (Except.ok.inj h1)).1
        exact ⟨fun _ => ⟨1, rfl, fun h => absurd h one_ne_zero⟩, by simp⟩
      · intro g hg h2
        obtain rfl := List.mem_singleton.1 hg
        simp at h2
    · refine ⟨by simp, ?_, ?_⟩
      · intro c hc x cable k s f h1 _
        obtain rfl : c = 3 := by simpa using hc
        rw [demoSingle_last] at h1
        obtain rfl := (Prod.mk.inj (Except.ok.inj h1)).1
        exact ⟨fun _ => ⟨3, rfl, fun h => absurd h (by norm_num)⟩, by simp⟩
      · intro g hg h2
        obtain rfl := List.mem_singleton.1 hg
        simp at h2

/-- **C162** is not empty: the file of **C142** is accepted and runs. -/
theorem C162_example (order : List String → List String) (ho : ValidOrder order) :
    ∃ P : Parsed p, Parsed.new p order demoSingle = .ok P ∧ ∀ dt : ℝ, 0 ≤ dt → ∀ T, ∃ P', P.run T dt = .ok P' :=
  C162_runs ho demoSingle_read demoSingle_plain demoSingle_usable

end Mtln
