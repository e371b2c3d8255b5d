import Verif.Props.ParserRead
import Verif.Props.ParserFile

/-!
# Lines built from the file (C112) and conductor numbers (C113)
-/

namespace Mtln

variable {p : ℕ}

/-! ## C112 -/

/-- What the look-ups of a cable find: the first cable of the name, the coordinates of its first element, and the first
wire of its material. -/
structure File.Finds (F : File) (name : String) (c : Cable) (pos : List V3) (w : Wire) : Prop where
  cable : FirstMatch F.cables (fun c => c.name = name) c
  element : ∃ id e, c.elemIds[0]? = some id ∧ FirstMatch F.lines (fun e => e[0]? = some id) e ∧
    List.Forall₂ (fun c x => F.coordinate c = .ok x) (e.drop 3) pos
  wire : FirstMatch F.wires (fun w => w.materialId = c.materialId) w

theorem buildLine_iff {F : File} (hF : F.WellFormed) {name : String} {L : AnyLine p} :
    F.buildLine p name = .ok L ↔ ∃ c pos w l c' r, F.Finds name c pos w ∧ w.args = .ok (l, c', r) ∧
      MTL.new p l c' r (.scalar 0) 1 pos c.ndiv (.scalar 0) (.scalar 0) c.name = .ok L := by
  unfold File.buildLine
  simp only [bind_ok_iff]
  constructor
  · rintro ⟨c, hc, id, hid, pos, hpos, w, hw, ⟨l, c', r⟩, ha, h⟩
    cases pos with
    | none => simp at h
    | some pos =>
      obtain ⟨e, he, hcs⟩ := ((C111_coordinates hF id).1 pos).1 hpos
      exact ⟨c, pos, w, l, c', r, ⟨((C111_cable F name).2.1 c).1 hc, ⟨id, e, pyIndex_ok_iff.1 hid, he, hcs⟩,
        ((C111_material F _).1 w).1 hw⟩, ha, h⟩
  · rintro ⟨c, pos, w, l, c', r, ⟨h1, ⟨id, e, h2, h3, h4⟩, h5⟩, ha, h⟩
    exact ⟨c, ((C111_cable F name).2.1 c).2 h1, id, pyIndex_ok_iff.2 h2, some pos,
      ((C111_coordinates hF id).1 pos).2 ⟨e, h3, h4⟩, w, ((C111_material F _).1 w).2 h5, ⟨l, c', r⟩, ha, h⟩

theorem Finds.unique {F : File} {name : String} {c c' : Cable} {pos pos' : List V3} {w w' : Wire}
    (h : F.Finds name c pos w) (h' : F.Finds name c' pos' w') : c = c' ∧ pos = pos' ∧ w = w' := by
  obtain rfl := h.cable.unique h'.cable
  obtain rfl := h.wire.unique h'.wire
  obtain ⟨id, e, h1, h2, h3⟩ := h.element
  obtain ⟨id', e', h1', h2', h3'⟩ := h'.element
  rw [h1, Option.some.injEq] at h1'
  subst h1'
  obtain rfl := h2.unique h2'
  refine ⟨rfl, ?_, rfl⟩
  clear h1 h2 h2' h h'
  generalize e.drop 3 = l at h3 h3'
  induction h3 generalizing pos' with
  | nil => exact (List.forall₂_nil_left_iff.1 h3').symm
  | cons ha _ ih =>
    obtain ⟨b, l, hb, hl, rfl⟩ := List.forall₂_cons_left_iff.1 h3'
    rw [ha, Except.ok.injEq] at hb
    rw [hb, ih hl]

/-- **C112** The line of a cable has its name and divisions; without conductance and with shorted ends until networks
are attached. -/
theorem C112_common {F : File} (hF : F.WellFormed) {name : String} {n : ℕ} {s : MTL n p}
    (h : F.buildLine p name = .ok ⟨n, s⟩) {c : Cable} {pos : List V3} {w : Wire} (hc : F.Finds name c pos w) :
    s.name = c.name ∧ c.name = name ∧ s.m = c.ndiv.sum ∧ (∀ k, s.g k = 0) ∧ s.zs = 0 ∧ s.zl = 0 ∧
      (∀ d, 0 < d → (∀ x ∈ c.ndiv, x = d) → pos ≠ [] →
        Subdivides (fun k => pos.getD k 0) c.ndiv s.m s.u s.du) := by
  obtain ⟨c1, pos1, w1, l, c', r, h1, -, h2⟩ := (buildLine_iff hF).1 h
  obtain ⟨rfl, rfl, rfl⟩ := Finds.unique hc h1
  obtain ⟨e1, -, -, -, e2, e3, e4⟩ := C32_contents h2
  refine ⟨new_name h2, ?_, e1, fun k => ?_, ?_, ?_, fun d hd hdv hp => ?_⟩
  · obtain ⟨pre, post, -, e, -⟩ := hc.cable; exact e
  · rw [e2]; ext i j; simp [Arg.matrix]
  · rw [e3]; ext i j; simp [ZArg.value, Matrix.diagonal_apply]
  · rw [e4]; ext i j; simp [ZArg.value, Matrix.diagonal_apply]
  · have := C24_mesh_partial hd hdv h2
    rwa [if_neg hp] at this

/-- **C112** A wire given by floats: one conductor with these numbers; a resistance that is not given is zero. -/
theorem C112_one_partial {F : File} (hF : F.WellFormed) {name : String} {n : ℕ} {s : MTL n p}
    (h : F.buildLine p name = .ok ⟨n, s⟩) {c : Cable} {pos : List V3} {w : Wire} (hc : F.Finds name c pos w) {x y z : ℝ}
    (hl : w.inductance = some (.float x)) (hca : w.capacitance = some (.float y))
    (hr : w.resistance = some (.float z) ∨ w.resistance = none ∧ z = 0) :
    n = 1 ∧ ∀ k i j, s.l k i j = x ∧ s.c k i j = y ∧ s.r k i j = z := by
  obtain ⟨c1, pos1, w1, l, c', r, h1, ha, h2⟩ := (buildLine_iff hF).1 h
  obtain ⟨rfl, rfl, rfl⟩ := Finds.unique hc h1
  have hr' : w.resistance.getD (.float 0) = .float z := by
    rcases hr with hr | ⟨hr, rfl⟩ <;> rw [hr] <;> rfl
  rw [Wire.args, hl, hca, hr'] at ha
  simp only [Option.getD_some, JVal.plain, Except.ok.injEq, Prod.mk.injEq] at ha
  obtain ⟨rfl, rfl, rfl⟩ := ha
  obtain ⟨hg, -⟩ := new_ok_contents h2
  have hn : n = 1 := by cases hg; rfl
  obtain ⟨-, e1, e2, e3, -⟩ := C32_contents h2
  exact ⟨hn, fun k i j => ⟨by rw [e1]; rfl, by rw [e2]; rfl, by rw [e3]; rfl⟩⟩

/-- **C112** A wire given by square matrices: these matrices, and the given resistance on the diagonal (one number for all
conductors, one for each, or the diagonal of a matrix). -/
theorem C112_several_partial {F : File} (hF : F.WellFormed) {name : String} {n : ℕ} {s : MTL n p}
    (h : F.buildLine p name = .ok ⟨n, s⟩) {c : Cable} {pos : List V3} {w : Wire} (hc : F.Finds name c pos w)
    {N N' : ℕ} {A B : ℕ → ℕ → ℝ} (hl : w.inductance = some (.mat N N' A)) (hca : w.capacitance = some (.mat N N' B))
    {d : ℕ → ℝ} (hr : w.resistance = none ∧ (∀ i, d i = 0) ∨ (∃ z, w.resistance = some (.float z) ∧ ∀ i, d i = z) ∨
      (∃ v, w.resistance = some (.vec v) ∧ v.length = N ∧ ∀ i, d i = v.getD i 0) ∨
      (∃ a, w.resistance = some (.mat N N a) ∧ ∀ i, d i = a i i)) :
    n = N ∧ N' = N ∧ ∀ k i j, s.l k i j = A i j ∧ s.c k i j = B i j ∧ s.r k i j = if i = j then d i else 0 := by
  obtain ⟨c1, pos1, w1, l, c', r, h1, ha, h2⟩ := (buildLine_iff hF).1 h
  obtain ⟨rfl, rfl, rfl⟩ := Finds.unique hc h1
  have hr' : ∃ a, (w.resistance.getD (.float 0)).timesEye N = .ok (.mat N N a) ∧
      ∀ i j, a i j = if i = j then d i else 0 := by
    rcases hr with ⟨hr, hd⟩ | ⟨z, hr, hd⟩ | ⟨v, hr, hv, hd⟩ | ⟨a, hr, hd⟩ <;> rw [hr]
    · exact ⟨_, rfl, fun i j => by simp [hd]⟩
    · exact ⟨_, rfl, fun i j => by simp [hd]⟩
    · refine ⟨fun i j => if i = j then v.getD j 0 else 0, by simp [JVal.timesEye, hv], fun i j => ?_⟩
      by_cases hij : i = j
      · simp [hij, hd]
      · simp [hij]
    · refine ⟨fun i j => if i = j then a i j else 0, by simp [JVal.timesEye], fun i j => ?_⟩
      by_cases hij : i = j
      · simp [hij, hd]
      · simp [hij]
  obtain ⟨a, hr1, hr2⟩ := hr'
  rw [Wire.args, hl, hca] at ha
  simp only [Option.getD_some, JVal.array, hr1, bind, Except.bind, Except.ok.injEq, Prod.mk.injEq] at ha
  obtain ⟨rfl, rfl, rfl⟩ := ha
  obtain ⟨hg, -⟩ := new_ok_contents h2
  have hn : n = N ∧ N' = N := by cases hg; exact ⟨rfl, rfl⟩
  obtain ⟨-, e1, e2, e3, -⟩ := C32_contents h2
  refine ⟨hn.1, hn.2, fun k i j => ⟨by rw [e1]; rfl, by rw [e2]; rfl, ?_⟩⟩
  rw [e3]
  show a i j = _
  rw [hr2]
  by_cases hij : i = j
  · simp [hij]
  · rw [if_neg hij, if_neg fun e => hij (Fin.ext e)]

/-- **C112** is false: of a wire of one conductor, a number written without a decimal point is refused. -/
theorem C112_refuted_integer {F : File} (hF : F.WellFormed) {name : String} {c : Cable} {pos : List V3} {w : Wire}
    (hc : F.Finds name c pos w) {k : ℤ} (h : w.inductance = some (.int k) ∨
      (∃ x, w.inductance = some (.float x)) ∧ w.capacitance = some (.int k) ∨
      (∃ x y, w.inductance = some (.float x) ∧ w.capacitance = some (.float y)) ∧ w.resistance = some (.int k)) :
    F.buildLine p name = .error .ValueError := by
  obtain ⟨id, e, h1, h2, h3⟩ := hc.element
  have e1 := ((C111_cable F name).2.1 c).2 hc.cable
  have e2 := pyIndex_ok_iff.2 h1
  have e3 := ((C111_coordinates hF id).1 pos).2 ⟨e, h2, h3⟩
  have e4 := ((C111_material F _).1 w).2 hc.wire
  unfold File.buildLine
  rw [e1]
  show (do
    let el ← pyIndex c.elemIds 0
    let positions ← F.listOfCoordinates el
    let w ← F.wireWithMaterialId c.materialId
    let (l, c', r) ← w.args
    match positions with
    | none => .error .AttributeError
    | some pos => MTL.new p l c' r (.scalar 0) 1 pos c.ndiv (.scalar 0) (.scalar 0) c.name) = _
  rw [e2]
  show (do
    let positions ← F.listOfCoordinates id
    let w ← F.wireWithMaterialId c.materialId
    let (l, c', r) ← w.args
    match positions with
    | none => .error .AttributeError
    | some pos => MTL.new p l c' r (.scalar 0) 1 pos c.ndiv (.scalar 0) (.scalar 0) c.name) = _
  rw [e3]
  show (do
    let w ← F.wireWithMaterialId c.materialId
    let (l, c', r) ← w.args
    MTL.new p l c' r (.scalar 0) 1 pos c.ndiv (.scalar 0) (.scalar 0) c.name) = _
  rw [e4]
  show (do
    let (l, c', r) ← w.args
    MTL.new p l c' r (.scalar 0) 1 pos c.ndiv (.scalar 0) (.scalar 0) c.name) = _
  rcases h with h | ⟨⟨x, h⟩, h'⟩ | ⟨⟨x, y, h, h'⟩, h''⟩
  · simp [Wire.args, h, JVal.plain, MTL.new, initLC, bind, Except.bind]
  · simp [Wire.args, h, h', JVal.plain, MTL.new, initLC, bind, Except.bind]
  · simp [Wire.args, h, h', h'', JVal.plain, MTL.new, initLC, initRGone, bind, Except.bind]

/-- **C112** is false: entries of a resistance matrix off the diagonal are dropped. -/
theorem C112_refuted_resistance {F : File} (hF : F.WellFormed) {name : String} {n : ℕ} {s : MTL n p}
    (h : F.buildLine p name = .ok ⟨n, s⟩) {c : Cable} {pos : List V3} {w : Wire} (hc : F.Finds name c pos w)
    {N N' : ℕ} {A B a : ℕ → ℕ → ℝ} (hl : w.inductance = some (.mat N N' A)) (hca : w.capacitance = some (.mat N N' B))
    (hr : w.resistance = some (.mat N N a)) (k : ℕ) {i j : Fin n} (hij : i ≠ j) : s.r k i j = 0 := by
  obtain ⟨-, -, h⟩ := C112_several_partial hF h hc hl hca (d := fun i => a i i) (.inr (.inr (.inr ⟨a, hr, fun _ => rfl⟩)))
  rw [(h k i j).2.2, if_neg hij]

/-- **C112** is false: a one-dimensional list of inductances, or a list beside a number, is never accepted. -/
theorem C112_refuted_list {F : File} (hF : F.WellFormed) {name : String} {c : Cable} {pos : List V3} {w : Wire}
    (hc : F.Finds name c pos w) {a : List ℝ} (h : w.inductance = some (.vec a)) (L : AnyLine p) :
    F.buildLine p name ≠ .ok L := by
  intro hL
  obtain ⟨n, s⟩ := L
  obtain ⟨c1, pos1, w1, l, c', r, h1, ha, h2⟩ := (buildLine_iff hF).1 hL
  obtain ⟨rfl, rfl, rfl⟩ := Finds.unique hc h1
  obtain ⟨hg, -⟩ := new_ok_contents h2
  rw [Wire.args, h] at ha
  simp only [Option.getD_some] at ha
  obtain ⟨r', -, e⟩ := bind_ok_iff.1 ha
  simp only [JVal.array, Except.ok.injEq, Prod.mk.injEq] at e
  obtain ⟨rfl, -, -⟩ := e
  cases hg

/-- **C112** The line is built: physical numbers or matrices, as many positions as divisions require. -/
theorem C112_accepted_partial {F : File} (hF : F.WellFormed) {name : String} {c : Cable} {pos : List V3} {w : Wire}
    (hc : F.Finds name c pos w) {d : ℕ} (hd : 0 < d) (hds : ∀ x ∈ c.ndiv, x = d) (hlen : pos.length = c.ndiv.length + 1)
    (hne : ∃ i < c.ndiv.length, pos.getD i 0 ≠ pos.getD (i + 1) 0) :
    (∀ {x y z : ℝ}, 0 < x → 0 < y → w.inductance = some (.float x) → w.capacitance = some (.float y) →
      w.resistance = some (.float z) → ∃ s, F.buildLine p name = .ok ⟨1, s⟩) ∧
    (∀ {n : ℕ} {A B R : ℕ → ℕ → ℝ}, n ≠ 0 → SPD (.of fun i j : Fin n => A i j) → SPD (.of fun i j : Fin n => B i j) →
      w.inductance = some (.mat n n A) → w.capacitance = some (.mat n n B) → w.resistance = some (.mat n n R) →
      ∃ s, F.buildLine p name = .ok ⟨n, s⟩) := by
  have hp : pos ≠ [] := by rintro rfl; simp at hlen
  refine ⟨fun {x y z} hx hy h1 h2 h3 => ?_, fun {n A B R} hn hA hB h1 h2 h3 => ?_⟩
  · obtain ⟨s, hs⟩ := C32_physical_accepted (p := p) (positions := pos) (length := 1) (r := .scalar z) (Zs := .scalar 0)
      (Zl := .scalar 0) (g := .scalar 0) (ndiv := c.ndiv) c.name one_ne_zero (.floats x y) (.one z rfl) .zero
      (.numbers 0 0) (spd_one hx) (spd_one hy) dissipative_zero (fun _ _ => le_rfl) (fun _ _ => le_rfl) hd hds
      (pos := pos) (by rw [if_neg hp]) hlen hne
    exact ⟨s, (buildLine_iff hF).2 ⟨c, pos, w, _, _, _, hc, by simp [Wire.args, h1, h2, h3, JVal.plain], hs⟩⟩
  · obtain ⟨s, hs⟩ := C32_physical_accepted (p := p) (positions := pos) (length := 1)
      (r := .mat n n fun i j => if i = j then R i j else 0) (Zs := .scalar 0)
      (Zl := .scalar 0) (g := .scalar 0) (ndiv := c.ndiv) c.name hn (.matrices n A B) (.matrix _) .zero
      (.numbers 0 0) hA hB dissipative_zero (fun _ _ => le_rfl) (fun _ _ => le_rfl) hd hds
      (pos := pos) (by rw [if_neg hp]) hlen hne
    exact ⟨s, (buildLine_iff hF).2 ⟨c, pos, w, _, _, _, hc,
      by simp [Wire.args, h1, h2, h3, JVal.array, JVal.timesEye, bind, Except.bind], hs⟩⟩

/-- A file of two cables: one of a single conductor, one of two with a full resistance matrix. -/
noncomputable def demoCables : File where
  coordinates := [(1, ![0, 0, 0]), (2, ![0, 0, 1]), (3, ![0, 0, 3])]
  lines := [[7, 0, 1, 1, 2, 3], [8, 0, 1, 1, 3]]
  cables := [{ name := "a", materialId := 1, elemIds := [7, 9], ndiv := [2, 2] },
    { name := "b", materialId := 2, elemIds := [8], ndiv := [5] }]
  wires := [
    { materialId := 1, inductance := some (.float 3), capacitance := some (.float 4), resistance := some (.float 5) },
    { materialId := 2, inductance := some (.mat 2 2 fun i j => if i = j then 1 else 0),
      capacitance := some (.mat 2 2 fun i j => if i = j then 1 else 0), resistance := some (.mat 2 2 fun _ _ => 6) }]

theorem demoCables_wellFormed : demoCables.WellFormed := by
  intro e he
  simp only [demoCables, List.mem_cons, List.not_mem_nil, or_false] at he
  rcases he with rfl | rfl <;> simp

theorem demoCables_a : demoCables.Finds "a" { name := "a", materialId := 1, elemIds := [7, 9], ndiv := [2, 2] }
    [![0, 0, 0], ![0, 0, 1], ![0, 0, 3]]
    { materialId := 1, inductance := some (.float 3), capacitance := some (.float 4), resistance := some (.float 5) } where
  cable := find?_iff_firstMatch.1 (by simp [demoCables])
  element := ⟨7, [7, 0, 1, 1, 2, 3], rfl, find?_iff_firstMatch.1 (by simp [demoCables]), by
    simp [demoCables, File.coordinate, dictGet]⟩
  wire := find?_iff_firstMatch.1 (by simp [demoCables])

theorem demoCables_b : demoCables.Finds "b" { name := "b", materialId := 2, elemIds := [8], ndiv := [5] }
    [![0, 0, 0], ![0, 0, 3]]
    { materialId := 2, inductance := some (.mat 2 2 fun i j => if i = j then 1 else 0),
      capacitance := some (.mat 2 2 fun i j => if i = j then 1 else 0), resistance := some (.mat 2 2 fun _ _ => 6) } where
  cable := find?_iff_firstMatch.1 (by simp [demoCables])
  element := ⟨8, [8, 0, 1, 1, 3], rfl, find?_iff_firstMatch.1 (by simp [demoCables]), by
    simp [demoCables, File.coordinate, dictGet]⟩
  wire := find?_iff_firstMatch.1 (by simp [demoCables])

theorem C112_example_a : ∃ s : MTL 1 p, demoCables.buildLine p "a" = .ok ⟨1, s⟩ ∧ s.name = "a" ∧ s.m = 4 ∧
    Subdivides (fun k => [![0, 0, 0], ![0, 0, 1], ![0, 0, 3]].getD k 0) [2, 2] 4 s.u s.du ∧
    ∀ k, s.l k 0 0 = 3 ∧ s.c k 0 0 = 4 ∧ s.r k 0 0 = 5 := by
  obtain ⟨s, hs⟩ := (C112_accepted_partial (p := p) demoCables_wellFormed demoCables_a (d := 2) (by norm_num) (by simp)
    (by simp) ⟨0, by simp, fun e => by simpa using congrFun e 2⟩).1 (x := 3) (y := 4) (z := 5) (by norm_num)
    (by norm_num) rfl rfl rfl
  obtain ⟨h1, -, h2, -, -, -, h3⟩ := C112_common demoCables_wellFormed hs demoCables_a
  have h4 := h3 2 (by norm_num) (by simp) (by simp)
  have h5 : s.m = 4 := h2
  rw [h5] at h4
  exact ⟨s, hs, h1, h5, h4, fun k =>
    (C112_one_partial demoCables_wellFormed hs demoCables_a rfl rfl (.inl rfl)).2 k 0 0⟩

/-- **C112** is false, for an accepted file: the resistance 6 between the two conductors is not in the line. -/
theorem C112_example_b : ∃ s : MTL 2 p, demoCables.buildLine p "b" = .ok ⟨2, s⟩ ∧ s.name = "b" ∧ s.m = 5 ∧
    ∀ k, s.l k 0 0 = 1 ∧ s.l k 0 1 = 0 ∧ s.r k 0 0 = 6 ∧ s.r k 0 1 = 0 := by
  have hI : SPD (.of fun i j : Fin 2 => ((fun i j : ℕ => if i = j then (1 : ℝ) else 0) i j)) := by
    have e : (Matrix.of fun i j : Fin 2 => ((fun i j : ℕ => if i = j then (1 : ℝ) else 0) i j)) = 1 := by
      ext i j
      simp [Matrix.one_apply, Fin.ext_iff]
    rw [e]
    refine ⟨Matrix.transpose_one, fun v hv => ?_⟩
    rw [Matrix.one_mulVec]
    have h0 : 0 ≤ v 0 * v 0 := mul_self_nonneg _
    have h1 : 0 ≤ v 1 * v 1 := mul_self_nonneg _
    simp only [dotProduct, Fin.sum_univ_two]
    by_contra hle
    refine hv (funext fun j => ?_)
    fin_cases j
    · exact mul_self_eq_zero.1 (le_antisymm (show v 0 * v 0 ≤ 0 by linarith) h0)
    · exact mul_self_eq_zero.1 (le_antisymm (show v 1 * v 1 ≤ 0 by linarith) h1)
  obtain ⟨s, hs⟩ := (C112_accepted_partial (p := p) demoCables_wellFormed demoCables_b (d := 5) (by norm_num) (by simp)
    (by simp) ⟨0, by simp, fun e => by simpa using congrFun e 2⟩).2 (n := 2) (by norm_num) hI hI rfl rfl rfl
  obtain ⟨h1, -, h2, -⟩ := C112_common demoCables_wellFormed hs demoCables_b
  obtain ⟨-, -, h3⟩ := C112_several_partial demoCables_wellFormed hs demoCables_b rfl rfl (d := fun _ => 6)
    (.inr (.inr (.inr ⟨_, rfl, fun _ => rfl⟩)))
  refine ⟨s, hs, h1, h2, fun k => ⟨?_, ?_, ?_, ?_⟩⟩
  · simpa using (h3 k 0 0).1
  · simpa using (h3 k 0 1).1
  · simpa using (h3 k 0 0).2.2
  · simpa using (h3 k 0 1).2.2

/-! ## C113 -/

theorem ne_of_lt_idxOf {l : List ℤ} {a : ℤ} {j : ℕ} (h : j < l.idxOf a) : l[j]? ≠ some a := by
  induction l generalizing j with
  | nil => simp
  | cons b l ih =>
    by_cases hb : b = a
    · rw [List.idxOf_cons_eq _ hb] at h; omega
    · rw [List.idxOf_cons_ne _ hb] at h
      cases j with
      | zero => simpa using hb
      | succ j => simpa using ih (Nat.lt_of_succ_lt_succ h)

/-- **C113** The number of an element in a level: the conductors of the lines before its cable, and its position in the
cable. -/
theorem C113_number (F : File) (v : Vertex) (B : PBundle p) (k : ℕ) {pre post : List (AnyLine p)} {L : AnyLine p}
    (hB : B.levels[v.level]? = some (pre ++ L :: post)) (hL : L.2.name = v.cable) (hpre : ∀ M ∈ pre, M.2.name ≠ v.cable) :
    F.conductorNumber v B = .ok k ↔ ∃ c i, FirstMatch F.cables (fun c => c.name = v.cable) c ∧ c.elemIds[i]? = some v.name ∧
      (∀ j < i, c.elemIds[j]? ≠ some v.name) ∧ k = (pre.map Sigma.fst).sum + i := by
  have e1 : (pre ++ L :: post).takeWhile (fun L => decide (L.2.name ≠ v.cable)) = pre := by
    rw [List.takeWhile_append_of_pos (by simpa using hpre), List.takeWhile_cons_of_neg (by simpa using hL), List.append_nil]
  have e2 : pyIndex B.levels v.level = .ok (pre ++ L :: post) := pyIndex_ok_iff.2 hB
  unfold File.conductorNumber
  rw [e2]
  simp only [bind_ok_iff, Except.ok.injEq, exists_eq_left', (C111_cable F v.cable).1, e1]
  constructor
  · rintro ⟨c, hc, h⟩
    split at h
    · rename_i hm
      rw [Except.ok.injEq] at h
      refine ⟨c, c.elemIds.idxOf v.name, hc, ?_, fun j hj e => ?_, h.symm⟩
      · rw [List.getElem?_eq_some_iff]
        exact ⟨List.idxOf_lt_length_of_mem hm, List.getElem_idxOf _⟩
      · exact ne_of_lt_idxOf hj e
    · simp at h
  · rintro ⟨c, i, hc, hi, hj, rfl⟩
    have hm : v.name ∈ c.elemIds := List.mem_of_getElem? hi
    refine ⟨c, hc, ?_⟩
    rw [if_pos hm]
    have h1 : c.elemIds[c.elemIds.idxOf v.name]? = some v.name := by
      rw [List.getElem?_eq_some_iff]
      exact ⟨List.idxOf_lt_length_of_mem hm, List.getElem_idxOf _⟩
    have h2 : ¬ c.elemIds.idxOf v.name < i := fun h => hj _ h h1
    have h3 : ¬ i < c.elemIds.idxOf v.name := fun h => ne_of_lt_idxOf h hi
    rw [show c.elemIds.idxOf v.name = i by omega]

/-- A line of the level has a conductor for every element of its cable. -/
def Fits (F : File) (L : AnyLine p) : Prop :=
  ∀ c, FirstMatch F.cables (fun c => c.name = L.2.name) c → c.elemIds.length ≤ L.1

theorem conductorNumber_split {F : File} {v : Vertex} {B : PBundle p} {k : ℕ} {lines : List (AnyLine p)}
    (hB : B.levels[v.level]? = some lines) (hm : ∃ L ∈ lines, L.2.name = v.cable) (h : F.conductorNumber v B = .ok k) :
    ∃ pre L post c i, lines = pre ++ L :: post ∧ L.2.name = v.cable ∧ (∀ M ∈ pre, M.2.name ≠ v.cable) ∧
      FirstMatch F.cables (fun c => c.name = v.cable) c ∧ c.elemIds[i]? = some v.name ∧
      (∀ j < i, c.elemIds[j]? ≠ some v.name) ∧ k = (pre.map Sigma.fst).sum + i := by
  classical
  obtain ⟨L, pre, post, e, h1, h2⟩ := firstMatch_exists hm
  subst e
  obtain ⟨c, i, h3⟩ := (C113_number F v B k hB h1 h2).1 h
  exact ⟨pre, L, post, c, i, rfl, h1, h2, h3⟩

/-- **C113** When every line has a conductor for every element of its cable, the number is that of a conductor of the
line of the cable. -/
theorem C113_range_partial {F : File} {v : Vertex} {B : PBundle p} {k : ℕ} {lines : List (AnyLine p)}
    (hB : B.levels[v.level]? = some lines) (hm : ∃ L ∈ lines, L.2.name = v.cable) (hf : ∀ L ∈ lines, Fits F L)
    (h : F.conductorNumber v B = .ok k) : ∃ pre L post, lines = pre ++ L :: post ∧ L.2.name = v.cable ∧
      (pre.map Sigma.fst).sum ≤ k ∧ k < (pre.map Sigma.fst).sum + L.1 ∧ k < (lines.map Sigma.fst).sum := by
  obtain ⟨pre, L, post, c, i, rfl, h1, -, h3, h4, -, rfl⟩ := conductorNumber_split hB hm h
  have h5 := hf L (by simp) c (by rw [h1]; exact h3)
  have h6 : i < c.elemIds.length := (List.getElem?_eq_some_iff.1 h4).1
  refine ⟨pre, L, post, rfl, h1, by omega, by omega, ?_⟩
  simp only [List.map_append, List.map_cons, List.sum_append, List.sum_cons]
  omega

/-- **C113** Two elements of a level have different numbers, under the same condition. -/
theorem C113_distinct_partial {F : File} {v v' : Vertex} {B : PBundle p} {k : ℕ} {lines : List (AnyLine p)}
    (hv : v.level = v'.level) (hB : B.levels[v.level]? = some lines) (hm : ∃ L ∈ lines, L.2.name = v.cable)
    (hm' : ∃ L ∈ lines, L.2.name = v'.cable) (hf : ∀ L ∈ lines, Fits F L)
    (h : F.conductorNumber v B = .ok k) (h' : F.conductorNumber v' B = .ok k) : v = v' := by
  obtain ⟨pre, L, post, c, i, e, h1, h2, h3, h4, h5, h6⟩ := conductorNumber_split hB hm h
  obtain ⟨pre', L', post', c', i', e', h1', h2', h3', h4', h5', h6'⟩ := conductorNumber_split (hv ▸ hB) hm' h'
  have f := hf L (by simp [e]) c (by rw [h1]; exact h3)
  have f' := hf L' (by simp [e']) c' (by rw [h1']; exact h3')
  have g : i < c.elemIds.length := (List.getElem?_eq_some_iff.1 h4).1
  have g' : i' < c'.elemIds.length := (List.getElem?_eq_some_iff.1 h4').1
  have key : pre = pre' ∧ L :: post = L' :: post' := by
    rcases List.append_eq_append_iff.1 (e.symm.trans e') with ⟨a, ha, hb⟩ | ⟨a, ha, hb⟩
    · cases a with
      | nil => simp at ha hb; exact ⟨ha.symm, by simp [hb]⟩
      | cons x a =>
        rw [List.cons_append, List.cons.injEq] at hb
        obtain ⟨rfl, -⟩ := hb
        rw [ha] at h6'
        simp only [List.map_append, List.map_cons, List.sum_append, List.sum_cons] at h6'
        omega
    · cases a with
      | nil => simp at ha hb; exact ⟨ha, by simp [hb]⟩
      | cons x a =>
        rw [List.cons_append, List.cons.injEq] at hb
        obtain ⟨rfl, -⟩ := hb
        rw [ha] at h6
        simp only [List.map_append, List.map_cons, List.sum_append, List.sum_cons] at h6
        omega
  obtain ⟨rfl, hl⟩ := key
  obtain ⟨rfl, rfl⟩ := List.cons.inj hl
  have hc : v.cable = v'.cable := h1.symm.trans h1'
  rw [hc] at h3
  obtain rfl := h3.unique h3'
  have : i = i' := by omega
  subst this
  rw [h4, Option.some.injEq] at h4'
  cases v; cases v'
  simp_all

/-- **C113** is false without the condition: the second element of cable `a` of the file, which has one conductor, has
the number of the first element of cable `b`. -/
theorem C113_refuted : ∃ (B : PBundle p) (sa : MTL 1 p) (sb : MTL 2 p), B.levels = [[⟨1, sa⟩, ⟨2, sb⟩]] ∧
    demoCables.buildLine p "a" = .ok ⟨1, sa⟩ ∧ demoCables.buildLine p "b" = .ok ⟨2, sb⟩ ∧
    demoCables.conductorNumber ⟨7, 0, "a"⟩ B = .ok 0 ∧ demoCables.conductorNumber ⟨9, 0, "a"⟩ B = .ok 1 ∧
    demoCables.conductorNumber ⟨8, 0, "b"⟩ B = .ok 1 := by
  obtain ⟨sa, ha, na, -⟩ := C112_example_a (p := p)
  obtain ⟨sb, hb, nb, -⟩ := C112_example_b (p := p)
  refine ⟨⟨⟨3, MTLD.assemble ⟨1, sa⟩ [[⟨1, sa⟩, ⟨2, sb⟩]] "B"⟩, [[⟨1, sa⟩, ⟨2, sb⟩]]⟩, sa, sb, rfl, ha, hb, ?_, ?_, ?_⟩
  · refine (C113_number _ _ _ 0 (pre := []) (L := ⟨1, sa⟩) (post := [⟨2, sb⟩]) rfl na (by simp)).2
      ⟨_, 0, demoCables_a.cable, rfl, by simp, rfl⟩
  · refine (C113_number _ _ _ 1 (pre := []) (L := ⟨1, sa⟩) (post := [⟨2, sb⟩]) rfl na (by simp)).2
      ⟨_, 1, demoCables_a.cable, rfl, by simp, rfl⟩
  · refine (C113_number _ _ _ 1 (pre := [⟨1, sa⟩]) (L := ⟨2, sb⟩) (post := []) rfl nb (by simp [na])).2
      ⟨_, 0, demoCables_b.cable, rfl, by simp, rfl⟩

end Mtln
