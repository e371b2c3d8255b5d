import Verif.Lemmas.Physical
import Verif.Props.Stability
import Verif.Props.Equations

/-!
# The constructor: C21 (constructed lines), C24, C25, C32
-/

namespace Mtln

open Matrix

variable {n p : ℕ}

/-! ## C21 -/

/-- **C21** for constructed lines: the time step the constructor stores is positive, at most the transit time
of every cell of positive length for every phase velocity, and equal to one of these transit times. -/
theorem C21_constructed {l c r g : Arg} {length : ℝ} {positions : List V3} {ndiv : List ℕ} {Zs Zl : ZArg}
    {name : String} {s : MTL n p}
    (h : MTL.new p l c r g length positions ndiv Zs Zl name = .ok ⟨n, s⟩) :
    0 < s.dt ∧
    (∀ k < s.m, s.dun k ≠ 0 → ∀ k' < s.m, ∀ w ∈ phaseVelocities s.l s.c k', s.dt * w ≤ s.dun k) ∧
    ∃ k < s.m, s.dun k ≠ 0 ∧ ∃ k' < s.m, ∃ w ∈ phaseVelocities s.l s.c k', s.dt * w = s.dun k := by
  obtain ⟨-, -, -, -, -, -, -, -, -, -, hd, -, -, hdun, -⟩ := new_ok_contents h
  exact C21_courant hd (fun k _ => by rw [hdun]; exact norm3_nonneg _)

/-- **C21** for one conductor: `dt = min(du) * sqrt(l*c)`, the minimum over cells of positive length. -/
theorem C21_one_conductor {x y : ℝ} {r g : Arg} {length : ℝ} {positions : List V3} {ndiv : List ℕ}
    {Zs Zl : ZArg} {name : String} {s : MTL 1 p}
    (h : MTL.new p (.scalar x) (.scalar y) r g length positions ndiv Zs Zl name = .ok ⟨1, s⟩) :
    ∃ k < s.m, s.dun k ≠ 0 ∧ (∀ k' < s.m, s.dun k' ≠ 0 → s.dun k ≤ s.dun k') ∧
      s.dt = s.dun k * Real.sqrt (x * y) := by
  obtain ⟨-, -, -, -, el, ec, -, -, -, -, hd, -, -, hdun, -⟩ := new_ok_contents h
  have hnn : ∀ k < s.m, 0 ≤ s.dun k := fun k _ => by rw [hdun]; exact norm3_nonneg _
  obtain ⟨-, hpos, -, -⟩ := maxTimestep_spec hd hnn
  obtain ⟨-, hle, k, hk, hk0, k', hk', w, hw, heq⟩ := C21_constructed h
  have hprod : ∀ q, eigRe (s.l q * s.c (q + 1)) = {x * y} := by
    intro q
    rw [eigRe_one_by_one, el, ec]
    simp [Arg.matrix, Matrix.mul_apply]
  have hxy : 0 < x * y := hpos k hk _ (by rw [hprod]; rfl)
  have hs := Real.sqrt_pos.2 hxy
  have hvel : ∀ q, phaseVelocities s.l s.c q = {1 / Real.sqrt (x * y)} := by
    intro q
    unfold phaseVelocities
    rw [hprod]
    ext w
    simp
  rw [hvel] at hw
  obtain rfl : w = 1 / Real.sqrt (x * y) := hw
  have e1 : s.dt = s.dun k * Real.sqrt (x * y) := by
    field_simp at heq
    linarith
  refine ⟨k, hk, hk0, fun q hq hq0 => ?_, e1⟩
  have := hle q hq hq0 k hk (1 / Real.sqrt (x * y)) (by rw [hvel]; rfl)
  linarith

/-! ## C24 -/

/-- The polyline of the refutation: `z = 0, 1, 2, 3`. -/
noncomputable def badPolyline : List V3 := [![0, 0, 0], ![0, 0, 1], ![0, 0, 2], ![0, 0, 3]]

theorem badMesh_ok : ∃ mem, buildMesh badPolyline [2, 3, 1] = .ok mem ∧
    (∀ k < 6, mem.u k ≠ none ∧ mem.du k ≠ none) ∧ (mem.du 0).getD 0 ≠ 0 ∧
    mem.u 1 = some (segNode ![0, 0, 0] ![0, 0, 1] 2 1) ∧ mem.du 1 = some (segCell ![0, 0, 0] ![0, 0, 1] 2) ∧
    mem.u 2 = some (segNode ![0, 0, 2] ![0, 0, 3] 1 0) := by
  obtain ⟨m1, a1, a2, a3⟩ := meshInner_ok 6 0 2 ![0, 0, 0] ![0, 0, 1] 2 0 MeshMem.init (by norm_num)
  obtain ⟨m2, b1, b2, b3⟩ := meshInner_ok 6 1 3 ![0, 0, 1] ![0, 0, 2] 3 0 m1 (by norm_num)
  obtain ⟨m3, c1, c2, c3⟩ := meshInner_ok 6 2 1 ![0, 0, 2] ![0, 0, 3] 1 0 m2 (by norm_num)
  refine ⟨{ m3 with u := Function.update m3.u 6 (some ![0, 0, 3]) }, ?_, ?_, ?_, ?_, ?_, ?_⟩
  · unfold buildMesh
    refine bind_ok_iff.2 ⟨(), pyAssert_ok_iff.2 rfl, bind_ok_iff.2 ⟨m3, ?_, rfl⟩⟩
    simp only [List.sum_cons, List.sum_nil]
    unfold meshOuter
    refine bind_ok_iff.2 ⟨m1, a1, ?_⟩
    unfold meshOuter
    refine bind_ok_iff.2 ⟨m2, b1, ?_⟩
    unfold meshOuter
    exact bind_ok_iff.2 ⟨m3, c1, rfl⟩
  · intro k hk
    simp only
    rw [Function.update_of_ne (by omega), c2, c3, b2, b3, a2, a3]
    interval_cases k <;> simp
  · simp only
    rw [c3, b3, a3]
    norm_num
    intro h
    have := congrFun h 2
    simp [segCell] at this
  · simp only
    rw [Function.update_of_ne (by norm_num), c2, b2, a2]
    norm_num
  · simp only
    rw [c3, b3, a3]
    norm_num
  · simp only
    rw [Function.update_of_ne (by norm_num), c2]
    norm_num

/-- **C24** is false of the code when segments have different numbers of divisions: a straight line through
`z = 0, 1, 2, 3` with 2, 3 and 1 divisions is accepted, and its mesh is not contiguous
(the node after `z = 1/2` is `z = 2`). -/
theorem C24_contiguity_fails : ∃ s : MTL 1 p,
    MTL.new p (.scalar 1) (.scalar 1) (.scalar 0) (.scalar 0) 1 badPolyline [2, 3, 1] (.scalar 0) (.scalar 0) ""
      = .ok ⟨1, s⟩ ∧ s.u 2 ≠ s.u 1 + s.du 1 := by
  obtain ⟨mem, h1, h2, h3, h4, h5, h6⟩ := badMesh_ok
  have hpos : (if badPolyline = [] then [![0, 0, 0], ![0, 0, 1]] else badPolyline) = badPolyline :=
    if_neg (by simp [badPolyline])
  obtain ⟨s, hs⟩ := new_succeeds (p := p) (l := .scalar 1) (c := .scalar 1) (r := .scalar 0) (g := .scalar 0)
    (length := 1) (positions := badPolyline) (ndiv := [2, 3, 1]) (Zs := .scalar 0) (Zl := .scalar 0) ""
    one_ne_zero (.floats 1 1) .zero .zero (.numbers 0 0) (spd_one one_pos) (spd_one one_pos)
    dissipative_zero (fun _ _ => le_rfl) (fun _ _ => le_rfl) (by rw [hpos]; exact h1) h2
    ⟨0, by norm_num, h3⟩
  refine ⟨s, hs, ?_⟩
  obtain ⟨-, -, -, -, -, -, -, -, -, -, -, -, ⟨mem', e1, e2, -⟩, -, -⟩ := new_ok_contents hs
  rw [hpos, h1] at e1
  injection e1 with e1
  subst e1
  have u1 := (e2 1 (by norm_num)).1
  have u2 := (e2 2 (by norm_num)).1
  have d1 := (e2 1 (by norm_num)).2
  rw [h4] at u1
  rw [h6] at u2
  rw [h5] at d1
  injection u1 with u1
  injection u2 with u2
  injection d1 with d1
  rw [← u1, ← u2, ← d1]
  intro h
  have := congrFun h 2
  simp [segNode, segCell] at this
  norm_num at this

/-- With two segments and fewer divisions in the first one the constructor raises `IndexError` (here 1 and 2
divisions). -/
theorem C24_index_error (a b c : V3) : buildMesh [a, b, c] [1, 2] = .error .IndexError := by
  simp [buildMesh, pyAssert, meshOuter, meshInner, MeshMem.write, bind, Except.bind]

/-- **C24** where it holds: all segments have the same number of divisions (in particular one segment). -/
theorem C24_mesh_partial {l c r g : Arg} {length : ℝ} {positions : List V3} {ndiv : List ℕ} {Zs Zl : ZArg}
    {name : String} {s : MTL n p} {d : ℕ} (hd : 0 < d) (hds : ∀ x ∈ ndiv, x = d)
    (h : MTL.new p l c r g length positions ndiv Zs Zl name = .ok ⟨n, s⟩) :
    Subdivides
      (fun k => (if positions = [] then [![0, 0, 0], ![0, 0, length]] else positions).getD k 0)
      ndiv s.m s.u s.du := by
  obtain ⟨-, -, -, -, -, -, -, -, -, -, -, hm, ⟨mem, h1, h2, h3⟩, -, -⟩ := new_ok_contents h
  have hlen : (if positions = [] then [![0, 0, 0], ![0, 0, length]] else positions).length
      = ndiv.length + 1 := by
    unfold buildMesh at h1
    obtain ⟨_, e, -⟩ := bind_ok_iff.1 h1
    exact pyAssert_ok_iff.1 e
  obtain ⟨mem', e1, e2, e3, e4⟩ := buildMesh_equal hd hds hlen
  rw [h1] at e1
  injection e1 with e1
  subst e1
  have S := subdivides_of_equal hd hds e2 e3 e4
  rw [hm, h3]
  constructor
  · exact S.cells
  · exact S.first
  · exact S.last
  · intro k hk
    have := S.contiguous k hk
    simp only [(h2 k hk).2, Option.getD_some] at this ⊢
    exact this
  · exact S.through
  · intro i hi k hk j
    have hlt : (ndiv.take i).sum + k < ndiv.sum := by
      have h3 : (ndiv.take (i + 1)).sum ≤ ndiv.sum := by
        conv_rhs => rw [← List.take_append_drop (i + 1) ndiv, List.sum_append]
        exact Nat.le_add_right _ _
      rw [List.sum_take_succ _ _ hi] at h3
      omega
    have := S.equal i hi k hk j
    simpa only [(h2 _ hlt).2, Option.getD_some] using this

/-! ## C25 -/

theorem argmin_spec (f : ℕ → ℝ) (N : ℕ) :
    argmin f N ≤ N ∧ (∀ k ≤ N, f (argmin f N) ≤ f k) ∧ ∀ k < argmin f N, f (argmin f N) < f k := by
  induction N with
  | zero => exact ⟨le_rfl, fun k hk => by rw [Nat.le_zero.1 hk]; rfl, fun k hk => absurd hk (by simp [argmin])⟩
  | succ N ih =>
    obtain ⟨h1, h2, h3⟩ := ih
    unfold argmin
    split
    · rename_i hlt
      refine ⟨le_rfl, fun k hk => ?_, fun k hk => ?_⟩
      · rcases hk.lt_or_eq with h | rfl
        · exact hlt.le.trans (h2 k (by omega))
        · exact le_rfl
      · exact hlt.trans_le (h2 k (by omega))
    · rename_i hge
      push Not at hge
      refine ⟨by omega, fun k hk => ?_, h3⟩
      rcases hk.lt_or_eq with h | rfl
      · exact h2 k (by omega)
      · exact hge

/-- **C25.** The node used for a position is the first of the nodes at minimal Euclidean distance. -/
theorem C25_nearest (u : ℕ → V3) (m : ℕ) (x : V3) :
    nearest u m x ≤ m ∧ (∀ k ≤ m, norm3 (u (nearest u m x) - x) ≤ norm3 (u k - x)) ∧
    ∀ k < nearest u m x, norm3 (u (nearest u m x) - x) < norm3 (u k - x) := by
  have habs : ∀ k, (norm3 fun j => |u k j - x j|) = norm3 (u k - x) := by
    intro k
    simp [norm3, sq_abs]
  have := argmin_spec (fun k => norm3 fun j => |u k j - x j|) m
  simpa only [nearest, habs] using this

/-- A node of the mesh is found again (its first occurrence). -/
theorem C25_exact_node (u : ℕ → V3) (m k : ℕ) (hk : k ≤ m) : u (nearest u m (u k)) = u k := by
  obtain ⟨-, h, -⟩ := C25_nearest u m (u k)
  have h1 := h k hk
  rw [sub_self] at h1
  have h0 : norm3 (0 : V3) = 0 := norm3_eq_zero.2 rfl
  rw [h0] at h1
  exact sub_eq_zero.1 (norm3_eq_zero.1 (le_antisymm h1 (norm3_nonneg _)))

/-! ## C32 -/

/-- **C32.** The constructor succeeds exactly when the per-unit-length arguments have legal shapes, the mesh
loop fills the mesh, there is an automatic time step, and the two terminal matrices are regular.  In all other
cases it raises. -/
theorem C32_constructor {l c r g : Arg} {length : ℝ} {positions : List V3} {ndiv : List ℕ} {Zs Zl : ZArg}
    {name : String} :
    (∃ s : MTL n p, MTL.new p l c r g length positions ndiv Zs Zl name = .ok ⟨n, s⟩) ↔
    GoodLC n l c ∧ GoodRG n r ∧ GoodRG n g ∧ GoodZ n Zs Zl ∧
    ∃ mem dt,
      buildMesh (if positions = [] then [![0, 0, 0], ![0, 0, length]] else positions) ndiv = .ok mem ∧
      (∀ k < ndiv.sum, mem.u k ≠ none ∧ mem.du k ≠ none) ∧
      maxTimestep ndiv.sum (fun k => norm3 ((mem.du k).getD 0)) (fun _ => l.matrix n) (fun _ => c.matrix n)
        = .ok dt ∧ dt ≠ 0 ∧
      (termF1 dt (norm3 ((mem.du 0).getD 0)) (Matrix.diagonal fun i : Fin n => Zs.value i) (c.matrix n)
        (g.matrix n)).det ≠ 0 ∧
      (termF1 dt (norm3 ((mem.du (ndiv.sum - 1)).getD 0)) (Matrix.diagonal fun i : Fin n => Zl.value i)
        (c.matrix n) (g.matrix n)).det ≠ 0 := by
  have diag : ∀ (a : ℕ → ℕ → ℝ) (Z : ZArg), (∀ i < n, ∀ j, a i j = if i = j then Z.value i else 0) →
      toMat n a = Matrix.diagonal (fun i : Fin n => Z.value i) := by
    intro a Z he
    ext i j
    simp only [toMat, of_apply, diagonal_apply, he i i.2 j]
    by_cases hij : i = j
    · subst hij; simp
    · rw [if_neg hij, if_neg (fun h => hij (Fin.ext h))]
  have matLC : ∀ {la ca : ℕ → ℕ → ℝ}, initLC l c = .ok (n, la, ca) →
      toMat n la = l.matrix n ∧ toMat n ca = c.matrix n := by
    intro la ca h1
    obtain ⟨hlc, e1, e2⟩ := initLC_ok_iff.1 h1
    constructor
    · ext i j
      cases hlc <;> simp [toMat, Arg.matrix, e1]
    · ext i j
      cases hlc <;> simp [toMat, Arg.matrix, e2]
  have matRG : ∀ {x : Arg} {ga : ℕ → ℕ → ℝ}, initRGone n x = .ok ga → toMat n ga = x.matrix n := by
    intro x ga h
    obtain ⟨hg, e⟩ := initRGone_ok_iff.1 h
    ext i j
    cases hg <;> simp [toMat, Arg.matrix, e]
  constructor
  · rintro ⟨s, h⟩
    obtain ⟨la, ca, ga, ra, zsa, zla, mem, dt, h1, h2, h3, h4, h5, h6, h7, h8⟩ := new_ok_iff.1 h
    obtain ⟨hz, ez1, ez2⟩ := initZt_ok h4
    obtain ⟨el, ec⟩ := matLC h1
    have eg := matRG h2
    obtain ⟨c1, c2, c3, -⟩ := computeTerminalTerms_ok_iff.1 h8
    refine ⟨(initLC_ok_iff.1 h1).1, (initRGone_ok_iff.1 h3).1, (initRGone_ok_iff.1 h2).1, hz, mem, dt, h5, h6,
      ?_, c1, ?_, ?_⟩
    · rw [← el, ← ec]; exact h7
    · rw [← ec, ← eg, ← diag _ _ ez1]; exact c2
    · rw [← ec, ← eg, ← diag _ _ ez2]; exact c3
  · rintro ⟨hlc, hr, hg, hz, mem, dt, h5, h6, h7, c1, c2, c3⟩
    obtain ⟨la, ca, h1⟩ : ∃ la ca, initLC l c = .ok (n, la, ca) :=
      ⟨_, _, initLC_ok_iff.2 ⟨hlc, fun i j => rfl, fun i j => rfl⟩⟩
    obtain ⟨ga, h2⟩ : ∃ ga, initRGone n g = .ok ga := ⟨_, initRGone_ok_iff.2 ⟨hg, fun i j => rfl⟩⟩
    obtain ⟨ra, h3⟩ : ∃ ra, initRGone n r = .ok ra := ⟨_, initRGone_ok_iff.2 ⟨hr, fun i j => rfl⟩⟩
    obtain ⟨zsa, zla, h4⟩ := initZt_good hz
    obtain ⟨hz, ez1, ez2⟩ := initZt_ok h4
    obtain ⟨el, ec⟩ := matLC h1
    have eg := matRG h2
    rw [← ec, ← eg, ← diag _ _ ez1] at c2
    rw [← ec, ← eg, ← diag _ _ ez2] at c3
    rw [← el, ← ec] at h7
    exact ⟨_, new_ok_iff.2 ⟨la, ca, ga, ra, zsa, zla, mem, dt, h1, h2, h3, h4, h5, h6, h7,
      computeTerminalTerms_ok_iff.2 ⟨c1, c2, c3, rfl⟩⟩⟩

/-- **C32**, contents: all cells and nodes carry the given matrices, the terminations are diagonal. -/
theorem C32_contents {l c r g : Arg} {length : ℝ} {positions : List V3} {ndiv : List ℕ} {Zs Zl : ZArg}
    {name : String} {s : MTL n p}
    (h : MTL.new p l c r g length positions ndiv Zs Zl name = .ok ⟨n, s⟩) :
    s.m = ndiv.sum ∧ (∀ k, s.l k = l.matrix n) ∧ (∀ k, s.c k = c.matrix n) ∧ (∀ k, s.r k = r.matrix n) ∧
    (∀ k, s.g k = g.matrix n) ∧ s.zs = Matrix.diagonal (fun i : Fin n => Zs.value i) ∧
    s.zl = Matrix.diagonal (fun i : Fin n => Zl.value i) := by
  obtain ⟨-, -, -, -, h1, h2, h3, h4, h5, h6, -, h7, -⟩ := new_ok_contents h
  exact ⟨h7, fun k => by rw [h1], fun k => by rw [h2], fun k => by rw [h3], fun k => by rw [h4], h5, h6⟩

/-- Physical parameters are accepted: legal shapes, `L`, `C` symmetric positive definite, `G` dissipative,
terminations non-negative, the same number of divisions in all segments and a segment of positive length. -/
theorem C32_physical_accepted {l c r g : Arg} {length : ℝ} {positions : List V3} {ndiv : List ℕ}
    {Zs Zl : ZArg} (name : String) (hn : n ≠ 0) (hlc : GoodLC n l c) (hr : GoodRG n r) (hg : GoodRG n g)
    (hz : GoodZ n Zs Zl) (hl : SPD (l.matrix n)) (hc : SPD (c.matrix n)) (hgd : Dissipative (g.matrix n))
    (hzs : ∀ i < n, 0 ≤ Zs.value i) (hzl : ∀ i < n, 0 ≤ Zl.value i) {d : ℕ} (hd : 0 < d)
    (hds : ∀ x ∈ ndiv, x = d) {pos : List V3}
    (hpos : pos = if positions = [] then [![0, 0, 0], ![0, 0, length]] else positions)
    (hlen : pos.length = ndiv.length + 1) (hne : ∃ i < ndiv.length, pos.getD i 0 ≠ pos.getD (i + 1) 0) :
    ∃ s : MTL n p, MTL.new p l c r g length positions ndiv Zs Zl name = .ok ⟨n, s⟩ := by
  obtain ⟨mem, h1, h2, h3⟩ := mesh_equal_complete hd hds hlen hne
  exact new_succeeds name hn hlc hr hg hz hl hc hgd hzs hzl (by rw [← hpos]; exact h1) h2 h3

/-- The demo line as the constructor builds it. -/
theorem demoLine_accepted : ∃ s : MTL 1 p, MTL.new p (.scalar 1) (.scalar 1) (.scalar 0) (.scalar 0) 2 [] [2]
    (.scalar 1) (.scalar 1) "demo" = .ok ⟨1, s⟩ := by
  refine C32_physical_accepted (d := 2) "demo" one_ne_zero (.floats 1 1) .zero .zero (.numbers 1 1)
    (spd_one one_pos) (spd_one one_pos) dissipative_zero (fun _ _ => zero_le_one) (fun _ _ => zero_le_one)
    (by norm_num) (by simp) rfl (by simp) ⟨0, by simp, ?_⟩
  intro h
  have := congrFun h 2
  simp at this

/-- Non-vacuity of C24 (partial), C21 and C32: the constructor accepts the demo line. -/
example : ∃ s : MTL 1 p, (∃ k < s.m, s.dt = s.dun k * Real.sqrt (1 * 1)) ∧
    Subdivides (fun k => [![0, 0, 0], ![0, 0, 2]].getD k 0) [2] s.m s.u s.du := by
  obtain ⟨s, hs⟩ := demoLine_accepted (p := p)
  obtain ⟨k, hk, -, -, h⟩ := C21_one_conductor hs
  refine ⟨s, ⟨k, hk, h⟩, ?_⟩
  have := C24_mesh_partial (d := 2) (by norm_num) (by simp) hs
  simpa using this

/-! ## Constructed lines -/

/-- What C15 and C16 need holds for every line the constructor builds from physical parameters without cells
of zero length. -/
theorem constructed_physical {l c r g : Arg} {length : ℝ} {positions : List V3} {ndiv : List ℕ}
    {Zs Zl : ZArg} {name : String} {s : MTL n p}
    (h : MTL.new p l c r g length positions ndiv Zs Zl name = .ok ⟨n, s⟩)
    (hl : SPD (l.matrix n)) (hc : SPD (c.matrix n)) (hr : Dissipative (r.matrix n))
    (hg : Dissipative (g.matrix n)) (hzs : ∀ i < n, 0 ≤ Zs.value i) (hzl : ∀ i < n, 0 ≤ Zl.value i)
    (hdu : ∀ k < s.m, s.du k ≠ 0) :
    s.Passive ∧ s.Regular (c.matrix n) ∧ s.TermFor s.dt ∧ maxTimestep s.m s.dun s.l s.c = .ok s.dt := by
  obtain ⟨-, -, -, -, h1, h2, h3, h4, h5, h6, h7, hm, -, hdun, hconn⟩ := new_ok_contents h
  have dz : ∀ (Z : ZArg), (∀ i < n, 0 ≤ Z.value i) →
      Dissipative (Matrix.diagonal (fun i : Fin n => Z.value i)) := by
    intro Z h0 x
    simp only [dotProduct, mulVec_diagonal]
    exact Finset.sum_nonneg fun i _ => by nlinarith [mul_nonneg (h0 i i.2) (mul_self_nonneg (x i))]
  have hnn : ∀ k < s.m, 0 < s.dun k := fun k hk => by
    rw [hdun]
    exact lt_of_le_of_ne (norm3_nonneg _) (fun h => hdu k hk (norm3_eq_zero.1 h.symm))
  obtain ⟨hdt, -, k, hk, -⟩ := C21_constructed h
  refine ⟨⟨by omega, hdt, fun k hk => (hnn k hk).le, ?_, ?_, ?_, ?_, ?_, ?_, ?_, ?_, ?_⟩,
    ⟨fun k _ => by rw [h2], hc, fun k _ => by rw [h1]; exact hl, ?_, hnn⟩,
    (C09_constructed_consistent _ _ _ _ _ _ _ _ _ _ _ h).termFor, h7⟩
  · intro k _; rw [h1, hconn]; simpa [Disp.new] using hl.symm
  · intro k _; rw [h2]; exact hc.symm
  · intro k _; rw [h3, hconn]; simpa [Disp.new] using hr
  · intro k _; rw [h4]; exact hg
  · rw [h5]; exact dz _ hzs
  · rw [h6]; exact dz _ hzl
  · intro k _; rw [hconn]; rfl
  · intro k _; rw [hconn]; rfl
  · intro k _ a b; rw [hconn]; rfl
  · intro k _; rw [hconn]; exact dissipative_zero

/-- **C16** for constructed lines: take any line built from physical parameters, any initial voltages and
currents and any time step below the automatic one; without sources all voltages and currents stay bounded in
all runs of any duration. -/
theorem C16_constructed {l c r g : Arg} {length : ℝ} {positions : List V3} {ndiv : List ℕ}
    {Zs Zl : ZArg} {name : String} {s : MTL n p}
    (h : MTL.new p l c r g length positions ndiv Zs Zl name = .ok ⟨n, s⟩)
    (hl : SPD (l.matrix n)) (hc : SPD (c.matrix n)) (hr : Dissipative (r.matrix n))
    (hg : Dissipative (g.matrix n)) (hzs : ∀ i < n, 0 ≤ Zs.value i) (hzl : ∀ i < n, 0 ≤ Zl.value i)
    (hdu : ∀ k < s.m, s.du k ≠ 0) (v0 i0 : Grid n) (dt : ℝ) (hdt : 0 < dt) (hlt : dt < s.dt) :
    ∃ K, ∀ (T : ℝ) (s' : MTL n p) (N : ℕ) (tr : ℕ → MTL n p),
      RunTrace { s with dt := dt, v := v0, i := i0 } T s' N tr →
      ∀ j ≤ N, (∀ k ≤ s.m, ∀ a, |(tr j).v k a| ≤ K) ∧ (∀ k < s.m, ∀ a, |(tr j).i k a| ≤ K) := by
  obtain ⟨hp, hr, ht, hauto⟩ := constructed_physical h hl hc hr hg hzs hzl hdu
  have hx : ∀ (v0 i0 : Grid n) (dt : ℝ), ({ s with dt := dt, v := v0, i := i0 } : MTL n p).Unexcited := by
    intro v0 i0 dt
    obtain ⟨la, ca, ga, ra, zsa, zla, mem, d, -, -, -, -, -, -, -, h8⟩ := new_ok_iff.1 h
    obtain ⟨-, -, -, rfl⟩ := computeTerminalTerms_ok_iff.1 h8
    exact ⟨fun _ _ _ => rfl, fun _ _ _ => rfl, fun _ _ _ => rfl⟩
  exact C16_bounded_reduced_dt (s := { s with dt := dt, v := v0, i := i0 }) (C := c.matrix n) (d := s.dt)
    ⟨hp.cells, hdt, hp.dun, hp.l, hp.c, hp.r, hp.g, hp.zs, hp.zl, hp.q1, hp.q2, hp.q3⟩
    ⟨hr.c, hr.c_spd, hr.l_spd, hr.e, hr.dun⟩ (hx v0 i0 dt)
    ⟨ht.det_left, ht.det_right, ht.left1, ht.left2, ht.right1, ht.right2⟩ hauto hlt

/-- Non-vacuity of `C16_constructed` (and of the hypotheses of C15 and C16 it provides). -/
example : ∃ s : MTL 1 p, MTL.new p (.scalar 1) (.scalar 1) (.scalar 0) (.scalar 0) 2 [] [2]
    (.scalar 1) (.scalar 1) "demo" = .ok ⟨1, s⟩ ∧ s.Passive ∧ s.Regular ((Arg.scalar 1).matrix 1) ∧
    s.TermFor s.dt ∧ 0 < s.dt / 2 ∧ s.dt / 2 < s.dt := by
  obtain ⟨s, hs⟩ := demoLine_accepted (p := p)
  have hS := C24_mesh_partial (d := 2) (by norm_num) (by simp) hs
  have hdu : ∀ k < s.m, s.du k ≠ 0 := by
    intro k hk h0
    have hm : s.m = 2 := by have := hS.cells; simpa using this
    have := hS.equal 0 (by simp) k (by simpa [hm] using hk) 2
    simp [h0] at this
  obtain ⟨hp, hr, ht, -⟩ := constructed_physical hs (spd_one one_pos) (spd_one one_pos) dissipative_zero
    dissipative_zero (fun _ _ => zero_le_one) (fun _ _ => zero_le_one) hdu
  exact ⟨s, hs, hp, hr, ht, by linarith [hp.dt_pos], by linarith [hp.dt_pos]⟩

end Mtln
