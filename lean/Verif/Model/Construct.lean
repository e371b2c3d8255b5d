import Mathlib.LinearAlgebra.Matrix.Charpoly.Basic
import Mathlib.Algebra.Polynomial.Roots
import Verif.Model.Line

/-!
# The constructor `MTL.__init__` (mtl.py:86-295)
-/

namespace Mtln

/-- A per-unit-length argument: a float (`float` or `np.float64`), a numpy array of one or two
dimensions, or anything else (Python integers, lists, …).  Arrays of other dimensions are not modelled. -/
inductive Arg where
  | scalar (x : ℝ)
  | vec (a : List ℝ)
  | mat (rows cols : ℕ) (a : ℕ → ℕ → ℝ)
  | other

/-- A termination argument `Zs`, `Zl`: a number or an array of one or two dimensions.  (Python lists would
be accepted by numpy broadcasting; they are not modelled.) -/
inductive ZArg where
  | scalar (x : ℝ)
  | vec (a : List ℝ)
  | mat (rows cols : ℕ) (a : ℕ → ℕ → ℝ)

/-- The `n × n` matrix with the given entries. -/
def toMat (n : ℕ) (a : ℕ → ℕ → ℝ) : Mat n := Matrix.of fun i j => a i j

/-- mtl.py:172-188 `init_LC`: number of conductors and entries of `L` and `C`
(every cell and node receives the same matrix: `self.l[:] = l`). -/
def initLC (l c : Arg) : Py (ℕ × (ℕ → ℕ → ℝ) × (ℕ → ℕ → ℝ)) :=
  match l, c with
  | .scalar x, .scalar y => .ok (1, (fun _ _ => x), (fun _ _ => y))
  | .mat lr lc la, .mat cr cc ca => do
    pyAssert (lr = cr ∧ lc = cc)
    pyAssert (lr = lc)
    .ok (lr, la, ca)
  | .vec a, .vec b => do
    pyAssert (a.length = b.length)
    .error .IndexError          -- `l.shape[1]` of a one-dimensional array
  | .vec _, .mat _ _ _ => .error .AssertionError
  | .mat _ _ _, .vec _ => .error .AssertionError
  | _, _ => .error .ValueError

/-- One half of mtl.py:190-216 `init_RG` (the two halves are the same code). -/
noncomputable def initRGone (n : ℕ) (x : Arg) : Py (ℕ → ℕ → ℝ) :=
  match x with
  | .scalar x => do
    if x ≠ 0 then pyAssert (n = 1)
    .ok fun _ _ => x
  | .mat rows cols a => do
    pyAssert (rows = n)
    pyAssert (rows = cols)
    .ok a
  | .vec a => do
    pyAssert (a.length = n)
    .error .IndexError
  | .other => .error .ValueError

/-- mtl.py:219-243 `init_Zt`: entries of `zs` and `zl`.
For the two-dimensional case the product with the identity broadcasts; a shape that does not broadcast to
`n × n` makes the later matrix products fail with `ValueError`. -/
def initZt (n : ℕ) (zs zl : ZArg) : Py ((ℕ → ℕ → ℝ) × (ℕ → ℕ → ℝ)) :=
  match zs, zl with
  | .scalar x, .scalar y =>
    .ok ((fun i j => if i = j then x else 0), (fun i j => if i = j then y else 0))
  | .vec a, .vec b => do
    pyAssert (a.length = b.length)
    pyAssert (a.length = n)
    .ok ((fun i j => if i = j then a.getD i 0 else 0), (fun i j => if i = j then b.getD i 0 else 0))
  | .mat r c a, .mat r' c' b => do
    pyAssert (r = r' ∧ c = c')
    pyAssert (r = 1 ∨ c = 1)
    pyAssert (r = n ∨ c = n)
    if r = 1 ∧ c = n then
      .ok ((fun i j => if i = j then a 0 j else 0), (fun i j => if i = j then b 0 j else 0))
    else if r = n ∧ c = 1 then
      .ok ((fun i j => if i = j then a i 0 else 0), (fun i j => if i = j then b i 0 else 0))
    else .error .ValueError
  | .vec _, .mat _ _ _ => .error .AssertionError
  | .mat _ _ _, .vec _ => .error .AssertionError
  | _, _ => .error .ValueError

/-! ## Mesh (mtl.py:97-98, 110-118) -/

/-- The arrays `u` and `du` while the mesh is built: `np.empty` memory, `none` = not yet written. -/
structure MeshMem where
  u : ℕ → Option V3
  du : ℕ → Option V3

/-- `np.empty(...)` (mtl.py:97-98). -/
def MeshMem.init : MeshMem := ⟨fun _ => none, fun _ => none⟩

/-- mtl.py:115-117: `self.u[idx] = x; self.du[idx] = d` on arrays with `M + 1` and `M` rows. -/
def MeshMem.write (M idx : ℕ) (x d : V3) (mem : MeshMem) : Py MeshMem :=
  if idx < M then
    .ok ⟨Function.update mem.u idx (some x), Function.update mem.du idx (some d)⟩
  else .error .IndexError

/-- mtl.py:114-117: the inner loop `for k in range(divisions)` from iteration `k` on (`fuel` iterations
left) for segment `i` from `a` to `b`. -/
noncomputable def meshInner (M i divisions : ℕ) (a b : V3) : ℕ → ℕ → MeshMem → Py MeshMem
  | _, 0, mem => .ok mem
  | k, fuel + 1, mem => do
    let d : V3 := fun j => (b j - a j) / divisions
    let mem ← mem.write M (i * divisions + k) (fun j => a j + k * d j) d
    meshInner M i divisions a b (k + 1) fuel mem

/-- mtl.py:112-117: the outer loop `for i, divisions in enumerate(ndiv)` from segment `i` on. -/
noncomputable def meshOuter (M : ℕ) (pos : ℕ → V3) : ℕ → List ℕ → MeshMem → Py MeshMem
  | _, [], mem => .ok mem
  | i, d :: ds, mem => do
    let mem ← meshInner M i d (pos i) (pos (i + 1)) 0 d mem
    meshOuter M pos (i + 1) ds mem

/-- mtl.py:110-118: the whole mesh, as memory contents. -/
noncomputable def buildMesh (pos : List V3) (ndiv : List ℕ) : Py MeshMem := do
  pyAssert (pos.length = ndiv.length + 1)
  let mem ← meshOuter ndiv.sum (fun k => pos.getD k 0) 0 ndiv MeshMem.init
  .ok { mem with u := Function.update mem.u ndiv.sum (some (pos.getD ndiv.length 0)) }

/-! ## Time step (mtl.py:282-289) -/

/-- `np.real(linalg.eigvals(A))`: the real parts of the roots of the characteristic polynomial. -/
noncomputable def eigRe {n : ℕ} (A : Mat n) : Set ℝ :=
  {x | ∃ z ∈ (A.map (algebraMap ℝ ℂ)).charpoly.roots, x = z.re}

/-- mtl.py:282-286 `get_phase_velocities`: the velocities of cell `k`. -/
noncomputable def phaseVelocities {n : ℕ} (l c : ℕ → Mat n) (k : ℕ) : Set ℝ :=
  {w | ∃ x ∈ eigRe (l k * c (k + 1)), w = 1 / Real.sqrt x}

open Classical in
/-- mtl.py:288-289 `get_max_timestep`: smallest non-zero cell length over the largest phase velocity of any
cell.  Without a cell of positive length or without conductors `np.min`/`np.max` of an empty array raises
`ValueError`; non-positive eigenvalues give `inf`/`nan` in Python (`NotModelled`). -/
noncomputable def maxTimestep {n : ℕ} (m : ℕ) (dun : ℕ → ℝ) (l c : ℕ → Mat n) : Py ℝ :=
  if n = 0 ∨ ∀ k < m, dun k = 0 then .error .ValueError
  else if ∃ k < m, ∃ x ∈ eigRe (l k * c (k + 1)), x ≤ 0 then .error .NotModelled
  else .ok (sInf {d | d ≠ 0 ∧ ∃ k < m, d = dun k} / sSup {w | ∃ k < m, w ∈ phaseVelocities l c k})

open Classical in
/-- mtl.py:86-170 `MTL.__init__`.  `positions = []` is the default (a straight line of the given `length`
along the z axis, mtl.py:88-91); an integer `ndiv` is the one-element list (mtl.py:92-93).
Cells the mesh loop left uninitialised contain arbitrary memory in Python: `NotModelled`. -/
noncomputable def MTL.new (p : ℕ) (l c r g : Arg) (length : ℝ) (positions : List V3) (ndiv : List ℕ)
    (Zs Zl : ZArg) (name : String) : Py (Σ n, MTL n p) := do
  let pos := if positions = [] then [![0, 0, 0], ![0, 0, length]] else positions
  let M := ndiv.sum
  let (n, la, ca) ← initLC l c
  let ga ← initRGone n g
  let ra ← initRGone n r
  let (zsa, zla) ← initZt n Zs Zl
  let mem ← buildMesh pos ndiv
  raiseIf (∃ k < M, mem.u k = none ∨ mem.du k = none) .NotModelled
  let u : ℕ → V3 := fun k => (mem.u k).getD 0
  let du : ℕ → V3 := fun k => (mem.du k).getD 0
  let dun : ℕ → ℝ := fun k => norm3 (du k)
  let dt ← maxTimestep M dun (fun _ => toMat n la) (fun _ => toMat n ca)
  let s : MTL n p :=
    { name := name
      m := M
      u := u
      du := du
      dun := dun
      l := fun _ => toMat n la
      c := fun _ => toMat n ca
      r := fun _ => toMat n ra
      g := fun _ => toMat n ga
      zs := toMat n zsa
      zl := toMat n zla
      dt := dt
      time := 0
      v := fun _ => 0
      i := fun _ => 0
      phi := fun _ _ => 0
      probes := []
      conn := Disp.new dt
      vSources := fun _ _ _ => 0
      eL := fun _ _ _ => 0
      eT := fun _ _ _ => 0
      left1 := 0
      left2 := 0
      right1 := 0
      right2 := 0
      lr := none
      cg := none }
  let s ← s.computeTerminalTerms
  .ok ⟨n, s⟩

end Mtln
