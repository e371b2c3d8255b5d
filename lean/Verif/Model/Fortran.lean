import Verif.Model.Line

/-!
# The Fortran solvers

`fortran/old/fd1d_TL.f90`, `fortran/old/matrixUtils.f90`, `fortran/old/Nconductors_2.f90`, `Nconductors_3.f90`,
`Nconductors_3_losses.f90`, `fortran/src/utils.f90` and `fortran/src/class_MTL.f90`.  Single precision reals are real numbers;
operations that would give infinities or NaN, and reads of uninitialised memory, are `notModelled`; indices outside the bounds of
an array are `outOfBounds`.  The output files are not modelled: the arrays that are written to them are the results.
`fortran/old/coaxial.f90` uses an undeclared variable and is not modelled; its call is that of `twoConductors`.
-/

namespace Mtln

namespace Fortran

open Matrix

/-- How a program can end early. -/
inductive FErr where
  /-- `stop 'message'` -/
  | stop (message : String)
  /-- an index outside the bounds of an array -/
  | outOfBounds
  | notModelled
  deriving DecidableEq, Repr

abbrev F (α : Type) := Except FErr α

open Classical in
noncomputable def failIf (c : Prop) (e : FErr) : F Unit := if c then .error e else .ok ()

variable {n : ℕ}

open Classical in
/-- matrixUtils.f90:5-22 `inv(A)`, by the LU factorization of LAPACK, which reports singular matrices. -/
noncomputable def inv (A : Mat n) : F (Mat n) :=
  if A.det = 0 then .error (.stop "Matrix is numerically singular!") else .ok A⁻¹

/-- matrixUtils.f90:25-41 `getUpdateMatrices(M, N, dZ, dT, U1, U2)`: `U1` and `U2`. -/
noncomputable def getUpdateMatrices (M N : Mat n) (dZ dT : ℝ) : F (Mat n × Mat n) := do
  failIf (dT = 0) .notModelled
  let U1 ← inv ((dZ / dT) • M + (dZ / 2) • N)
  let A := (dZ / dT) • M - (dZ / 2) • N
  .ok (U1, U1 * A)

/-- matrixUtils.f90:43-60 `getTerminalMatrices(M, N, R, dz, dT, T1, T2)`: `T1` and `T2`. -/
noncomputable def getTerminalMatrices (M N R : Mat n) (dZ dT : ℝ) : F (Mat n × Mat n) := do
  failIf (dT = 0) .notModelled
  let T1 ← inv ((dZ / dT) • (R * M) + (dZ / 2) • (R * N) + 1)
  .ok (T1, (dZ / dT) • (R * M) - (dZ / 2) • (R * N) - 1)

/-- The arrays `voltage(:, 0:zSteps)` and `current(:, 0:zSteps-1)`. -/
structure State (n : ℕ) where
  v : Grid n
  i : Grid n

/-- The variables of `fd1d_TL.f90` that keep their values between calls: `maxV` of `TL_Nconductors` and of
`TL_Nconductors_losses` (fd1d_TL.f90:73, 160: a local variable with an initial value has the attribute `SAVE`). -/
structure Saved where
  maxV : ℝ := 0
  maxVLosses : ℝ := 0

/-- `deltaZ = 1e-3` (fd1d_TL.f90:22, 113, 215). -/
noncomputable def deltaZ : ℝ := 1 / 1000

/-- `vSource = 25` (fd1d_TL.f90:25, 97, 199). -/
def vSource : ℝ := 25

/-! ## Two conductors -/

/-- One pass of the loop over time of `TL_2conductors` (fd1d_TL.f90:33-50), with `r` both resistances. -/
noncomputable def stepTwo (zSteps : ℕ) (l c dT r : ℝ) (s : (ℕ → ℝ) × (ℕ → ℝ)) : (ℕ → ℝ) × (ℕ → ℝ) :=
  let v : ℕ → ℝ := fun k =>
    if k = 0 then
      (1 / (deltaZ * r * c / dT + 1)) * ((deltaZ * r * c / dT - 1) * s.1 0 - 2 * r * s.2 0 + 2 * vSource)
    else if k < zSteps then s.1 k - (dT / (deltaZ * c)) * (s.2 k - s.2 (k - 1))
    else if k = zSteps then
      (1 / (deltaZ * r * c / dT + 1)) * ((deltaZ * r * c / dT - 1) * s.1 zSteps + 2 * r * s.2 (zSteps - 1) + 2 * 0)
    else s.1 k
  (v, fun k => if k < zSteps then s.2 k - (dT / (deltaZ * l)) * (v (k + 1) - v k) else s.2 k)

/-- fd1d_TL.f90:8-58 `TL_2conductors(zSteps, tSteps, l, c)`: the arrays that are written to the file. -/
noncomputable def twoConductors (zSteps tSteps : ℕ) (l c : ℝ) : F ((ℕ → ℝ) × (ℕ → ℝ)) := do
  failIf (l * c ≤ 0) .notModelled
  let dT := 0.95 * deltaZ * Real.sqrt (l * c)
  let r := Real.sqrt (l / c)
  failIf (deltaZ * r * c / dT + 1 = 0) .notModelled
  failIf (0 < tSteps ∧ zSteps = 0) .outOfBounds
  .ok ((stepTwo zSteps l c dT r)^[tSteps] (fun _ => 0, fun _ => 0))

/-! ## Several conductors -/

/-- fd1d_TL.f90:102-106, 204-208: the largest velocity, starting from the value of `maxV`. -/
noncomputable def maxVelocity (l c : Mat n) (maxV : ℝ) : ℝ :=
  (List.finRange n).foldl (fun m i => if 1 / Real.sqrt (l i i * c i i) > m then 1 / Real.sqrt (l i i * c i i) else m) maxV

/-- `rSource`, `rLoad` (fd1d_TL.f90:99-100, 108-109, 201-202, 210-211). -/
noncomputable def terminals (l c : Mat n) : Mat n := diagonal fun i => Real.sqrt (l i i / c i i)

/-- The coefficients of a loop over time. -/
structure Loop (n : ℕ) where
  S1 : Mat n
  S2 : Mat n
  L1 : Mat n
  L2 : Mat n
  CG1 : Mat n
  CG2 : Mat n
  LR1 : Mat n
  LR2 : Mat n

/-- One pass of the loop over time of `TL_Nconductors_losses` (fd1d_TL.f90:235-255). -/
noncomputable def stepN (zSteps : ℕ) (q : Loop n) (r : Mat n) (s : State n) : State n :=
  let v : Grid n := fun k =>
    if k = 0 then q.S1 *ᵥ (q.S2 *ᵥ s.v 0 - (2 : ℝ) • r *ᵥ s.i 0 + (2 : ℝ) • (fun _ => vSource : Col n))
    else if k < zSteps then q.CG2 *ᵥ s.v k - q.CG1 *ᵥ (s.i k - s.i (k - 1))
    else if k = zSteps then q.L1 *ᵥ (q.L2 *ᵥ s.v zSteps + (2 : ℝ) • r *ᵥ s.i (zSteps - 1) + (2 : ℝ) • (0 : Col n))
    else s.v k
  { v := v
    i := fun k => if k < zSteps then q.LR2 *ᵥ s.i k - q.LR1 *ᵥ (v (k + 1) - v k) else s.i k }

/-- `voltage(:,:) = 0`, `current(:,:) = 0`. -/
def State.zero : State n := ⟨fun _ => 0, fun _ => 0⟩

/-- The checks of both solvers for several conductors: square roots and quotients of `fd1d_TL.f90:102-114, 204-216`, the time
step, and the bounds of `current`. -/
noncomputable def checkN (zSteps tSteps : ℕ) (l c : Mat n) (maxV : ℝ) : F Unit := do
  failIf (∃ i, l i i * c i i ≤ 0) .notModelled
  failIf (maxVelocity l c maxV = 0) .notModelled
  failIf (0 < tSteps ∧ zSteps = 0) .outOfBounds

/-- fd1d_TL.f90:147-257 `TL_Nconductors_losses(zSteps, tSteps, l, c, r, g, voltage, current)`; `voltage` and `current` are not
allocated before the call. -/
noncomputable def nConductorsLosses (zSteps tSteps : ℕ) (l c r g : Mat n) (saved : Saved) : F (State n × Saved) := do
  checkN zSteps tSteps l c saved.maxVLosses
  let maxV := maxVelocity l c saved.maxVLosses
  let dT := 0.95 * deltaZ / maxV
  let R := terminals l c
  let (S1, S2) ← getTerminalMatrices c g R deltaZ dT
  let (L1, L2) ← getTerminalMatrices c g R deltaZ dT
  let (CG1, CG2) ← getUpdateMatrices c g deltaZ dT
  let (LR1, LR2) ← getUpdateMatrices l r deltaZ dT
  .ok ((stepN zSteps ⟨S1, S2, L1, L2, CG1, CG2, LR1, LR2⟩ R)^[tSteps] .zero, { saved with maxVLosses := maxV })

/-- One pass of the loop over time of `TL_Nconductors` (fd1d_TL.f90:127-142). -/
noncomputable def stepLossless (zSteps : ℕ) (dT : ℝ) (A1 A2 B1 B2 lInv cInv r : Mat n) (s : State n) : State n :=
  let v : Grid n := fun k =>
    if k = 0 then B1 *ᵥ (A1 *ᵥ s.v 0 - (2 : ℝ) • r *ᵥ s.i 0 + (2 : ℝ) • (fun _ => vSource : Col n))
    else if k < zSteps then s.v k - (dT / deltaZ) • cInv *ᵥ (s.i k - s.i (k - 1))
    else if k = zSteps then B2 *ᵥ (A2 *ᵥ s.v zSteps + (2 : ℝ) • r *ᵥ s.i (zSteps - 1) + (2 : ℝ) • (0 : Col n))
    else s.v k
  { v := v
    i := fun k => if k < zSteps then s.i k - (dT / deltaZ) • lInv *ᵥ (v (k + 1) - v k) else s.i k }

/-- fd1d_TL.f90:60-144 `TL_Nconductors(zSteps, tSteps, l, c, voltage, current)`; `voltage` and `current` are not allocated
before the call. -/
noncomputable def nConductors (zSteps tSteps : ℕ) (l c : Mat n) (saved : Saved) : F (State n × Saved) := do
  checkN zSteps tSteps l c saved.maxV
  let maxV := maxVelocity l c saved.maxV
  let dT := 0.95 * deltaZ / maxV
  let R := terminals l c
  let lInv ← inv l
  let cInv ← inv c
  let A1 := (deltaZ / dT) • (R * c) - 1
  let A2 := (deltaZ / dT) • (R * c) - 1
  let B1 ← inv ((deltaZ / dT) • (R * c) + 1)
  let B2 ← inv ((deltaZ / dT) • (R * c) + 1)
  .ok ((stepLossless zSteps dT A1 A2 B1 B2 lInv cInv R)^[tSteps] .zero, { saved with maxV := maxV })

/-! ## The programs -/

/-- The inductances of `Nconductors_3_losses.f90:33-40`, the same as in `Nconductors_3.f90`: two wires of radius `wireR` at
the distance `dToCenter` from the axis of a shield of radius `shieldR`. -/
noncomputable def shieldedPair (mu shieldR wireR d : ℝ) : Mat 2 :=
  let a := (mu / (2 * Real.pi)) * Real.log ((shieldR ^ 2 - d ^ 2) / (shieldR * wireR))
  let b := (mu / (2 * Real.pi)) * Real.log ((d / shieldR)
    * Real.sqrt ((d ^ 4 + shieldR ^ 4 + 2 * d ^ 2 * shieldR ^ 2) / (d ^ 4 + d ^ 4 + 2 * d ^ 4)))
  !![a, b; b, a]

/-- `Nconductors_3_losses.f90:28-52`, after the arguments are read; `losses` is the third argument. -/
noncomputable def programThreeLosses (zSteps tSteps : ℕ) (losses : ℤ) : F (State 2) := do
  let eps : ℝ := 8.85e-12
  let mu : ℝ := 4 * Real.pi * 1e-7
  let sigma : ℝ := 1e-2
  let l := shieldedPair mu 5e-3 1e-3 2e-3
  let li ← inv l
  let c := (mu * eps) • li
  let g : Mat 2 := if losses = 1 then (sigma / eps) • c else 0
  let r : Mat 2 := if losses = 1 then !![100, 0; 0, 100] else 0
  let (s, _) ← nConductorsLosses zSteps tSteps l c r g {}
  .ok s

/-- `Nconductors_3.f90`, after the arguments are read. -/
noncomputable def programThree (zSteps tSteps : ℕ) : F (State 2) := do
  let eps : ℝ := 8.85e-12
  let mu : ℝ := 4 * Real.pi * 1e-7
  let l := shieldedPair mu 5e-3 1e-3 2e-3
  let li ← inv l
  let c := (mu * eps) • li
  let (s, _) ← nConductors zSteps tSteps l c {}
  .ok s

/-- `Nconductors_2.f90`, after the arguments are read. -/
noncomputable def programTwo (zSteps tSteps : ℕ) : F (State 1) := do
  let eps : ℝ := 8.85e-12
  let mu : ℝ := 4 * Real.pi * 1e-7
  let l : Mat 1 := (mu / (2 * Real.pi) * Real.log (5e-3 / 1e-3)) • 1
  let c : Mat 1 := (2 * Real.pi * eps / Real.log (5e-3 / 1e-3)) • 1
  let (s, _) ← nConductors zSteps tSteps l c {}
  .ok s

/-! ## The class of lines -/

/-- utils.f90:7-26 `linspace(from, to, array)` for an array of `n` elements; element `i` of the array is `array(i + 1)`. -/
noncomputable def linspace (start stop : ℝ) (n : ℕ) : List ℝ :=
  if n = 0 then []
  else if n = 1 then [start]
  else (List.range n).map fun (i : ℕ) => start + (stop - start) * i / (n - 1)

/-- The fields of `class_MTL.f90` that are used, with `x` allocated as `x(1:nx+1)`. -/
structure Line where
  nx : ℕ
  conductors : ℕ
  length : ℝ
  x : List ℝ := []

/-- class_MTL.f90:52-62 `mtl_init(this)`. -/
noncomputable def Line.init (s : Line) : Line := { s with x := linspace 0 s.length (s.nx + 1) }

/-- `this%x(i)`: the bounds of the array are `1` and its size. -/
def Line.at (s : Line) (i : ℕ) : F ℝ :=
  if i = 0 then .error .outOfBounds else match s.x[i - 1]? with
    | some x => .ok x
    | none => .error .outOfBounds

/-- class_MTL.f90:33-40 `mtl_get_phase_velocities(this)`: an array of two elements without values. -/
def Line.phaseVelocities (_ : Line) : F (List ℝ) := .error .notModelled

/-- class_MTL.f90:42-49 `mtl_get_max_timestep(this)`. -/
noncomputable def Line.maxTimestep (s : Line) : F ℝ := do
  let a ← s.at 1
  let b ← s.at 0
  let w ← s.phaseVelocities
  .ok ((a - b) / w.foldl max 0)

end Fortran

end Mtln
