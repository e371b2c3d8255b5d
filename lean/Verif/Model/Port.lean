import Mathlib.Analysis.SpecialFunctions.Complex.Circle
import Verif.Model.LineApi

/-!
# Ports and the extraction of scattering parameters (probes.py:50-86, networkExtraction.py)

Arrays over frequencies are lists.
-/

namespace Mtln

open Complex

variable {n p : ℕ}

/-- `np.fft.fft(x)`: the discrete Fourier transform. -/
noncomputable def dft (x : List ℂ) : List ℂ :=
  (List.range x.length).map fun k : ℕ => ∑ j ∈ Finset.range x.length,
    x.getD j 0 * exp (-(2 * Real.pi * I * j * k / x.length))

/-- `np.fft.fftshift(x)`: every entry moves `⌊N/2⌋` places to the right, cyclically. -/
def fftshift {α : Type} (x : List α) : List α :=
  x.drop (x.length - x.length / 2) ++ x.take (x.length - x.length / 2)

/-- `np.fft.fftfreq(N, d)`: `[0, 1, …, ⌊(N-1)/2⌋, -⌊N/2⌋, …, -1] / (N d)`. -/
noncomputable def fftfreq (N : ℕ) (d : ℝ) : List ℝ :=
  ((List.range ((N - 1) / 2 + 1)).map fun k : ℕ => (k : ℝ) / (N * d)) ++
    (List.range (N / 2)).map fun k : ℕ => ((k : ℝ) - (N / 2 : ℕ)) / (N * d)

/-- The attributes of a `Port` object (probes.py:51-55).  `position` is the attribute `v0.position`: an array for every
probe added to a line (mtl.py:510-511 converts floats); a `Probe` built by hand may hold a float. -/
structure Port (n : ℕ) where
  v0 : Probe n
  v1 : Probe n
  i0 : Probe n
  z0 : Fin n → ℝ
  position : Pos

/-- probes.py:51-55 `Port.__init__(v0, v1, i0, z0)` with probes of a line; `np.diag` takes the diagonal. -/
def Port.new (v0 v1 i0 : Probe n) (z0 : Mat n) : Port n := ⟨v0, v1, i0, fun c => z0 c c, .array v0.position⟩

/-- One column of the attribute `val`: `probe.val[:, c]`. -/
def column (r : List (Col n)) (c : Fin n) : List ℂ := r.map fun row => ((row c : ℝ) : ℂ)

/-- probes.py:64-65: each row averaged with the row before it; the first row counts twice. -/
noncomputable def averaged (x : List ℂ) : List ℂ :=
  ((x.head?.toList ++ x).zip x).map fun ab => (ab.1 + ab.2) / 2

/-- `a + b` of two arrays of the same length divided by two. -/
noncomputable def meanOf (x y : List ℂ) : List ℂ := (x.zip y).map fun ab => (ab.1 + ab.2) / 2

open Classical in
/-- probes.py:57-67 `Port.__get_v_i_fft(n)`.  Times that give the frequency step 0 (an infinite frequency) and arrays of
different lengths (broadcast or `ValueError`) are not modelled; a `view` is a one-dimensional array. -/
noncomputable def Port.spectra (P : Port n) (c : Fin n) : Py (List ℝ × List ℂ × List ℂ) := do
  raiseIf (P.v1.t.length < 2 ∨ P.v0.t.length < 1) .IndexError
  let dt := P.v1.t.getD 1 0 - P.v0.t.getD 0 0
  raiseIf (dt = 0) .NotModelled
  match P.v0.val, P.v1.val, P.i0.val with
  | .rows r0, .rows r1, .rows ri => do
    raiseIf (r0 = [] ∨ r1 = []) .ValueError
    raiseIf (r0.length ≠ r1.length) .NotModelled
    raiseIf (ri = []) .IndexError
    .ok (fftshift (fftfreq P.v0.t.length dt),
      meanOf (fftshift (dft (column r0 c))) (fftshift (dft (column r1 c))),
      fftshift (dft (averaged (column ri c))))
  | _, _, _ => .error .IndexError

open Classical in
/-- probes.py:69-73 `Port.getTerminal()`: the truth value of an array of three comparisons raises `ValueError`;
ports of probes placed with a list of coordinates are not modelled. -/
noncomputable def Port.getTerminal (P : Port n) : Py String :=
  match P.position with
  | .float x => .ok (if x = 0 then "S" else "L")
  | .array _ => .error .ValueError
  | .list _ => .error .NotModelled

open Classical in
/-- probes.py:75-86 `Port.get_incident_and_reflected_power_wave(conductor)`.  The square root of a negative number
(`nan`) and arrays of different lengths are not modelled. -/
noncomputable def Port.waves (P : Port n) (c : Fin n) : Py (List ℝ × List ℂ × List ℂ) := do
  let z0 := P.z0 c
  pyAssert (z0 ≠ 0)
  let s ← P.spectra c
  let terminal ← P.getTerminal
  let i := if terminal = "L" then s.2.2.map (fun x => -x) else s.2.2
  raiseIf (z0 < 0 ∨ s.2.1.length ≠ i.length) .NotModelled
  .ok (s.1, (s.2.1.zip i).map (fun vi => 1 / 2 * (vi.1 + z0 * vi.2) / (Real.sqrt z0 : ℂ)),
    (s.2.1.zip i).map (fun vi => 1 / 2 * (vi.1 - z0 * vi.2) / (Real.sqrt z0 : ℂ)))

open Classical in
/-- A complex quotient; division by zero (`inf` or `nan`) is `none`. -/
noncomputable def quot (x y : ℂ) : Option ℂ := if y = 0 then none else some (x / y)

/-- A list of scattering matrices over the frequencies. -/
abbrev Scattering := List (Matrix (Fin 2) (Fin 2) (Option ℂ))

/-- networkExtraction.py:18-22: the quotients of the waves at one frequency. -/
noncomputable def quotients (a1 b1 a2 b2 : ℂ) : Matrix (Fin 2) (Fin 2) (Option ℂ) :=
  !![quot b1 a1, quot b1 a2; quot b2 a1, quot b2 a2]

/-- networkExtraction.py:7-24 `extract_s_reciprocal(port_1, port_2)`. -/
noncomputable def extractSReciprocal (P1 : Port n) (c1 : Fin n) (P2 : Port n) (c2 : Fin n) :
    Py (List ℝ × Scattering) := do
  let w1 ← P1.waves c1
  let w2 ← P2.waves c2
  raiseIf (¬ (w1.2.1.length = w1.1.length ∧ w2.2.1.length = w1.1.length)) .NotModelled
  .ok (w1.1, (List.range w1.1.length).map fun k =>
    quotients (w1.2.1.getD k 0) (w1.2.2.getD k 0) (w2.2.1.getD k 0) (w2.2.2.getD k 0))

/-- networkExtraction.py:26-50 `getSolvedProbesFromLine(line, p1, p2, magnitude, finalTime)`: after the copy the
attribute `line1.x` is read, which no line has. -/
def getSolvedProbesFromLine (_line : MTL n p) (_p1 _p2 : String × ℕ) (_magnitude : ℝ → ℝ) (_finalTime : ℝ) :
    Py (List ℝ × Scattering) := .error .AttributeError

/-- networkExtraction.py:68-72: the matrix of one frequency from the matrices of the two runs. -/
def combineRuns (s1 s2 : Matrix (Fin 2) (Fin 2) (Option ℂ)) : Matrix (Fin 2) (Fin 2) (Option ℂ) :=
  !![s1 0 0, s2 1 0; s1 1 0, s2 0 0]

open Classical in
/-- networkExtraction.py:73-74: the entries of an array at the frequencies of a band. -/
noncomputable def band {α : Type} (f : List ℝ) (s : List α) (fMin fMax : ℝ) : List α :=
  ((f.zip s).filter fun x => fMin ≤ x.1 ∧ x.1 < fMax).map Prod.snd

open Classical in
/-- networkExtraction.py:53-74 `extract_2p_network(line, fMin, fMax, finalTime, p1, p2)`; the frequencies and the
matrices of the returned network object. -/
noncomputable def extract2pNetwork (line : MTL n p) (fMin fMax finalTime : ℝ) (p1 p2 : String × ℕ) :
    Py (List ℝ × Scattering) := do
  pyAssert (p1 ≠ p2)
  raiseIf (fMax = 0) .ZeroDivisionError
  let spread := 1 / fMax / 2
  let gauss : ℝ → ℝ := fun t => Real.exp (-(t - 8 * spread) ^ 2 / (2 * spread ^ 2))
  let r1 ← getSolvedProbesFromLine line p1 p2 gauss finalTime
  let r2 ← getSolvedProbesFromLine line p2 p1 gauss finalTime
  let f := r2.1
  .ok (band f f fMin fMax, band f ((r1.2.zip r2.2).map fun s => combineRuns s.1 s.2) fMin fMax)

end Mtln
