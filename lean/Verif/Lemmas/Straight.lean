import Verif.Lemmas.Physical
import Verif.Props.Construct

/-!
# Lines of one straight segment; the demo line is what the constructor builds
-/

namespace Mtln

open Matrix

variable {n p : ℕ}

/-- Nodes and cells of a line of one segment. -/
theorem straight_mesh {l c r g : Arg} {length : ℝ} {positions : List V3} {N : ℕ} {Zs Zl : ZArg}
    {name : String} {s : MTL n p} {a b : V3} (hN : 0 < N)
    (hpos : (if positions = [] then [![0, 0, 0], ![0, 0, length]] else positions) = [a, b])
    (h : MTL.new p l c r g length positions [N] Zs Zl name = .ok ⟨n, s⟩) :
    s.m = N ∧ (∀ k ≤ N, s.u k = fun j => a j + k * ((b j - a j) / N)) ∧
      (∀ k < N, s.du k = fun j => (b j - a j) / N) ∧ s.u 0 = a ∧ s.u N = b := by
  have S := C24_mesh_partial (d := N) hN (by simp) h
  rw [hpos] at S
  have hm : s.m = N := by simpa using S.cells
  have hdu : ∀ k < N, s.du k = fun j => (b j - a j) / N := by
    intro k hk
    funext j
    have := S.equal 0 (by simp) k (by simpa using hk) j
    simpa using this
  have hu : ∀ k ≤ N, s.u k = fun j => a j + k * ((b j - a j) / N) := by
    intro k
    induction k with
    | zero =>
      intro _
      rw [S.first]
      funext j
      simp
    | succ k ih =>
      intro hk
      rw [S.contiguous k (by omega), ih (by omega), hdu k (by omega)]
      funext j
      simp only [Pi.add_apply]
      push_cast
      ring
  refine ⟨hm, hu, hdu, ?_, ?_⟩
  · rw [S.first]; rfl
  · have := S.last
    rw [hm] at this
    rw [this]; rfl

/-- The demo line is exactly what the constructor returns. -/
theorem demoBare_constructed : MTL.new p (.scalar 1) (.scalar 1) (.scalar 0) (.scalar 0) 2 [] [2]
    (.scalar 1) (.scalar 1) "demo" = .ok ⟨1, demoBare p⟩ := by
  obtain ⟨s, hs⟩ := demoLine_accepted (p := p)
  rw [hs]
  congr 2
  obtain ⟨la, ca, ga, ra, zsa, zla, mem, dt, h1, h2, h3, h4, h5, h6, h7, h8⟩ := new_ok_iff.1 hs
  have hmem : mem.u = (fun k => if k = 0 then some ![0, 0, 0] else if k = 1 then some ![0, 0, 1]
      else if k = 2 then some ![0, 0, 2] else none) ∧
      mem.du = (fun k => if k < 2 then some ![0, 0, 1] else none) := by
    simp [buildMesh, pyAssert, meshOuter, meshInner, MeshMem.write, bind, Except.bind, MeshMem.init] at h5
    subst h5
    constructor
    · funext k
      simp only [Function.update_apply]
      rcases k with _ | _ | _ | k <;> simp
      ext j; fin_cases j <;> simp
    · funext k
      simp only [Function.update_apply]
      rcases k with _ | _ | _ | k <;> simp
      · ext j; fin_cases j <;> simp
      · ext j; fin_cases j <;> simp
  have hc := new_ok_contents hs
  obtain ⟨-, -, -, -, el, ec, er, eg, ezs, ezl, -, hm, -, hdun, hconn⟩ := hc
  have hdt : s.dt = 1 := by
    obtain ⟨k, hk, -, -, h⟩ := C21_one_conductor hs
    obtain ⟨-, -, hdu, -, -⟩ := straight_mesh (a := ![0, 0, 0]) (b := ![0, 0, 2]) (by norm_num) rfl hs
    rw [h, hdun]
    show norm3 (s.du k) * _ = 1
    rw [hdu k (by rw [hm] at hk; simpa using hk)]
    have : norm3 (fun j : Fin 3 => ((![0, 0, 2] : V3) j - (![0, 0, 0] : V3) j) / (2 : ℕ)) = 1 := by
      unfold norm3
      simp
    rw [this]
    simp
  obtain ⟨-, d1, d2, h8⟩ := computeTerminalTerms_ok_iff.1 h8
  have hdt' : dt = 1 := by rw [h8] at hdt; exact hdt
  subst hdt'
  have one : ∀ f : ℕ → ℕ → ℝ, f 0 0 = 1 → toMat 1 f = 1 := by
    intro f hf
    ext a b
    fin_cases a; fin_cases b
    simpa [toMat] using hf
  have zero : ∀ f : ℕ → ℕ → ℝ, f 0 0 = 0 → toMat 1 f = 0 := by
    intro f hf
    ext a b
    fin_cases a; fin_cases b
    simpa [toMat] using hf
  have e1 := initLC_ok_iff.1 h1
  have e2 := initRGone_ok_iff.1 h2
  have e3 := initRGone_ok_iff.1 h3
  have e4 := initZt_ok h4
  have A : assembled 1 p la ca ga ra zsa zla [2].sum mem 1 "demo"
      = { demoBare p with left1 := 0, left2 := 0, right1 := 0, right2 := 0 } := by
    unfold assembled
    rw [one la (by rw [e1.2.1]), one ca (by rw [e1.2.2]), zero ga (by rw [e2.2]), zero ra (by rw [e3.2]),
      one zsa (by rw [e4.2.1 0 one_pos]; simp [ZArg.value]),
      one zla (by rw [e4.2.2 0 one_pos]; simp [ZArg.value])]
    have u1 : (fun k => (mem.u k).getD 0) = (demoBare p).u := by
      funext k
      rw [hmem.1]
      simp only [demoBare]
      split_ifs <;> rfl
    have u2 : (fun k => (mem.du k).getD 0) = (demoBare p).du := by
      funext k
      rw [hmem.2]
      simp only [demoBare]
      split_ifs <;> rfl
    have u3 : (fun k => norm3 ((mem.du k).getD 0)) = (demoBare p).dun := by
      funext k
      rw [hmem.2]
      simp only [demoBare]
      split_ifs <;> simp [norm3]
    rw [u1, u2, u3]
    rfl
  rw [h8, A]
  rfl

end Mtln
