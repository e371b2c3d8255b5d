import Verif.Props.Reflection
import Verif.Props.Spectrum

/-! # The spectrum of the response of a lossy line to a pulse in closed form: C185 -/

namespace Mtln

variable {p : ℕ}

/-- **C185** for pulses: the sums of `exp(-iωt)` times the voltages of a straight line of one conductor with losses and resistances at its
ends, driven by a pulse at its first end, tend to the same sum of the pulse times the transfer function of the line. -/
theorem C185_pulse {L C R G D Zs Zl : ℝ} {m : ℕ} {name : String} {s : MTL 1 p} (hD : 0 < D) (hm : 0 < m)
    (h : MTL.new p (.scalar L) (.scalar C) (.scalar R) (.scalar G) D [] [m] (.scalar Zs) (.scalar Zl) name = .ok ⟨1, s⟩)
    (hL : 0 < L) (hC : 0 < C) (hR : 0 ≤ R) (hG : 0 ≤ G) (hRG : 0 < R ∨ 0 < G) (hzs : 0 ≤ Zs) (hzl : 0 ≤ Zl) (hz : 0 < Zs ∨ 0 < Zl)
    {dt ω t : ℝ} (hdt : 0 < dt) (hlt : dt < s.dt) (hω : 0 < ω) (hπ : ω * dt < Real.pi) {S : Src 1}
    (hS : ∀ k x, ∀ u < 0, S k x u = 0) (hS' : ∀ k x, ∀ u > t, S k x u = 0) (hS1 : ∀ u, S m 0 u = 0) :
    ∃ x W κs κl Γs Γl : ℂ, ‖x‖ < 1 ∧ x.im < 0 ∧
      (x - 1) ^ 2 = cellImpedance (D / m) dt (ω * dt) L R * cellImpedance (D / m) dt (ω * dt) C G * x ∧
      W = waveImpedance (cellImpedance (D / m) dt (ω * dt) L R) x ∧ 0 < W.re ∧
      κs = loadFactor (D / m) dt s.dt (ω * dt) C Zs ∧ κl = loadFactor (D / m) dt s.dt (ω * dt) C Zl ∧
      Γs = reflectionFactor κs W Zs ∧ Γl = reflectionFactor κl W Zl ∧ 1 - Γs * Γl * x ^ (2 * m) ≠ 0 ∧
      ∃ M : ℕ, (∀ j : ℕ, j > M → S 0 0 (-dt + j * dt) = 0) ∧
      ∀ ε > 0, ∃ J, ∀ (T : ℝ) (t' : MTL 1 p) (N : ℕ) (tr : ℕ → MTL 1 p), RunTrace { s with dt := dt, vSources := S } T t' N tr → J ≤ N →
        ∀ k ≤ m,
          ‖∑ j ∈ Finset.range (N + 1), Complex.exp (-(ω * (-dt + j * dt) : ℝ) * Complex.I) * ((tr j).v k 0 : ℂ) -
            Real.cos (ω * dt / 2) * W / (Zs + κs * W) *
              (∑ j ∈ Finset.range (M + 1), Complex.exp (-(ω * (-dt + j * dt) : ℝ) * Complex.I) * (S 0 0 (-dt + j * dt) : ℂ)) *
              (x ^ k + Γl * x ^ (2 * m - k)) / (1 - Γs * Γl * x ^ (2 * m))‖ ≤ ε := by
  obtain ⟨em, hdu, he⟩ := constructed_even hD hm h dt S
  have hm' : (0 : ℝ) < m := by exact_mod_cast hm
  have vec : ∀ X : Fin 1, X = 0 := fun X => Subsingleton.elim _ _
  obtain ⟨M, hM, V, I, hac, happ⟩ := C180_program (ω := ω) h (spd_one hL) (spd_one hC) (dissipative_scalar hR) (dissipative_scalar hG)
    (fun _ _ => hzs) (fun _ _ => hzl) (hz.imp (fun h _ _ => h) fun h _ _ => h) hdu hdt hlt hω.le hπ hS hS'
  have z : (fun x : Fin 1 => ∑ j ∈ Finset.range (M + 1), Complex.exp (-(ω * (-dt + j * dt) : ℝ) * Complex.I) *
      (S s.m x (-dt + j * dt) : ℂ)) = 0 := by
    funext x
    refine Finset.sum_eq_zero fun j _ => ?_
    rw [vec x, em, hS1, Complex.ofReal_zero, mul_zero]
  rw [z] at hac
  obtain ⟨x, W, κs, κl, -, x1, x2, hroot, hW, hWre, hκs, hκl, hden, hV⟩ := C185_response he (constructed_ends h dt S)
    (by show 0 < s.m; omega) hac (by positivity) hdt (mul_pos hω hdt) hπ hL hC hR hG hRG hzs hzl
  replace hden : 1 - reflectionFactor κs W Zs * reflectionFactor κl W Zl * x ^ (2 * s.m) ≠ 0 := hden
  rw [em] at hden
  refine ⟨x, W, κs, κl, _, _, x1, x2, hroot, hW, hWre, hκs, hκl, rfl, rfl, hden, M, fun j hj => hM j hj 0 0, fun ε hε => ?_⟩
  obtain ⟨J, hJ⟩ := happ ε hε
  refine ⟨J, fun T t' N tr Rn hN k hk => ?_⟩
  have h1 := (hJ T t' N tr Rn hN).1 k (by omega) 0
  have h2 := hV k (by show k ≤ s.m; omega)
  rw [h2] at h1
  replace h1 : ‖_ - Real.cos (ω * dt / 2) * W / (Zs + κs * W) * _ * (x ^ k + reflectionFactor κl W Zl * x ^ (2 * s.m - k)) /
      (1 - reflectionFactor κs W Zs * reflectionFactor κl W Zl * x ^ (2 * s.m))‖ ≤ ε := h1
  rw [em] at h1
  exact h1

end Mtln
