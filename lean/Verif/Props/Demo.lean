import Verif.Lemmas.Probes
import Verif.Spec.Equations

/-!
# A concrete line used to show that hypotheses of theorems can be met

One conductor, two cells of length 1 along the z axis, `L = C = 1`, no losses, `Zs = Zl = 1`, the time step
the constructor chooses (`dt = 1`), a unit step source at the left end, a voltage probe at the left end and a
current probe at the right end.
-/

namespace Mtln

/-- The line as the constructor leaves it (see `demoLine_constructed` in `Verif.Props.Construct`). -/
noncomputable def demoBare (p : ℕ) : MTL 1 p where
  name := "demo"
  m := 2
  u := fun k => if k = 0 then ![0, 0, 0] else if k = 1 then ![0, 0, 1] else if k = 2 then ![0, 0, 2] else 0
  du := fun k => if k < 2 then ![0, 0, 1] else 0
  dun := fun k => if k < 2 then 1 else 0
  l := fun _ => 1
  c := fun _ => 1
  r := fun _ => 0
  g := fun _ => 0
  zs := 1
  zl := 1
  dt := 1
  time := 0
  v := fun _ => 0
  i := fun _ => 0
  phi := fun _ _ => 0
  probes := []
  conn := Disp.new 1
  vSources := fun _ _ _ => 0
  eL := fun _ _ _ => 0
  eT := fun _ _ _ => 0
  left1 := (termF1 1 1 1 1 0)⁻¹ * termF2 1 1 1 1 0
  left2 := (termF1 1 1 1 1 0)⁻¹
  right1 := (termF1 1 1 1 1 0)⁻¹ * termF2 1 1 1 1 0
  right2 := (termF1 1 1 1 1 0)⁻¹
  lr := none
  cg := none

/-- The demo line with a source and two probes. -/
noncomputable def demoLine (p : ℕ) : MTL 1 p :=
  { demoBare p with
    vSources := fun k _ t => if k = 0 ∧ 0 ≤ t then 1 else 0
    probes := [
      { type := "voltage", t := [], val := .empty, position := ![0, 0, 0], index := 0, dt := 1,
        currentFrame := 0 },
      { type := "current", t := [], val := .empty, position := ![0, 0, 2], index := 2, dt := 1,
        currentFrame := 0 }] }

theorem demo_lr (p : ℕ) :
    ∃ lr, updateLr (demoLine p).m (demoLine p).dt (demoLine p).dun (demoLine p).l (demoLine p).r
      (demoLine p).conn = .ok lr := by
  unfold updateLr
  rw [if_neg (by simp [demoLine, demoBare]), if_neg]
  · exact ⟨_, rfl⟩
  · rintro ⟨k, hk, h⟩
    have hk' : k < 2 := hk
    interval_cases k <;> simp [lrF1, demoLine, demoBare, Disp.new] at h

theorem demo_cg (p : ℕ) :
    ∃ cg, updateCg (demoLine p).m (demoLine p).dt (demoLine p).dun (demoLine p).c (demoLine p).g
      = .ok cg := by
  unfold updateCg
  rw [if_neg (by simp [demoLine, demoBare]), if_neg]
  · exact ⟨_, rfl⟩
  · rintro ⟨k, hk, h⟩
    have hk' : k ≤ 2 := hk
    interval_cases k <;> norm_num [cgF1, nodalLength, demoLine, demoBare] at h

theorem demo_valid (p : ℕ) : ∀ q ∈ (demoLine p).probes, q.Valid := by
  intro q hq
  simp only [demoLine, List.mem_cons, List.not_mem_nil, or_false] at hq
  rcases hq with rfl | rfl <;> simp [Probe.Valid]

theorem demo_termF1 : (termF1 1 1 1 1 0 : Mat 1) = (2 : ℝ) • 1 := by
  unfold termF1
  simp only [mul_one, mul_zero, smul_zero, add_zero, div_one]
  module

theorem demo_termConsistent (p : ℕ) : (demoLine p).TermConsistent := by
  have h : (termF1 1 1 1 1 0 : Mat 1).det ≠ 0 := by
    rw [demo_termF1]; simp
  exact ⟨h, h, rfl, rfl, rfl, rfl⟩

/-- The demo line with `n` uncoupled conductors and a source on conductor 0. -/
noncomputable def demoWide (n p : ℕ) : MTL n p where
  name := "wide"
  m := 2
  u := fun k => if k = 0 then ![0, 0, 0] else if k = 1 then ![0, 0, 1] else if k = 2 then ![0, 0, 2] else 0
  du := fun k => if k < 2 then ![0, 0, 1] else 0
  dun := fun k => if k < 2 then 1 else 0
  l := fun _ => 1
  c := fun _ => 1
  r := fun _ => 0
  g := fun _ => 0
  zs := 1
  zl := 1
  dt := 1
  time := 0
  v := fun _ => 0
  i := fun _ => 0
  phi := fun _ _ => 0
  probes := []
  conn := Disp.new 1
  vSources := fun k j t => if k = 0 ∧ j.val = 0 ∧ 0 ≤ t then 1 else 0
  eL := fun _ _ _ => 0
  eT := fun _ _ _ => 0
  left1 := (termF1 1 1 1 1 0)⁻¹ * termF2 1 1 1 1 0
  left2 := (termF1 1 1 1 1 0)⁻¹
  right1 := (termF1 1 1 1 1 0)⁻¹ * termF2 1 1 1 1 0
  right2 := (termF1 1 1 1 1 0)⁻¹
  lr := none
  cg := none

theorem wide_lr (n p : ℕ) :
    ∃ lr, updateLr (demoWide n p).m (demoWide n p).dt (demoWide n p).dun (demoWide n p).l (demoWide n p).r
      (demoWide n p).conn = .ok lr := by
  unfold updateLr
  rw [if_neg (by simp [demoWide]), if_neg]
  · exact ⟨_, rfl⟩
  · rintro ⟨k, hk, h⟩
    have hk' : k < 2 := hk
    interval_cases k <;> simp [lrF1, demoWide, Disp.new] at h

theorem wide_cg (n p : ℕ) :
    ∃ cg, updateCg (demoWide n p).m (demoWide n p).dt (demoWide n p).dun (demoWide n p).c (demoWide n p).g
      = .ok cg := by
  unfold updateCg
  rw [if_neg (by simp [demoWide]), if_neg]
  · exact ⟨_, rfl⟩
  · rintro ⟨k, hk, h⟩
    have hk' : k ≤ 2 := hk
    interval_cases k <;> norm_num [cgF1, nodalLength, demoWide] at h

theorem wide_termConsistent (n p : ℕ) : (demoWide n p).TermConsistent := by
  have h0 : (termF1 1 1 1 1 0 : Mat n) = (2 : ℝ) • 1 := by
    unfold termF1
    simp only [mul_one, mul_zero, smul_zero, add_zero, div_one]
    module
  have h : (termF1 1 1 1 1 0 : Mat n).det ≠ 0 := by
    rw [h0]; simp
  exact ⟨h, h, rfl, rfl, rfl, rfl⟩

/-- Every run of the wide demo line succeeds, whatever the state and sources. -/
theorem wide_run (n p : ℕ) (T : ℝ) (s : MTL n p) (hm : s.m = 2) (hdt : s.dt = 1)
    (hdun : s.dun = (demoWide n p).dun) (hl : s.l = (demoWide n p).l) (hr : s.r = (demoWide n p).r)
    (hc : s.c = (demoWide n p).c) (hg : s.g = (demoWide n p).g) (hconn : s.conn = (demoWide n p).conn)
    (hp : s.probes = []) : ∃ s', s.runUntil T = .ok s' := by
  refine (runUntil_success_iff T _).2 ⟨by rw [hdt]; norm_num, ?_, ?_, Or.inr (by simp [hp])⟩
  · rw [hm, hdt, hdun, hl, hr, hconn]; exact wide_lr n p
  · rw [hm, hdt, hdun, hc, hg]; exact wide_cg n p

/-- Every run of the demo line succeeds. -/
theorem demo_run (p : ℕ) (T : ℝ) : ∃ s', (demoLine p).runUntil T = .ok s' :=
  (runUntil_success_iff T _).2
    ⟨by simp [demoLine, demoBare], demo_lr p, demo_cg p, Or.inr (demo_valid p)⟩

end Mtln
