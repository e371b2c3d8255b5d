import Verif.Props.ConvergeMax
import Verif.Props.ManagerTotal
import Verif.Props.Construct

/-! # Convergence of runs of constructed lines -/

namespace Mtln

open Matrix

variable {n p : ℕ}

/-- A straight line made by the constructor, with the time step multiplied by `q` and sources at its ends, is a uniform line at
rest at time zero. -/
theorem constructed_uniform {l c r g : Arg} {D : ℝ} {m : ℕ} {Zs Zl : ZArg} {name : String} {s : MTL n p} (hD : 0 < D) (hm : 0 < m)
    (h : MTL.new p l c r g D [] [m] Zs Zl name = .ok ⟨n, s⟩) {Vs Vl : ℝ → Col n} {S : ℕ → Fin n → ℝ → ℝ}
    (hS : ∀ t a, S 0 a t = Vs t a) (hS' : ∀ t a, S m a t = Vl t a) {q : ℝ} (hq : 0 < q) :
    ({ s with dt := q * s.dt, vSources := S } : MTL n p).Uniform D (l.matrix n) (c.matrix n) (r.matrix n) (g.matrix n)
      (Matrix.diagonal fun i : Fin n => Zs.value i) (Matrix.diagonal fun i : Fin n => Zl.value i) Vs Vl ∧
    ({ s with dt := q * s.dt, vSources := S } : MTL n p).AtRest ∧ s.time = 0 ∧ s.m = m ∧ 0 < s.dt ∧
    ({ s with dt := q * s.dt, vSources := S } : MTL n p).TermFor s.dt ∧ maxTimestep s.m s.dun s.l s.c = .ok s.dt ∧
    s.probes = [] := by
  obtain ⟨-, -, -, -, el, ec, er, eg, ezs, ezl, hmax, -, -, hdun, hconn⟩ := new_ok_contents h
  obtain ⟨em, eu, edu, eu0, -⟩ := straight_mesh (a := ![0, 0, 0]) (b := ![0, 0, D]) hm rfl h
  have hm' : (0 : ℝ) < m := by exact_mod_cast hm
  have hd : 0 < D / m := by positivity
  have hdu : ∀ k < s.m, s.dun k = D / s.m := by
    intro k hk
    rw [hdun, em]
    show norm3 (s.du k) = _
    rw [edu k (by omega)]
    unfold norm3
    simp
    rw [Real.sqrt_sq hd.le]
  obtain ⟨hdt, -, -⟩ := C21_constructed h
  have ht := (C09_constructed_consistent _ _ _ _ _ _ _ _ _ _ _ h).termFor
  obtain ⟨la, ca, ga, ra, zsa, zla, mem, dt, h1, h2, h3, h4, h5, h6, h7, h8⟩ := new_ok_iff.1 h
  obtain ⟨-, -, -, e⟩ := computeTerminalTerms_ok_iff.1 h8
  have eeL : s.eL = fun _ _ _ => 0 := by rw [e]; rfl
  have eeT : s.eT = fun _ _ _ => 0 := by rw [e]; rfl
  have etime : s.time = 0 := by rw [e]; rfl
  have eprobes : s.probes = [] := by rw [e]; rfl
  have ev : s.v = fun _ => 0 := by rw [e]; rfl
  have ei : s.i = fun _ => 0 := by rw [e]; rfl
  have ephi : s.phi = fun _ _ => 0 := by rw [e]; rfl
  refine ⟨⟨?_, mul_pos hq hdt, hdu, ?_, ?_, ?_, ?_, ⟨_, hconn⟩, ezs, ezl, hS, ?_, ?_, ?_⟩, ⟨?_, ?_, ?_⟩, etime, em, hdt,
    ⟨ht.det_left, ht.det_right, ht.left1, ht.left2, ht.right1, ht.right2⟩, hmax, eprobes⟩
  · show 0 < s.m
    omega
  · intro k _
    show s.l k = _
    rw [el]
  · intro k _
    show s.c k = _
    rw [ec]
  · intro k _
    show s.r k = _
    rw [er]
  · intro k _
    show s.g k = _
    rw [eg]
  · show ∀ t a, S s.m a t = _
    rw [em]
    exact hS'
  · intro k x t
    show s.eL k x t = 0
    rw [eeL]
  · intro k x t
    show s.eT k x t = 0
    rw [eeT]
  · intro k
    show s.v k = 0
    rw [ev]
  · intro k
    show s.i k = 0
    rw [ei]
  · intro k x
    show s.phi k x = 0
    rw [ephi]

/-- Uniform lines with physical data run. -/
theorem MTL.Uniform.runs {s : MTL n p} {D : ℝ} {L C R G Zs Zl : Mat n} {Vs Vl : ℝ → Col n} (hU : s.Uniform D L C R G Zs Zl Vs Vl)
    (hD : 0 < D) (hL : LineData L C R G Zs Zl) (hp : ∀ q ∈ s.probes, q.type = "voltage" ∨ q.type = "current") (T : ℝ) :
    ∃ s', s.runUntil T = .ok s' := by
  have hm : (0 : ℝ) < s.m := by exact_mod_cast hU.cells
  have hd : 0 < D / s.m := by positivity
  have hnn : ∀ k < s.m, 0 < s.dun k := fun k hk => by rw [hU.dun k hk]; exact hd
  obtain ⟨δ, hconn⟩ := hU.conn
  obtain ⟨lr, hlr⟩ := updateLr_exists (D := s.conn) (m := s.m) (l := s.l) (r := s.r) hU.dt_pos hnn (fun k hk => by rw [hU.l k hk]; exact hL.l)
    (fun k _ => by rw [hconn]; exact dissipative_zero) (fun k hk => by rw [hU.r k hk, hconn]; simpa [Disp.new] using hL.r)
    (fun k _ => by rw [hconn]; rfl)
  obtain ⟨cg, hcg⟩ := updateCg_exists (m := s.m) (c := s.c) (g := s.g) hU.cells hU.dt_pos hnn (fun k hk => by rw [hU.c k hk]; exact hL.c)
    (fun k hk => by rw [hU.g k hk]; exact hL.g)
  exact (runUntil_success_iff _ _).2 ⟨hU.dt_pos.ne', ⟨lr, hlr⟩, ⟨cg, hcg⟩, Or.inr hp⟩

/-- The automatic time step is proportional to the length of the cells, with a factor that depends on the inductances and
capacitances only. -/
theorem constructed_ratio {l c r g : Arg} {D : ℝ} {Zs Zl : ZArg} (hD : 0 < D) :
    ∃ κ : ℝ, 0 < κ ∧ ∀ (p m : ℕ) (name : String) (s : MTL n p), 0 < m → MTL.new p l c r g D [] [m] Zs Zl name = .ok ⟨n, s⟩ →
      s.dt = κ * (D / m) := by
  have key : ∀ (p m : ℕ) (name : String) (s : MTL n p) (p' m' : ℕ) (name' : String) (s' : MTL n p'), 0 < m → 0 < m' →
      MTL.new p l c r g D [] [m] Zs Zl name = .ok ⟨n, s⟩ → MTL.new p' l c r g D [] [m'] Zs Zl name' = .ok ⟨n, s'⟩ →
      s.dt / (D / m) ≤ s'.dt / (D / m') := by
    intro p m name s p' m' name' s' hm hm' h h'
    have e : (0 : ℝ) < m := by exact_mod_cast hm
    have e' : (0 : ℝ) < m' := by exact_mod_cast hm'
    obtain ⟨u1, -, -, u4, -⟩ := constructed_uniform hD hm h (Vs := fun _ => 0) (Vl := fun _ => 0) (S := fun _ _ _ => 0)
      (fun _ _ => rfl) (fun _ _ => rfl) one_pos
    obtain ⟨u1', -, -, u4', -⟩ := constructed_uniform hD hm' h' (Vs := fun _ => 0) (Vl := fun _ => 0) (S := fun _ _ _ => 0)
      (fun _ _ => rfl) (fun _ _ => rfl) one_pos
    have d1 : ∀ k < s.m, s.dun k = D / m := fun k hk => by have := u1.dun k hk; rwa [← u4]
    have d1' : ∀ k < s'.m, s'.dun k = D / m' := fun k hk => by have := u1'.dun k hk; rwa [← u4']
    obtain ⟨-, hle, -⟩ := C21_constructed h
    obtain ⟨hp', -, k, hk, -, k', -, w, hw, heq⟩ := C21_constructed h'
    obtain ⟨-, -, -, -, el, ec, -⟩ := new_ok_contents h
    obtain ⟨-, -, -, -, el', ec', -⟩ := new_ok_contents h'
    have hd : 0 < D / m := by positivity
    have hd' : 0 < D / m' := by positivity
    have hw' : w ∈ phaseVelocities s.l s.c 0 := by
      rw [el, ec]
      rw [el', ec'] at hw
      exact hw
    have h1 := hle 0 (by omega) (by rw [d1 0 (by omega)]; exact hd.ne') 0 (by omega) w hw'
    rw [d1 0 (by omega)] at h1
    rw [d1' k hk] at heq
    have hw0 : 0 < w := by
      by_contra hc
      have := mul_nonpos_of_nonneg_of_nonpos hp'.le (not_lt.1 hc)
      linarith
    have e1 : s'.dt / (D / m') = 1 / w := by
      rw [← heq]
      field_simp
    rw [e1, div_le_div_iff₀ hd hw0]
    linarith
  classical
  by_cases hex : ∃ (p m : ℕ) (name : String) (s : MTL n p), 0 < m ∧ MTL.new p l c r g D [] [m] Zs Zl name = .ok ⟨n, s⟩
  · obtain ⟨p0, m0, name0, s0, hm0, h0⟩ := hex
    have e0 : (0 : ℝ) < m0 := by exact_mod_cast hm0
    have hdt := (C21_constructed h0).1
    refine ⟨s0.dt / (D / m0), by positivity, fun p m name s hm h => ?_⟩
    have e : (0 : ℝ) < m := by exact_mod_cast hm
    rw [le_antisymm (key _ _ _ _ _ _ _ _ hm0 hm h0 h) (key _ _ _ _ _ _ _ _ hm hm0 h h0)]
    field_simp
  · exact ⟨1, one_pos, fun p m name s hm h => absurd ⟨p, m, name, s, hm, h⟩ hex⟩

section

variable {l c r g : Arg} {D : ℝ} {Zs Zl : ZArg} {Vs Vl : ℝ → Col n} {V I : ℝ → ℝ → Col n}

theorem line_data (hl : SPD (l.matrix n)) (hc : SPD (c.matrix n)) (hrd : Dissipative (r.matrix n)) (hgd : Dissipative (g.matrix n))
    (hzs : ∀ i < n, 0 ≤ Zs.value i) (hzl : ∀ i < n, 0 ≤ Zl.value i) :
    LineData (l.matrix n) (c.matrix n) (r.matrix n) (g.matrix n) (Matrix.diagonal fun i : Fin n => Zs.value i)
      (Matrix.diagonal fun i : Fin n => Zl.value i) := by
  have dz : ∀ (Z : ZArg), (∀ i < n, 0 ≤ Z.value i) → Dissipative (Matrix.diagonal (fun i : Fin n => Z.value i)) := by
    intro Z h0 x
    simp only [dotProduct, mulVec_diagonal]
    exact Finset.sum_nonneg fun i _ => by nlinarith [mul_nonneg (h0 i i.2) (mul_self_nonneg (x i))]
  exact ⟨hl, hc, hrd, hgd, dz _ hzs, dz _ hzl, diagonal_transpose _, diagonal_transpose _⟩

theorem straight_accepted (hn : n ≠ 0) (hlc : GoodLC n l c) (hr : GoodRG n r) (hg : GoodRG n g) (hz : GoodZ n Zs Zl)
    (hl : SPD (l.matrix n)) (hc : SPD (c.matrix n)) (hgd : Dissipative (g.matrix n))
    (hzs : ∀ i < n, 0 ≤ Zs.value i) (hzl : ∀ i < n, 0 ≤ Zl.value i) (hD : 0 < D) {m : ℕ} (hm : 0 < m) (name : String) :
    ∃ s : MTL n p, MTL.new p l c r g D [] [m] Zs Zl name = .ok ⟨n, s⟩ := by
  refine C32_physical_accepted (d := m) name hn hlc hr hg hz hl hc hgd hzs hzl hm (by simp) rfl (by simp) ⟨0, by simp, ?_⟩
  intro h
  have := congrFun h 2
  simp at this
  exact hD.ne this

/-- **C137** for programs.  The arguments of the constructor are physical, a smooth solution for the sources starts at rest at
time zero.  For every number `m` of cells the constructor accepts them, chooses a time step `κ D / m`, and every run of at most
`T0` seconds succeeds; averages over two consecutive steps are within `K / m²` of the averages of the solution, voltages and
currents themselves within `K / m`, with one constant for all `m`. -/
theorem C137_program (hn : n ≠ 0) (hlc : GoodLC n l c) (hr : GoodRG n r) (hg : GoodRG n g) (hz : GoodZ n Zs Zl)
    (hl : SPD (l.matrix n)) (hc : SPD (c.matrix n)) (hrd : Dissipative (r.matrix n)) (hgd : Dissipative (g.matrix n))
    (hzs : ∀ i < n, 0 ≤ Zs.value i) (hzl : ∀ i < n, 0 ≤ Zl.value i) (hD : 0 < D)
    (hS : SmoothSolution D (l.matrix n) (c.matrix n) (r.matrix n) (g.matrix n) (Matrix.diagonal fun i : Fin n => Zs.value i)
      (Matrix.diagonal fun i : Fin n => Zl.value i) Vs Vl 0 V I) (T0 : ℝ) :
    ∃ K κ : ℝ, 0 ≤ K ∧ 0 < κ ∧ ∀ (p m : ℕ) (name : String), 0 < m → ∃ s : MTL n p,
      MTL.new p l c r g D [] [m] Zs Zl name = .ok ⟨n, s⟩ ∧ s.dt = κ * (D / m) ∧
      ∀ (S : ℕ → Fin n → ℝ → ℝ) (T : ℝ), (∀ t a, S 0 a t = Vs t a) → (∀ t a, S m a t = Vl t a) → T ≤ T0 → ∃ s' N tr,
        ({ s with vSources := S } : MTL n p).runUntil T = .ok s' ∧ RunTrace { s with vSources := S } T s' N tr ∧
        (∀ j < N,
          ∑ k ∈ Finset.range (m + 1), D / m * ∑ a, (((tr (j + 1)).v k a + (tr j).v k a) / 2 -
              (V (k * (D / m)) (j * s.dt) a + V (k * (D / m)) (j * s.dt - s.dt) a) / 2) ^ 2 ≤ (K / m ^ 2) ^ 2 ∧
          ∑ k ∈ Finset.range m, D / m * ∑ a, (((tr (j + 1)).i k a + (tr j).i k a) / 2 -
              (I (k * (D / m) + D / m / 2) (j * s.dt + s.dt / 2) a + I (k * (D / m) + D / m / 2) (j * s.dt - s.dt / 2) a) / 2) ^ 2
            ≤ (K / m ^ 2) ^ 2) ∧
        ∀ j ≤ N,
          ∑ k ∈ Finset.range (m + 1), D / m * ∑ a, ((tr j).v k a - V (k * (D / m)) (j * s.dt - s.dt) a) ^ 2 ≤ (K / m) ^ 2 ∧
          ∑ k ∈ Finset.range m, D / m * ∑ a, ((tr j).i k a - I (k * (D / m) + D / m / 2) (j * s.dt - s.dt / 2) a) ^ 2
            ≤ (K / m) ^ 2 := by
  have hL := line_data hl hc hrd hgd hzs hzl
  obtain ⟨κ, hκ, hratio⟩ := constructed_ratio (n := n) (l := l) (c := c) (r := r) (g := g) (Zs := Zs) (Zl := Zl) hD
  obtain ⟨K0, hK0, hK⟩ := C137_converges_at_limit hD hL hS T0
  refine ⟨K0 * (κ ^ 2 + 1) * D ^ 2 + K0 * (κ ^ 2 + 1) * D / κ, κ, by positivity, hκ, ?_⟩
  intro p m name hm
  obtain ⟨s, h⟩ := straight_accepted (p := p) hn hlc hr hg hz hl hc hgd hzs hzl hD hm name
  have hdt := hratio p m name s hm h
  refine ⟨s, h, hdt, ?_⟩
  intro S T hS0 hSm hT
  have hm' : (0 : ℝ) < m := by exact_mod_cast hm
  have hm1 : (1 : ℝ) ≤ m := by exact_mod_cast hm
  obtain ⟨hU, hrest, htime, em, hpos, hterm, hmax, hprobes⟩ := constructed_uniform hD hm h hS0 hSm one_pos
  have e1 : ({ s with dt := 1 * s.dt, vSources := S } : MTL n p) = { s with vSources := S } := by rw [one_mul]
  rw [e1] at hU hrest hterm
  obtain ⟨s', hrun⟩ := hU.runs hD hL (by show ∀ q ∈ s.probes, _; rw [hprobes]; simp) T
  obtain ⟨tr, R, -, -⟩ := C01_run_frames _ _ _ hrun
  refine ⟨s', _, tr, hrun, R, ?_⟩
  obtain ⟨b1, b2⟩ := hK p _ s' T s.dt _ tr hU hrest htime hmax hterm le_rfl hT R
  simp only [zero_add] at b1 b2
  have hw : s.dt ^ 2 + (D / s.m) ^ 2 = (κ ^ 2 + 1) * D ^ 2 / m ^ 2 := by
    rw [hdt, em]; field_simp
  have q1 : K0 * (s.dt ^ 2 + (D / s.m) ^ 2) ≤ (K0 * (κ ^ 2 + 1) * D ^ 2 + K0 * (κ ^ 2 + 1) * D / κ) / m ^ 2 := by
    rw [hw, add_div]
    have : 0 ≤ K0 * (κ ^ 2 + 1) * D / κ / m ^ 2 := by positivity
    have e : K0 * ((κ ^ 2 + 1) * D ^ 2 / m ^ 2) = K0 * (κ ^ 2 + 1) * D ^ 2 / m ^ 2 := by ring
    linarith
  have q2 : K0 * (s.dt ^ 2 + (D / s.m) ^ 2) / s.dt ≤ (K0 * (κ ^ 2 + 1) * D ^ 2 + K0 * (κ ^ 2 + 1) * D / κ) / m := by
    rw [hw, add_div]
    have : 0 ≤ K0 * (κ ^ 2 + 1) * D ^ 2 / m := by positivity
    have e : K0 * ((κ ^ 2 + 1) * D ^ 2 / m ^ 2) / s.dt = K0 * (κ ^ 2 + 1) * D / κ / m := by
      rw [hdt]; field_simp
    linarith
  have p1 : 0 ≤ K0 * (s.dt ^ 2 + (D / s.m) ^ 2) := by positivity
  have p2 : 0 ≤ K0 * (s.dt ^ 2 + (D / s.m) ^ 2) / s.dt := by positivity
  rw [← em] at q1 q2 ⊢
  exact ⟨fun j hj => ⟨(b1 j hj).1.trans (pow_le_pow_left₀ p1 q1 2), (b1 j hj).2.trans (pow_le_pow_left₀ p1 q1 2)⟩,
    fun j hj => ⟨(b2 j hj).1.trans (pow_le_pow_left₀ p2 q2 2), (b2 j hj).2.trans (pow_le_pow_left₀ p2 q2 2)⟩⟩

/-- **C136** for programs.  The same with the time step reduced after construction by a factor `q`, `λ ≤ q ≤ θ²`, as the tests of
the project do (`line.dt = 0.94 * line.dt`): voltages and currents are within `K / m` of the solution. -/
theorem C136_program (hn : n ≠ 0) (hlc : GoodLC n l c) (hr : GoodRG n r) (hg : GoodRG n g) (hz : GoodZ n Zs Zl)
    (hl : SPD (l.matrix n)) (hc : SPD (c.matrix n)) (hrd : Dissipative (r.matrix n)) (hgd : Dissipative (g.matrix n))
    (hzs : ∀ i < n, 0 ≤ Zs.value i) (hzl : ∀ i < n, 0 ≤ Zl.value i) (hD : 0 < D)
    (hS : SmoothSolution D (l.matrix n) (c.matrix n) (r.matrix n) (g.matrix n) (Matrix.diagonal fun i : Fin n => Zs.value i)
      (Matrix.diagonal fun i : Fin n => Zl.value i) Vs Vl 0 V I) (T0 : ℝ) {θ lam : ℝ} (hθ : 0 ≤ θ) (hθ1 : θ < 1) (hlam : 0 < lam) :
    ∃ K : ℝ, 0 ≤ K ∧ ∀ (p m : ℕ) (name : String), 0 < m → ∃ s : MTL n p,
      MTL.new p l c r g D [] [m] Zs Zl name = .ok ⟨n, s⟩ ∧
      ∀ (S : ℕ → Fin n → ℝ → ℝ) (T q : ℝ), lam ≤ q → q ≤ θ ^ 2 → (∀ t a, S 0 a t = Vs t a) → (∀ t a, S m a t = Vl t a) → T ≤ T0 →
      ∃ s' N tr, ({ s with dt := q * s.dt, vSources := S } : MTL n p).runUntil T = .ok s' ∧
        RunTrace { s with dt := q * s.dt, vSources := S } T s' N tr ∧
        ∀ j ≤ N,
          ∑ k ∈ Finset.range (m + 1), D / m * ∑ a, ((tr j).v k a - V (k * (D / m)) (j * (q * s.dt) - q * s.dt) a) ^ 2 ≤ (K / m) ^ 2 ∧
          ∑ k ∈ Finset.range m, D / m *
              ∑ a, ((tr j).i k a - I (k * (D / m) + D / m / 2) (j * (q * s.dt) - q * s.dt / 2) a) ^ 2 ≤ (K / m) ^ 2 := by
  have hL := line_data hl hc hrd hgd hzs hzl
  obtain ⟨κ, hκ, hratio⟩ := constructed_ratio (n := n) (l := l) (c := c) (r := r) (g := g) (Zs := Zs) (Zl := Zl) hD
  obtain ⟨K0, hK0, hK⟩ := C136_converges hD hL hS T0 hθ hθ1 hlam
  refine ⟨K0 * ((κ ^ 2 + 1) * D ^ 2 + D), by positivity, ?_⟩
  intro p m name hm
  obtain ⟨s, h⟩ := straight_accepted (p := p) hn hlc hr hg hz hl hc hgd hzs hzl hD hm name
  have hdt := hratio p m name s hm h
  refine ⟨s, h, ?_⟩
  intro S T q hq1 hq2 hS0 hSm hT
  have hq0 : 0 < q := hlam.trans_le hq1
  have hqle : q ≤ 1 := hq2.trans (pow_le_one₀ hθ hθ1.le)
  have hm' : (0 : ℝ) < m := by exact_mod_cast hm
  have hm1 : (1 : ℝ) ≤ m := by exact_mod_cast hm
  obtain ⟨hU, hrest, htime, em, hpos, hterm, hmax, hprobes⟩ := constructed_uniform hD hm h hS0 hSm hq0
  obtain ⟨s', hrun⟩ := hU.runs hD hL (by show ∀ q ∈ s.probes, _; rw [hprobes]; simp) T
  obtain ⟨tr, R, -, -⟩ := C01_run_frames _ _ _ hrun
  refine ⟨s', _, tr, hrun, R, ?_⟩
  have b2 := hK p _ s' T s.dt s.dt _ tr hU hrest htime hmax hterm
    (by show q * s.dt ≤ s.dt; nlinarith) (by show lam * s.dt ≤ q * s.dt; exact mul_le_mul_of_nonneg_right hq1 hpos.le)
    (by show q * s.dt * s.dt ≤ θ ^ 2 * s.dt ^ 2
        have := mul_le_mul_of_nonneg_right hq2 (sq_nonneg s.dt)
        linarith) hT R
  simp only [zero_add] at b2
  have q2 : K0 * ((q * s.dt) ^ 2 + (D / s.m) ^ 2 + (1 - q * s.dt / s.dt) * (D / s.m)) ≤ K0 * ((κ ^ 2 + 1) * D ^ 2 + D) / m := by
    rw [mul_div_assoc K0]
    refine mul_le_mul_of_nonneg_left ?_ hK0
    rw [mul_div_assoc q, div_self hpos.ne', mul_one, em]
    have h1 : (q * s.dt) ^ 2 ≤ s.dt ^ 2 := pow_le_pow_left₀ (by positivity) (by nlinarith) 2
    have h2 : s.dt ^ 2 + (D / m) ^ 2 = (κ ^ 2 + 1) * D ^ 2 / m / m := by rw [hdt]; field_simp
    have h3 : (κ ^ 2 + 1) * D ^ 2 / m / m ≤ (κ ^ 2 + 1) * D ^ 2 / m := div_le_self (by positivity) hm1
    have h4 : (1 - q) * (D / m) ≤ D / m := by
      have : 0 ≤ q * (D / m) := by positivity
      linarith
    rw [add_div]
    linarith
  have p2 : 0 ≤ K0 * ((q * s.dt) ^ 2 + (D / s.m) ^ 2 + (1 - q * s.dt / s.dt) * (D / s.m)) := by
    rw [mul_div_assoc, div_self hpos.ne', mul_one]
    have : 0 ≤ (1 - q) * (D / s.m) := mul_nonneg (by linarith) (by positivity)
    positivity
  rw [← em] at q2 ⊢
  exact fun j hj => ⟨(b2 j hj).1.trans (pow_le_pow_left₀ p2 q2 2), (b2 j hj).2.trans (pow_le_pow_left₀ p2 q2 2)⟩

end

/-! ## Non-vacuity -/

/-- The waves of a smooth source on a matched line with `L = C = 1` are a smooth solution. -/
theorem demoSmooth_solution (D : ℝ) : SmoothSolution D ((Arg.scalar 1).matrix 1) ((Arg.scalar 1).matrix 1) ((Arg.scalar 0).matrix 1)
    ((Arg.scalar 0).matrix 1) (Matrix.diagonal fun i : Fin 1 => (ZArg.scalar 1).value i)
    (Matrix.diagonal fun i : Fin 1 => (ZArg.scalar 1).value i) (fun t _ => expNegInvGlue t) (fun _ => 0) 0
    (fun x t _ => expNegInvGlue (t - x) / 2) (fun x t _ => expNegInvGlue (t - x) / 2) := by
  have mat : ∀ x : ℝ, (Arg.scalar x).matrix 1 = x • (1 : Mat 1) := by
    intro x
    ext a b
    fin_cases a; fin_cases b
    simp [Arg.matrix]
  have zmat : ∀ x : ℝ, Matrix.diagonal (fun i : Fin 1 => (ZArg.scalar x).value i) = x • (1 : Mat 1) := by
    intro x
    ext a b
    fin_cases a; fin_cases b
    simp [ZArg.value]
  have hc : ContDiff ℝ 3 expNegInvGlue := expNegInvGlue.contDiff
  have hd : ∀ y, HasDerivAt expNegInvGlue (deriv expNegInvGlue y) y := fun y =>
    ((hc.differentiable (by norm_num)) y).hasDerivAt
  have dx : ∀ x t : ℝ, deriv (fun x => expNegInvGlue (t - x) / 2) x = -(deriv expNegInvGlue (t - x) / 2) := fun x t => by
    have := ((hd (t - x)).comp x ((hasDerivAt_id x).const_sub t)).div_const 2
    refine (this.deriv.trans ?_)
    simp
    ring
  have dtt : ∀ x t : ℝ, deriv (fun t => expNegInvGlue (t - x) / 2) t = deriv expNegInvGlue (t - x) / 2 := fun x t => by
    have := ((hd (t - x)).comp t ((hasDerivAt_id t).sub_const x)).div_const 2
    refine (this.deriv.trans ?_)
    simp
  have hsm : ContDiff ℝ 3 fun q : ℝ × ℝ => expNegInvGlue (q.2 - q.1) / 2 :=
    (hc.comp (contDiff_snd.sub contDiff_fst)).div_const 2
  rw [mat, mat, zmat]
  refine ⟨fun _ => hsm, fun _ => hsm, ?_, ?_, ?_, ?_, ?_⟩
  · intro x t _ _ a
    rw [dx]
    simp [one_mulVec, dtt]
  · intro x t _ _ a
    rw [dx]
    simp [one_mulVec, dtt]
  · intro t
    funext a
    simp [one_mulVec]
    ring
  · intro t
    funext a
    simp [one_mulVec]
  · intro x t hx _ ht
    have : expNegInvGlue (t - x) = 0 := expNegInvGlue.zero_of_nonpos (by linarith)
    constructor <;> funext a <;> simp [this]

/-- Non-vacuity of C136 and C137: the programs for a matched line of any length and any number of cells converge. -/
example (D : ℝ) (hD : 0 < D) : ∃ K κ : ℝ, 0 ≤ K ∧ 0 < κ ∧ ∀ (p m : ℕ) (name : String), 0 < m → ∃ s : MTL 1 p,
    MTL.new p (.scalar 1) (.scalar 1) (.scalar 0) (.scalar 0) D [] [m] (.scalar 1) (.scalar 1) name = .ok ⟨1, s⟩ ∧
    s.dt = κ * (D / m) := by
  obtain ⟨K, κ, h1, h2, h3⟩ := C137_program one_ne_zero (.floats 1 1) .zero .zero (.numbers 1 1) (spd_one one_pos) (spd_one one_pos)
    dissipative_zero dissipative_zero (fun _ _ => zero_le_one) (fun _ _ => zero_le_one) hD (demoSmooth_solution D) 1
  refine ⟨K, κ, h1, h2, fun p m name hm => ?_⟩
  obtain ⟨s, h, hdt, -⟩ := h3 p m name hm
  exact ⟨s, h, hdt⟩

end Mtln
