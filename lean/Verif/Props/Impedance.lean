import Verif.Spec.Impedance
import Verif.Props.Steady
import Verif.Props.Dispersive

/-! # Dispersive connectors have the impedance of their rational model: C163 -/

namespace Mtln

open Matrix Finset Filter Topology
open scoped ComplexConjugate

variable {n p : ℕ}

/-! ## Which coefficients a line with connectors has -/

/-- The coefficients of a line on whose cells and conductors exactly the models `f` were placed. -/
structure Disp.Equipped (D : Disp n p) (u : ℕ → V3) (f : ℕ → Fin n → Option RationalModel) : Prop where
  off : ∀ k a b, a ≠ b → D.q1 k a b = none ∧ D.q2 k a b = none ∧ D.q3 k a b = none ∧ D.d k a b = 0 ∧ D.e k a b = 0
  bare : ∀ k c, f k c = none → D.q1 k c c = none ∧ D.q2 k c c = none ∧ D.q3 k c c = none ∧ D.d k c c = 0 ∧ D.e k c c = 0
  d : ∀ k c M, f k c = some M → D.d k c c = M.cte / cellLength u k
  e : ∀ k c M, f k c = some M → D.e k c c = M.prop / cellLength u k
  q1 : ∀ k c M, f k c = some M → D.q1 k c c = some fun s : Fin p => -coefA (M.pole s) (M.residue (cellLength u k) s) D.dt
  q2 : ∀ k c M, f k c = some M → D.q2 k c c = some fun s : Fin p => coefB (M.pole s) (M.residue (cellLength u k) s) D.dt
  q3 : ∀ k c M, f k c = some M → D.q3 k c c = some fun s : Fin p => coefE (M.pole s) D.dt
  length : ∀ k c M, f k c = some M → cellLength u k ≠ 0
  poles : ∀ k c M, f k c = some M → M.polesReal.length = p
  nonzero : ∀ k c M, f k c = some M → ∀ s < p, M.pole s ≠ 0
  dt : ∀ k c M, f k c = some M → D.dt ≠ 0
  sum1 : D.q1sum = vSum D.q1
  sum2 : D.q2sum = vSum D.q2

theorem equipped_new (dt : ℝ) (u : ℕ → V3) : (Disp.new dt : Disp n p).Equipped u fun _ _ => none := by
  constructor
  · intro k a b _; exact ⟨rfl, rfl, rfl, rfl, rfl⟩
  · intro k c _; exact ⟨rfl, rfl, rfl, rfl, rfl⟩
  all_goals first | (intro k c M h; cases h; done) | skip
  · funext k; ext a b; simp [Disp.new, vSum, poleSum, QEntry.val]
  · funext k; ext a b; simp [Disp.new, vSum, poleSum, QEntry.val]

theorem Disp.Equipped.add {D D' : Disp n p} {u : ℕ → V3} {m : ℕ} {x : V3} {c : Fin n} {M : RationalModel}
    {f : ℕ → Fin n → Option RationalModel} (hD : D.Equipped u f) (h : D.addConnector u m x c M = .ok D') :
    f (nearest u m x) c = none ∧ D'.dt = D.dt ∧
      D'.Equipped u fun k a => if k = nearest u m x ∧ a = c then some M else f k a := by
  obtain ⟨k, rfl, A, d, e, q1, q2, q3, hdt, s1, s2⟩ := C35_placement.1 h
  refine ⟨?_, hdt, ?_⟩
  · by_contra hne
    obtain ⟨M', hM'⟩ := Option.ne_none_iff_exists'.1 hne
    have hq := A.q3
    rw [hD.q3 _ _ _ hM'] at hq
    unfold assertZero at hq
    simp only at hq
    split at hq
    · have := pyAssert_ok_iff.1 hq
      exact Complex.exp_ne_zero _ this
    · split at hq <;> simp at hq
  have key : ∀ {P : RationalModel → Prop} {k' : ℕ} {a : Fin n} {M' : RationalModel},
      (if k' = nearest u m x ∧ a = c then some M else f k' a) = some M' →
      (k' = nearest u m x ∧ a = c ∧ M' = M) ∨ (¬ (k' = nearest u m x ∧ a = c) ∧ f k' a = some M') := by
    intro _ k' a M' hM'
    split at hM'
    · rename_i hh
      exact Or.inl ⟨hh.1, hh.2, (Option.some.inj hM').symm⟩
    · rename_i hh
      exact Or.inr ⟨hh, hM'⟩
  have key := fun {k'} {a} {M'} => @key (fun _ => True) k' a M'
  constructor
  · intro k' a b hab
    have hne : ¬ (k' = nearest u m x ∧ a = c ∧ b = c) := by rintro ⟨-, rfl, rfl⟩; exact hab rfl
    rw [q1, q2, q3, d, e]
    simp only [if_neg hne]
    exact hD.off k' a b hab
  · intro k' a ha
    split at ha
    · cases ha
    rename_i hne'
    have hne : ¬ (k' = nearest u m x ∧ a = c ∧ a = c) := fun hh => hne' ⟨hh.1, hh.2.1⟩
    rw [q1, q2, q3, d, e]
    simp only [if_neg hne]
    exact hD.bare k' a ha
  · intro k' a M' hM'
    rcases key hM' with ⟨rfl, rfl, rfl⟩ | ⟨hne', hf⟩
    · rw [d, if_pos ⟨rfl, rfl, rfl⟩]
    · rw [d, if_neg fun hh => hne' ⟨hh.1, hh.2.1⟩]; exact hD.d _ _ _ hf
  · intro k' a M' hM'
    rcases key hM' with ⟨rfl, rfl, rfl⟩ | ⟨hne', hf⟩
    · rw [e, if_pos ⟨rfl, rfl, rfl⟩]
    · rw [e, if_neg fun hh => hne' ⟨hh.1, hh.2.1⟩]; exact hD.e _ _ _ hf
  · intro k' a M' hM'
    rw [hdt]
    rcases key hM' with ⟨rfl, rfl, rfl⟩ | ⟨hne', hf⟩
    · rw [q1, if_pos ⟨rfl, rfl, rfl⟩]
    · rw [q1, if_neg fun hh => hne' ⟨hh.1, hh.2.1⟩]; exact hD.q1 _ _ _ hf
  · intro k' a M' hM'
    rw [hdt]
    rcases key hM' with ⟨rfl, rfl, rfl⟩ | ⟨hne', hf⟩
    · rw [q2, if_pos ⟨rfl, rfl, rfl⟩]
    · rw [q2, if_neg fun hh => hne' ⟨hh.1, hh.2.1⟩]; exact hD.q2 _ _ _ hf
  · intro k' a M' hM'
    rw [hdt]
    rcases key hM' with ⟨rfl, rfl, rfl⟩ | ⟨hne', hf⟩
    · rw [q3, if_pos ⟨rfl, rfl, rfl⟩]
    · rw [q3, if_neg fun hh => hne' ⟨hh.1, hh.2.1⟩]; exact hD.q3 _ _ _ hf
  · intro k' a M' hM'
    rcases key hM' with ⟨rfl, rfl, rfl⟩ | ⟨hne', hf⟩
    · exact A.length
    · exact hD.length _ _ _ hf
  · intro k' a M' hM'
    rcases key hM' with ⟨rfl, rfl, rfl⟩ | ⟨hne', hf⟩
    · exact A.poles
    · exact hD.poles _ _ _ hf
  · intro k' a M' hM'
    rcases key hM' with ⟨rfl, rfl, rfl⟩ | ⟨hne', hf⟩
    · exact A.nonzero
    · exact hD.nonzero _ _ _ hf
  · intro k' a M' hM'
    rw [hdt]
    exact A.dt
  · exact s1
  · exact s2

theorem addConnectors_equipped {u : ℕ → V3} {m : ℕ} (items : List (V3 × Fin n × RationalModel)) {s s' : MTL n p}
    {f : ℕ → Fin n → Option RationalModel} (hu : s.u = u) (hm : s.m = m) (hs : s.conn.Equipped u f) (h : s.addConnectors items = .ok s') :
    (∃ D, s' = { s with conn := D } ∧ D.dt = s.conn.dt) ∧ s'.conn.Equipped u
      (items.foldl (fun f e k c => if k = nearest u m e.1 ∧ c = e.2.1 then some e.2.2 else f k c) f) := by
  induction items generalizing s f with
  | nil =>
    obtain rfl : s = s' := by simpa [MTL.addConnectors, pure, Except.pure] using h
    exact ⟨⟨s.conn, rfl, rfl⟩, hs⟩
  | cons e items ih =>
    unfold MTL.addConnectors at h
    rw [List.foldlM_cons] at h
    obtain ⟨s1, h1, h2⟩ := bind_ok_iff.1 h
    unfold MTL.addDispersiveConnector at h1
    obtain ⟨D, h3, h4⟩ := bind_ok_iff.1 h1
    injection h4 with h4
    subst h4
    rw [hu, hm] at h3
    obtain ⟨-, hdt, hE⟩ := hs.add h3
    obtain ⟨⟨D', hD', hdt'⟩, hE'⟩ := ih (s := { s with conn := D }) (f := fun k a => if k = nearest u m e.1 ∧ a = e.2.1 then some e.2.2 else f k a)
      hu hm hE h2
    exact ⟨⟨D', hD', hdt'.trans hdt⟩, hE'⟩

/-! ## The drop of a connector in a run -/

section

variable {s s' : MTL n p} {T : ℝ} {N : ℕ} {tr : ℕ → MTL n p} {f : ℕ → Fin n → Option RationalModel}

theorem Disp.Equipped.rows {D : Disp n p} {u : ℕ → V3} (hD : D.Equipped u f) {k : ℕ} {c b : Fin n} (h : c ≠ b) :
    (D.q1 k c b).val = 0 ∧ (D.q2 k c b).val = 0 ∧ (D.q3 k c b).val = 0 := by
  obtain ⟨h1, h2, h3, -, -⟩ := hD.off k c b h
  rw [h1, h2, h3]
  exact ⟨rfl, rfl, rfl⟩

theorem row_single {A : Mat n} {c : Fin n} (hA : ∀ b, c ≠ b → A c b = 0) (x : Col n) : (A *ᵥ x) c = A c c * x c := by
  rw [mulVec, dotProduct, Finset.sum_eq_single c]
  · intro b _ hb; rw [hA b hb.symm, zero_mul]
  · intro h; exact absurd (Finset.mem_univ c) h

/-- The drop of a model when the current changes from `old` to `new` and the memory is `phi`. -/
noncomputable def modelDrop (M : RationalModel) (len dt new old : ℝ) (phi : Poles p) : ℝ :=
  M.cte * (new + old) / 2 + M.prop * (new - old) / dt
    + len * (∑ σ : Fin p, (-coefA (M.pole σ) (M.residue len σ) dt * new + coefB (M.pole σ) (M.residue len σ) dt * old
      + Complex.exp (M.pole σ * dt) * phi σ)).re

/-- The new currents of a cell are those for which the models drop what is left over. -/
theorem current_iff_drops (R : RunTrace s T s' N tr) (hD : s.conn.Equipped s.u f) (hdt : s.conn.dt = s.dt) {j : ℕ} (hj : j < N) {k : ℕ}
    (hk : k < s.m) (hlen : s.dun k = cellLength s.u k) (x : Col n) :
    (∀ c, s.extraDrop (tr (j + 1)).v x ((tr j).i k) (s.time + j * s.dt) k c =
      (f k c).elim 0 fun M => modelDrop M (s.dun k) s.dt (x c) ((tr j).i k c) ((tr j).phi k c)) ↔ x = (tr (j + 1)).i k := by
  rw [← C07_current_equation R j hj k hk x]
  unfold CurrentEq
  rw [funext_iff]
  refine forall_congr' fun c => ?_
  cases hf : f k c with
  | none =>
    obtain ⟨b1, b2, b3, b4, b5⟩ := hD.bare k c hf
    have hd : ∀ x : Col n, (s.conn.d k *ᵥ x) c = 0 := fun x => by
      rw [row_single fun b hb => (hD.off k c b hb).2.2.2.1, b4, zero_mul]
    have he : ∀ x : Col n, (s.conn.e k *ᵥ x) c = 0 := fun x => by
      rw [row_single fun b hb => (hD.off k c b hb).2.2.2.2, b5, zero_mul]
    have h1 : ∀ x : Col n, (s.conn.q1sum k *ᵥ x) c = 0 := fun x => by
      rw [row_single fun b hb => by rw [hD.sum1]; simp [vSum, poleSum, (hD.rows hb).1], hD.sum1]
      simp [vSum, poleSum, b1, QEntry.val]
    have h2 : ∀ x : Col n, (s.conn.q2sum k *ᵥ x) c = 0 := fun x => by
      rw [row_single fun b hb => by rw [hD.sum2]; simp [vSum, poleSum, (hD.rows hb).2.1], hD.sum2]
      simp [vSum, poleSum, b2, QEntry.val]
    have h3 : (∑ σ, ∑ b, (s.conn.q3 k c b).val σ * (tr j).phi k b σ).re = 0 := by
      have : ∀ σ, ∑ b, (s.conn.q3 k c b).val σ * (tr j).phi k b σ = 0 := fun σ => Finset.sum_eq_zero fun b _ => by
        by_cases hb : c = b
        · subst hb; rw [b3]; simp [QEntry.val]
        · rw [(hD.rows hb).2.2]; simp
      simp [this]
    simp only [Pi.add_apply, Pi.sub_apply, Pi.smul_apply, Pi.neg_apply, smul_eq_mul, add_mulVec, hd, he, h1, h2, h3]
    unfold MTL.extraDrop
    show _ = (0 : ℝ) ↔ _
    constructor
    · intro h; linear_combination -h
    · intro h; linear_combination -h
  | some M =>
    have hl0 := hD.length _ _ _ hf
    rw [← hlen] at hl0
    have hd : ∀ x : Col n, (s.conn.d k *ᵥ x) c = M.cte / s.dun k * x c := fun x => by
      rw [row_single fun b hb => (hD.off k c b hb).2.2.2.1, hD.d _ _ _ hf, hlen]
    have he : ∀ x : Col n, (s.conn.e k *ᵥ x) c = M.prop / s.dun k * x c := fun x => by
      rw [row_single fun b hb => (hD.off k c b hb).2.2.2.2, hD.e _ _ _ hf, hlen]
    have h1 : ∀ x : Col n, (s.conn.q1sum k *ᵥ x) c =
        (∑ σ : Fin p, -coefA (M.pole σ) (M.residue (s.dun k) σ) s.dt * (x c : ℂ)).re := fun x => by
      rw [row_single fun b hb => by rw [hD.sum1]; simp [vSum, poleSum, (hD.rows hb).1], hD.sum1]
      rw [← Finset.sum_mul, Complex.re_mul_ofReal]
      simp only [vSum, poleSum, Matrix.of_apply, hD.q1 _ _ _ hf, QEntry.val, Option.getD_some, hdt, hlen]
    have h2 : ∀ x : Col n, (s.conn.q2sum k *ᵥ x) c =
        (∑ σ : Fin p, coefB (M.pole σ) (M.residue (s.dun k) σ) s.dt * (x c : ℂ)).re := fun x => by
      rw [row_single fun b hb => by rw [hD.sum2]; simp [vSum, poleSum, (hD.rows hb).2.1], hD.sum2]
      rw [← Finset.sum_mul, Complex.re_mul_ofReal]
      simp only [vSum, poleSum, Matrix.of_apply, hD.q2 _ _ _ hf, QEntry.val, Option.getD_some, hdt, hlen]
    have h3 : (∑ σ, ∑ b, (s.conn.q3 k c b).val σ * (tr j).phi k b σ).re =
        (∑ σ : Fin p, Complex.exp (M.pole σ * s.dt) * (tr j).phi k c σ).re := by
      congr 1
      refine Finset.sum_congr rfl fun σ _ => ?_
      rw [Finset.sum_eq_single c]
      · rw [hD.q3 _ _ _ hf, QEntry.val, Option.getD_some, hdt]; rfl
      · intro b _ hb; rw [(hD.rows hb.symm).2.2]; simp
      · intro h; exact absurd (Finset.mem_univ c) h
    simp only [Pi.add_apply, Pi.sub_apply, Pi.smul_apply, Pi.neg_apply, smul_eq_mul, add_mulVec, hd, he, h1, h2, h3]
    show _ = modelDrop M (s.dun k) s.dt (x c) ((tr j).i k c) ((tr j).phi k c) ↔ _
    unfold MTL.extraDrop modelDrop
    rw [Finset.sum_add_distrib, Finset.sum_add_distrib, Complex.add_re, Complex.add_re]
    have e1 : s.dun k * (M.cte / s.dun k) = M.cte := by field_simp
    have e2 : s.dun k * (M.prop / s.dun k) = M.prop := by field_simp
    constructor
    · intro h
      linear_combination -h + (x c + (tr j).i k c) / 2 * e1 + (x c - (tr j).i k c) / s.dt * e2
    · intro h
      linear_combination -h + (x c + (tr j).i k c) / 2 * e1 + (x c - (tr j).i k c) / s.dt * e2

/-- The drop of a connector, with its memory. -/
theorem extraDrop_model (R : RunTrace s T s' N tr) (hD : s.conn.Equipped s.u f) (hdt : s.conn.dt = s.dt) {j : ℕ} (hj : j < N) {k : ℕ}
    (hk : k < s.m) {c : Fin n} {M : RationalModel} (hf : f k c = some M) (hlen : s.dun k = cellLength s.u k) :
    s.extraDrop (tr (j + 1)).v ((tr (j + 1)).i k) ((tr j).i k) (s.time + j * s.dt) k c =
      modelDrop M (s.dun k) s.dt ((tr (j + 1)).i k c) ((tr j).i k c) ((tr j).phi k c) := by
  have h := (current_iff_drops R hD hdt hj hk hlen _).2 rfl c
  rw [hf] at h
  exact h

/-- One step of the memory of a connector. -/
theorem memory_step (R : RunTrace s T s' N tr) (hD : s.conn.Equipped s.u f) (hdt : s.conn.dt = s.dt) {j : ℕ} (hj : j < N) {k : ℕ}
    {c : Fin n} {M : RationalModel} (hf : f k c = some M) (hlen : s.dun k = cellLength s.u k) (σ : Fin p) :
    (tr (j + 1)).phi k c σ = Complex.exp (M.pole σ * s.dt) * (tr j).phi k c σ
      + M.residue (s.dun k) σ / M.pole σ * (Complex.exp (M.pole σ * s.dt) - 1) * (tr (j + 1)).i k c := by
  obtain ⟨lr, cg, -, -, hst⟩ := R.state
  obtain ⟨hc, hfd, -⟩ := hst j hj.le
  obtain ⟨-, hi, hphi⟩ := hfd.step_fields (R.step j hj)
  rw [hphi, advanceFields_phi, ← hi, hc.conn]
  have hp : M.pole σ ≠ 0 := hD.nonzero _ _ _ hf σ σ.2
  have ht : (s.dt : ℂ) ≠ 0 := by
    have := hD.dt _ _ _ hf
    rw [hdt] at this
    exact_mod_cast this
  have one : ∀ (Q : Fin n → QEntry p) (g : Fin n → ℂ), (∀ b, c ≠ b → (Q b).val = 0) →
      ∑ b, (Q b).val σ * g b = (Q c).val σ * g c := by
    intro Q g hQ
    rw [Finset.sum_eq_single c]
    · intro b _ hb; rw [hQ b hb.symm]; simp
    · intro h; exact absurd (Finset.mem_univ c) h
  unfold Disp.updatePhi
  rw [one _ _ fun b hb => (hD.rows hb).1, one _ _ fun b hb => (hD.rows hb).2.1, one _ _ fun b hb => (hD.rows hb).2.2,
    hD.q1 _ _ _ hf, hD.q2 _ _ _ hf, hD.q3 _ _ _ hf]
  simp only [QEntry.val, Option.getD_some, coefA, coefB, coefE, hdt, ← hlen]
  field_simp
  ring

end

/-! ## The response to an exponential current -/

/-- The drop of one pole for the current `w ^ j`, relative to the current at the start of the step. -/
noncomputable def poleDrop (pole res w : ℂ) (h : ℝ) : ℂ :=
  -coefA pole res h * w + coefB pole res h
    + Complex.exp (pole * h) * (res / pole * (Complex.exp (pole * h) - 1) * w / (w - Complex.exp (pole * h)))

/-- The impedance that the time stepping with the time step `h` realises. -/
noncomputable def RationalModel.stepped (M : RationalModel) (s : ℂ) (h : ℝ) : ℂ :=
  Complex.exp (-(s * h / 2)) * (M.cte * (Complex.exp (s * h) + 1) / 2 + M.prop * (Complex.exp (s * h) - 1) / h
    + (∑ q ∈ range M.polesReal.length, poleDrop (M.pole q) (M.residue 1 q) (Complex.exp (s * h)) h
      + conj (∑ q ∈ range M.polesReal.length, poleDrop (M.pole q) (M.residue 1 q) (Complex.exp (conj s * h)) h)) / 2)

theorem slope_exp (z : ℂ) : Tendsto (fun h : ℝ => (Complex.exp (z * h) - 1) / h) (𝓝[>] 0) (𝓝 z) := by
  have h1 : HasDerivAt (fun h : ℝ => Complex.exp (z * h)) z 0 := by
    have h2 : HasDerivAt (fun h : ℝ => z * (h : ℂ)) z 0 := by
      simpa using (Complex.ofRealCLM.hasDerivAt (x := (0 : ℝ))).const_mul z
    have := h2.cexp
    simpa using this
  have h3 := h1.tendsto_slope.mono_left (nhdsWithin_mono 0 (fun x (hx : (0 : ℝ) < x) => hx.ne'))
  refine h3.congr fun h => ?_
  rw [slope_def_module]
  simp only [sub_zero, Complex.ofReal_zero, mul_zero, Complex.exp_zero, Complex.real_smul, Complex.ofReal_inv]
  ring

theorem tendsto_exp (z : ℂ) : Tendsto (fun h : ℝ => Complex.exp (z * h)) (𝓝[>] 0) (𝓝 1) := by
  have : Continuous fun h : ℝ => Complex.exp (z * h) := by fun_prop
  have h := (this.tendsto 0).mono_left (nhdsWithin_le_nhds (s := Set.Ioi 0))
  simpa using h

theorem tendsto_poleDrop {pole res s : ℂ} (hp : pole ≠ 0) (hs : s ≠ pole) :
    Tendsto (fun h : ℝ => poleDrop pole res (Complex.exp (s * h)) h) (𝓝[>] 0) (𝓝 (res / (s - pole))) := by
  have hE := tendsto_exp pole
  have hw := tendsto_exp s
  have dE := slope_exp pole
  have dw := slope_exp s
  have hsp : s - pole ≠ 0 := sub_ne_zero.2 hs
  have main : Tendsto (fun h : ℝ =>
      -(res / pole * (1 - (Complex.exp (pole * h) - 1) / h / pole)) * Complex.exp (s * h)
      + res / pole * (Complex.exp (pole * h) - (Complex.exp (pole * h) - 1) / h / pole)
      + Complex.exp (pole * h) * (res / pole * ((Complex.exp (pole * h) - 1) / h) * Complex.exp (s * h) /
          ((Complex.exp (s * h) - 1) / h - (Complex.exp (pole * h) - 1) / h))) (𝓝[>] 0)
      (𝓝 (-(res / pole * (1 - pole / pole)) * 1 + res / pole * (1 - pole / pole) + 1 * (res / pole * pole * 1 / (s - pole)))) := by
    refine ((Tendsto.mul (Tendsto.neg (Tendsto.mul tendsto_const_nhds (tendsto_const_nhds.sub (dE.div_const _)))) hw).add
      (Tendsto.mul tendsto_const_nhds (hE.sub (dE.div_const _)))).add
      (hE.mul (((tendsto_const_nhds.mul dE).mul hw).div (dw.sub dE) hsp))
  have e : -(res / pole * (1 - pole / pole)) * 1 + res / pole * (1 - pole / pole) + 1 * (res / pole * pole * 1 / (s - pole)) =
      res / (s - pole) := by
    field_simp
    ring
  rw [e] at main
  refine main.congr' ?_
  filter_upwards [self_mem_nhdsWithin] with h hh
  have hh0 : (h : ℂ) ≠ 0 := by exact_mod_cast (show (0 : ℝ) < h from hh).ne'
  unfold poleDrop coefA coefB
  have e1 : res / pole * ((Complex.exp (pole * h) - 1) / h) * Complex.exp (s * h) /
      ((Complex.exp (s * h) - 1) / h - (Complex.exp (pole * h) - 1) / h) =
      res / pole * (Complex.exp (pole * h) - 1) * Complex.exp (s * h) / (Complex.exp (s * h) - Complex.exp (pole * h)) := by
    have e2 : (Complex.exp (s * h) - 1) / h - (Complex.exp (pole * h) - 1) / h = (Complex.exp (s * h) - Complex.exp (pole * h)) / h := by
      ring
    rw [e2, div_div_eq_mul_div]
    congr 1
    field_simp
  rw [e1]
  congr 2
  · congr 3
    field_simp
  · field_simp
    ring

theorem poleDrop_dc {pole res : ℂ} {h : ℝ} (hE : Complex.exp (pole * h) ≠ 1) :
    poleDrop pole res 1 h = res / (0 - pole) := by
  have h1 : 1 - Complex.exp (pole * h) ≠ 0 := sub_ne_zero.2 (Ne.symm hE)
  have e : res / pole * (Complex.exp (pole * h) - 1) * 1 / (1 - Complex.exp (pole * h)) = -(res / pole) := by
    rw [mul_one, div_eq_iff h1]
    ring
  unfold poleDrop coefA coefB
  rw [e, zero_sub, div_neg]
  ring

/-- The impedance the time stepping realises tends to that of the model when the time step is reduced. -/
theorem tendsto_stepped (M : RationalModel) {s : ℂ} (h0 : ∀ q < M.polesReal.length, M.pole q ≠ 0)
    (h1 : ∀ q < M.polesReal.length, M.pole q ≠ s) (h2 : ∀ q < M.polesReal.length, M.pole q ≠ conj s) :
    Tendsto (M.stepped s) (𝓝[>] 0) (𝓝 (M.seen s)) := by
  have p1 : ∀ z : ℂ, (∀ q < M.polesReal.length, M.pole q ≠ z) → Tendsto (fun h : ℝ =>
      ∑ q ∈ range M.polesReal.length, poleDrop (M.pole q) (M.residue 1 q) (Complex.exp (z * h)) h) (𝓝[>] 0)
      (𝓝 (∑ q ∈ range M.polesReal.length, M.residue 1 q / (z - M.pole q))) := fun z hz =>
    tendsto_finset_sum _ fun q hq => tendsto_poleDrop (h0 q (mem_range.1 hq)) (hz q (mem_range.1 hq)).symm
  have p2 := (Complex.continuous_conj.tendsto _).comp (p1 (conj s) h2)
  have hw := tendsto_exp s
  have dw := slope_exp s
  have hr : Tendsto (fun h : ℝ => Complex.exp (-(s * h / 2))) (𝓝[>] 0) (𝓝 1) := by
    refine (tendsto_exp (-(s / 2))).congr fun h => ?_
    congr 1; ring
  have main := hr.mul (((((tendsto_const_nhds (x := (M.cte : ℂ))).mul (hw.add_const 1)).div_const 2).add
    ((tendsto_const_nhds (x := (M.prop : ℂ))).mul dw)).add (((p1 s h1).add p2).div_const 2))
  have e : (1 : ℂ) * (M.cte * (1 + 1) / 2 + M.prop * s + (∑ q ∈ range M.polesReal.length, M.residue 1 q / (s - M.pole q)
      + conj (∑ q ∈ range M.polesReal.length, M.residue 1 q / (conj s - M.pole q))) / 2) = M.seen s := by
    unfold RationalModel.seen RationalModel.impedance
    simp only [map_add, map_mul, Complex.conj_conj, Complex.conj_ofReal]
    ring
  rw [← e]
  refine main.congr fun h => ?_
  unfold RationalModel.stepped
  simp only [Function.comp]
  ring

/-- At direct current the time stepping realises the impedance of the model, whatever the time step is. -/
theorem stepped_dc (M : RationalModel) {h : ℝ} (hE : ∀ q < M.polesReal.length, Complex.exp (M.pole q * h) ≠ 1) :
    M.stepped 0 h = M.seen 0 := by
  have e : ∀ z : ℂ, z = 0 → ∑ q ∈ range M.polesReal.length, poleDrop (M.pole q) (M.residue 1 q) (Complex.exp (z * h)) h =
      ∑ q ∈ range M.polesReal.length, M.residue 1 q / (0 - M.pole q) := by
    rintro z rfl
    refine Finset.sum_congr rfl fun q hq => ?_
    rw [zero_mul, Complex.exp_zero, poleDrop_dc (hE q (mem_range.1 hq))]
  unfold RationalModel.stepped RationalModel.seen RationalModel.impedance
  rw [e 0 rfl, e (conj 0) (map_zero _), map_zero]
  simp only [zero_mul, zero_div, neg_zero, Complex.exp_zero, sub_self, mul_zero, add_zero, one_mul, map_add, Complex.conj_ofReal]
  ring

section

variable {s s' : MTL n p} {T : ℝ} {N : ℕ} {tr : ℕ → MTL n p} {f : ℕ → Fin n → Option RationalModel}

theorem poleDrop_scale (M : RationalModel) {len : ℝ} (hl : len ≠ 0) (q : ℕ) (w : ℂ) (h : ℝ) :
    (len : ℂ) * poleDrop (M.pole q) (M.residue len q) w h = poleDrop (M.pole q) (M.residue 1 q) w h := by
  have hl' : (len : ℂ) ≠ 0 := by exact_mod_cast hl
  have e : M.residue len q = M.residue 1 q / len := by
    unfold RationalModel.residue
    rw [Complex.ofReal_one, div_one]
  unfold poleDrop coefA coefB
  rw [e]
  have e2 : M.residue 1 q = len * (M.residue 1 q / len) := by field_simp
  conv_rhs => rw [e2]
  ring

/-- The memory of a connector through which an exponential current flows. -/
theorem memory_exponential (R : RunTrace s T s' N tr) (hD : s.conn.Equipped s.u f) (hdt : s.conn.dt = s.dt) {k : ℕ}
    {c : Fin n} {M : RationalModel} (hf : f k c = some M) (hlen : s.dun k = cellLength s.u k) (σ : Fin p) {I J w w' : ℂ}
    (hi : ∀ q ≤ N, ((tr q).i k c : ℂ) = (I * w ^ q + J * w' ^ q) / 2) (hw : w ≠ Complex.exp (M.pole σ * s.dt))
    (hw' : w' ≠ Complex.exp (M.pole σ * s.dt)) :
    ∃ C, ∀ q ≤ N, (tr q).phi k c σ = C * Complex.exp (M.pole σ * s.dt) ^ q +
      (M.residue (s.dun k) σ / M.pole σ * (Complex.exp (M.pole σ * s.dt) - 1) * w / (w - Complex.exp (M.pole σ * s.dt)) * (I * w ^ q)
      + M.residue (s.dun k) σ / M.pole σ * (Complex.exp (M.pole σ * s.dt) - 1) * w' / (w' - Complex.exp (M.pole σ * s.dt)) * (J * w' ^ q)) / 2 := by
  have hstep := fun j (hj : j < N) => memory_step R hD hdt hj hf hlen σ
  obtain ⟨E, hE⟩ : ∃ E, E = Complex.exp (M.pole σ * s.dt) := ⟨_, rfl⟩
  obtain ⟨b, hb⟩ : ∃ b, b = M.residue (s.dun k) σ / M.pole σ := ⟨_, rfl⟩
  simp only [← hE, ← hb] at hstep hw hw' ⊢
  have n1 : w - E ≠ 0 := sub_ne_zero.2 hw
  have n2 : w' - E ≠ 0 := sub_ne_zero.2 hw'
  refine ⟨(tr 0).phi k c σ - (b * (E - 1) * w / (w - E) * I + b * (E - 1) * w' / (w' - E) * J) / 2, fun q => ?_⟩
  induction q with
  | zero => intro _; simp
  | succ q ih =>
    intro hq
    rw [hstep q hq, ih (by omega), hi (q + 1) hq]
    have e1 : b * (E - 1) * w / (w - E) * (I * w ^ (q + 1)) - E * (b * (E - 1) * w / (w - E) * (I * w ^ q)) =
        b * (E - 1) * (I * w ^ (q + 1)) := by
      rw [pow_succ]; field_simp
    have e2 : b * (E - 1) * w' / (w' - E) * (J * w' ^ (q + 1)) - E * (b * (E - 1) * w' / (w' - E) * (J * w' ^ q)) =
        b * (E - 1) * (J * w' ^ (q + 1)) := by
      rw [pow_succ]; field_simp
    rw [pow_succ E]
    linear_combination -(1 / 2 : ℂ) * e1 - (1 / 2 : ℂ) * e2

theorem response (R : RunTrace s T s' N tr) (hD : s.conn.Equipped s.u f) (hdt : s.conn.dt = s.dt) {k : ℕ} (hk : k < s.m)
    {c : Fin n} {M : RationalModel} (hf : f k c = some M) (hlen : s.dun k = cellLength s.u k) {z I : ℂ}
    (hi : ∀ q ≤ N, (tr q).i k c = (I * Complex.exp (z * (q * s.dt))).re)
    (hres : ∀ q < M.polesReal.length, Complex.exp (M.pole q * s.dt) ≠ Complex.exp (z * s.dt))
    (hres' : ∀ q < M.polesReal.length, Complex.exp (M.pole q * s.dt) ≠ Complex.exp (conj z * s.dt)) :
    ∃ C : Fin p → ℂ, ∀ j < N, s.extraDrop (tr (j + 1)).v ((tr (j + 1)).i k) ((tr j).i k) (s.time + j * s.dt) k c =
      (M.stepped z s.dt * (I * Complex.exp (z * ((j + 1 / 2) * s.dt)))).re + (∑ σ, C σ * Complex.exp (M.pole σ * (j * s.dt))).re := by
  have hp := hD.poles _ _ _ hf
  have hl0 : s.dun k ≠ 0 := by rw [hlen]; exact hD.length _ _ _ hf
  have ht0 : s.dt ≠ 0 := by rw [← hdt]; exact hD.dt _ _ _ hf
  have ht0' : (s.dt : ℂ) ≠ 0 := by exact_mod_cast ht0
  obtain ⟨w, hw⟩ : ∃ w, w = Complex.exp (z * s.dt) := ⟨_, rfl⟩
  obtain ⟨w', hw'⟩ : ∃ w', w' = Complex.exp (conj z * s.dt) := ⟨_, rfl⟩
  have hcw : conj w = w' := by rw [hw, hw', ← Complex.exp_conj, map_mul, Complex.conj_ofReal]
  have hpow : ∀ q : ℕ, Complex.exp (z * (q * s.dt)) = w ^ q := by
    intro q; rw [hw, ← Complex.exp_nat_mul]; congr 1; ring
  have hpowE : ∀ (x : ℂ) (q : ℕ), Complex.exp (x * (q * s.dt)) = Complex.exp (x * s.dt) ^ q := by
    intro x q; rw [← Complex.exp_nat_mul]; congr 1; ring
  have hic : ∀ q ≤ N, ((tr q).i k c : ℂ) = (I * w ^ q + conj I * w' ^ q) / 2 := by
    intro q hq
    rw [hi q hq, hpow, Complex.re_eq_add_conj, map_mul, map_pow, hcw]
  have hmem := fun σ : Fin p => memory_exponential R hD hdt hf hlen σ hic
    (by rw [hw]; exact (hres σ (by rw [hp]; exact σ.2)).symm) (by rw [hw']; exact (hres' σ (by rw [hp]; exact σ.2)).symm)
  choose C hC using hmem
  refine ⟨fun σ => s.dun k * (Complex.exp (M.pole σ * s.dt) * C σ), fun j hj => ?_⟩
  rw [extraDrop_model R hD hdt hj hk hf hlen, modelDrop]
  have e1 : ∀ σ : Fin p, -coefA (M.pole σ) (M.residue (s.dun k) σ) s.dt * (tr (j + 1)).i k c
      + coefB (M.pole σ) (M.residue (s.dun k) σ) s.dt * (tr j).i k c
      + Complex.exp (M.pole σ * s.dt) * (tr j).phi k c σ =
      (poleDrop (M.pole σ) (M.residue (s.dun k) σ) w s.dt * (I * w ^ j)
        + poleDrop (M.pole σ) (M.residue (s.dun k) σ) w' s.dt * (conj I * w' ^ j)) / 2
      + Complex.exp (M.pole σ * s.dt) * C σ * Complex.exp (M.pole σ * s.dt) ^ j := by
    intro σ
    rw [hC σ j hj.le, hic (j + 1) hj, hic j hj.le]
    unfold poleDrop
    rw [pow_succ, pow_succ]
    ring
  have e2 : s.dun k * (∑ σ : Fin p, (-coefA (M.pole σ) (M.residue (s.dun k) σ) s.dt * (tr (j + 1)).i k c
      + coefB (M.pole σ) (M.residue (s.dun k) σ) s.dt * (tr j).i k c
      + Complex.exp (M.pole σ * s.dt) * (tr j).phi k c σ)).re =
      ((∑ q ∈ range M.polesReal.length, poleDrop (M.pole q) (M.residue 1 q) w s.dt * (I * w ^ j)
        + ∑ q ∈ range M.polesReal.length, poleDrop (M.pole q) (M.residue 1 q) w' s.dt * (conj I * w' ^ j)) / 2).re
      + (∑ σ : Fin p, s.dun k * (Complex.exp (M.pole σ * s.dt) * C σ) * Complex.exp (M.pole σ * (j * s.dt))).re := by
    rw [← Complex.re_ofReal_mul, ← Complex.add_re]
    congr 1
    rw [Finset.mul_sum, hp, Finset.sum_range, Finset.sum_range, ← Finset.sum_add_distrib, Finset.sum_div, ← Finset.sum_add_distrib]
    refine Finset.sum_congr rfl fun σ _ => ?_
    rw [e1, hpowE, ← poleDrop_scale M hl0 σ w, ← poleDrop_scale M hl0 σ w']
    ring
  rw [e2]
  have e3 : ∀ X Y : ℂ, ((X * (I * w ^ j) + Y * (conj I * w' ^ j)) / 2).re = ((X + conj Y) / 2 * (I * w ^ j)).re := by
    intro X Y
    have : Y * (conj I * w' ^ j) = conj (conj Y * (I * w ^ j)) := by
      rw [map_mul, map_mul, map_pow, Complex.conj_conj, hcw]
    have h2 : (X + conj Y) / 2 * (I * w ^ j) = (X * (I * w ^ j) + conj Y * (I * w ^ j)) / 2 := by ring
    rw [this, h2, Complex.div_ofNat_re, Complex.div_ofNat_re, Complex.add_re, Complex.add_re, Complex.conj_re]
  rw [← Finset.sum_mul, ← Finset.sum_mul, e3, ← add_assoc]
  congr 1
  have e4 : M.stepped z s.dt * (I * Complex.exp (z * ((j + 1 / 2) * s.dt))) =
      (M.cte * (w + 1) / 2 + M.prop * (w - 1) / s.dt
      + (∑ q ∈ range M.polesReal.length, poleDrop (M.pole q) (M.residue 1 q) w s.dt
        + conj (∑ q ∈ range M.polesReal.length, poleDrop (M.pole q) (M.residue 1 q) w' s.dt)) / 2) * (I * w ^ j) := by
    have : Complex.exp (-(z * s.dt / 2)) * Complex.exp (z * ((j + 1 / 2) * s.dt)) = w ^ j := by
      rw [← hpow, ← Complex.exp_add]; congr 1; ring
    unfold RationalModel.stepped
    rw [← hw, ← hw', ← this]
    ring
  rw [e4, add_mul, add_mul, Complex.add_re, Complex.add_re]
  congr 1
  have r1 : (tr (j + 1)).i k c = (I * w ^ (j + 1)).re := by rw [hi _ hj, hpow]
  have r0 : (tr j).i k c = (I * w ^ j).re := by rw [hi _ hj.le, hpow]
  congr 1
  · rw [r1, r0, ← Complex.add_re]
    have : M.cte * (w + 1) / 2 * (I * w ^ j) = ((M.cte / 2 : ℝ) : ℂ) * (I * w ^ (j + 1) + I * w ^ j) := by
      rw [pow_succ]; push_cast; ring
    rw [this, Complex.re_ofReal_mul]
    ring
  · rw [r1, r0, ← Complex.sub_re]
    have : M.prop * (w - 1) / s.dt * (I * w ^ j) = ((M.prop / s.dt : ℝ) : ℂ) * (I * w ^ (j + 1) - I * w ^ j) := by
      rw [pow_succ]; push_cast; ring
    rw [this, Complex.re_ofReal_mul]
    ring


/-- Without a model there is no memory. -/
theorem memory_bare (R : RunTrace s T s' N tr) (hD : s.conn.Equipped s.u f) {j : ℕ} (hj : j < N) {k : ℕ} {c : Fin n}
    (hf : f k c = none) (σ : Fin p) : (tr (j + 1)).phi k c σ = 0 := by
  obtain ⟨lr, cg, -, -, hst⟩ := R.state
  obtain ⟨hc, hfd, -⟩ := hst j hj.le
  obtain ⟨-, hi, hphi⟩ := hfd.step_fields (R.step j hj)
  rw [hphi, advanceFields_phi, hc.conn]
  obtain ⟨b1, b2, b3, -, -⟩ := hD.bare k c hf
  have one : ∀ (Q : Fin n → QEntry p) (g : Fin n → ℂ), (∀ b, c ≠ b → (Q b).val = 0) → Q c = none →
      ∑ b, (Q b).val σ * g b = 0 := by
    intro Q g hQ h0
    refine Finset.sum_eq_zero fun b _ => ?_
    by_cases hb : c = b
    · subst hb; rw [h0]; simp [QEntry.val]
    · rw [hQ b hb]; simp
  unfold Disp.updatePhi
  rw [one _ _ (fun b hb => (hD.rows hb).1) b1, one _ _ (fun b hb => (hD.rows hb).2.1) b2, one _ _ (fun b hb => (hD.rows hb).2.2) b3]
  simp

/-- The drop of a model at rest. -/
theorem modelDrop_dc (M : RationalModel) {len dt x : ℝ} {phi : Poles p} (hl : len ≠ 0) (hdt : dt ≠ 0) (hp : M.polesReal.length = p)
    (h0 : ∀ q < p, M.pole q ≠ 0) (hphi : ∀ σ : Fin p, phi σ = -(M.residue len σ / M.pole σ) * x) :
    modelDrop M len dt x x phi = (M.impedance 0).re * x := by
  have hl' : (len : ℂ) ≠ 0 := by exact_mod_cast hl
  have ht' : (dt : ℂ) ≠ 0 := by exact_mod_cast hdt
  have e1 : ∀ σ : Fin p, -coefA (M.pole σ) (M.residue len σ) dt * x + coefB (M.pole σ) (M.residue len σ) dt * x
      + Complex.exp (M.pole σ * dt) * phi σ = -(M.residue len σ / M.pole σ) * x := by
    intro σ
    have := h0 σ σ.2
    rw [hphi]
    unfold coefA coefB
    field_simp
    ring
  have e2 : ((M.impedance 0).re * x : ℝ) = (M.impedance 0 * x).re := by rw [Complex.re_mul_ofReal]
  unfold modelDrop
  rw [Finset.sum_congr rfl fun σ _ => e1 σ, e2, sub_self, mul_zero, zero_div, add_zero, ← Complex.re_ofReal_mul]
  have e3 : M.cte * (x + x) / 2 = ((M.cte * x : ℝ) : ℂ).re := by rw [Complex.ofReal_re]; ring
  rw [e3, ← Complex.add_re]
  congr 1
  unfold RationalModel.impedance
  rw [hp, Finset.sum_range, mul_zero, add_zero, add_mul, Finset.sum_mul, Finset.mul_sum]
  push_cast
  congr 1
  refine Finset.sum_congr rfl fun σ _ => ?_
  have e : M.residue len σ = M.residue 1 σ / len := by
    unfold RationalModel.residue
    rw [Complex.ofReal_one, div_one]
  have := h0 σ σ.2
  rw [e, zero_sub]
  field_simp

variable {V0 V1 : Col n}

/-- The memory of the models at rest. -/
def MTL.MemoryRests (s : MTL n p) (f : ℕ → Fin n → Option RationalModel) (i : ℕ → Col n) (phi : ℕ → Fin n → Poles p) : Prop :=
  ∀ k < s.m, ∀ c, ∀ σ : Fin p, phi k c σ = (f k c).elim 0 fun M => -(M.residue (s.dun k) σ / M.pole σ) * i k c

theorem steady_step (R : RunTrace s T s' N tr) (hD : s.conn.Equipped s.u f) (hdt : s.conn.dt = s.dt)
    (hlen : ∀ k < s.m, s.dun k = cellLength s.u k)
    (hE : ∀ k < s.m, ∀ c M, f k c = some M → ∀ q < p, Complex.exp (M.pole q * s.dt) ≠ 1) (hT : s.TermConsistent) (hm : 0 < s.m)
    (hc : s.Constant V0 V1) {j : ℕ} (hj : j < N) :
    ((∀ k ≤ s.m, (tr (j + 1)).v k = (tr j).v k) ∧ (∀ k < s.m, (tr (j + 1)).i k = (tr j).i k) ∧
      ∀ k < s.m, (tr (j + 1)).phi k = (tr j).phi k) ↔
    s.DCWith f V0 V1 (tr j).v (tr j).i ∧ s.MemoryRests f (tr j).i (tr j).phi := by
  obtain ⟨f1, f2, f3⟩ := steady_nodes R hT hm hc hj
  have hdrop : ∀ k < s.m, ∀ c, ∀ x v : _, s.extraDrop v x x (s.time + j * s.dt) k c =
      -(v (k + 1) c - v k c) - s.dun k * (s.r k *ᵥ x) c := by
    intro k _ c x v
    unfold MTL.extraDrop
    rw [sub_self, mulVec_zero, mulVec_add]
    simp only [hc.eT, hc.eL, Pi.add_apply, Pi.zero_apply]
    ring
  have hmod : s.MemoryRests f (tr j).i (tr j).phi → ∀ k < s.m, ∀ c M, f k c = some M →
      modelDrop M (s.dun k) s.dt ((tr j).i k c) ((tr j).i k c) ((tr j).phi k c) = (M.impedance 0).re * (tr j).i k c := by
    intro hr k hk c M hf
    refine modelDrop_dc M (by rw [hlen k hk]; exact hD.length _ _ _ hf) (by rw [← hdt]; exact hD.dt _ _ _ hf) (hD.poles _ _ _ hf)
      (hD.nonzero _ _ _ hf) fun σ => ?_
    rw [hr k hk c σ, hf]
    rfl
  have hcell : (∀ k ≤ s.m, (tr (j + 1)).v k = (tr j).v k) → s.MemoryRests f (tr j).i (tr j).phi → ∀ k < s.m,
      ((tr (j + 1)).i k = (tr j).i k ↔ ∀ c, (tr j).v (k + 1) c - (tr j).v k c = -(s.dun k * (s.r k *ᵥ (tr j).i k) c)
        - ((f k c).elim 0 fun M => (M.impedance 0).re) * (tr j).i k c) := by
    intro hv hr k hk
    rw [eq_comm, ← current_iff_drops R hD hdt hj hk (hlen k hk)]
    refine forall_congr' fun c => ?_
    rw [hdrop k hk c, hv k hk.le, hv (k + 1) hk]
    cases hf : f k c with
    | none =>
      show _ = (0 : ℝ) ↔ _ = _ - 0 * _
      constructor
      · intro h; linear_combination -h
      · intro h; linear_combination -h
    | some M =>
      show _ = modelDrop M (s.dun k) s.dt ((tr j).i k c) ((tr j).i k c) ((tr j).phi k c) ↔ _ = _ - (M.impedance 0).re * _
      rw [hmod hr k hk c M hf]
      constructor
      · intro h; linear_combination -h
      · intro h; linear_combination -h
  constructor
  · rintro ⟨hv, hi, hphi⟩
    have hr : s.MemoryRests f (tr j).i (tr j).phi := by
      intro k hk c σ
      cases hf : f k c with
      | none => rw [← hphi k hk, memory_bare R hD hj hf]; rfl
      | some M =>
        have h := memory_step R hD hdt hj hf (hlen k hk) σ
        rw [hphi k hk, hi k hk] at h
        have h1 : Complex.exp (M.pole σ * s.dt) - 1 ≠ 0 := sub_ne_zero.2 (hE k hk c M hf σ σ.2)
        show _ = -(M.residue (s.dun k) σ / M.pole σ) * ((tr j).i k c : ℂ)
        apply mul_left_cancel₀ h1
        linear_combination -h
    exact ⟨⟨fun k hk => (hcell hv hr k hk).1 (hi k hk), fun k h0 hk => (f3 k h0 hk).1 (hv k hk.le), f1.1 (hv 0 (by omega)),
      f2.1 (hv _ le_rfl)⟩, hr⟩
  · rintro ⟨h, hr⟩
    have hv : ∀ k ≤ s.m, (tr (j + 1)).v k = (tr j).v k := by
      intro k hk
      rcases Nat.eq_zero_or_pos k with rfl | h0
      · exact f1.2 h.first
      · rcases Nat.lt_or_ge k s.m with hlt | hge
        · exact (f3 k h0 hlt).2 (h.node k h0 hlt)
        · obtain rfl : k = s.m := by omega
          exact f2.2 h.last
    have hi : ∀ k < s.m, (tr (j + 1)).i k = (tr j).i k := fun k hk => (hcell hv hr k hk).2 (h.cell k hk)
    refine ⟨hv, hi, fun k hk => ?_⟩
    funext c σ
    have hr' := hr k hk c σ
    cases hf : f k c with
    | none => rw [hr', hf, memory_bare R hD hj hf]; rfl
    | some M =>
      rw [memory_step R hD hdt hj hf (hlen k hk) σ, hi k hk, hr', hf]
      show _ = -(M.residue (s.dun k) σ / M.pole σ) * ((tr j).i k c : ℂ)
      simp only [Option.elim_some]
      ring

theorem MTL.DCWith.congr (hm : 0 < s.m) {v i v' i' : ℕ → Col n} (h : s.DCWith f V0 V1 v i) (hv : ∀ k ≤ s.m, v' k = v k)
    (hi : ∀ k < s.m, i' k = i k) : s.DCWith f V0 V1 v' i' := by
  refine ⟨fun k hk => ?_, fun k h0 hk => ?_, ?_, ?_⟩
  · rw [hv k hk.le, hv (k + 1) hk, hi k hk]; exact h.cell k hk
  · rw [hi k hk, hi (k - 1) (by omega), hv k hk.le]; exact h.node k h0 hk
  · rw [hv 0 (by omega), hi 0 hm]; exact h.first
  · rw [hv _ le_rfl, hi _ (by omega)]; exact h.last

theorem steady_run (R : RunTrace s T s' N tr) (hD : s.conn.Equipped s.u f) (hdt : s.conn.dt = s.dt)
    (hlen : ∀ k < s.m, s.dun k = cellLength s.u k)
    (hE : ∀ k < s.m, ∀ c M, f k c = some M → ∀ q < p, Complex.exp (M.pole q * s.dt) ≠ 1) (hT : s.TermConsistent) (hm : 0 < s.m)
    (hc : s.Constant V0 V1) (hN : 0 < N) :
    (∀ j ≤ N, (∀ k ≤ s.m, (tr j).v k = s.v k) ∧ (∀ k < s.m, (tr j).i k = s.i k) ∧ ∀ k < s.m, (tr j).phi k = s.phi k) ↔
      s.DCWith f V0 V1 s.v s.i ∧ s.MemoryRests f s.i s.phi := by
  obtain ⟨hv0, hi0, hp0⟩ : (tr 0).v = s.v ∧ (tr 0).i = s.i ∧ (tr 0).phi = s.phi := by
    obtain ⟨lr, cg, -, -, h⟩ := R.start
    rw [h]
    exact ⟨rfl, rfl, rfl⟩
  have step := fun j (hj : j < N) => steady_step R hD hdt hlen hE hT hm hc hj
  constructor
  · intro h
    obtain ⟨a, b, d⟩ := h 1 hN
    have := (step 0 hN).1 ⟨fun k hk => by rw [hv0]; exact a k hk, fun k hk => by rw [hi0]; exact b k hk,
      fun k hk => by rw [hp0]; exact d k hk⟩
    rwa [hv0, hi0, hp0] at this
  · rintro ⟨h, hr⟩ j
    induction j with
    | zero => exact fun _ => ⟨fun k _ => by rw [hv0], fun k _ => by rw [hi0], fun k _ => by rw [hp0]⟩
    | succ j ih =>
      intro hj
      obtain ⟨a, b, d⟩ := ih (by omega)
      obtain ⟨a', b', d'⟩ := (step j (by omega)).2 ⟨h.congr hm a b, fun k hk c σ => by rw [d k hk, b k hk]; exact hr k hk c σ⟩
      exact ⟨fun k hk => (a' k hk).trans (a k hk), fun k hk => (b' k hk).trans (b k hk), fun k hk => (d' k hk).trans (d k hk)⟩

end

/-! ## C163 -/

theorem mem_of_placed {u : ℕ → V3} {m : ℕ} {items : List (V3 × Fin n × RationalModel)} {k : ℕ} {c : Fin n} {M : RationalModel}
    (h : placed u m items k c = some M) : ∃ e ∈ items, e.2.2 = M := by
  have key : ∀ (l : List (V3 × Fin n × RationalModel)) (f : ℕ → Fin n → Option RationalModel),
      l.foldl (fun f e k c => if k = nearest u m e.1 ∧ c = e.2.1 then some e.2.2 else f k c) f k c = some M →
      f k c = some M ∨ ∃ e ∈ l, e.2.2 = M := by
    intro l
    induction l with
    | nil => intro f h; exact Or.inl h
    | cons e l ih =>
      intro f h
      rcases ih _ h with h | ⟨e', he', rfl⟩
      · by_cases hk : k = nearest u m e.1 ∧ c = e.2.1
        · simp only [hk, and_self, if_true, Option.some.injEq] at h
          exact Or.inr ⟨e, List.mem_cons_self, h⟩
        · simp only [hk, if_false] at h
          exact Or.inl h
      · exact Or.inr ⟨e', List.mem_cons_of_mem _ he', rfl⟩
  rcases key items _ h with h | h
  · exact absurd h (by simp)
  · exact h

/-- **C163** A dispersive connector has the impedance of its rational model.  There is an impedance `Z`, which depends on the time
step only, tends to that of the model when the time step is reduced, and is that of the model at direct current for every time step,
with: whatever line the model was placed on, together with any other models, in every run in which the current through the cell is
`Re (I e^(z t))`, the voltage that the line itself leaves over is `Re (Z I e^(z t))`, in the middle of the step, but for the free
responses of the poles. -/
theorem C163_response (M : RationalModel) {z : ℂ} (h0 : ∀ q < M.polesReal.length, M.pole q ≠ 0)
    (h1 : ∀ q < M.polesReal.length, M.pole q ≠ z) (h2 : ∀ q < M.polesReal.length, M.pole q ≠ conj z) :
    ∃ Z : ℝ → ℂ, Tendsto Z (𝓝[>] 0) (𝓝 (M.seen z)) ∧
      (z = 0 → ∀ h : ℝ, (∀ q < M.polesReal.length, Complex.exp (M.pole q * h) ≠ 1) → Z h = M.seen 0) ∧
      ∀ {n p : ℕ} {s s₁ s' : MTL n p} {items : List (V3 × Fin n × RationalModel)} {T : ℝ} {N : ℕ} {tr : ℕ → MTL n p} {k : ℕ} {c : Fin n}
        {I : ℂ}, s.conn = Disp.new s.dt → s.addConnectors items = .ok s₁ → placed s.u s.m items k c = some M → k < s.m →
        s.dun k = cellLength s.u k → RunTrace s₁ T s' N tr →
        (∀ q ≤ N, (tr q).i k c = (I * Complex.exp (z * (q * s.dt))).re) →
        (∀ q < M.polesReal.length, Complex.exp (M.pole q * s.dt) ≠ Complex.exp (z * s.dt)) →
        (∀ q < M.polesReal.length, Complex.exp (M.pole q * s.dt) ≠ Complex.exp (conj z * s.dt)) →
        ∃ C : Fin p → ℂ, ∀ j < N, s.extraDrop (tr (j + 1)).v ((tr (j + 1)).i k) ((tr j).i k) (s.time + j * s.dt) k c =
          (Z s.dt * (I * Complex.exp (z * ((j + 1 / 2) * s.dt)))).re + (∑ σ, C σ * Complex.exp (M.pole σ * (j * s.dt))).re := by
  refine ⟨M.stepped z, tendsto_stepped M h0 h1 h2, ?_, ?_⟩
  · rintro rfl h hh
    exact stepped_dc M hh
  · intro n p s s₁ s' items T N tr k c I hs hadd hpl hk hlen R hi hr1 hr2
    obtain ⟨⟨D, rfl, hdt⟩, hE⟩ := addConnectors_equipped items (u := s.u) (m := s.m) rfl rfl (by rw [hs]; exact equipped_new _ _) hadd
    have hdt' : D.dt = s.dt := by rw [hdt, hs]; rfl
    exact response R hE hdt' hk hpl hlen hi hr1 hr2

/-- **C163** For a model with poles and residues in conjugate pairs the impedance for real signals is that of the model. -/
theorem C163_real {M : RationalModel} {p : ℕ} (hp : M.polesReal.length = p) {ρ : Equiv.Perm (Fin p)}
    (hpole : ∀ q, M.pole (ρ q) = conj (M.pole q)) (hres : ∀ q, M.residue 1 (ρ q) = conj (M.residue 1 q)) (z : ℂ) :
    M.seen z = M.impedance z := by
  have h : conj (M.impedance (conj z)) = M.impedance z := by
    unfold RationalModel.impedance
    rw [hp, Finset.sum_range, Finset.sum_range, map_add, map_add, map_mul, Complex.conj_ofReal, Complex.conj_ofReal, Complex.conj_conj, map_sum]
    congr 1
    rw [← Equiv.sum_comp ρ]
    refine Finset.sum_congr rfl fun q _ => ?_
    rw [hpole, hres, map_div₀, map_sub, Complex.conj_conj, Complex.conj_conj, Complex.conj_conj]
  unfold RationalModel.seen
  rw [h]
  ring

/-- **C163** At direct current a connector with decaying poles is a resistance, whatever the time step is: a line with connectors
and constant sources stays as it is through a run exactly if its voltages and currents solve the circuit in which each model is the
resistance `Re Z(0)`, and the memories are those of the currents. -/
theorem C163_steady {s s₁ s' : MTL n p} {items : List (V3 × Fin n × RationalModel)} {T : ℝ} {N : ℕ} {tr : ℕ → MTL n p} {V0 V1 : Col n}
    (hs : s.conn = Disp.new s.dt) (hadd : s.addConnectors items = .ok s₁) (hneg : ∀ e ∈ items, ∀ q < p, (e.2.2.pole q).re < 0)
    (hlen : ∀ k < s.m, s.dun k = cellLength s.u k) (R : RunTrace s₁ T s' N tr) (hT : s.TermConsistent) (hm : 0 < s.m)
    (hc : s.Constant V0 V1) (hN : 0 < N) :
    (∀ j ≤ N, (∀ k ≤ s.m, (tr j).v k = s.v k) ∧ (∀ k < s.m, (tr j).i k = s.i k) ∧ ∀ k < s.m, (tr j).phi k = s.phi k) ↔
      s.DCWith (placed s.u s.m items) V0 V1 s.v s.i ∧
      ∀ k < s.m, ∀ c, ∀ σ : Fin p, s.phi k c σ =
        (placed s.u s.m items k c).elim 0 fun M => -(M.residue (s.dun k) σ / M.pole σ) * s.i k c := by
  obtain ⟨⟨D, rfl, hdt⟩, hE⟩ := addConnectors_equipped items (u := s.u) (m := s.m) rfl rfl (by rw [hs]; exact equipped_new _ _) hadd
  have hdt' : D.dt = s.dt := by rw [hdt, hs]; rfl
  have hexp : ∀ k < s.m, ∀ c M, placed s.u s.m items k c = some M → ∀ q < p, Complex.exp (M.pole q * s.dt) ≠ 1 := by
    intro k _ c M hM q hq h
    obtain ⟨e, he, rfl⟩ := mem_of_placed hM
    have h3 : s.dt ≠ 0 := by rw [← hdt']; exact hE.dt _ _ _ hM
    have h4 := congrArg norm h
    rw [Complex.norm_exp, norm_one, Real.exp_eq_one_iff, Complex.re_mul_ofReal] at h4
    exact mul_ne_zero (hneg e he q hq).ne h3 h4
  have := steady_run (V0 := V0) (V1 := V1) R hE hdt' hlen hexp ⟨hT.det_left, hT.det_right, hT.left1, hT.left2, hT.right1, hT.right2⟩ hm
    ⟨hc.first, hc.last, hc.eL, hc.eT⟩ hN
  refine this.trans (and_congr ⟨fun h => ⟨h.cell, h.node, h.first, h.last⟩, fun h => ⟨h.cell, h.node, h.first, h.last⟩⟩ Iff.rfl)

/-! ### Non-vacuity: the demo line with a connector for `1/(s + 1)`, a resistance of one ohm at direct current, between two
terminations of one ohm, at rest with a third of an ampere -/

/-- The demo line with a source of one volt, at rest. -/
noncomputable def demoRest : MTL 1 1 :=
  { demoLine 1 with
    vSources := fun k _ _ => if k = 0 then 1 else 0
    v := fun k _ => if k = 0 then 2 / 3 else 1 / 3
    i := fun _ _ => 1 / 3
    phi := fun k _ _ => if k = 0 then 1 / 3 else 0 }

example : ∃ s₁, demoRest.addConnectors [(![0, 0, 0], 0, demoModel)] = .ok s₁ ∧ (∀ T, ∃ s', s₁.runUntil T = .ok s') ∧
    ∀ T s' N tr, RunTrace s₁ T s' N tr → ∀ j ≤ N, (∀ k ≤ 2, (tr j).v k = demoRest.v k) ∧ (∀ k < 2, (tr j).i k = demoRest.i k) ∧
      ∀ k < 2, (tr j).phi k = demoRest.phi k := by
  obtain ⟨D, hD, -, -, hd, he, h1, -⟩ := demo_connector
  have hD' : demoRest.addConnectors [(![0, 0, 0], 0, demoModel)] = .ok { demoRest with conn := D } := by
    unfold MTL.addDispersiveConnector at hD
    obtain ⟨D', a, b⟩ := bind_ok_iff.1 hD
    have hb : D' = D := by
      injection b with b
      exact congrArg MTL.conn b
    subst hb
    have h3 : demoRest.conn.addConnector demoRest.u demoRest.m ![0, 0, 0] 0 demoModel = .ok D' := a
    unfold MTL.addConnectors
    rw [List.foldlM_cons]
    refine bind_ok_iff.2 ⟨_, bind_ok_iff.2 ⟨_, h3, rfl⟩, rfl⟩
  have hnear : nearest demoRest.u demoRest.m ![0, 0, 0] = 0 := by
    have h3 := nearest_first (demoLine 1).u 2
    have h4 : (demoLine 1).u 0 = ![0, 0, 0] := (demoBare_u 1).1
    rwa [h4] at h3
  have hpl : ∀ (k : ℕ) (c : Fin 1), placed demoRest.u demoRest.m [(![0, 0, 0], 0, demoModel)] k c = if k = 0 then some demoModel else none := by
    intro k c
    have : c = 0 := Subsingleton.elim _ _
    subst this
    simp [placed, hnear]
  have hpole : demoModel.pole 0 = -1 := by simp [demoModel, RationalModel.pole]
  have hres : demoModel.residue 1 0 = 1 := by simp [demoModel, RationalModel.residue]
  have hZ : (demoModel.impedance 0).re = 1 := by
    have : demoModel.impedance 0 = 1 := by
      unfold RationalModel.impedance
      rw [show demoModel.polesReal.length = 1 from rfl, Finset.sum_range_one, hpole, hres]
      simp [demoModel]
    rw [this, Complex.one_re]
  refine ⟨_, hD', fun T => ?_, fun T s' N tr R => ?_⟩
  · obtain ⟨hrun, -⟩ := demo_connector_run hd he h1
    obtain ⟨s', h⟩ := hrun T
    have h' := (runUntil_success_iff T (demoWith D)).1 ⟨s', h⟩
    exact (runUntil_success_iff T _).2 h'
  · have hlen : ∀ k < demoRest.m, demoRest.dun k = cellLength demoRest.u k := by
      intro k hk
      have hk' : k < 2 := hk
      unfold cellLength norm3
      interval_cases k <;> simp [demoRest, demoLine, demoBare]
      norm_num
    have hT : demoRest.TermConsistent :=
      have h := demo_termConsistent 1
      ⟨h.det_left, h.det_right, h.left1, h.left2, h.right1, h.right2⟩
    rcases Nat.eq_zero_or_pos N with rfl | hN
    · intro j hj
      obtain rfl : j = 0 := by omega
      obtain ⟨lr, cg, -, -, h⟩ := R.start
      rw [h]
      exact ⟨fun _ _ => rfl, fun _ _ => rfl, fun _ _ => rfl⟩
    refine (C163_steady (V0 := 1) (V1 := 0) rfl hD' ?_ hlen R hT Nat.zero_lt_two ⟨fun _ _ => rfl, fun _ _ => rfl, fun _ _ _ => rfl,
      fun _ _ _ => rfl⟩ hN).2 ⟨⟨?_, ?_, ?_, ?_⟩, ?_⟩
    · intro e he q hq
      obtain rfl : q = 0 := by omega
      rw [List.mem_singleton] at he
      rw [he, hpole]
      norm_num
    · intro k hk c
      have hk' : k < 2 := hk
      rw [hpl]
      interval_cases k
      · rw [if_pos rfl, Option.elim_some, hZ]
        simp [demoRest, demoLine, demoBare]
        norm_num
      · rw [if_neg one_ne_zero, Option.elim_none]
        simp [demoRest, demoLine, demoBare]
    · intro k _ _
      simp [demoRest, demoLine, demoBare]
    · funext c
      simp [demoRest, demoLine, demoBare]
      norm_num
    · funext c
      simp [demoRest, demoLine, demoBare]
    · intro k hk c σ
      have hk' : k < 2 := hk
      have : σ = 0 := Subsingleton.elim _ _
      subst this
      rw [hpl]
      interval_cases k
      · rw [if_pos rfl, Option.elim_some]
        have hdun : demoRest.dun 0 = 1 := by simp [demoRest, demoLine, demoBare]
        rw [hdun]
        show _ = -(demoModel.residue 1 0 / demoModel.pole 0) * _
        rw [hpole, hres]
        simp [demoRest]
      · rw [if_neg one_ne_zero, Option.elim_none]
        simp [demoRest]

end Mtln
