import Verif.Spec.ManagerCircuit
import Verif.Lemmas.Mean
import Verif.Props.ManagerSplit
import Verif.Props.ManagerSteady
import Verif.Props.ManagerGrowth

/-! # Long time means of the voltages and currents of managers -/

namespace Mtln

open Matrix

variable {n p N S : ℕ}

/-! ## Forward in a trace -/

/-- Bundles that differ in state and coefficients only. -/
def FreeBundle (b b' : AnyBundle p) : Prop := ∃ v i phi probes lr cg,
  b' = ⟨b.1, { b.2 with v := v, i := i, phi := phi, probes := probes, lr := lr, cg := cg }⟩

/-- Networks that differ in state and coefficients only. -/
def FreeLevel (e e' : ℕ × AnyNetwork) : Prop := ∃ v vPrev i X terms,
  e' = (e.1, ⟨e.2.1, e.2.2.1, { e.2.2.2 with v := v, vPrev := vPrev, i := i, X := X, terms := terms }⟩)

theorem FreeBundle.trans {a b c : AnyBundle p} (h : FreeBundle a b) (h' : FreeBundle b c) : FreeBundle a c := by
  obtain ⟨_, _, _, _, _, _, rfl⟩ := h
  obtain ⟨_, _, _, _, _, _, rfl⟩ := h'
  exact ⟨_, _, _, _, _, _, rfl⟩

theorem FreeLevel.trans {a b c : ℕ × AnyNetwork} (h : FreeLevel a b) (h' : FreeLevel b c) : FreeLevel a c := by
  obtain ⟨_, _, _, _, _, rfl⟩ := h
  obtain ⟨_, _, _, _, _, rfl⟩ := h'
  exact ⟨_, _, _, _, _, rfl⟩

/-- What a step does to a network of resistors and capacitors. -/
def MovedLevel (time dt : ℝ) (e e' : ℕ × AnyNetwork) : Prop := ∃ v' X' i', e.2.2.2.NodeEquations time dt v' X' ∧
  e' = (e.1, ⟨e.2.1, e.2.2.1, { e.2.2.2 with v := v', vPrev := e.2.2.2.v, i := i', X := X' }⟩)

/-- What a step does to a bundle. -/
def MovedBundle (time dt : ℝ) (b b' : AnyBundle p) : Prop := ∃ ws, ∃ c, b.2.stepWith time dt ws = .ok c ∧ b' = ⟨b.1, c⟩

theorem MovedBundle.free {time dt : ℝ} {b b' : AnyBundle p} (h : MovedBundle time dt b b') : FreeBundle b b' := by
  obtain ⟨ws, c, hc, rfl⟩ := h
  obtain ⟨_, _, _, _, rfl⟩ := MTLD.stepWith_config hc
  exact ⟨_, _, _, _, _, _, rfl⟩

theorem MovedLevel.free {time dt : ℝ} {e e' : ℕ × AnyNetwork} (h : MovedLevel time dt e e') : FreeLevel e e' := by
  obtain ⟨_, _, _, _, rfl⟩ := h
  exact ⟨_, _, _, _, _, rfl⟩

theorem MTLN.step_moved {M M' : MTLN p} (h : M.step = .ok M') (hr : M.Ready) :
    List.Forall₂ (MovedBundle M.time M.dt) M.bundles M'.bundles ∧
    List.Forall₂ (List.Forall₂ (MovedLevel M.time M.dt)) M.networks M'.networks := by
  obtain ⟨nws1, bs2, nws2, h1, hvalid, h3, h4, rfl⟩ := MTLN.step_ok_iff.1 h
  constructor
  · refine forall₂_imp_mem (mapPy_ok_iff.1 h3) fun b hb b' _ hs => ?_
    obtain ⟨c, hc, rfl⟩ := onBundle_ok_iff.1 hs
    exact ⟨_, c, hc, rfl⟩
  have k1 : List.Forall₂ (List.Forall₂ fun e e' => ∃ v' X', e.2.2.2.NodeEquations M.time M.dt v' X' ∧
      e' = (e.1, ⟨e.2.1, e.2.2.1, { e.2.2.2 with v := v', vPrev := e.2.2.2.v, X := X' }⟩)) M.networks nws1 := by
    refine forall₂_imp_mem (mapPy_ok_iff.1 h1) fun nwd hn nwd1 _ hs => ?_
    refine forall₂_imp_mem (mapPy_ok_iff.1 hs) fun e he e1 _ hs' => ?_
    simp only [bind_ok_iff, onAny_ok_iff, Except.ok.injEq] at hs'
    obtain ⟨_, ⟨c, hc, rfl⟩, rfl⟩ := hs'
    obtain ⟨-, v', X', e1, -, rfl⟩ := (advance_ok_iff (hr.networks nwd hn e he)).1 hc
    exact ⟨v', X', e1, rfl⟩
  have k2 : List.Forall₂ (List.Forall₂ fun e e' => ∃ i' : Fin e.2.1 → ℝ,
      e' = (e.1, ⟨e.2.1, e.2.2.1, { e.2.2.2 with i := i' }⟩)) nws1 nws2 := by
    refine forall₂_imp_mem (mapPy_ok_iff.1 h4) fun nwd hn nwd1 _ hs => ?_
    refine forall₂_imp_mem (mapPy_ok_iff.1 hs) fun e he e1 _ hs' => ?_
    simp only [bind_ok_iff, onAny_ok_iff, Except.ok.injEq] at hs'
    obtain ⟨_, ⟨c, hc, rfl⟩, rfl⟩ := hs'
    obtain ⟨i', hi, rfl⟩ := updateCurrents_ok_iff.1 hc
    exact ⟨i', rfl⟩
  refine forall₂_comp_mem k1 k2 fun nwd hn _ _ r r' => forall₂_comp_mem r r' fun e he _ _ q q' => ?_
  obtain ⟨v', X', e1, rfl⟩ := q
  obtain ⟨i', rfl⟩ := q'
  exact ⟨v', X', i', e1, rfl⟩

theorem MTLN.start_free {T dt : ℝ} {M M0 : MTLN p} {k : ℕ} (h : M.start T dt = .ok (k, M0)) :
    List.Forall₂ FreeBundle (M.overrideDt dt).bundles M0.bundles ∧
    List.Forall₂ (List.Forall₂ FreeLevel) (M.overrideDt dt).networks M0.networks := by
  obtain ⟨k1, k2, -, -⟩ := MTLN.start_rel h
  refine ⟨k1.imp fun b b' hb => ?_, k2.imp fun _ _ r => r.imp fun e e' he => ?_⟩
  · obtain ⟨_, _, _, _, _, rfl⟩ := hb
    exact ⟨_, _, _, _, _, _, rfl⟩
  · obtain ⟨nw', hc, rfl⟩ := he
    unfold Network.computeVTerms at hc
    simp only [bind_ok_iff, raiseIf_ok_iff, Except.ok.injEq] at hc
    obtain ⟨_, -, _, -, rfl⟩ := hc
    exact ⟨_, _, _, _, _, rfl⟩

/-! ## An endless trace -/

/-- The states of a run without end. -/
structure Endless (N : MTLN p) (tr : ℕ → MTLN p) : Prop where
  step : ∀ j, (tr j).step = .ok (tr (j + 1))
  sound : ∀ j, (tr j).Sound
  time : ∀ j : ℕ, (tr j).time = N.time + j * N.dt
  dt : ∀ j, (tr j).dt = N.dt
  bundles : ∀ j, List.Forall₂ FreeBundle N.bundles (tr j).bundles
  networks : ∀ j, List.Forall₂ (List.Forall₂ FreeLevel) N.networks (tr j).networks

theorem MTLN.Startable.endless {M : MTLN p} {dt : ℝ} (h : M.Startable dt) (hdt : 0 < M.runDt dt)
    (hp : (M.overrideDt dt).Passive) (hl : (M.overrideDt dt).Linked) :
    ∃ tr, Endless (M.overrideDt dt) tr ∧ (∃ k, M.start 0 dt = .ok (k, tr 0)) ∧
      ∀ j, ∃ T M', M.runUntil T dt = .ok M' ∧ (tr j).Twin M' := by
  classical
  obtain ⟨k, M0, h0, hr⟩ := h.start 0
  obtain ⟨g, hg⟩ : ∃ g : MTLN p → MTLN p, ∀ A : MTLN p, A.Runnable → A.step = .ok (g A) ∧ (g A).Runnable := by
    refine ⟨fun A => if hA : A.Runnable then hA.step.choose else A, fun A hA => ?_⟩
    simp only [dif_pos hA]
    exact hA.step.choose_spec
  obtain ⟨tr, htr⟩ : ∃ tr : ℕ → MTLN p, tr = fun j => g^[j] M0 := ⟨_, rfl⟩
  have htr0 : tr 0 = M0 := by rw [htr]; rfl
  have hrun : ∀ j, (tr j).Runnable := by
    intro j
    induction j with
    | zero => rw [htr0]; exact hr
    | succ j ih =>
      have := (hg _ ih).2
      rw [htr] at this ⊢
      simp only [Function.iterate_succ', Function.comp] at this ⊢
      exact this
  have hstep : ∀ j, (tr j).step = .ok (tr (j + 1)) := by
    intro j
    have := (hg _ (hrun j)).1
    rw [this, htr]
    simp only [Function.iterate_succ', Function.comp]
  obtain ⟨hs, -, ht, hd, -⟩ := MTLN.start_sound h0 hdt hp hl
  have hs0 : (tr 0).Sound := by rw [htr0]; exact hs
  have hsound : ∀ j, (tr j).Sound := fun j => (sound_trace hs0 (fun i _ => hstep i) j le_rfl).1
  refine ⟨tr, ⟨hstep, hsound, fun j => ?_, fun j => ?_, fun j => ?_, fun j => ?_⟩, ⟨k, by rw [htr0]; exact h0⟩, fun j => ?_⟩
  · have := (sound_trace hs0 (fun i _ => hstep i) j le_rfl).2.1
    rw [this, htr0, ht, hd]
  · have := (sound_trace hs0 (fun i _ => hstep i) j le_rfl).2.2.1
    rw [this, htr0, hd]
  · induction j with
    | zero => rw [htr0]; exact (MTLN.start_free h0).1
    | succ j ih =>
      exact forall₂_comp_mem ih (MTLN.step_moved (hstep j) (hsound j).ready).1 fun a _ b _ r r' => r.trans r'.free
  · induction j with
    | zero => rw [htr0]; exact (MTLN.start_free h0).2
    | succ j ih =>
      exact forall₂_comp_mem ih (MTLN.step_moved (hstep j) (hsound j).ready).2 fun a _ b _ r r' =>
        forall₂_comp_mem r r' fun a _ b _ q q' => q.trans q'.free
  · have hfl : ⌊((j : ℝ) * M.runDt dt) / M.runDt dt⌋.toNat = j := by
      rw [mul_div_cancel_right₀ _ hdt.ne']
      simp
    obtain ⟨M0', e1, e2⟩ := MTLN.start_twin h0 ((j : ℝ) * M.runDt dt)
    have hit : ∀ j, iterPy MTLN.step j (tr 0) = .ok (tr j) := by
      have key : ∀ j i, iterPy MTLN.step j (tr i) = .ok (tr (i + j)) := by
        intro j
        induction j with
        | zero => intro i; rfl
        | succ j ih =>
          intro i
          simp only [iterPy, bind_ok_iff]
          refine ⟨_, hstep i, ?_⟩
          rw [ih, Nat.add_assoc, Nat.add_comm 1 j]
      intro j
      simpa using key j 0
    have hj := hit j
    rw [htr0] at hj
    obtain ⟨M', f1, f2⟩ := e2.iter hj
    refine ⟨(j : ℝ) * M.runDt dt, M', runUntil_iter.2 ⟨M0', ?_, ?_⟩, f2⟩
    · exact e1
    · rw [hfl]; exact f1

/-! ## Means along the trace -/

theorem nodeV_eq {bs : List (AnyBundle p)} (hn : (bs.map fun b => b.2.name).Nodup) {b : AnyBundle p} (hb : b ∈ bs)
    (k : ℕ) (j : Fin b.1) : nodeV bs b.2.name k j = b.2.v k j := by
  unfold nodeV
  simp only [findBundle_mem hn b hb, j.2, dif_pos]

theorem cellI_eq {bs : List (AnyBundle p)} (hn : (bs.map fun b => b.2.name).Nodup) {b : AnyBundle p} (hb : b ∈ bs)
    (k : ℕ) (j : Fin b.1) : cellI bs b.2.name k j = b.2.i k j := by
  unfold cellI
  simp only [findBundle_mem hn b hb, j.2, dif_pos]

theorem find_free {bs bs' : List (AnyBundle p)} (h : List.Forall₂ FreeBundle bs bs') (name : String) :
    (findBundle bs name = none ∧ findBundle bs' name = none) ∨ ∃ b b', findBundle bs name = some b ∧
      findBundle bs' name = some b' ∧ FreeBundle b b' := by
  induction h with
  | nil => exact .inl ⟨rfl, rfl⟩
  | @cons b b' l l' hr _ ih =>
    have hn : b'.2.name = b.2.name := by obtain ⟨_, _, _, _, _, _, rfl⟩ := hr; rfl
    unfold findBundle at ih ⊢
    by_cases e : b.2.name = name
    · right
      refine ⟨b, b', ?_, ?_, hr⟩
      · simp [e]
      · simp [hn, e]
    · rw [List.find?_cons_of_neg (by simpa using e), List.find?_cons_of_neg (by simpa [hn] using e)]
      exact ih

theorem find_withState (V I : String → ℕ → ℕ → ℝ) (bs : List (AnyBundle p)) (name : String) :
    findBundle (bs.map (AnyBundle.withState V I)) name = (findBundle bs name).map (AnyBundle.withState V I) := by
  unfold findBundle
  rw [List.find?_map]
  rfl

/-- Voltages and currents of the trace stay below `K`. -/
def Endless.Below (tr : ℕ → MTLN p) (K : ℝ) : Prop := ∀ j, ∀ b ∈ (tr j).bundles,
  (∀ k ≤ b.2.m, ∀ a, |b.2.v k a| ≤ K) ∧ ∀ k < b.2.m, ∀ a, |b.2.i k a| ≤ K

/-- The mean of a sequence, if there is one. -/
noncomputable def timeMean (x : ℕ → ℝ) : ℝ := Classical.epsilon (IsMean x)

theorem timeMean_spec {x : ℕ → ℝ} {K : ℝ} (h : ∀ n, |x n| ≤ K) : IsMean x (timeMean x) :=
  Classical.epsilon_spec (IsMean.exists h)

/-- The means of the voltages. -/
noncomputable def meanV (tr : ℕ → MTLN p) (name : String) (k a : ℕ) : ℝ := timeMean fun j => nodeV (tr j).bundles name k a

/-- The means of the currents. -/
noncomputable def meanI (tr : ℕ → MTLN p) (name : String) (k a : ℕ) : ℝ := timeMean fun j => cellI (tr j).bundles name k a

section Trace

variable {M : MTLN p} {tr : ℕ → MTLN p} {K : ℝ}

theorem Endless.at (h : Endless M tr) {b : AnyBundle p} (hb : b ∈ M.bundles) (j : ℕ) : ∃ c : MTLD b.1 p,
    (⟨b.1, c⟩ : AnyBundle p) ∈ (tr j).bundles ∧ FreeBundle b ⟨b.1, c⟩ ∧ c.name = b.2.name := by
  obtain ⟨b', hb', v, i, phi, probes, lr, cg, rfl⟩ := forall₂_mem_left (h.bundles j) b hb
  exact ⟨_, hb', ⟨v, i, phi, probes, lr, cg, rfl⟩, rfl⟩

theorem Endless.boundV (h : Endless M tr) (hK : Endless.Below tr K) {b : AnyBundle p} (hb : b ∈ M.bundles) {k : ℕ}
    (hk : k ≤ b.2.m) (a : Fin b.1) (j : ℕ) : |nodeV (tr j).bundles b.2.name k a| ≤ K := by
  obtain ⟨c, hc, ⟨v, i, phi, probes, lr, cg, hf⟩, hn⟩ := h.at hb j
  have := nodeV_eq (h.sound j).passive.names hc k a
  rw [hn] at this
  simp only at this
  rw [this]
  refine (hK j _ hc).1 k ?_ a
  simp only [Sigma.mk.injEq, heq_eq_eq, true_and] at hf
  rw [hf]; exact hk

theorem Endless.boundI (h : Endless M tr) (hK : Endless.Below tr K) {b : AnyBundle p} (hb : b ∈ M.bundles) {k : ℕ}
    (hk : k < b.2.m) (a : Fin b.1) (j : ℕ) : |cellI (tr j).bundles b.2.name k a| ≤ K := by
  obtain ⟨c, hc, ⟨v, i, phi, probes, lr, cg, hf⟩, hn⟩ := h.at hb j
  have := cellI_eq (h.sound j).passive.names hc k a
  rw [hn] at this
  simp only at this
  rw [this]
  refine (hK j _ hc).2 k ?_ a
  simp only [Sigma.mk.injEq, heq_eq_eq, true_and] at hf
  rw [hf]; exact hk

theorem Endless.meanV (h : Endless M tr) (hK : Endless.Below tr K) {b : AnyBundle p} (hb : b ∈ M.bundles) {k : ℕ}
    (hk : k ≤ b.2.m) (q : ℕ) : IsMeanCol (fun j (a : Fin b.1) => nodeV (tr (j + q)).bundles b.2.name k a)
      (fun a => Mtln.meanV tr b.2.name k a) := fun a => (timeMean_spec (h.boundV hK hb hk a)).shifts (h.boundV hK hb hk a) q

theorem Endless.meanI (h : Endless M tr) (hK : Endless.Below tr K) {b : AnyBundle p} (hb : b ∈ M.bundles) {k : ℕ}
    (hk : k < b.2.m) (q : ℕ) : IsMeanCol (fun j (a : Fin b.1) => cellI (tr (j + q)).bundles b.2.name k a)
      (fun a => Mtln.meanI tr b.2.name k a) := fun a => (timeMean_spec (h.boundI hK hb hk a)).shifts (h.boundI hK hb hk a) q

/-- The means of the end voltages and currents are the end voltages and currents of the means. -/
theorem Endless.ends (h : Endless M tr) (hM : ∀ b ∈ M.bundles, 0 < b.2.m) (hK : Endless.Below tr K) (x : End) (q : ℕ) :
    IsMean (fun j => endV (tr (j + q)).bundles x) (endV (M.withState (Mtln.meanV tr) (Mtln.meanI tr)).bundles x) ∧
    IsMean (fun j => endI (tr (j + q)).bundles x) (endI (M.withState (Mtln.meanV tr) (Mtln.meanI tr)).bundles x) := by
  have hz : IsMean (fun _ => (0 : ℝ)) 0 := .const 0
  have hw : (M.withState (Mtln.meanV tr) (Mtln.meanI tr)).bundles =
    M.bundles.map (AnyBundle.withState (Mtln.meanV tr) (Mtln.meanI tr)) := rfl
  rw [hw]
  cases hf : findBundle M.bundles x.bundle with
  | none =>
    have h0 : ∀ j, findBundle (tr j).bundles x.bundle = none := by
      intro j
      rcases find_free (h.bundles j) x.bundle with ⟨-, e⟩ | ⟨b, b', e, -⟩
      · exact e
      · rw [hf] at e; cases e
    unfold endV endI
    simp only [find_withState, hf, h0, Option.map_none]
    exact ⟨hz, hz⟩
  | some b =>
    obtain ⟨hb, hname⟩ := findBundle_some hf
    by_cases hrow : x.row < b.1
    · have hm := hM b hb
      have hnode : x.side.node b.2.m ≤ b.2.m := by cases x.side <;> simp [Side.node]
      have hcell : x.side.cell b.2.m < b.2.m := by cases x.side <;> simp [Side.cell] <;> omega
      have e : ∀ j, endV (tr j).bundles x = nodeV (tr j).bundles b.2.name (x.side.node b.2.m) x.row ∧
          endI (tr j).bundles x = x.side.factor * cellI (tr j).bundles b.2.name (x.side.cell b.2.m) x.row := by
        intro j
        rcases find_free (h.bundles j) x.bundle with ⟨e, -⟩ | ⟨b0, b', e, e', v, i, phi, probes, lr, cg, rfl⟩
        · rw [hf] at e; cases e
        · rw [hf] at e
          obtain rfl := Option.some.inj e
          unfold endV endI nodeV cellI
          rw [hname, e']
          simp only [hrow, dif_pos]
          trivial
      have ev : endV (M.bundles.map (AnyBundle.withState (Mtln.meanV tr) (Mtln.meanI tr))) x =
          Mtln.meanV tr b.2.name (x.side.node b.2.m) x.row := by
        unfold endV
        rw [find_withState, hf]
        simp only [Option.map_some, AnyBundle.withState, hrow, dif_pos]
      have ei : endI (M.bundles.map (AnyBundle.withState (Mtln.meanV tr) (Mtln.meanI tr))) x =
          x.side.factor * Mtln.meanI tr b.2.name (x.side.cell b.2.m) x.row := by
        unfold endI
        rw [find_withState, hf]
        simp only [Option.map_some, AnyBundle.withState, hrow, dif_pos]
      simp only [e, ev, ei]
      exact ⟨h.meanV hK hb hnode q ⟨x.row, hrow⟩, (h.meanI hK hb hcell q ⟨x.row, hrow⟩).mul _⟩
    · have e : ∀ j, endV (tr j).bundles x = 0 ∧ endI (tr j).bundles x = 0 := by
        intro j
        rcases find_free (h.bundles j) x.bundle with ⟨e, -⟩ | ⟨b0, b', e, e', v, i, phi, probes, lr, cg, rfl⟩
        · rw [hf] at e; cases e
        · rw [hf] at e
          obtain rfl := Option.some.inj e
          unfold endV endI
          rw [e']
          simp only [hrow]
          simp
      simp only [e]
      unfold endV endI
      rw [find_withState, hf]
      simp only [Option.map_some, AnyBundle.withState, hrow, dif_neg, not_false_eq_true]
      exact ⟨hz, hz⟩

theorem Endless.col (h : Endless M tr) {b : AnyBundle p} {j : ℕ} {c : MTLD b.1 p}
    (hc : (⟨b.1, c⟩ : AnyBundle p) ∈ (tr j).bundles) (hn : c.name = b.2.name) (k : ℕ) :
    c.v k = (fun a : Fin b.1 => nodeV (tr j).bundles b.2.name k a) ∧
    c.i k = fun a : Fin b.1 => cellI (tr j).bundles b.2.name k a := by
  constructor
  · funext a
    have := nodeV_eq (h.sound j).passive.names hc k a
    rw [← hn]
    exact this.symm
  · funext a
    have := cellI_eq (h.sound j).passive.names hc k a
    rw [← hn]
    exact this.symm

/-- The means of a bundle with constant sources solve the circuit. -/
theorem Endless.bundle_dc (h : Endless M tr) (hK : Endless.Below tr K) {t₀ : ℝ} (hc : M.ConstantFrom t₀) (hl : M.Lumped)
    (hd : 0 < M.dt) {b : AnyBundle p} (hb : b ∈ M.bundles) :
    (AnyBundle.withState (Mtln.meanV tr) (Mtln.meanI tr) b).2.DC t₀ := by
  obtain ⟨q, hq⟩ := exists_nat_ge ((t₀ - M.time + 2 * M.dt) / M.dt)
  rw [div_le_iff₀ hd] at hq
  have ht : ∀ j : ℕ, t₀ ≤ (tr (j + q)).time - 2 * M.dt := by
    intro j
    rw [h.time]
    have : (0 : ℝ) ≤ j * M.dt := by positivity
    push_cast
    nlinarith
  have hmove : ∀ j : ℕ, ∃ c c' : MTLD b.1 p, (⟨b.1, c⟩ : AnyBundle p) ∈ (tr (j + q)).bundles ∧
      (⟨b.1, c'⟩ : AnyBundle p) ∈ (tr (j + q + 1)).bundles ∧ FreeBundle b ⟨b.1, c⟩ ∧ c.name = b.2.name ∧
      c'.name = b.2.name ∧ ∃ ws, c.stepWith (tr (j + q)).time M.dt ws = .ok c' := by
    intro j
    obtain ⟨c, hcm, hf, hn⟩ := h.at hb (j + q)
    obtain ⟨b', hb', ws, c', hs, rfl⟩ := forall₂_mem_left (MTLN.step_moved (h.step (j + q)) (h.sound (j + q)).ready).1 _ hcm
    rw [h.dt] at hs
    exact ⟨c, c', hcm, hb', hf, hn, (stepWith_name hs).trans hn, ws, hs⟩
  obtain ⟨hL, hT⟩ := And.intro (fun t ht k => funext fun x => ((hc.bundles b hb t ht).1 k x))
    (fun t ht k => funext fun x => ((hc.bundles b hb t ht).2 k x))
  refine ⟨fun k hk => ?_, fun k h0 hk => ?_⟩
  · have hk : k < b.2.m := hk
    have key : ∀ j : ℕ, b.2.dun k • ((1 / b.2.dt) • ((b.2.l k + b.2.tz.e k) *ᵥ
          ((fun a : Fin b.1 => cellI (tr (j + (q + 1))).bundles b.2.name k a) - fun a : Fin b.1 => cellI (tr (j + q)).bundles b.2.name k a))
        + (1 / 2 : ℝ) • ((b.2.r k + b.2.tz.d k) *ᵥ
          ((fun a : Fin b.1 => cellI (tr (j + (q + 1))).bundles b.2.name k a) + fun a : Fin b.1 => cellI (tr (j + q)).bundles b.2.name k a))) =
        -((fun a : Fin b.1 => nodeV (tr (j + (q + 1))).bundles b.2.name (k + 1) a) -
            fun a : Fin b.1 => nodeV (tr (j + (q + 1))).bundles b.2.name k a)
          - (fun a => b.2.eT (k + 1) a t₀ - b.2.eT k a t₀) + b.2.dun k • (fun a => b.2.eL k a t₀) := by
      intro j
      obtain ⟨c, c', hcm, hcm', ⟨v, i, phi, probes, lr, cg, hf⟩, hn, hn', ws, hs⟩ := hmove j
      have hready := (h.sound (j + q)).ready.bundles _ hcm
      have := ((MTLD.stepWith_equations hready hs).2 k (by
        simp only [Sigma.mk.injEq, heq_eq_eq, true_and] at hf
        rw [hf]; exact hk) (c'.i k)).2 rfl
      obtain ⟨e1, e2⟩ := h.col hcm hn k
      obtain ⟨e3, e4⟩ := h.col hcm' hn' k
      obtain ⟨e5, e6⟩ := h.col hcm' hn' (k + 1)
      rw [Nat.add_assoc] at e3 e4 e5
      rw [← e4, ← e2, ← e3, ← e5]
      obtain ⟨l1, l2, l3⟩ := hl b hb k hk
      simp only [Sigma.mk.injEq, heq_eq_eq, true_and] at hf
      have f1 : c.dun = b.2.dun ∧ c.dt = b.2.dt ∧ c.l = b.2.l ∧ c.r = b.2.r ∧ c.tz = b.2.tz ∧ c.eL = b.2.eL ∧ c.eT = b.2.eT := by
        rw [hf]; exact ⟨rfl, rfl, rfl, rfl, rfl, rfl, rfl⟩
      obtain ⟨f1, f2, f3, f4, f5, f6, f7⟩ := f1
      have hist : b.2.tz.q3phi c.phi k = 0 := by
        funext x
        simp [Disp.q3phi, l3, QEntry.val, poleSum]
      unfold CurrentEq at this
      rw [f1, f2, f3, f4, f5, f6, f7, l1, l2, hist] at this
      simp only [zero_mulVec, add_zero] at this
      rw [this]
      have t1 := ht j
      rw [show (fun a => b.2.eT (k + 1) a (tr (j + q)).time - b.2.eT k a (tr (j + q)).time) =
        fun a => b.2.eT (k + 1) a t₀ - b.2.eT k a t₀ from funext fun a => by
          rw [(hc.bundles b hb _ (by linarith)).2 (k + 1) a, (hc.bundles b hb _ (by linarith)).2 k a],
        show (fun a => b.2.eL k a ((tr (j + q)).time + M.dt / 2)) = fun a => b.2.eL k a t₀ from funext fun a =>
          (hc.bundles b hb _ (by linarith)).1 k a,
        show (fun a => b.2.eL k a ((tr (j + q)).time - M.dt / 2)) = fun a => b.2.eL k a t₀ from funext fun a =>
          (hc.bundles b hb _ (by linarith)).1 k a, half_double]
    have hi := h.meanI hK hb hk q
    have hi' := h.meanI hK hb hk (q + 1)
    have hv := h.meanV hK hb hk.le (q + 1)
    have hv' := h.meanV hK hb (k := k + 1) hk (q + 1)
    have m1 := ((((hi'.sub hi).mulVec (b.2.l k + b.2.tz.e k)).smul (1 / b.2.dt)).add
      (((hi'.add hi).mulVec (b.2.r k + b.2.tz.d k)).smul (1 / 2))).smul (b.2.dun k)
    have m2 := ((hv'.sub hv).neg.sub (IsMeanCol.const fun a => b.2.eT (k + 1) a t₀ - b.2.eT k a t₀)).add
      (IsMeanCol.const (b.2.dun k • fun a => b.2.eL k a t₀))
    simp only [key] at m1
    have := m1.unique m2
    simp only [sub_self, mulVec_zero, smul_zero, zero_add] at this
    rw [← mulVec_smul, half_double] at this
    show ((fun a : Fin b.1 => Mtln.meanV tr b.2.name (k + 1) a) - fun a : Fin b.1 => Mtln.meanV tr b.2.name k a) +
      (fun a => b.2.eT (k + 1) a t₀ - b.2.eT k a t₀) = b.2.dun k • ((fun a => b.2.eL k a t₀) - (b.2.r k + b.2.tz.d k) *ᵥ
        fun a : Fin b.1 => Mtln.meanI tr b.2.name k a)
    rw [smul_sub, this]
    abel
  · have hk : k < b.2.m := hk
    have key : ∀ j : ℕ, ((b.2.dun (k - 1) + b.2.dun k) / 2) • ((1 / b.2.dt) • (b.2.c k *ᵥ
          ((fun a : Fin b.1 => nodeV (tr (j + (q + 1))).bundles b.2.name k a) - fun a : Fin b.1 => nodeV (tr (j + q)).bundles b.2.name k a))
        + (1 / 2 : ℝ) • (b.2.g k *ᵥ
          ((fun a : Fin b.1 => nodeV (tr (j + (q + 1))).bundles b.2.name k a) + fun a : Fin b.1 => nodeV (tr (j + q)).bundles b.2.name k a))) =
        -((fun a : Fin b.1 => cellI (tr (j + q)).bundles b.2.name k a) -
            fun a : Fin b.1 => cellI (tr (j + q)).bundles b.2.name (k - 1) a) := by
      intro j
      obtain ⟨c, c', hcm, hcm', ⟨v, i, phi, probes, lr, cg, hf⟩, hn, hn', ws, hs⟩ := hmove j
      have hready := (h.sound (j + q)).ready.bundles _ hcm
      simp only [Sigma.mk.injEq, heq_eq_eq, true_and] at hf
      have := ((MTLD.stepWith_equations hready hs).1 k h0 (by rw [hf]; exact hk) (c'.v k)).2 rfl
      obtain ⟨e1, e2⟩ := h.col hcm hn k
      obtain ⟨e3, e4⟩ := h.col hcm' hn' k
      obtain ⟨e5, e6⟩ := h.col hcm hn (k - 1)
      rw [Nat.add_assoc] at e3
      rw [← e3, ← e1, ← e2, ← e6]
      have f1 : c.dun = b.2.dun ∧ c.dt = b.2.dt ∧ c.c = b.2.c ∧ c.g = b.2.g ∧ c.eT = b.2.eT := by
        rw [hf]; exact ⟨rfl, rfl, rfl, rfl, rfl⟩
      obtain ⟨f1, f2, f3, f4, f5⟩ := f1
      unfold VoltageEq at this
      have t1 := ht j
      rw [f1, f2, f3, f4, f5, show (fun a => b.2.eT k a (tr (j + q)).time - b.2.eT k a ((tr (j + q)).time - M.dt)) = 0 from
        funext fun a => by
          rw [(hc.bundles b hb (tr (j + q)).time (by linarith)).2 k a, (hc.bundles b hb ((tr (j + q)).time - M.dt) (by linarith)).2 k a, sub_self]
          rfl] at this
      simp only [mulVec_zero, smul_zero, add_zero, sub_zero] at this
      exact this
    have hv := h.meanV hK hb hk.le q
    have hv' := h.meanV hK hb hk.le (q + 1)
    have hi := h.meanI hK hb hk q
    have hi' := h.meanI hK hb (k := k - 1) (by omega) q
    have m1 := ((((hv'.sub hv).mulVec (b.2.c k)).smul (1 / b.2.dt)).add
      (((hv'.add hv).mulVec (b.2.g k)).smul (1 / 2))).smul ((b.2.dun (k - 1) + b.2.dun k) / 2)
    have m2 := (hi.sub hi').neg
    simp only [key] at m1
    have := m1.unique m2
    simp only [sub_self, mulVec_zero, smul_zero, zero_add] at this
    rw [← mulVec_smul, half_double] at this
    show ((fun a : Fin b.1 => Mtln.meanI tr b.2.name k a) - fun a : Fin b.1 => Mtln.meanI tr b.2.name (k - 1) a) =
      -(((b.2.dun (k - 1) + b.2.dun k) / 2) • (b.2.g k *ᵥ fun a : Fin b.1 => Mtln.meanV tr b.2.name k a))
    rw [this, neg_neg]

/-- The networks of the trace, and their voltages in the step before. -/
theorem Endless.level (h : Endless M tr) {nwd : NetworkD} (hn : nwd ∈ M.networks) {e : ℕ × AnyNetwork} (he : e ∈ nwd) :
    ∀ j, ∃ nwd' ∈ (tr j).networks, ∃ nw : Network e.2.1 e.2.2.1, ((e.1, ⟨e.2.1, e.2.2.1, nw⟩) : ℕ × AnyNetwork) ∈ nwd' ∧
      (∃ v vPrev i X terms, nw = { e.2.2.2 with v := v, vPrev := vPrev, i := i, X := X, terms := terms }) ∧
      ∀ j', j = j' + 1 → ∀ a, nw.vPrev a = endV (tr j').bundles (e.2.2.2.nodes a).end' := by
  intro j
  induction j with
  | zero =>
    obtain ⟨nwd', hn', hr⟩ := forall₂_mem_left (h.networks 0) nwd hn
    obtain ⟨e', he', v, vP, i, X, terms, rfl⟩ := forall₂_mem_left hr e he
    exact ⟨nwd', hn', _, he', ⟨v, vP, i, X, terms, rfl⟩, fun j' hj => by omega⟩
  | succ j ih =>
    obtain ⟨nwd1, hn1, nw, he1, ⟨v, vP, i, X, terms, rfl⟩, -⟩ := ih
    obtain ⟨nwd2, hn2, hr⟩ := forall₂_mem_left (MTLN.step_moved (h.step j) (h.sound j).ready).2 _ hn1
    obtain ⟨e2, he2, v', X', i', -, rfl⟩ := forall₂_mem_left hr _ he1
    refine ⟨nwd2, hn2, _, he2, ⟨_, _, _, _, _, rfl⟩, fun j' hj a => ?_⟩
    obtain rfl : j' = j := by omega
    exact (h.sound j').linked.v _ hn1 _ he1 a

/-- The means of a network with constant sources solve the circuit. -/
theorem Endless.network_dc (h : Endless M tr) (hM : ∀ b ∈ M.bundles, 0 < b.2.m) (hK : Endless.Below tr K) {t₀ : ℝ}
    (hc : M.ConstantFrom t₀) (hd : 0 < M.dt) {nwd : NetworkD} (hn : nwd ∈ M.networks) {e : ℕ × AnyNetwork} (he : e ∈ nwd)
    (hO : e.2.2.2.O = 0) :
    (levelWith (M.withState (Mtln.meanV tr) (Mtln.meanI tr)).bundles e).2.2.2.DC t₀ := by
  obtain ⟨q, hq⟩ := exists_nat_ge ((t₀ - M.time + 2 * M.dt) / M.dt)
  rw [div_le_iff₀ hd] at hq
  have ht : ∀ j : ℕ, t₀ ≤ (tr (j + (q + 1))).time - 2 * M.dt := by
    intro j
    rw [h.time]
    have : (0 : ℝ) ≤ j * M.dt := by positivity
    push_cast
    nlinarith
  obtain ⟨nw, hnw⟩ : ∃ nw, nw = e.2.2.2 := ⟨_, rfl⟩
  have key : ∀ j : ℕ, (1 / M.dt) • nw.dxc *ᵥ ((fun a => endV (tr (j + (q + 2))).bundles (nw.nodes a).end') -
        fun a => endV (tr (j + (q + 1))).bundles (nw.nodes a).end') =
      nw.P1 *ᵥ ((fun a => endV (tr (j + (q + 2))).bundles (nw.nodes a).end') +
        fun a => endV (tr (j + (q + 1))).bundles (nw.nodes a).end') + nw.Ps *ᵥ ((fun a => nw.vSources a t₀) + fun a => nw.vSources a t₀)
      + (1 / M.dt) • nw.Q1 *ᵥ ((fun a => endV (tr (j + (q + 2))).bundles (nw.nodes a).end') -
        fun a => endV (tr (j + q)).bundles (nw.nodes a).end') - (2 : ℝ) • fun a => endI (tr (j + (q + 1))).bundles (nw.nodes a).end' := by
    intro j
    obtain ⟨nwd1, hn1, nw1, he1, ⟨v, vP, i, X, terms, hnw1⟩, hprev⟩ := h.level hn he (j + (q + 1))
    obtain ⟨nwd2, hn2, hr⟩ := forall₂_mem_left (MTLN.step_moved (h.step (j + (q + 1))) (h.sound (j + (q + 1))).ready).2 _ hn1
    obtain ⟨e2, he2, v', X', i', heq, rfl⟩ := forall₂_mem_left hr _ he1
    have a1 := (h.sound (j + (q + 1))).linked.v _ hn1 _ he1
    have a2 := (h.sound (j + (q + 1))).linked.i _ hn1 _ he1
    have a3 := (h.sound (j + (q + 1) + 1)).linked.v _ hn2 _ he2
    have a4 := hprev (j + q) rfl
    have a5 := hc.networks nwd hn e he
    have t1 := ht j
    rw [h.dt] at heq
    subst hnw
    simp only at a1 a2 a3
    have hnodes : nw1.nodes = e.2.2.2.nodes := by rw [hnw1]
    have hsrc : nw1.vSources = e.2.2.2.vSources := by rw [hnw1]
    rw [hnodes] at a1 a2 a3
    unfold Network.NodeEquations at heq
    simp only [hnodes, hsrc] at heq
    have b1 : ∀ t, t₀ ≤ t → (fun a => e.2.2.2.vSources a t) = fun a => e.2.2.2.vSources a t₀ := fun t ht => funext fun a => (a5 t ht).1 a
    have b2 : ∀ t, t₀ ≤ t → (fun a => (e.2.2.2.nodes a).eT t) = fun a => (e.2.2.2.nodes a).eT t₀ := fun t ht => funext fun a => (a5 t ht).2 a
    have c1 : nw1.dxc = e.2.2.2.dxc := by rw [hnw1]; rfl
    have c2 : nw1.P1 = e.2.2.2.P1 ∧ nw1.O = e.2.2.2.O ∧ nw1.Ps = e.2.2.2.Ps ∧ nw1.Q1 = e.2.2.2.Q1 ∧ nw1.Qs = e.2.2.2.Qs := by
      rw [hnw1]; exact ⟨rfl, rfl, rfl, rfl, rfl⟩
    obtain ⟨c2, c3, c4, c5, c6⟩ := c2
    rw [b1 _ (by linarith), b1 _ (show t₀ ≤ (tr (j + (q + 1))).time - M.dt by linarith),
      b1 _ (show t₀ ≤ (tr (j + (q + 1))).time - 2 * M.dt by linarith),
      b2 _ (by linarith), b2 _ (show t₀ ≤ (tr (j + (q + 1))).time - M.dt by linarith), c1, c2, c3, c4, c5, c6, hO,
      show nw1.v = _ from funext a1, show nw1.i = _ from funext a2, show nw1.vPrev = _ from funext a4,
      show v' = _ from funext a3] at heq
    simp only [sub_self, mulVec_zero, smul_zero, add_zero, sub_zero, zero_mulVec] at heq
    exact heq
  have hv : ∀ q, IsMeanCol (fun j a => endV (tr (j + q)).bundles (nw.nodes a).end')
      (fun a => endV (M.withState (Mtln.meanV tr) (Mtln.meanI tr)).bundles (nw.nodes a).end') :=
    fun q a => (h.ends hM hK _ q).1
  have hi : IsMeanCol (fun j a => endI (tr (j + (q + 1))).bundles (nw.nodes a).end')
      (fun a => endI (M.withState (Mtln.meanV tr) (Mtln.meanI tr)).bundles (nw.nodes a).end') :=
    fun a => (h.ends hM hK _ _).2
  have m1 := (((hv (q + 2)).sub (hv (q + 1))).mulVec nw.dxc).smul (1 / M.dt)
  have m2 := ((((((hv (q + 2)).add (hv (q + 1))).mulVec nw.P1).add (IsMeanCol.const
    (nw.Ps *ᵥ ((fun a => nw.vSources a t₀) + fun a => nw.vSources a t₀))))).add
    ((((hv (q + 2)).sub (hv q)).mulVec nw.Q1).smul (1 / M.dt))).sub (hi.smul 2)
  simp only [key] at m1
  have := m1.unique m2
  simp only [sub_self, mulVec_zero, smul_zero, add_zero, ← two_smul ℝ, mulVec_smul] at this
  rw [← smul_add, ← smul_sub, eq_comm, smul_eq_zero_iff_right (two_ne_zero), sub_eq_zero] at this
  refine ⟨?_, fun h0 => absurd hO h0⟩
  show e.2.2.2.P1 *ᵥ (fun a => endV (M.withState (Mtln.meanV tr) (Mtln.meanI tr)).bundles (e.2.2.2.nodes a).end') +
    e.2.2.2.O *ᵥ e.2.2.2.X + e.2.2.2.Ps *ᵥ (fun a => e.2.2.2.vSources a t₀) =
    fun a => endI (M.withState (Mtln.meanV tr) (Mtln.meanI tr)).bundles (e.2.2.2.nodes a).end'
  rw [hO, zero_mulVec, add_zero, ← hnw]
  exact this

/-- The means solve the circuit. -/
theorem Endless.solvable (h : Endless M tr) (hp : M.Passive) (hK : Endless.Below tr K) {t₀ : ℝ}
    (hc : M.ConstantFrom t₀) (hd : 0 < M.dt) : M.Solvable t₀ := by
  have hm : ∀ b ∈ M.bundles, 0 < b.2.m := fun b hb => (hp.bundles b hb).1.cells
  have hl : M.Lumped := fun b hb k hk =>
    ⟨(hp.bundles b hb).1.q1 k hk, (hp.bundles b hb).1.q2 k hk, (hp.bundles b hb).1.q3 k hk⟩
  refine ⟨Mtln.meanV tr, Mtln.meanI tr, ⟨?_, ?_⟩, fun x hx => ?_⟩
  · intro b hb
    obtain ⟨b0, hb0, rfl⟩ := List.mem_map.1 hb
    exact h.bundle_dc hK hc hl hd hb0
  · intro nwd hn e he
    obtain ⟨nwd0, hn0, rfl⟩ := List.mem_map.1 hn
    obtain ⟨e0, he0, rfl⟩ := List.mem_map.1 he
    exact h.network_dc hm hK hc hd hn0 he0 (hp.networks nwd0 hn0 e0 he0).O
  · refine ((h.ends hm hK x 0).1.unique ?_)
    have hnodes : ∀ j, allNodes (tr j).networks = allNodes M.networks := by
      intro j
      have := h.networks j
      generalize (tr j).networks = L at this
      refine (flatMap_congr₂ (fun a b r => flatMap_congr₂ (R := FreeLevel) (fun e e' q => ?_) r) this).symm
      obtain ⟨_, _, _, _, _, rfl⟩ := q
      rfl
    have : ∀ j, endV (tr (j + 0)).bundles x = 0 := fun j => (h.sound _).linked.free x (by rw [hnodes]; exact hx)
    simp only [this]
    exact .const 0

end Trace

end Mtln
