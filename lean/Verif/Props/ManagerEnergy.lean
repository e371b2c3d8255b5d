import Verif.Lemmas.ManagerEnergy
import Verif.Lemmas.Physical
import Verif.Lemmas.Stability
import Verif.Props.ManagerDemo
import Verif.Props.Circuit

/-! # Passivity and stability of managers: C133, C134 -/

namespace Mtln

open Matrix

variable {n p N S : ℕ}

/-! ## The start of a run -/

theorem mapPy_sum_eq {α β : Type} {f : α → Py β} {g : β → ℝ} {h : α → ℝ} {l : List α} {l' : List β}
    (e : mapPy f l = .ok l') (H : ∀ a ∈ l, ∀ b ∈ l', f a = .ok b → g b = h a) : (l'.map g).sum = (l.map h).sum := by
  refine le_antisymm (mapPy_sum_le e fun a ha b hb hab => (H a ha b hb hab).le) ?_
  have := mapPy_sum_le (g := fun b => -1 * g b) (h := fun a => -1 * h a) e fun a ha b hb hab => by
    rw [H a ha b hb hab]
  rw [List.sum_map_mul_left, List.sum_map_mul_left] at this
  linarith

/-- Preparing a run keeps everything the energy depends on. -/
theorem MTLN.start_sound {T dt : ℝ} {M M0 : MTLN p} {k : ℕ} (h : M.start T dt = .ok (k, M0))
    (hdt : 0 < M.runDt dt) (hp : (M.overrideDt dt).Passive) (hl : (M.overrideDt dt).Linked) :
    M0.Sound ∧ M0.energy = (M.overrideDt dt).energy ∧ M0.time = (M.overrideDt dt).time ∧
      M0.dt = (M.overrideDt dt).dt ∧ ∀ t₀, (M.overrideDt dt).SilentFrom t₀ → M0.SilentFrom t₀ := by
  obtain ⟨nws, bs, h1, -, -, h4, rfl⟩ := MTLN.start_ok_iff.1 h
  have hnet0 : M.networks = (M.overrideDt dt).networks := by unfold MTLN.overrideDt; split <;> rfl
  rw [hnet0] at h1
  change 0 < (M.overrideDt dt).dt at hdt
  have hrun : M.runDt dt = (M.overrideDt dt).dt := rfl
  rw [hrun] at h1
  generalize M.overrideDt dt = N at *
  have hstart : ∀ {n} {b b' : MTLD n p}, b.start k = .ok b' → b'.name = b.name := by
    intro n b b' e
    obtain ⟨_, _, -, -, rfl⟩ := MTLD.start_ok_iff.1 e
    rfl
  have hfind := mapPy_onBundle_find (f := MTLD.start k) hstart h4
  have hV : ∀ x, endV bs x = endV N.bundles x := by
    intro x
    unfold endV
    cases hf : findBundle N.bundles x.bundle with
    | none => rw [(hfind x.bundle).1 hf]
    | some b =>
      obtain ⟨c, hc, hf'⟩ := (hfind x.bundle).2 b hf
      obtain ⟨_, _, -, -, rfl⟩ := MTLD.start_ok_iff.1 hc
      rw [hf']
  have hI : ∀ x, endI bs x = endI N.bundles x := by
    intro x
    unfold endI
    cases hf : findBundle N.bundles x.bundle with
    | none => rw [(hfind x.bundle).1 hf]
    | some b =>
      obtain ⟨c, hc, hf'⟩ := (hfind x.bundle).2 b hf
      obtain ⟨_, _, -, -, rfl⟩ := MTLD.start_ok_iff.1 hc
      rw [hf']
  have hbundle : ∀ b' ∈ bs, ∃ b ∈ N.bundles, ∃ lr cg probes, updateLr b.2.m b.2.dt b.2.dun b.2.l b.2.r b.2.tz = .ok lr ∧
      updateCg b.2.m b.2.dt b.2.dun b.2.c b.2.g = .ok cg ∧
      b' = ⟨b.1, { b.2 with lr := some lr, cg := some cg, probes := probes }⟩ := by
    intro b' hb'
    obtain ⟨b, hb, hs⟩ := mapPy_mem h4 b' hb'
    obtain ⟨c, hc, rfl⟩ := onBundle_ok_iff.1 hs
    obtain ⟨lr, cg, e1, e2, rfl⟩ := MTLD.start_ok_iff.1 hc
    exact ⟨b, hb, lr, cg, _, e1, e2, rfl⟩
  have hnet : ∀ nwd2 ∈ nws, ∀ e2 ∈ nwd2, ∃ nwd ∈ N.networks, ∃ e ∈ nwd, ∃ nw' : Network e.2.1 e.2.2.1,
      e.2.2.2.computeVTerms N.dt = .ok nw' ∧ e2 = (e.1, ⟨e.2.1, e.2.2.1, nw'⟩) := by
    intro nwd2 hn2 e2 he2
    obtain ⟨nwd, hnwd, hf⟩ := mapPy_mem h1 nwd2 hn2
    obtain ⟨e, he', hg⟩ := mapPy_mem hf e2 he2
    simp only [bind_ok_iff, onAny_ok_iff, Except.ok.injEq] at hg
    obtain ⟨_, ⟨c, hc, rfl⟩, rfl⟩ := hg
    exact ⟨nwd, hnwd, e, he', c, hc, rfl⟩
  have hnames : bs.map (fun b => b.2.name) = N.bundles.map fun b => b.2.name := by
    clear hV hI hbundle hfind h hl hp
    have key : ∀ {l l' : List (AnyBundle p)}, mapPy (onBundle (MTLD.start k)) l = .ok l' →
        l'.map (fun b => b.2.name) = l.map fun b => b.2.name := by
      intro l
      induction l with
      | nil => intro l' e; simp only [mapPy, Except.ok.injEq] at e; subst e; rfl
      | cons b l ih =>
        intro l' e
        simp only [mapPy, bind_ok_iff, Except.ok.injEq, onBundle_ok_iff] at e
        obtain ⟨_, ⟨c, e1, rfl⟩, l1, e2, rfl⟩ := e
        simp only [List.map_cons, ih e2, hstart e1]
    exact key h4
  have hnodes : allNodes nws = allNodes N.networks := allNodes_compute h1
  refine ⟨?_, ?_, rfl, rfl, fun t₀ hx => ⟨?_, ?_⟩⟩
  · refine ⟨hdt, ⟨?_, ?_, ?_, ?_⟩, ⟨?_, ?_, ?_⟩, ⟨?_, ?_⟩⟩
    · show (bs.map fun b => b.2.name).Nodup
      rw [hnames]; exact hp.names
    · intro b' hb'
      obtain ⟨b, hb, lr, cg, probes, -, -, rfl⟩ := hbundle b' hb'
      obtain ⟨hp, hd⟩ := hp.bundles b hb
      exact ⟨⟨hp.1, hp.2, hp.3, hp.4, hp.5, hp.6, hp.7, hp.8, hp.9, hp.10, hp.11, hp.12⟩, hd⟩
    · intro nwd2 hn2 e2 he2
      obtain ⟨nwd, hn0, e, he0, nw', hc, rfl⟩ := hnet nwd2 hn2 e2 he2
      obtain ⟨-, -, rfl⟩ := computeVTerms_ok_iff.1 hc
      have hr := hp.networks nwd hn0 e he0
      exact ⟨hr.1, hr.2, hr.3, hr.4, hr.5⟩
    · show ((allNodes nws).map Node.end').Nodup
      rw [hnodes]; exact hp.ends
    · intro nwd2 hn2 e2 he2 a
      obtain ⟨nwd, hn0, e, he0, nw', hc, rfl⟩ := hnet nwd2 hn2 e2 he2
      obtain ⟨-, -, rfl⟩ := computeVTerms_ok_iff.1 hc
      exact (hl.v nwd hn0 e he0 a).trans (hV _).symm
    · intro nwd2 hn2 e2 he2 a
      obtain ⟨nwd, hn0, e, he0, nw', hc, rfl⟩ := hnet nwd2 hn2 e2 he2
      obtain ⟨-, -, rfl⟩ := computeVTerms_ok_iff.1 hc
      exact (hl.i nwd hn0 e he0 a).trans (hI _).symm
    · intro x hx
      have hx' : x ∉ (allNodes N.networks).map Node.end' := by rw [← hnodes]; exact hx
      exact (hV x).trans (hl.free x hx')
    · intro b' hb' lr' cg' elr ecg
      obtain ⟨b, hb, lr, cg, probes, e1, e2, rfl⟩ := hbundle b' hb'
      obtain rfl := Option.some.inj elr
      obtain rfl := Option.some.inj ecg
      exact ⟨e1, e2⟩
    · intro nwd2 hn2 e2 he2
      obtain ⟨nwd, hn0, e, he0, nw', hc, rfl⟩ := hnet nwd2 hn2 e2 he2
      exact computeVTerms_prepared hc
  · show (bs.map fun b => b.2.innerEnergy).sum + netsEnergy nws =
      (N.bundles.map fun b => b.2.innerEnergy).sum + netsEnergy N.networks
    congr 1
    · refine mapPy_sum_eq h4 ?_
      intro b _ b' _ hs
      obtain ⟨c, hc, rfl⟩ := onBundle_ok_iff.1 hs
      obtain ⟨lr, cg, -, -, rfl⟩ := MTLD.start_ok_iff.1 hc
      rfl
    · refine mapPy_sum_eq h1 ?_
      intro nwd _ nwd' _ hs
      refine mapPy_sum_eq hs ?_
      intro e _ e' _ hs'
      simp only [bind_ok_iff, onAny_ok_iff, Except.ok.injEq] at hs'
      obtain ⟨_, ⟨c, hc, rfl⟩, rfl⟩ := hs'
      obtain ⟨-, -, rfl⟩ := computeVTerms_ok_iff.1 hc
      rfl
  · intro b' hb'
    obtain ⟨b, hb, lr, cg, probes, -, -, rfl⟩ := hbundle b' hb'
    exact hx.bundles b hb
  · intro nwd2 hn2 e2 he2
    obtain ⟨nwd, hn0, e, he0, nw', hc, rfl⟩ := hnet nwd2 hn2 e2 he2
    obtain ⟨-, -, rfl⟩ := computeVTerms_ok_iff.1 hc
    exact hx.networks nwd hn0 e he0

/-! ## C133 -/

/-- **C133**, one step. -/
theorem C133_step (M M' : MTLN p) (h : M.step = .ok M') (hM : M.Sound) :
    M'.Sound ∧ (M.SilentFrom (M.time - 2 * M.dt) → M'.energy ≤ M.energy) := ⟨(hM.step h).1.1, (hM.step h).2⟩

theorem sound_trace {tr : ℕ → MTLN p} {k : ℕ} (h0 : (tr 0).Sound) (hs : ∀ j < k, (tr j).step = .ok (tr (j + 1))) :
    ∀ j ≤ k, (tr j).Sound ∧ (tr j).time = (tr 0).time + j * (tr 0).dt ∧ (tr j).dt = (tr 0).dt ∧
      (∀ t₀, (tr 0).SilentFrom t₀ → (tr j).SilentFrom t₀) ∧
      ∀ j₀ ≤ j, (tr 0).SilentFrom ((tr 0).time + j₀ * (tr 0).dt - 2 * (tr 0).dt) → (tr j).energy ≤ (tr j₀).energy := by
  intro j
  induction j with
  | zero =>
    intro _
    refine ⟨h0, by simp, rfl, fun _ h => h, fun j₀ hj₀ _ => ?_⟩
    obtain rfl := Nat.le_zero.1 hj₀
    exact le_rfl
  | succ j ih =>
    intro hj
    obtain ⟨a1, a2, a3, a4, a5⟩ := ih (by omega)
    obtain ⟨⟨b1, b2, b3, b4⟩, b5⟩ := a1.step (hs j (by omega))
    refine ⟨b1, ?_, b3.trans a3, fun t₀ h => b4 t₀ (a4 t₀ h), fun j₀ hj₀ hx => ?_⟩
    · rw [b2, a2, a3]; push_cast; ring
    · rcases Nat.lt_or_ge j j₀ with hlt | hge
      · obtain rfl : j₀ = j + 1 := by omega
        exact le_rfl
      · refine (b5 ?_).trans (a5 j₀ hge hx)
        refine (a4 _ hx).mono ?_
        rw [a2, a3]
        have : (j₀ : ℝ) ≤ j := by exact_mod_cast hge
        nlinarith [h0.dt]

/-- **C133.** A manager of passive bundles and networks of resistors and capacitors, without sources and fields: the stored energy after
a run of any length is at most the energy before. -/
theorem C133_energy (M M' : MTLN p) (T dt : ℝ) (h : M.runUntil T dt = .ok M') (hdt : 0 < M.runDt dt)
    (hp : (M.overrideDt dt).Passive) (hl : (M.overrideDt dt).Linked) (hx : (M.overrideDt dt).Unexcited) :
    M'.energy ≤ (M.overrideDt dt).energy := by
  obtain ⟨k, M0, h0, tr, htr0, htrk, hs⟩ := MTLN.runUntil_ok_iff.1 h
  obtain ⟨hsound, he, -, -, hsil⟩ := MTLN.start_sound h0 hdt hp hl
  rw [← htr0] at hsound he hsil
  rw [← he, ← htrk]
  exact (sound_trace hsound hs k le_rfl).2.2.2.2 0 (Nat.zero_le _) (hsil _ (hx.silent _))

/-- Calls that only add resistors. -/
def Call.IsResistive : Call → Prop
  | .ground .. => True
  | .shortGround _ => True
  | .branch .. => True
  | .short .. => True
  | _ => False

/-- Resistors of positive resistance and capacitors to ground, resistors to ground before the branches at their nodes, make
such networks of fresh ones. -/
theorem C133_elements {l : List Call} {nw nw' : Network N S} (h1 : nw.P1 = 0) (h2 : nw.Q1 = 0) (h3 : nw.O = 0)
    (hc : nw.dxcᵀ = nw.dxc) (hr : ∀ c ∈ l, c.IsResistive ∨ ∃ id C Vt, 0 ≤ C ∧ c = .groundC id C Vt) (hpos : ∀ c ∈ l, c.Positive)
    (hord : l.Pairwise fun c c' => c.IsBranch → ¬ c'.IsBranch → ∀ id ∈ c.nodes, id ∉ c'.nodes)
    (h : nw.calls l = .ok nw') : nw'.RC := by
  have key : (∃ q : Fin N → ℝ, (∀ a, q a ≤ 0) ∧ nw'.Q1 = diagonal q) ∧ nw'.O = 0 ∧ nw'.dxcᵀ = nw'.dxc := by
    refine calls_induct (Q := fun w => (∃ q : Fin N → ℝ, (∀ a, q a ≤ 0) ∧ w.Q1 = diagonal q) ∧ w.O = 0 ∧ w.dxcᵀ = w.dxc) ?_ hr h
      ⟨⟨0, fun _ => le_rfl, by rw [h2]; ext i j; simp [diagonal]⟩, h3, hc⟩
    rintro w w' c hA ⟨⟨q, q1, q2⟩, q3, q4⟩ hw
    obtain ⟨E, hE, rfl⟩ := call_ok_iff.1 hw
    have keep : ∀ {a b : ℕ} {X : Matrix (Fin a) (Fin b) ℝ}, (of fun i j => (Upd.add (0 : ℝ)).app (X i j)) = X := by
      intro a b X; ext i j; simp [Upd.app]
    cases c with
    | groundLCpRs => rcases hA with hA | ⟨_, _, _, _, hA⟩; exacts [hA.elim, by cases hA]
    | groundC id C Vt =>
      obtain ⟨a, -, rfl⟩ := hE
      refine ⟨?_, keep.trans q3, q4⟩
      obtain hA | ⟨_, C', _, hC, hA⟩ := hA
      · exact hA.elim
      cases hA
      refine ⟨fun i => if i = a ∧ C ≠ 0 then -C else q i, fun i => ?_, ?_⟩
      · beta_reduce
        split_ifs
        · linarith
        · exact q1 i
      · ext i j
        have e : w.Q1 i j = diagonal q i j := by rw [q2]
        by_cases hij : i = j
        · subst hij
          rw [diagonal_apply_eq] at e ⊢
          by_cases hi : i = a <;> by_cases h0 : C = 0 <;> simp [Effect.apply, Upd.app, hi, h0, e]
          all_goals (subst hi; exact e)
        · rw [diagonal_apply_ne _ hij] at e ⊢
          have : ¬ (i = a ∧ j = a ∧ C ≠ 0) := fun hh => hij (hh.1.trans hh.2.1.symm)
          simp [Effect.apply, Upd.app, this, e]
    | ground => obtain ⟨a, -, -, rfl⟩ := hE; exact ⟨⟨q, q1, keep.trans q2⟩, keep.trans q3, q4⟩
    | shortGround => obtain ⟨a, -, rfl⟩ := hE; exact ⟨⟨q, q1, keep.trans q2⟩, keep.trans q3, q4⟩
    | branch => obtain ⟨a, b, -, -, -, rfl⟩ := hE; exact ⟨⟨q, q1, keep.trans q2⟩, keep.trans q3, q4⟩
    | short => obtain ⟨a, b, -, -, rfl⟩ := hE; exact ⟨⟨q, q1, keep.trans q2⟩, keep.trans q3, q4⟩
  obtain ⟨⟨q, k1, k2⟩, k3, k4⟩ := key
  refine ⟨by rw [k2, diagonal_transpose], fun v => ?_, k3, k4, C49_passive_partial h1 hpos hord h⟩
  rw [k2]
  unfold dotProduct
  refine Finset.sum_nonpos fun i _ => ?_
  rw [mulVec_diagonal]
  nlinarith [k1 i, mul_self_nonneg (v i)]

/-! ## C134 -/

/-- The capacitance between two ends according to the bundles: the end cell's length times the entry of `C`; zero for
ends of different bundles or on different sides. -/
noncomputable def endCap (bs : List (AnyBundle p)) (x y : End) : ℝ :=
  if x.bundle = y.bundle ∧ x.side = y.side then
    match findBundle bs x.bundle with
    | some b => if h : x.row < b.1 ∧ y.row < b.1 then
        b.2.dun (x.side.cell b.2.m) * b.2.c (x.side.node b.2.m) ⟨x.row, h.1⟩ ⟨y.row, h.2⟩ else 0
    | none => 0
  else 0

/-- The networks work with the capacitances of the bundles: every node is attached to an end of a conductor, within a network they are the bundles', and conductors whose
ends belong to different networks are not coupled capacitively there. -/
structure MTLN.Matched (M : MTLN p) : Prop where
  nodes : ∀ d ∈ allNodes M.networks, d.end' ∈ allEnds M.bundles
  dxc : ∀ nwd ∈ M.networks, ∀ e ∈ nwd, ∀ a b, e.2.2.2.dxc a b =
    endCap M.bundles (e.2.2.2.nodes a).end' (e.2.2.2.nodes b).end'
  apart : ∀ nwd ∈ M.networks, ∀ e ∈ nwd, ∀ a, ∀ y ∈ (allNodes M.networks).map Node.end',
    (∀ b, (e.2.2.2.nodes b).end' ≠ y) → endCap M.bundles (e.2.2.2.nodes a).end' y = 0

/-- Energy of a line: between the ends, and of the half cells at the ends. -/
theorem electric_ends (s : MTL n p) (hm : 0 < s.m) : s.electric (fun _ => 1) = s.electric (innerWeight s.m) +
    s.dun 0 / 2 * (s.v 0 ⬝ᵥ (s.c 0 *ᵥ s.v 0)) + s.dun (s.m - 1) / 2 * (s.v s.m ⬝ᵥ (s.c s.m *ᵥ s.v s.m)) := by
  unfold MTL.electric
  have e : ∀ k ∈ Finset.range s.m, s.dun k / 2 * (1 * (s.v k ⬝ᵥ (s.c k *ᵥ s.v k))
        + 1 * (s.v (k + 1) ⬝ᵥ (s.c (k + 1) *ᵥ s.v (k + 1)))) =
      s.dun k / 2 * (innerWeight s.m k * (s.v k ⬝ᵥ (s.c k *ᵥ s.v k))
        + innerWeight s.m (k + 1) * (s.v (k + 1) ⬝ᵥ (s.c (k + 1) *ᵥ s.v (k + 1)))) +
      ((if k = 0 then s.dun 0 / 2 * (s.v 0 ⬝ᵥ (s.c 0 *ᵥ s.v 0)) else 0) +
        if k = s.m - 1 then s.dun (s.m - 1) / 2 * (s.v s.m ⬝ᵥ (s.c s.m *ᵥ s.v s.m)) else 0) := by
    intro k hk
    rw [Finset.mem_range] at hk
    unfold innerWeight
    by_cases h0 : k = 0 <;> by_cases h1 : k = s.m - 1
    · have h2 : s.m = 1 := by omega
      subst h0
      simp only [h2]
      simp
      ring
    · subst h0
      rw [if_pos (Or.inl rfl), if_neg (by omega), if_pos rfl, if_neg h1]
      ring
    · have h2 : k + 1 = s.m := by omega
      rw [if_neg (by omega), if_pos (Or.inr h2), if_neg h0, if_pos h1, ← h1, h2]
      ring
    · rw [if_neg (by omega), if_neg (by omega), if_neg h0, if_neg h1]
      ring
  rw [Finset.sum_congr rfl e, Finset.sum_add_distrib, Finset.sum_add_distrib, Finset.sum_ite_eq', Finset.sum_ite_eq',
    if_pos (Finset.mem_range.2 hm), if_pos (Finset.mem_range.2 (by omega))]
  ring

theorem endCap_eq {bs : List (AnyBundle p)} (hn : (bs.map fun b => b.2.name).Nodup) {b : AnyBundle p} (hb : b ∈ bs)
    (j j' : Fin b.1) (side : Side) : endCap bs ⟨b.2.name, j, side⟩ ⟨b.2.name, j', side⟩ =
      b.2.dun (side.cell b.2.m) * b.2.c (side.node b.2.m) j j' := by
  unfold endCap
  rw [if_pos ⟨rfl, rfl⟩, findBundle_mem hn b hb]
  simp only
  rw [dif_pos ⟨j.2, j'.2⟩]

/-- The energy of the end cells of the bundles, as a sum over pairs of ends. -/
theorem ends_energy {bs : List (AnyBundle p)} (hn : (bs.map fun b => b.2.name).Nodup) :
    ((allEnds bs).map fun x => ((allEnds bs).map fun y => endCap bs x y * endV bs x * endV bs y).sum).sum =
      (bs.map fun b => b.2.dun 0 * (b.2.v 0 ⬝ᵥ (b.2.c 0 *ᵥ b.2.v 0)) +
        b.2.dun (b.2.m - 1) * (b.2.v b.2.m ⬝ᵥ (b.2.c b.2.m *ᵥ b.2.v b.2.m))).sum := by
  rw [sum_allEnds]
  congr 1
  refine List.map_congr_left fun b hb => ?_
  have key : ∀ side : Side, ∑ j : Fin b.1, ((allEnds bs).map fun y =>
      endCap bs ⟨b.2.name, j, side⟩ y * endV bs ⟨b.2.name, j, side⟩ * endV bs y).sum =
      b.2.dun (side.cell b.2.m) * (b.2.v (side.node b.2.m) ⬝ᵥ (b.2.c (side.node b.2.m) *ᵥ b.2.v (side.node b.2.m))) := by
    intro side
    have inner : ∀ j : Fin b.1, ((allEnds bs).map fun y =>
        endCap bs ⟨b.2.name, j, side⟩ y * endV bs ⟨b.2.name, j, side⟩ * endV bs y).sum =
        ∑ j' : Fin b.1, b.2.dun (side.cell b.2.m) * b.2.c (side.node b.2.m) j j' * b.2.v (side.node b.2.m) j
          * b.2.v (side.node b.2.m) j' := by
      intro j
      rw [sum_ends hn (l := List.ofFn fun j' : Fin b.1 => (⟨b.2.name, j', side⟩ : End))]
      · rw [List.map_ofFn, List.sum_ofFn]
        refine Finset.sum_congr rfl fun j' _ => ?_
        simp only [Function.comp_apply]
        rw [endCap_eq hn hb, endV_eq hn hb, endV_eq hn hb]
      · rw [List.nodup_ofFn]
        intro a a' e
        simp only [End.mk.injEq, true_and, and_true] at e
        exact Fin.ext e
      · intro x hx
        simp only [List.mem_ofFn] at hx
        obtain ⟨a, rfl⟩ := hx
        exact mem_allEnds.2 ⟨b, hb, rfl, a.2⟩
      · intro x hx hx'
        have : endCap bs ⟨b.2.name, j, side⟩ x = 0 := by
          unfold endCap
          by_cases hc : b.2.name = x.bundle ∧ side = x.side
          · rw [if_pos hc]
            simp only [findBundle_mem hn b hb]
            rw [dif_neg]
            rintro ⟨-, hr⟩
            refine hx' ?_
            simp only [List.mem_ofFn]
            refine ⟨⟨x.row, hr⟩, ?_⟩
            obtain ⟨nm, row, sd⟩ := x
            simp only at hc
            simp only [hc.1, hc.2]
          · rw [if_neg hc]
        rw [this]
        ring
    simp only [inner, dotProduct, mulVec, Finset.mul_sum]
    refine Finset.sum_congr rfl fun j _ => Finset.sum_congr rfl fun j' _ => ?_
    ring
  have k1 := key .S
  have k2 := key .L
  simp only [Side.cell, Side.node] at k1 k2
  rw [k1, k2]

/-- Twice the energy of all capacitors. -/
noncomputable def capsEnergy (nws : List NetworkD) : ℝ :=
  (nws.map fun nwd => (nwd.map fun e => e.2.2.2.capEnergy).sum).sum

theorem MTLN.Passive.caps {M : MTLN p} (hp : M.Passive) : 0 ≤ capsEnergy M.networks := by
  refine List.sum_nonneg fun x hx => ?_
  obtain ⟨nwd, hn, rfl⟩ := List.mem_map.1 hx
  refine List.sum_nonneg fun y hy => ?_
  obtain ⟨e, he, rfl⟩ := List.mem_map.1 hy
  have := (hp.networks nwd hn e he).Q1 (e.2.2.2.v + e.2.2.2.vPrev)
  unfold Network.capEnergy
  linarith

/-- The energy of matched networks is the energy of the end cells of the bundles and of the capacitors. -/
theorem MTLN.Matched.energy {M : MTLN p} (hm : M.Matched) (hp : M.Passive) (hl : M.Linked) :
    M.energy = (M.bundles.map fun b => b.2.asLine.energy).sum + capsEnergy M.networks := by
  have hn := hp.names
  have hnodes : ∀ x ∈ (allNodes M.networks).map Node.end', x ∈ allEnds M.bundles := by
    intro x hx
    obtain ⟨d, hd, rfl⟩ := List.mem_map.1 hx
    exact hm.nodes d hd
  have hsplit : netsEnergy M.networks = (M.networks.map fun nwd => (nwd.map fun e => e.2.2.2.cellEnergy).sum).sum
      + capsEnergy M.networks := by
    unfold netsEnergy capsEnergy
    rw [← List.sum_map_add]
    congr 1
    refine List.map_congr_left fun nwd _ => ?_
    rw [← List.sum_map_add]
    rfl
  have hnets : (M.networks.map fun nwd => (nwd.map fun e => e.2.2.2.cellEnergy).sum).sum = 1 / 2 * ((allEnds M.bundles).map fun x => ((allEnds M.bundles).map fun y =>
      endCap M.bundles x y * endV M.bundles x * endV M.bundles y).sum).sum := by
    rw [sum_ends hn hp.ends hnodes, sum_allNodes, ← List.sum_map_mul_left]
    · congr 1
      refine List.map_congr_left fun nwd hnwd => ?_
      rw [← List.sum_map_mul_left]
      congr 1
      refine List.map_congr_left fun e he => ?_
      unfold Network.cellEnergy
      simp only [dotProduct, mulVec, Finset.mul_sum, Finset.sum_div]
      refine Finset.sum_congr rfl fun a _ => ?_
      have hnd : Function.Injective fun b => (e.2.2.2.nodes b).end' := by
        have h1 : (List.ofFn e.2.2.2.nodes).Sublist (allNodes M.networks) := by
          have a1 : (List.ofFn e.2.2.2.nodes).Sublist (nwd.flatMap fun e => List.ofFn e.2.2.2.nodes) := by
            rw [List.flatMap_def]
            exact List.sublist_flatten_of_mem (List.mem_map.2 ⟨e, he, rfl⟩)
          refine a1.trans ?_
          unfold allNodes
          rw [List.flatMap_def]
          exact List.sublist_flatten_of_mem (List.mem_map.2 ⟨nwd, hnwd, rfl⟩)
        have h2 := (h1.map Node.end').nodup hp.ends
        rw [List.map_ofFn, List.nodup_ofFn] at h2
        exact h2
      rw [sum_ends hn (l := List.ofFn fun b => (e.2.2.2.nodes b).end')]
      · rw [List.map_ofFn, List.sum_ofFn, Finset.mul_sum]
        refine Finset.sum_congr rfl fun b _ => ?_
        simp only [Function.comp_apply]
        rw [hm.dxc nwd hnwd e he, hl.v nwd hnwd e he, hl.v nwd hnwd e he]
        ring
      · rw [List.nodup_ofFn]; exact hnd
      · intro x hx
        simp only [List.mem_ofFn] at hx
        obtain ⟨b, rfl⟩ := hx
        exact hnodes _ (List.mem_map.2 ⟨_, mem_allNodes hnwd he b, rfl⟩)
      · intro y _ hy
        by_cases hy' : y ∈ (allNodes M.networks).map Node.end'
        · rw [hm.apart nwd hnwd e he a y hy']
          · ring
          · intro b hb
            exact hy (by simp only [List.mem_ofFn]; exact ⟨b, hb⟩)
        · rw [hl.free y hy']
          ring
    · intro x _ hx
      simp only [hl.free x hx, mul_zero, zero_mul]
      simp
  unfold MTLN.energy
  rw [hsplit, hnets, ends_energy hn, ← List.sum_map_mul_left, ← add_assoc, ← List.sum_map_add]
  congr 2
  refine List.map_congr_left fun b hb => ?_
  have e := electric_ends b.2.asLine (hp.bundles b hb).1.cells
  unfold MTLD.innerEnergy MTL.energy MTL.energyW
  rw [e]
  simp only [MTLD.asLine]
  ring

/-- Lists of bundles and networks that differ in state and coefficients only. -/
structure SameParts (M M' : MTLN p) : Prop where
  bundles : ∀ b' ∈ M'.bundles, ∃ b ∈ M.bundles, ∃ v i phi probes lr cg,
    b' = ⟨b.1, { b.2 with v := v, i := i, phi := phi, probes := probes, lr := lr, cg := cg }⟩
  networks : ∀ nwd' ∈ M'.networks, ∀ e' ∈ nwd', ∃ nwd ∈ M.networks, ∃ e ∈ nwd, ∃ v vPrev i X terms,
    e' = (e.1, ⟨e.2.1, e.2.2.1, { e.2.2.2 with v := v, vPrev := vPrev, i := i, X := X, terms := terms }⟩)
  ends : allEnds M'.bundles = allEnds M.bundles
  cap : ∀ x y, endCap M'.bundles x y = endCap M.bundles x y
  nodes : allNodes M'.networks = allNodes M.networks

theorem SameParts.trans {M M' M'' : MTLN p} (h : SameParts M M') (h' : SameParts M' M'') : SameParts M M'' := by
  refine ⟨?_, ?_, h'.ends.trans h.ends, fun x y => (h'.cap x y).trans (h.cap x y), h'.nodes.trans h.nodes⟩
  · intro b'' hb''
    obtain ⟨b', hb', v', i', phi', probes', lr', cg', rfl⟩ := h'.bundles b'' hb''
    obtain ⟨b, hb, v, i, phi, probes, lr, cg, rfl⟩ := h.bundles b' hb'
    exact ⟨b, hb, v', i', phi', probes', lr', cg', rfl⟩
  · intro nwd'' hn'' e'' he''
    obtain ⟨nwd', hn', e', he', v', vP', i', X', t', rfl⟩ := h'.networks nwd'' hn'' e'' he''
    obtain ⟨nwd, hn, e, he, v, vP, i, X, t, rfl⟩ := h.networks nwd' hn' e' he'
    exact ⟨nwd, hn, e, he, v', vP', i', X', t', rfl⟩

theorem SameParts.refl (M : MTLN p) : SameParts M M :=
  ⟨fun b hb => ⟨b, hb, _, _, _, _, _, _, rfl⟩, fun nwd hn e he => ⟨nwd, hn, e, he, _, _, _, _, _, rfl⟩, rfl,
    fun _ _ => rfl, rfl⟩

theorem SameParts.matched {M M' : MTLN p} (h : SameParts M M') (hm : M.Matched) : M'.Matched := by
  refine ⟨?_, ?_, ?_⟩
  · intro d hd
    rw [h.nodes] at hd
    rw [h.ends]
    exact hm.nodes d hd
  · intro nwd' hn' e' he' a b
    obtain ⟨nwd, hn, e, he, v, vP, i, X, t, rfl⟩ := h.networks nwd' hn' e' he'
    rw [h.cap]
    exact hm.dxc nwd hn e he a b
  · intro nwd' hn' e' he' a y hy hne
    obtain ⟨nwd, hn, e, he, v, vP, i, X, t, rfl⟩ := h.networks nwd' hn' e' he'
    rw [h.cap]
    rw [h.nodes] at hy
    exact hm.apart nwd hn e he a y hy hne

/-- Bundles changed one by one in state and coefficients. -/
theorem sameBundles {f : ∀ {n}, MTLD n p → Py (MTLD n p)}
    (hf : ∀ {n} {b b' : MTLD n p}, f b = .ok b' → ∃ v i phi probes lr cg,
      b' = { b with v := v, i := i, phi := phi, probes := probes, lr := lr, cg := cg }) {bs bs' : List (AnyBundle p)}
    (h : mapPy (onBundle f) bs = .ok bs') :
    (∀ b' ∈ bs', ∃ b ∈ bs, ∃ v i phi probes lr cg,
      b' = ⟨b.1, { b.2 with v := v, i := i, phi := phi, probes := probes, lr := lr, cg := cg }⟩) ∧
    allEnds bs' = allEnds bs ∧ ∀ x y, endCap bs' x y = endCap bs x y := by
  have hname : ∀ {n} {b b' : MTLD n p}, f b = .ok b' → b'.name = b.name := by
    intro n b b' e
    obtain ⟨_, _, _, _, _, _, rfl⟩ := hf e
    rfl
  have hfind := mapPy_onBundle_find hname h
  refine ⟨?_, ?_, ?_⟩
  · intro b' hb'
    obtain ⟨b, hb, hs⟩ := mapPy_mem h b' hb'
    obtain ⟨c, hc, rfl⟩ := onBundle_ok_iff.1 hs
    obtain ⟨v, i, phi, probes, lr, cg, rfl⟩ := hf hc
    exact ⟨b, hb, v, i, phi, probes, lr, cg, rfl⟩
  · clear hfind
    induction bs generalizing bs' with
    | nil => simp only [mapPy, Except.ok.injEq] at h; subst h; rfl
    | cons b l ih =>
      simp only [mapPy, bind_ok_iff, Except.ok.injEq, onBundle_ok_iff] at h
      obtain ⟨_, ⟨c, e1, rfl⟩, l1, e2, rfl⟩ := h
      have := ih e2
      unfold allEnds at this ⊢
      simp only [List.flatMap_cons, this, hname e1]
  · intro x y
    unfold endCap
    split
    · cases hf0 : findBundle bs x.bundle with
      | none => rw [(hfind x.bundle).1 hf0]
      | some b =>
        obtain ⟨c, hc, hf'⟩ := (hfind x.bundle).2 b hf0
        obtain ⟨_, _, _, _, _, _, rfl⟩ := hf hc
        rw [hf']
    · rfl

theorem MTLN.step_parts {M M' : MTLN p} (h : M.step = .ok M') : SameParts M M' := by
  have hnodes := MTLN.step_nodes h
  obtain ⟨nws1, bs2, nws2, h1, -, h3, h4, rfl⟩ := MTLN.step_ok_iff.1 h
  obtain ⟨a1, a2, a3⟩ := sameBundles (f := MTLD.stepWith M.time M.dt (allWrites nws1)) (fun e => by
    obtain ⟨v, i, phi, probes, rfl⟩ := MTLD.stepWith_config e
    exact ⟨v, i, phi, probes, _, _, rfl⟩) h3
  refine ⟨a1, ?_, a2, a3, hnodes⟩
  intro nwd2 hn2 e2 he2
  obtain ⟨nwd1, hn1, e1, he1, i', -, rfl⟩ := NetworkD.currents_mem h4 hn2 he2
  obtain ⟨nwd, hn0, e, he0, nw', hnw, rfl⟩ := NetworkD.advance_mem h1 hn1 he1
  obtain ⟨v, X, rfl⟩ := advanceVoltage_rest hnw
  exact ⟨nwd, hn0, e, he0, v, _, i', X, _, rfl⟩

theorem MTLN.start_parts {T dt : ℝ} {M M0 : MTLN p} {k : ℕ} (h : M.start T dt = .ok (k, M0)) :
    SameParts (M.overrideDt dt) M0 := by
  obtain ⟨nws, bs, h1, -, -, h4, rfl⟩ := MTLN.start_ok_iff.1 h
  have hnet0 : M.networks = (M.overrideDt dt).networks := by unfold MTLN.overrideDt; split <;> rfl
  rw [hnet0] at h1
  obtain ⟨a1, a2, a3⟩ := sameBundles (f := MTLD.start k) (fun e => by
    obtain ⟨lr, cg, -, -, rfl⟩ := MTLD.start_ok_iff.1 e
    exact ⟨_, _, _, _, some lr, some cg, rfl⟩) h4
  refine ⟨a1, ?_, a2, a3, allNodes_compute h1⟩
  intro nwd2 hn2 e2 he2
  obtain ⟨nwd, hnwd, hf⟩ := mapPy_mem h1 nwd2 hn2
  obtain ⟨e, he', hg⟩ := mapPy_mem hf e2 he2
  simp only [bind_ok_iff, onAny_ok_iff, Except.ok.injEq] at hg
  obtain ⟨_, ⟨c, hc, rfl⟩, rfl⟩ := hg
  obtain ⟨-, -, rfl⟩ := computeVTerms_ok_iff.1 hc
  exact ⟨nwd, hnwd, e, he', _, _, _, _, _, rfl⟩

/-- Data of the stability theorem for one bundle: uniform symmetric positive definite capacitance, symmetric positive
definite inductances, and a time step below the automatic one. -/
def MTLD.Stable (b : MTLD n p) : Prop :=
  ∃ C d, b.asLine.Regular C ∧ maxTimestep b.m b.dun b.l b.c = .ok d ∧ b.dt < d

/-- The energy of a stable bundle controls what is stored, in every state. -/
theorem MTLD.Stable.lower {b : MTLD n p} (h : b.Stable) (hb : 0 < b.dt) : ∃ θ, 0 ≤ θ ∧ θ < 1 ∧
    ∀ t : MTL n p, b.asLine.SameConfig t → (1 - θ) * (t.electric (fun _ => 1) + t.magnetic) ≤ t.energy := by
  obtain ⟨C, d, hr, hd, hlt⟩ := h
  have hd0 : 0 < d := hb.trans hlt
  refine ⟨b.dt / d, by positivity, (div_lt_one hd0).2 hlt, ?_⟩
  intro t hc
  have hdt : t.dt = b.dt := hc.dt
  have := energy_lower (s := t) (C := C) (d := d) (τ := t.dt) (θ := b.dt / d) (hr.congr hc)
    (by rw [hc.m, hc.dun, hc.l, hc.c]; exact hd) (by rw [hdt]; exact hb) le_rfl (by positivity) (by
      rw [hdt, div_pow, div_mul_cancel₀ _ (by positivity)]
      nlinarith)
  rw [endWeight_self (s := t) (by rw [hdt]; exact hb.ne')] at this
  exact this

/-- What is stored is not negative. -/
theorem MTLD.Stable.stored {b : MTLD n p} (h : b.Stable) {t : MTL n p} (hc : b.asLine.SameConfig t) :
    0 ≤ t.electric (fun _ => 1) + t.magnetic := by
  obtain ⟨C, d, hr, -, -⟩ := h
  have hr' := hr.congr hc
  have hC : ∀ x : Col n, 0 ≤ x ⬝ᵥ (C *ᵥ x) := fun x => by
    by_cases hx : x = 0
    · subst hx; simp
    · exact (hr.c_spd.pos x hx).le
  have hL : ∀ k < t.m, ∀ x : Col n, 0 ≤ x ⬝ᵥ ((t.l k + t.conn.e k) *ᵥ x) := fun k hk x => by
    rw [add_mulVec, dotProduct_add]
    refine add_nonneg ?_ (hr'.e k hk x)
    by_cases hx : x = 0
    · subst hx; simp
    · exact ((hr'.l_spd k hk).pos x hx).le
  refine add_nonneg (Finset.sum_nonneg fun k hk => ?_) (Finset.sum_nonneg fun k hk => ?_)
  · rw [Finset.mem_range] at hk
    have := hr'.dun k hk
    rw [hr'.c k hk.le, hr'.c (k + 1) hk]
    have h1 := hC (t.v k)
    have h2 := hC (t.v (k + 1))
    positivity
  · rw [Finset.mem_range] at hk
    exact mul_nonneg (hr'.dun k hk).le (hL k hk _)

theorem exists_bound {α : Type} {P : α → ℝ → Prop} (hmono : ∀ a K K', K ≤ K' → P a K → P a K') :
    ∀ {l : List α}, (∀ a ∈ l, ∃ K, P a K) → ∃ K, ∀ a ∈ l, P a K
  | [], _ => ⟨0, by simp⟩
  | a :: l, h => by
    obtain ⟨K1, h1⟩ := h a (List.mem_cons_self ..)
    obtain ⟨K2, h2⟩ := exists_bound hmono fun a ha => h a (List.mem_cons_of_mem _ ha)
    refine ⟨max K1 K2, ?_⟩
    intro b hb
    rcases List.mem_cons.1 hb with rfl | hb
    · exact hmono _ _ _ (le_max_left ..) h1
    · exact hmono _ _ _ (le_max_right ..) (h2 b hb)

theorem parts_trace {tr : ℕ → MTLN p} {k : ℕ} (hs : ∀ j < k, (tr j).step = .ok (tr (j + 1))) :
    ∀ j ≤ k, SameParts (tr 0) (tr j) := by
  intro j
  induction j with
  | zero => intro _; exact SameParts.refl _
  | succ j ih => intro hj; exact (ih (by omega)).trans (MTLN.step_parts (hs j (by omega)))

/-- Voltages and currents of a stable bundle are bounded by the root of its energy. -/
theorem MTLD.Stable.components {b : MTLD n p} (h : b.Stable) (hb : 0 < b.dt) (hm : 0 < b.m) :
    ∃ κ, 0 ≤ κ ∧ ∀ t : MTL n p, b.asLine.SameConfig t → ∀ B, 0 < B → t.energy ≤ B →
      (∀ k ≤ b.m, ∀ a, |t.v k a| ≤ κ * √B) ∧ ∀ k < b.m, ∀ a, |t.i k a| ≤ κ * √B := by
  obtain ⟨θ, h0, h1, hlow⟩ := h.lower hb
  obtain ⟨C, d, hr, -, -⟩ := h
  obtain ⟨K, hK⟩ := components_bounded (s := b.asLine) (τ := b.dt) (B := 1 / (1 - θ)) hr hm hb le_rfl
  have hw : b.asLine.endWeight b.dt = fun _ => 1 := endWeight_self (s := b.asLine) (show b.dt ≠ 0 from hb.ne')
  rw [hw] at hK
  refine ⟨|K|, abs_nonneg _, fun t hc B hB he => ?_⟩
  have hs : 0 < √B := Real.sqrt_pos.2 hB
  obtain ⟨c, hcdef⟩ : ∃ c, c = (√B)⁻¹ := ⟨_, rfl⟩
  have hc0 : 0 < c := by rw [hcdef]; positivity
  have hcB : c * c * B = 1 := by
    have e := Real.mul_self_sqrt hB.le
    rw [hcdef]
    field_simp
    linarith
  have h2 := hlow t hc
  have e1 : ({ t with v := fun k => c • t.v k, i := fun k => c • t.i k } : MTL n p).electric (fun _ => 1) =
      c * c * t.electric fun _ => 1 := by
    unfold MTL.electric
    simp only [mulVec_smul, dotProduct_smul, smul_dotProduct, smul_eq_mul, Finset.mul_sum]
    exact Finset.sum_congr rfl fun k _ => by ring
  have e2 : ({ t with v := fun k => c • t.v k, i := fun k => c • t.i k } : MTL n p).magnetic = c * c * t.magnetic := by
    unfold MTL.magnetic
    simp only [mulVec_smul, dotProduct_smul, smul_dotProduct, smul_eq_mul, Finset.mul_sum]
    exact Finset.sum_congr rfl fun k _ => by ring
  obtain ⟨k1, k2⟩ := hK { t with v := fun k => c • t.v k, i := fun k => c • t.i k }
    ⟨hc.1, hc.2, hc.3, hc.4, hc.5, hc.6, hc.7, hc.8, hc.9, hc.10, hc.11, hc.12, hc.13, hc.14, hc.15, hc.16, hc.17, hc.18,
      hc.19⟩ (by
    rw [e1, e2, ← mul_add, le_div_iff₀ (by linarith)]
    nlinarith [mul_pos hc0 hc0])
  have hscale : ∀ x : ℝ, |c * x| ≤ K → |x| ≤ |K| * √B := by
    intro x hx
    rw [abs_mul, abs_of_pos hc0, hcdef, inv_mul_le_iff₀ hs] at hx
    have := le_abs_self K
    nlinarith
  exact ⟨fun k hk a => hscale _ (k1 k hk a), fun k hk a => hscale _ (k2 k hk a)⟩

/-- The energy of every bundle is at most the energy of the manager, and not negative. -/
theorem MTLN.bundle_energy {M M' : MTLN p} (hdt : 0 < M.dt) (hp : M.Passive) (hm : M.Matched)
    (hst : ∀ b ∈ M.bundles, b.2.Stable) (hall : SameParts M M') (hsk : M'.Sound) :
    0 ≤ M'.energy ∧ ∀ b ∈ M'.bundles, b.2.asLine.energy ≤ M'.energy := by
  have hbd : ∀ b ∈ M.bundles, 0 < b.2.dt := fun b hb => by
    rw [(hp.bundles b hb).2]; exact hdt
  have hen := (hall.matched hm).energy hsk.passive hsk.linked
  have hnn : ∀ x ∈ M'.bundles.map (fun b => b.2.asLine.energy), (0 : ℝ) ≤ x := by
    intro x hx
    obtain ⟨c', hc', rfl⟩ := List.mem_map.1 hx
    obtain ⟨c, hc, v, i, phi, probes, lr, cg, rfl⟩ := hall.bundles c' hc'
    obtain ⟨θ, h0, h1, hlow⟩ := (hst c hc).lower (hbd c hc)
    have hsame : c.2.asLine.SameConfig
        ({ c.2 with v := v, i := i, phi := phi, probes := probes, lr := lr, cg := cg } : MTLD c.1 p).asLine :=
      ⟨rfl, rfl, rfl, rfl, rfl, rfl, rfl, rfl, rfl, rfl, rfl, rfl, rfl, rfl, rfl, rfl, rfl, rfl, rfl⟩
    exact (mul_nonneg (by linarith) ((hst c hc).stored hsame)).trans (hlow _ hsame)
  have h2 := hsk.passive.caps
  refine ⟨?_, fun b' hb' => ?_⟩
  · have := List.sum_nonneg hnn
    linarith
  · have h1 := List.single_le_sum hnn _ (List.mem_map.2 ⟨b', hb', rfl⟩)
    linarith

/-- All voltages and currents are bounded by the root of the energy. -/
theorem MTLN.below_sqrt (M : MTLN p) (hdt : 0 < M.dt) (hp : M.Passive) (hm : M.Matched)
    (hst : ∀ b ∈ M.bundles, b.2.Stable) :
    ∃ κ, 0 ≤ κ ∧ ∀ M' : MTLN p, SameParts M M' → M'.Sound → ∀ B, 0 < B → M'.energy ≤ B → ∀ b ∈ M'.bundles,
      (∀ k ≤ b.2.m, ∀ a, |b.2.v k a| ≤ κ * √B) ∧ ∀ k < b.2.m, ∀ a, |b.2.i k a| ≤ κ * √B := by
  have hbd : ∀ b ∈ M.bundles, 0 < b.2.dt := fun b hb => by
    rw [(hp.bundles b hb).2]; exact hdt
  obtain ⟨κ, hκ⟩ := exists_bound (l := M.bundles)
    (P := fun (b : AnyBundle p) κ => ∀ t : MTL b.1 p, b.2.asLine.SameConfig t → ∀ B, 0 < B → t.energy ≤ B →
      (∀ k ≤ b.2.m, ∀ a, |t.v k a| ≤ κ * √B) ∧ ∀ k < b.2.m, ∀ a, |t.i k a| ≤ κ * √B)
    (fun (b : AnyBundle p) K K' hle h t hc B hB he =>
      ⟨fun k hk a => ((h t hc B hB he).1 k hk a).trans (mul_le_mul_of_nonneg_right hle (Real.sqrt_nonneg _)),
      fun k hk a => ((h t hc B hB he).2 k hk a).trans (mul_le_mul_of_nonneg_right hle (Real.sqrt_nonneg _))⟩) (by
    intro b hb
    obtain ⟨κ, -, hκ⟩ := (hst b hb).components (hbd b hb) (hp.bundles b hb).1.cells
    exact ⟨κ, hκ⟩)
  refine ⟨|κ|, abs_nonneg _, fun M' hall hsk B hB hek b' hb' => ?_⟩
  have hone := ((MTLN.bundle_energy hdt hp hm hst hall hsk).2 b' hb').trans hek
  obtain ⟨b, hb, v, i, phi, probes, lr, cg, rfl⟩ := hall.bundles b' hb'
  obtain ⟨k1, k2⟩ := hκ b hb
    ({ b.2 with v := v, i := i, phi := phi, probes := probes, lr := lr, cg := cg } : MTLD b.1 p).asLine
    ⟨rfl, rfl, rfl, rfl, rfl, rfl, rfl, rfl, rfl, rfl, rfl, rfl, rfl, rfl, rfl, rfl, rfl, rfl, rfl⟩ B hB hone
  have hle := mul_le_mul_of_nonneg_right (le_abs_self κ) (Real.sqrt_nonneg B)
  exact ⟨fun k hk a => (k1 k hk a).trans hle, fun k hk a => (k2 k hk a).trans hle⟩

/-- **C134.** A manager of passive bundles with time step below each bundle's automatic one, and networks of resistors and
capacitors that work with the capacitances of the bundles, without sources and fields: all voltages and currents of all bundles
stay below one bound in runs of any length. -/
theorem C134_bounded (M : MTLN p) (dt : ℝ) (hdt : 0 < M.runDt dt) (hp : (M.overrideDt dt).Passive)
    (hl : (M.overrideDt dt).Linked) (hx : (M.overrideDt dt).Unexcited) (hm : (M.overrideDt dt).Matched)
    (hst : ∀ b ∈ (M.overrideDt dt).bundles, b.2.Stable) :
    ∃ K, ∀ T M', M.runUntil T dt = .ok M' → ∀ b ∈ M'.bundles,
      (∀ k ≤ b.2.m, ∀ a, |b.2.v k a| ≤ K) ∧ ∀ k < b.2.m, ∀ a, |b.2.i k a| ≤ K := by
  obtain ⟨κ, -, hκ⟩ := MTLN.below_sqrt _ hdt hp hm hst
  refine ⟨κ * √(|(M.overrideDt dt).energy| + 1), fun T M' hrun => ?_⟩
  obtain ⟨k, M0, hs0, tr, htr0, htrk, hs⟩ := MTLN.runUntil_ok_iff.1 hrun
  obtain ⟨hsound, he, -, -, hsil⟩ := MTLN.start_sound hs0 hdt hp hl
  have hparts := (MTLN.start_parts hs0)
  rw [← htr0] at hsound he hsil hparts
  obtain ⟨hsk, -, -, -, hek⟩ := sound_trace hsound hs k le_rfl
  rw [← htrk]
  refine hκ _ (hparts.trans (parts_trace hs k le_rfl)) hsk _ (by positivity) ?_
  have h1 := hek 0 (Nat.zero_le _) (hsil _ (hx.silent _))
  have h2 := le_abs_self (M.overrideDt dt).energy
  linarith

/-! ## A charged line -/

/-- The demo line with 1 V on its left half and 1 Ω to ground at the left end; the right end is not connected. -/
noncomputable def demoCharged : MTLN 0 :=
  { demoManager with
    bundles := [⟨1, { demoOne with v := fun k _ => if k = 2 then 0 else 1 }⟩]
    networks := [[(0, ⟨1, 0, { demoTerm with vSources := fun _ _ => 0, v := fun _ => 1 }⟩)]] }

theorem demo_spd : SPD (1 : Mat 1) := by
  refine ⟨transpose_one, ?_⟩
  intro x hx
  have h0 : x 0 ≠ 0 := fun h => hx (funext fun a => by fin_cases a; exact h)
  rw [one_mulVec]
  simp only [dotProduct, Finset.univ_unique, Fin.default_eq_zero, Finset.sum_singleton]
  exact mul_self_pos.2 h0

/-- Non-vacuity of C133 and C134: a charged line, run with any time step below the automatic one. -/
theorem demoCharged_hyps {dt : ℝ} (h0 : 0 < dt) (h1 : dt < 1) : 0 < demoCharged.runDt dt ∧
    (demoCharged.overrideDt dt).Passive ∧ (demoCharged.overrideDt dt).Linked ∧ (demoCharged.overrideDt dt).Unexcited ∧
    (demoCharged.overrideDt dt).Matched ∧ (∀ b ∈ (demoCharged.overrideDt dt).bundles, b.2.Stable) ∧
    demoCharged.Startable dt := by
  have hrun : demoCharged.runDt dt = dt := by rw [MTLN.runDt_eq, if_pos h0.ne']
  set B : MTLD 1 0 := { demoOne with v := fun k _ => if k = 2 then 0 else 1, dt := dt } with hB
  set W : Network 1 0 := { demoTerm with vSources := fun _ _ => 0, v := fun _ => 1 } with hW
  have hM : demoCharged.overrideDt dt = { bundles := [⟨1, B⟩], networks := [[(0, ⟨1, 0, W⟩)]], dt := dt } := by
    unfold MTLN.overrideDt
    rw [if_pos h0.ne']
    rfl
  have hbm : B.m = 2 := rfl
  have hbname : B.name = "demo" := rfl
  have hbc : ∀ k, B.c k = 1 := fun _ => rfl
  have hbl : ∀ k, B.l k = 1 := fun _ => rfl
  have hbe : ∀ k, B.tz.e k = 0 := fun _ => rfl
  have hbd : ∀ k, B.tz.d k = 0 := fun _ => rfl
  have hbr : ∀ k, B.r k = 0 := fun _ => rfl
  have hbg : ∀ k, B.g k = 0 := fun _ => rfl
  have hbdun : ∀ k < 2, B.dun k = 1 := fun k hk => if_pos hk
  have hdxc : W.dxc = 1 := demoNet_dxc [] 0
  have hnode : ∀ a, W.nodes a = demoNode [] := by
    intro a; fin_cases a; rfl
  have hfind : findBundle [(⟨1, B⟩ : AnyBundle 0)] "demo" = some ⟨1, B⟩ := by simp [findBundle, hbname]
  have hmem : ∀ {P : NetworkD → ℕ × AnyNetwork → Prop}, P [(0, ⟨1, 0, W⟩)] (0, ⟨1, 0, W⟩) →
      ∀ nwd ∈ [[((0 : ℕ), (⟨1, 0, W⟩ : AnyNetwork))]], ∀ e ∈ nwd, P nwd e := by
    intro P hP nwd hn e he
    obtain rfl := List.mem_singleton.1 hn
    obtain rfl := List.mem_singleton.1 he
    exact hP
  have hnodes : allNodes [[((0 : ℕ), (⟨1, 0, W⟩ : AnyNetwork))]] = [demoNode []] := by
    simp [allNodes, hnode]
  have hone : ∀ x : Col 1, 0 ≤ x ⬝ᵥ ((0 : Mat 1) *ᵥ x) := fun x => by simp
  rw [hM]
  refine ⟨by rw [hrun]; exact h0, ⟨by simp, ?_, ?_, ?_⟩, ⟨?_, ?_, ?_⟩, ⟨?_, ?_⟩, ⟨?_, ?_, ?_⟩, ?_, ?_⟩
  · intro b hb
    obtain rfl := List.mem_singleton.1 hb
    refine ⟨?_, rfl⟩
    refine ⟨by show 0 < B.m; rw [hbm]; norm_num, h0, ?_, ?_, ?_, ?_, ?_, ?_, ?_, ?_, ?_, ?_⟩
    · intro k hk; show 0 ≤ B.dun k; rw [hbdun k hk]; norm_num
    · intro k _; show (B.l k + B.tz.e k)ᵀ = B.l k + B.tz.e k; rw [hbl, hbe]; simp
    · intro k _; show (B.c k)ᵀ = B.c k; rw [hbc]; simp
    · intro k _ x; show 0 ≤ x ⬝ᵥ ((B.r k + B.tz.d k) *ᵥ x); rw [hbr, hbd]; simp
    · intro k _ x; show 0 ≤ x ⬝ᵥ (B.g k *ᵥ x); rw [hbg]; simp
    · intro x; show 0 ≤ x ⬝ᵥ ((0 : Mat 1) *ᵥ x); simp
    · intro x; show 0 ≤ x ⬝ᵥ ((0 : Mat 1) *ᵥ x); simp
    · intro k _; exact demo_q1sum (demoBare 0) k
    · intro k _
      show vSum (demoBare 0).conn.q2 k = 0
      ext a b
      unfold vSum QEntry.val poleSum
      simp
    · intro k _ a b; rfl
  · refine hmem ⟨by show (0 : Matrix (Fin 1) (Fin 1) ℝ)ᵀ = 0; simp, fun v => by show v ⬝ᵥ ((0 : Matrix (Fin 1) (Fin 1) ℝ) *ᵥ v) ≤ 0; simp, rfl, ?_, ?_⟩
    · show W.dxcᵀ = W.dxc; rw [hdxc]; simp
    · intro v
      simp [W, demoTerm, demoNet, NetBuild.finish, putEntry, dotProduct, mulVec]
      exact mul_self_nonneg _
  · show ((allNodes [[((0 : ℕ), (⟨1, 0, W⟩ : AnyNetwork))]]).map Node.end').Nodup
    rw [hnodes]; simp
  · refine hmem ?_
    intro a
    show (1 : ℝ) = endV [⟨1, B⟩] (W.nodes a).end'
    rw [hnode]
    show (1 : ℝ) = endV [⟨1, B⟩] ⟨"demo", 0, .S⟩
    unfold endV
    rw [hfind]
    simp [Side.node, B]
  · refine hmem ?_
    intro a
    show (0 : ℝ) = endI [⟨1, B⟩] (W.nodes a).end'
    rw [hnode]
    show (0 : ℝ) = endI [⟨1, B⟩] ⟨"demo", 0, .S⟩
    unfold endI
    rw [hfind]
    simp [Side.cell, B, demoOne, MTLD.single]
  · intro x hx
    change x ∉ (allNodes [[((0 : ℕ), (⟨1, 0, W⟩ : AnyNetwork))]]).map Node.end' at hx
    rw [hnodes] at hx
    show endV [⟨1, B⟩] x = 0
    unfold endV
    cases hf : findBundle [(⟨1, B⟩ : AnyBundle 0)] x.bundle with
    | none => rfl
    | some b =>
      obtain ⟨hb, hnm⟩ := findBundle_some hf
      obtain rfl := List.mem_singleton.1 hb
      simp only
      split
      · rename_i hr
        obtain ⟨nm, row, side⟩ := x
        cases side with
        | S =>
          exfalso
          apply hx
          have h2 : row = 0 := by simpa using hr
          have h3 : nm = "demo" := by rw [← hbname]; exact hnm.symm
          subst h2; subst h3
          simp [Node.end', demoNode]
        | L => show (if B.m = 2 then (0 : ℝ) else 1) = 0; rw [hbm, if_pos rfl]
      · rfl
  · intro b hb
    obtain rfl := List.mem_singleton.1 hb
    exact ⟨fun _ _ _ => rfl, fun _ _ _ => rfl⟩
  · refine hmem ⟨fun _ _ => rfl, ?_⟩
    intro a t
    show (W.nodes a).eT t = 0
    rw [hnode]
    rfl
  · intro d hd
    change d ∈ allNodes [[((0 : ℕ), (⟨1, 0, W⟩ : AnyNetwork))]] at hd
    rw [hnodes] at hd
    obtain rfl := List.mem_singleton.1 hd
    refine mem_allEnds.2 ⟨⟨1, B⟩, by simp, hbname, by simp [Node.end', demoNode]⟩
  · refine hmem ?_
    intro a b
    show W.dxc a b = endCap [⟨1, B⟩] (W.nodes a).end' (W.nodes b).end'
    rw [hdxc, hnode, hnode]
    fin_cases a
    fin_cases b
    simp [endCap, Node.end', demoNode, hfind, Side.cell, Side.node, hbc, hbdun 0 (by norm_num)]
  · refine hmem ?_
    intro a y hy hne
    exfalso
    change y ∈ (allNodes [[((0 : ℕ), (⟨1, 0, W⟩ : AnyNetwork))]]).map Node.end' at hy
    rw [hnodes] at hy
    obtain rfl := List.mem_singleton.1 hy
    exact hne 0 rfl
  · intro b hb
    obtain rfl := List.mem_singleton.1 hb
    obtain ⟨d, hd⟩ := maxTimestep_ok (m := 2) (dun := B.dun) (l := B.l) (c := B.c) one_ne_zero
      ⟨0, by norm_num, by rw [hbdun 0 (by norm_num)]; norm_num⟩ (by
        intro k _ x hx
        rw [hbl, hbc, eigRe_one_by_one] at hx
        simp at hx
        rw [hx]; norm_num)
    obtain ⟨hpos, -, -, k, hk, -, k', -, w, ⟨x, hx, hw⟩, e⟩ := maxTimestep_spec hd (fun k hk => by rw [hbdun k hk]; norm_num)
    rw [hbl, hbc, eigRe_one_by_one] at hx
    simp at hx
    rw [hbdun k hk, hw, hx] at e
    simp at e
    refine ⟨1, d, ⟨fun k _ => hbc k, demo_spd, fun k _ => by show SPD (B.l k); rw [hbl]; exact demo_spd, ?_, ?_⟩, hd, ?_⟩
    · intro k _ x; show 0 ≤ x ⬝ᵥ (B.tz.e k *ᵥ x); rw [hbe]; simp
    · intro k hk; show 0 < B.dun k; rw [hbdun k hk]; norm_num
    · show dt < d; rw [e]; exact h1
  refine ⟨by rw [hrun]; exact h0.ne', ?_, ?_, ?_⟩
  · rw [hM]
    intro b hb
    obtain rfl := List.mem_singleton.1 hb
    obtain ⟨a1, a2⟩ := demo_single_terms (demoBare 0) (d := 1) (dt := dt) one_ne_zero h0 rfl
      (fun k hk => if_pos hk) rfl rfl rfl rfl rfl rfl
    refine ⟨a1, a2, ?_⟩
    intro q hq
    have : q ∈ demoOne.probes := hq
    simp only [demoOne, List.mem_singleton] at this
    subst this
    exact Or.inl rfl
  · rw [hrun]
    refine hmem (P := fun _ e => e.2.2.2.cSize = e.2.1 ∧ (e.2.2.2.system dt).det ≠ 0) ⟨rfl, demoTerm_det h0⟩
  · intro d hd
    change d ∈ allNodes [[((0 : ℕ), (⟨1, 0, W⟩ : AnyNetwork))]] at hd
    rw [hnodes] at hd
    obtain rfl := List.mem_singleton.1 hd
    exact ⟨⟨1, { demoOne with v := fun k _ => if k = 2 then 0 else 1 }⟩, by
      simp [findBundle, demoCharged, demoOne, MTLD.single, demoNode], by simp [demoNode], by
      show (2 : ℕ) ≠ 0; norm_num⟩

/-- The same line with a capacitor of 1 F parallel to the resistor. -/
noncomputable def demoChargedC : MTLN 0 :=
  { demoCharged with
    networks := [[(0, ⟨1, 0, { demoTerm with vSources := fun _ _ => 0, v := fun _ => 1, Q1 := -1 }⟩)]] }

/-- Non-vacuity of C133 and C134: with a capacitor. -/
theorem demoChargedC_hyps {dt : ℝ} (h0 : 0 < dt) (h1 : dt < 1) : 0 < demoChargedC.runDt dt ∧
    (demoChargedC.overrideDt dt).Passive ∧ (demoChargedC.overrideDt dt).Linked ∧ (demoChargedC.overrideDt dt).Unexcited ∧
    (demoChargedC.overrideDt dt).Matched ∧ (∀ b ∈ (demoChargedC.overrideDt dt).bundles, b.2.Stable) := by
  obtain ⟨-, a2, a3, a4, a5, a6, -⟩ := demoCharged_hyps h0 h1
  have e0 : demoCharged.overrideDt dt = { bundles := (demoCharged.overrideDt dt).bundles, networks :=
      [[(0, ⟨1, 0, { demoTerm with vSources := fun _ _ => 0, v := fun _ => 1 }⟩)]], dt := dt } := by
    unfold MTLN.overrideDt
    rw [if_pos h0.ne']
    rfl
  have e1 : demoChargedC.overrideDt dt = { bundles := (demoCharged.overrideDt dt).bundles, networks :=
      [[(0, ⟨1, 0, { demoTerm with vSources := fun _ _ => 0, v := fun _ => 1, Q1 := -1 }⟩)]], dt := dt } := by
    unfold MTLN.overrideDt
    rw [if_pos h0.ne', if_pos h0.ne']
    rfl
  rw [e0] at a2 a3 a4 a5
  rw [e1]
  obtain ⟨B, hB⟩ : ∃ B, B = (demoCharged.overrideDt dt).bundles := ⟨_, rfl⟩
  rw [← hB] at a2 a3 a4 a5 a6 ⊢
  refine ⟨by rw [MTLN.runDt_eq, if_pos h0.ne']; exact h0, ⟨a2.names, a2.bundles, ?_, a2.ends⟩, ⟨?_, ?_, a3.free⟩, ⟨a4.bundles, ?_⟩, ⟨a5.nodes, ?_, ?_⟩, a6⟩
  · intro nwd hn e he
    obtain rfl := List.mem_singleton.1 hn
    obtain rfl := List.mem_singleton.1 he
    have := a2.networks _ List.mem_cons_self _ List.mem_cons_self
    refine ⟨?_, ?_, this.O, this.dxc, this.P1⟩
    · show (-1 : Matrix (Fin 1) (Fin 1) ℝ)ᵀ = -1
      simp
    · intro v
      show v ⬝ᵥ ((-1 : Matrix (Fin 1) (Fin 1) ℝ) *ᵥ v) ≤ 0
      simp [neg_mulVec, dotProduct]
      exact mul_self_nonneg _
  · intro nwd hn e he
    obtain rfl := List.mem_singleton.1 hn
    obtain rfl := List.mem_singleton.1 he
    have := a3.v _ List.mem_cons_self _ List.mem_cons_self
    exact this
  · intro nwd hn e he
    obtain rfl := List.mem_singleton.1 hn
    obtain rfl := List.mem_singleton.1 he
    have := a3.i _ List.mem_cons_self _ List.mem_cons_self
    exact this
  · intro nwd hn e he
    obtain rfl := List.mem_singleton.1 hn
    obtain rfl := List.mem_singleton.1 he
    have := a4.networks _ List.mem_cons_self _ List.mem_cons_self
    exact this
  · intro nwd hn e he
    obtain rfl := List.mem_singleton.1 hn
    obtain rfl := List.mem_singleton.1 he
    have := a5.dxc _ List.mem_cons_self _ List.mem_cons_self
    exact this
  · intro nwd hn e he
    obtain rfl := List.mem_singleton.1 hn
    obtain rfl := List.mem_singleton.1 he
    have := a5.apart _ List.mem_cons_self _ List.mem_cons_self
    exact this

end Mtln
