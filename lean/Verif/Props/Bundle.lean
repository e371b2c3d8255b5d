import Verif.Lemmas.Block
import Verif.Props.Demo

/-! # Bundles: C41, C43 -/

namespace Mtln

open Matrix

variable {n N p : ℕ}

/-! ## C41: the numbering of conductors -/

/-- **C41** Every valid (level, conductor in level) pair has a row of the bundle … -/
theorem C41_row_lt (levels : List ℕ) {level c : ℕ} (hl : level < levels.length) (hc : c < levels[level]) :
    conductorsBefore levels level + c < levels.sum := by
  have h1 : (levels.take (level + 1)).sum ≤ levels.sum := by
    conv_rhs => rw [← List.take_append_drop (level + 1) levels, List.sum_append]
    omega
  rw [List.take_succ_eq_append_getElem hl, List.sum_append, List.sum_singleton] at h1
  unfold conductorsBefore
  omega

theorem conductorsBefore_mono (levels : List ℕ) {a b : ℕ} (hab : a < b) (ha : a < levels.length) :
    conductorsBefore levels a + levels[a] ≤ conductorsBefore levels b := by
  unfold conductorsBefore
  have h1 : (levels.take (a + 1)).sum ≤ (levels.take b).sum := by
    have : levels.take (a + 1) = (levels.take b).take (a + 1) := by
      rw [List.take_take, min_eq_left (by omega)]
    rw [this]
    conv_rhs => rw [← List.take_append_drop (a + 1) (levels.take b), List.sum_append]
    omega
  rw [List.take_succ_eq_append_getElem ha, List.sum_append, List.sum_singleton] at h1
  exact h1

/-- **C41** … different pairs have different rows … -/
theorem C41_injective (levels : List ℕ) {a b c d : ℕ} (ha : a < levels.length) (hc : c < levels[a])
    (hb : b < levels.length) (hd : d < levels[b])
    (h : conductorsBefore levels a + c = conductorsBefore levels b + d) : a = b ∧ c = d := by
  rcases lt_trichotomy a b with hab | rfl | hab
  · have := conductorsBefore_mono levels hab ha; omega
  · exact ⟨rfl, by omega⟩
  · have := conductorsBefore_mono levels hab hb; omega

/-- **C41** … and every row of the bundle belongs to a pair. -/
theorem C41_surjective : ∀ (levels : List ℕ) {row : ℕ}, row < levels.sum →
    ∃ level c, ∃ h : level < levels.length, c < levels[level] ∧ conductorsBefore levels level + c = row
  | [], row, h => by simp at h
  | x :: levels, row, h => by
    rw [List.sum_cons] at h
    by_cases hx : row < x
    · exact ⟨0, row, by simp, hx, by simp [conductorsBefore]⟩
    · obtain ⟨level, c, hl, hc, hr⟩ := C41_surjective levels (row := row - x) (by omega)
      refine ⟨level + 1, c, by simpa using hl, hc, ?_⟩
      have : conductorsBefore (x :: levels) (level + 1) = x + conductorsBefore levels level := by
        simp [conductorsBefore]
      omega

/-- **C41** The rows of a constructed bundle are counted by `conductors_in_level`. -/
theorem C41_rows_of_bundle {levels : List (List (AnyLine p))} {name : String} {b : Σ n, MTLD n p}
    (h : MTLD.new levels name = .ok b) : b.2.inLevel.sum = b.1 ∧ b.2.inLevel.length = levels.length := by
  unfold MTLD.new at h
  split at h
  · exact absurd h (by simp)
  · split at h
    · injection h with h
      subst h
      refine ⟨?_, by simp [MTLD.assemble]⟩
      simp only [MTLD.assemble, totalConductors]
      rename_i first rest _
      generalize [first] :: rest = levels
      induction levels with
      | nil => rfl
      | cons x xs ih =>
        rw [List.map_cons, List.sum_cons, ih, List.flatten_cons, List.map_append, List.sum_append]
    · exact absurd h (by simp)
  · exact absurd h (by simp)

/-! ## C43: a bundle without coupling is its lines -/

/-- What a constructed bundle is made of. -/
theorem new_bundle_ok {levels : List (List (AnyLine p))} {name : String} {b : Σ n, MTLD n p}
    (h : MTLD.new levels name = .ok b) : ∃ first rest, levels = [first] :: rest ∧
      (∀ L ∈ levels.flatten, SameMesh first.2.m first.2.u L) ∧ b = ⟨_, MTLD.assemble first levels name⟩ := by
  unfold MTLD.new at h
  split at h
  · exact absurd h (by simp)
  · split at h
    · rename_i first rest hL
      injection h with h
      exact ⟨first, rest, rfl, hL, h.symm⟩
    · exact absurd h (by simp)
  · exact absurd h (by simp)

/-- The coefficients of a line of a bundle that was just built are the line's own; they stay related to those of the
bundle. -/
theorem bundle_medium {levels : List (List (AnyLine p))} {name : String} {first : AnyLine p}
    {pre post : List (AnyLine p)} {L : AnyLine p} (hlev : levels.flatten = pre ++ L :: post)
    (hm : first.2.m = L.2.m) (hm0 : 0 < L.2.m) (hdun : ∀ k < L.2.m, L.2.dun k = first.2.dun k)
    (hsum : L.2.conn.SumsCached)
    {b : MTLD (totalConductors levels.flatten) p}
    (hprep : (MTLD.assemble first levels name).prepare = .ok b) :
    ∃ lr cg, updateLr L.2.m b.dt L.2.dun L.2.l L.2.r L.2.conn = .ok lr ∧
      updateCg L.2.m b.dt L.2.dun L.2.c L.2.g = .ok cg ∧
      ∀ s : MTL L.1 p, s.m = L.2.m → s.dun = L.2.dun → s.conn = L.2.conn →
        BlockFields (blockRow pre hlev) b s → BlockMedium (blockRow pre hlev) lr cg b s := by
  obtain ⟨lrN, cgN, hlr, hcg, rfl⟩ := MTLD.prepare_ok_iff.1 hprep
  set B := MTLD.assemble first levels name with hB
  have he := blockRow_injective hlev
  -- the line with the bundle's cell lengths and time step
  let t : MTL L.1 p := { L.2 with
    dt := B.dt, dun := B.dun, zs := 0, zl := 0, left1 := 0, left2 := 0, right1 := 0, right2 := 0 }
  have hq1 : ∀ k, SubQ (blockRow pre hlev) (B.tz.q1 k) (L.2.conn.q1 k) := fun k =>
    block_subQ hlev (fun L => L.conn.q1) k
  have hq2 : ∀ k, SubQ (blockRow pre hlev) (B.tz.q2 k) (L.2.conn.q2 k) := fun k =>
    block_subQ hlev (fun L => L.conn.q2) k
  have hq3 : ∀ k, SubQ (blockRow pre hlev) (B.tz.q3 k) (L.2.conn.q3 k) := fun k =>
    block_subQ hlev (fun L => L.conn.q3) k
  have hmed : SubMedium (blockRow pre hlev) B.asLine t :=
    { m := hm.symm
      dt := rfl
      dun := rfl
      l := block_subMat hlev MTL.l
      c := block_subMat hlev MTL.c
      r := block_subMat hlev MTL.r
      g := block_subMat hlev MTL.g
      zs := SubMat.zero
      zl := SubMat.zero
      left1 := SubMat.zero
      left2 := SubMat.zero
      right1 := SubMat.zero
      right2 := SubMat.zero
      q1 := hq1
      q2 := hq2
      q3 := hq3
      d := block_subMat hlev fun L => L.conn.d
      de := block_subMat hlev fun L => L.conn.e
      q1sum := fun k => by
        show SubMat _ (vSum B.tz.q1 k) (L.2.conn.q1sum k)
        rw [hsum.q1]; exact sub_vSum (hq1 k)
      q2sum := fun k => by
        show SubMat _ (vSum B.tz.q2 k) (L.2.conn.q2sum k)
        rw [hsum.q2]; exact sub_vSum (hq2 k) }
  obtain ⟨lr1, h1, h1a, h1b⟩ := sub_updateLr he hmed hlr
  obtain ⟨cg1, h2, h2a, h2b⟩ := sub_updateCg he hmed hcg
  have hd : ∀ k < L.2.m, B.dun k = L.2.dun k := fun k hk => (hdun k hk).symm
  obtain ⟨lr2, h3, h3a, h3b⟩ := updateLr_congr hd h1
  refine ⟨lr2, cg1, h3, updateCg_congr hm0 hd h2, ?_⟩
  intro s hs1 hs2 hs3 hF
  have hBm : B.m = L.2.m := hm
  refine ⟨by rw [hs1]; exact hm.symm, fun k hk => ?_, ?_, ?_, ?_, ⟨lrN, rfl, ?_, ?_⟩, ⟨cgN, rfl, h2a, h2b⟩, hF⟩
  · rw [hs2]; exact hdun k (by simp only at hk; omega)
  · rw [hs3]; exact hq1
  · rw [hs3]; exact hq2
  · rw [hs3]; exact hq3
  · intro k hk
    rw [h3a k (by simp only at hk; omega)]
    exact h1a k hk
  · intro k hk
    rw [h3b k (by simp only at hk; omega)]
    exact h1b k hk

/-- **C43** Let `L` be any line of a bundle constructed from any list of levels, to which no transfer impedance has
been added; `s` the line alone in any state, with any terminations and sources, and the bundle in any state `x 0` that
holds the state of `s` in the rows of `L`.  If every step of the bundle ends with the end voltages of the line (whatever
happens in the other rows), then after any number of steps the rows of `L` hold the state of the line alone.
`lr`, `cg` are the coefficients the line computes by itself with the time step of the bundle.

Hypotheses: the lines' cached pole sums are up to date (as after construction and after every connector), and the
cell lengths agree (as the meshes do). -/
theorem C43_same_as_line {levels : List (List (AnyLine p))} {name : String}
    {B b : MTLD (totalConductors levels.flatten) p} (hnew : MTLD.new levels name = .ok ⟨_, B⟩)
    (hprep : B.prepare = .ok b)
    {pre post : List (AnyLine p)} {L : AnyLine p} (hlev : levels.flatten = pre ++ L :: post)
    (hm0 : 0 < L.2.m) (hdun : ∀ k < L.2.m, L.2.dun k = B.dun k) (hsum : L.2.conn.SumsCached) :
    ∃ lr cg, updateLr L.2.m b.dt L.2.dun L.2.l L.2.r L.2.conn = .ok lr ∧
      updateCg L.2.m b.dt L.2.dun L.2.c L.2.g = .ok cg ∧
      ∀ s : MTL L.1 p, s.m = L.2.m → s.dun = L.2.dun → s.conn = L.2.conn →
        ∀ x : ℕ → MTLD (totalConductors levels.flatten) p,
          (∃ v i phi eL eT, x 0 = { b with v := v, i := i, phi := phi, eL := eL, eT := eT }) →
          BlockFields (blockRow pre hlev) (x 0) s → BlockState (blockRow pre hlev) (x 0) s →
          (∀ j : ℕ, BundleStep (s.time + j * s.dt) s.dt (x j) (x (j + 1))) →
          (∀ j a, ((MTL.advanceFields lr cg)^[j + 1] s).v 0 a = (x (j + 1)).v 0 (blockRow pre hlev a)) →
          (∀ j a, ((MTL.advanceFields lr cg)^[j + 1] s).v s.m a = (x (j + 1)).v s.m (blockRow pre hlev a)) →
          ∀ j, BlockState (blockRow pre hlev) (x j) ((MTL.advanceFields lr cg)^[j] s) := by
  obtain ⟨first, rest, hl, hmesh, hb⟩ := new_bundle_ok hnew
  have hB : B = MTLD.assemble first levels name := by
    injection hb
  subst hB
  have hmL : L.2.m = first.2.m := (hmesh L (by rw [hlev]; simp)).1
  obtain ⟨lr, cg, h1, h2, h3⟩ := bundle_medium hlev hmL.symm hm0 hdun hsum hprep
  refine ⟨lr, cg, h1, h2, ?_⟩
  rintro s hs1 hs2 hs3 x ⟨v, i, phi, eL, eT, hx0⟩ hF hst hstep he0 heL
  have hbm : b.m = L.2.m := by
    obtain ⟨_, _, _, _, rfl⟩ := MTLD.prepare_ok_iff.1 hprep
    exact hmL.symm
  -- the medium does not depend on state and fields
  have hmed0 : BlockMedium (blockRow pre hlev) lr cg (x 0) s := by
    let s0 : MTL L.1 p :=
      { s with eL := fun k a => b.eL k (blockRow pre hlev a), eT := fun k a => b.eT k (blockRow pre hlev a) }
    have h4 := h3 s0 hs1 hs2 hs3 ⟨fun _ _ _ => rfl, fun _ _ _ => rfl⟩
    rw [hx0] at hF ⊢
    exact ⟨h4.m, h4.dun, h4.q1, h4.q2, h4.q3, h4.lr, h4.cg, hF⟩
  have key : ∀ j, BlockState (blockRow pre hlev) (x j) ((MTL.advanceFields lr cg)^[j] s) ∧
      BlockMedium (blockRow pre hlev) lr cg (x j) ((MTL.advanceFields lr cg)^[j] s) ∧
      ((MTL.advanceFields lr cg)^[j] s).time = s.time + j * s.dt ∧ ((MTL.advanceFields lr cg)^[j] s).dt = s.dt ∧
      ((MTL.advanceFields lr cg)^[j] s).m = s.m := by
    intro j
    induction j with
    | zero => exact ⟨hst, hmed0, by simp, rfl, rfl⟩
    | succ j ih =>
      obtain ⟨i1, i2, i3, i4, i5⟩ := ih
      have e0 := he0 j
      have eL := heL j
      simp only [Function.iterate_succ_apply'] at e0 eL ⊢
      have hs := hstep j
      rw [← i3, ← i4] at hs
      obtain ⟨r1, r2⟩ := block_step (blockRow_injective hlev) (by rw [← i2.m, i5, hs1]; exact hm0) i2 i1 hs e0
        (by rw [i5]; exact eL)
      refine ⟨r1, r2, ?_, i4, i5⟩
      show ((MTL.advanceFields lr cg)^[j] s).time + ((MTL.advanceFields lr cg)^[j] s).dt = _
      rw [i3, i4]
      push_cast
      ring
  exact fun j => (key j).1

/-! ### The hypotheses of C43 can be met -/

/-- Two demo lines, one inside the other. -/
noncomputable def demoLevels (p : ℕ) : List (List (AnyLine p)) := [[⟨1, demoBare p⟩], [⟨1, demoBare p⟩]]

theorem demoBundle_new (p : ℕ) : MTLD.new (demoLevels p) "b" =
    .ok ⟨_, MTLD.assemble ⟨1, demoBare p⟩ (demoLevels p) "b"⟩ := by
  unfold MTLD.new demoLevels
  simp only
  rw [if_pos]
  intro L hL
  simp only [List.flatten_cons, List.flatten_nil, List.append_nil, List.singleton_append, List.mem_cons,
    List.not_mem_nil, or_false, or_self] at hL
  subst hL
  exact ⟨rfl, fun _ _ => rfl⟩

theorem blockMat_demo_one (p : ℕ) (f : ∀ {n}, MTL n p → ℕ → Mat n) (k : ℕ) (hf : f (demoBare p) k = 1) :
    blockMat (totalConductors (demoLevels p).flatten) (demoLevels p).flatten f k = 1 := by
  ext a b
  have ha := a.2
  have hb := b.2
  simp only [demoLevels, totalConductors, List.flatten_cons, List.flatten_nil, List.append_nil,
    List.singleton_append, List.map_cons, List.map_nil, List.sum_cons, List.sum_nil] at ha hb
  show blockEntry 0 ((demoLevels p).flatten.map fun L => ⟨L.1, fun i j => f L.2 k i j⟩) (a : ℕ) (b : ℕ) = _
  simp only [demoLevels, List.flatten_cons, List.flatten_nil, List.append_nil,
    List.singleton_append, List.map_cons, List.map_nil, blockEntry]
  rw [Matrix.one_apply]
  simp only [hf, Fin.ext_iff]
  obtain ⟨a, ha'⟩ := a
  obtain ⟨b, hb'⟩ := b
  simp only at ha hb ⊢
  interval_cases a <;> interval_cases b <;> simp

theorem blockMat_demo_zero (p : ℕ) (f : ∀ {n}, MTL n p → ℕ → Mat n) (k : ℕ) (hf : f (demoBare p) k = 0) :
    blockMat (totalConductors (demoLevels p).flatten) (demoLevels p).flatten f k = 0 := by
  ext a b
  show blockEntry 0 ((demoLevels p).flatten.map fun L => ⟨L.1, fun i j => f L.2 k i j⟩) (a : ℕ) (b : ℕ) = _
  simp only [demoLevels, List.flatten_cons, List.flatten_nil, List.append_nil,
    List.singleton_append, List.map_cons, List.map_nil, blockEntry, hf]
  split_ifs <;> rfl

theorem blockQ_demo (p : ℕ) (f : ∀ {n}, MTL n p → ℕ → Fin n → Fin n → QEntry p) (k : ℕ)
    (hf : f (demoBare p) k = fun _ _ => none) :
    blockQ (totalConductors (demoLevels p).flatten) (demoLevels p).flatten f k = fun _ _ => none := by
  funext a b
  simp only [blockQ, demoLevels, List.flatten_cons, List.flatten_nil, List.append_nil,
    List.singleton_append, List.map_cons, List.map_nil, blockEntry, hf]
  split_ifs <;> rfl

theorem demoBundle_prepare (p : ℕ) :
    ∃ b, (MTLD.assemble ⟨1, demoBare p⟩ (demoLevels p) "b").prepare = .ok b := by
  have hdt : (MTLD.assemble ⟨1, demoBare p⟩ (demoLevels p) "b").dt = 1 := by
    norm_num [MTLD.assemble, minDt, demoLevels, demoBare]
  obtain ⟨lr, hlr⟩ : ∃ lr, updateLr (MTLD.assemble ⟨1, demoBare p⟩ (demoLevels p) "b").m
      (MTLD.assemble ⟨1, demoBare p⟩ (demoLevels p) "b").dt (MTLD.assemble ⟨1, demoBare p⟩ (demoLevels p) "b").dun
      (MTLD.assemble ⟨1, demoBare p⟩ (demoLevels p) "b").l (MTLD.assemble ⟨1, demoBare p⟩ (demoLevels p) "b").r
      (MTLD.assemble ⟨1, demoBare p⟩ (demoLevels p) "b").tz = .ok lr := by
    rw [hdt]
    refine ⟨_, updateLr_ok_iff.2 ⟨one_ne_zero, ?_, rfl⟩⟩
    intro k hk
    have hk' : k < 2 := hk
    have h1 : (MTLD.assemble ⟨1, demoBare p⟩ (demoLevels p) "b").l k = 1 := blockMat_demo_one p MTL.l k rfl
    have h2 : (MTLD.assemble ⟨1, demoBare p⟩ (demoLevels p) "b").r k = 0 := blockMat_demo_zero p MTL.r k rfl
    have h3 : (MTLD.assemble ⟨1, demoBare p⟩ (demoLevels p) "b").tz.d k = 0 :=
      blockMat_demo_zero p (fun L => L.conn.d) k rfl
    have h4 : (MTLD.assemble ⟨1, demoBare p⟩ (demoLevels p) "b").tz.e k = 0 :=
      blockMat_demo_zero p (fun L => L.conn.e) k rfl
    have h5 : (MTLD.assemble ⟨1, demoBare p⟩ (demoLevels p) "b").tz.q1sum k = 0 := by
      show vSum (blockQ _ _ _) k = 0
      unfold vSum
      rw [blockQ_demo p (fun L => L.conn.q1) k rfl]
      ext a b
      simp [QEntry.val, poleSum]
    have h6 : (MTLD.assemble ⟨1, demoBare p⟩ (demoLevels p) "b").dun k = 1 := by
      simp [MTLD.assemble, demoBare]
      omega
    rw [lrF1, h1, h2, h3, h4, h5, h6]
    simp
  obtain ⟨cg, hcg⟩ : ∃ cg, updateCg (MTLD.assemble ⟨1, demoBare p⟩ (demoLevels p) "b").m
      (MTLD.assemble ⟨1, demoBare p⟩ (demoLevels p) "b").dt (MTLD.assemble ⟨1, demoBare p⟩ (demoLevels p) "b").dun
      (MTLD.assemble ⟨1, demoBare p⟩ (demoLevels p) "b").c (MTLD.assemble ⟨1, demoBare p⟩ (demoLevels p) "b").g
      = .ok cg := by
    rw [hdt]
    refine ⟨_, updateCg_ok_iff.2 ⟨one_ne_zero, ?_, rfl⟩⟩
    intro k hk
    have hk' : k ≤ 2 := hk
    have h1 : (MTLD.assemble ⟨1, demoBare p⟩ (demoLevels p) "b").c k = 1 := blockMat_demo_one p MTL.c k rfl
    have h2 : (MTLD.assemble ⟨1, demoBare p⟩ (demoLevels p) "b").g k = 0 := blockMat_demo_zero p MTL.g k rfl
    have h6 : nodalLength 2 (demoBare p).dun k = 1 := by
      interval_cases k <;> norm_num [nodalLength, demoBare]
    have h7 : nodalLength (MTLD.assemble ⟨1, demoBare p⟩ (demoLevels p) "b").m
      (MTLD.assemble ⟨1, demoBare p⟩ (demoLevels p) "b").dun k = 1 := h6
    rw [cgF1, h1, h2, h7]
    simp
  exact ⟨_, MTLD.prepare_ok_iff.2 ⟨lr, cg, hlr, hcg, rfl⟩⟩

theorem rest_advanceCurrent {m : ℕ} {lr : LR n} {dun : ℕ → ℝ} {src : Sampled n} {q : Grid n}
    (h1 : src.eTNow = 0) (h2 : src.eLNow = 0) (h3 : src.eLPrev = 0) (hq : q = 0) :
    advanceCurrent m lr dun q src (fun _ => 0) (fun _ => 0) = fun _ => 0 := by
  funext k
  simp [advanceCurrent, h1, h2, h3, hq]

/-- **C43, non-vacuity** For the bundle of two demo lines at rest all hypotheses hold (with `x j` constant). -/
theorem C43_example (p : ℕ) : ∃ (B b : MTLD (totalConductors (demoLevels p).flatten) p),
    MTLD.new (demoLevels p) "b" = .ok ⟨_, B⟩ ∧ B.prepare = .ok b ∧
    (demoLevels p).flatten = [⟨1, demoBare p⟩] ++ ⟨1, demoBare p⟩ :: [] ∧
    (∀ k < (demoBare p).m, (demoBare p).dun k = B.dun k) ∧ (demoBare p).conn.SumsCached ∧
    BundleStep 0 1 b b := by
  obtain ⟨b, hb⟩ := demoBundle_prepare p
  refine ⟨_, b, demoBundle_new p, hb, rfl, fun _ _ => rfl, ⟨?_, ?_⟩, ?_⟩
  · funext k; ext a c; simp [demoBare, Disp.new, vSum, QEntry.val, poleSum]
  · funext k; ext a c; simp [demoBare, Disp.new, vSum, QEntry.val, poleSum]
  · obtain ⟨lr, cg, h1, h2, rfl⟩ := MTLD.prepare_ok_iff.1 hb
    set B := MTLD.assemble ⟨1, demoBare p⟩ (demoLevels p) "b" with hB
    have hv : advanceVoltage B.m cg (B.sample 0 1) B.v B.i = B.v := by
      funext k
      simp [advanceVoltage, hB, MTLD.assemble, MTLD.sample, sampleSources]
    have hq : B.tz.q3phi B.phi = 0 := by
      funext k a; simp [Disp.q3phi, hB, MTLD.assemble, poleSum]
    have hi : advanceCurrent B.m lr B.dun (B.tz.q3phi B.phi) (B.sample 0 1) B.v B.i = B.i :=
      rest_advanceCurrent rfl rfl rfl hq
    refine ⟨_, _, MTLD.stepVoltage_ok_iff.2 ⟨cg, rfl, rfl⟩, ⟨⟨_, rfl⟩, fun _ _ _ => rfl⟩,
      MTLD.stepCurrent_ok_iff.2 ⟨lr, rfl, ?_⟩⟩
    have hphi : B.tz.updatePhi B.phi B.i B.i = B.phi := by
      funext k a σ; simp [Disp.updatePhi, hB, MTLD.assemble]
    have hs : ∀ w, MTLD.sample { B with v := w, lr := some lr, cg := some cg } 0 1 = B.sample 0 1 := fun _ => rfl
    simp only [hs, hv, hi, hphi]

end Mtln
