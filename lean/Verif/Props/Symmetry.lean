import Verif.Lemmas.Mirror
import Verif.Lemmas.Sub
import Verif.Lemmas.Renumber
import Verif.Lemmas.Relational
import Verif.Props.Demo

/-!
# Symmetries of a line: C14 (mirror), C19 (uncoupled conductors), C20 (renumbering)
-/

namespace Mtln

open Matrix

variable {n p : ℕ}

/-- **C14.** Exchanging the ends of a line (hardware, sources, initial state) mirrors the voltages and mirrors
and negates the currents after every step. -/
theorem C14_mirror (T : ℝ) (s t s' t' : MTL n p) (N : ℕ) (trs trt : ℕ → MTL n p)
    (Rs : RunTrace s T s' N trs) (Rt : RunTrace t T t' N trt) (hm : 0 < s.m) (h : MirroredMedium s t)
    (ht : t.time = s.time) (hS : MirroredSources s t) (hst : MirroredState s t) :
    ∀ j ≤ N, (∀ k ≤ s.m, (trt j).v k = (trs j).v (s.m - k)) ∧
      ∀ k < s.m, (trt j).i k = -(trs j).i (s.m - 1 - k) := by
  obtain ⟨lr, cg, hlr, hcg, c₁⟩ := Rs.closed
  obtain ⟨lr', cg', hlr', hcg', c₂⟩ := Rt.closed
  have hc := mirror_coeffs h hm hlr hlr' hcg hcg'
  intro j hj
  have := mirror_iterate h hm hc ht hS hst j
  have hm' := (iterate_advanceFields_config lr cg s j).m
  rw [c₁ j hj, c₂ j hj]
  refine ⟨?_, ?_⟩
  · intro k hk
    have h1 := this.v k (by rw [hm']; exact hk)
    rw [hm'] at h1
    exact h1
  · intro k hk
    have h1 := this.i k (by rw [hm']; exact hk)
    rw [hm'] at h1
    exact h1

/-- The terminal coefficients of a mirrored line are the swapped ones whenever both lines have coefficients
that belong to their data (all constructed lines, `C09_constructed_consistent`). -/
theorem C14_terminal_coefficients (s t : MTL n p) (hm : 0 < s.m) (hs : s.TermConsistent) (ht : t.TermConsistent)
    (m : t.m = s.m) (dt : t.dt = s.dt) (dun : ∀ k < s.m, t.dun k = s.dun (s.m - 1 - k))
    (c : ∀ k ≤ s.m, t.c k = s.c (s.m - k)) (g : ∀ k ≤ s.m, t.g k = s.g (s.m - k))
    (zs : t.zs = s.zl) (zl : t.zl = s.zs) :
    t.left1 = s.right1 ∧ t.left2 = s.right2 ∧ t.right1 = s.left1 ∧ t.right2 = s.left2 := by
  have d0 := dun 0 hm
  have dm := dun (s.m - 1) (by omega)
  have c0 := c 0 (by omega)
  have cm := c s.m le_rfl
  have g0 := g 0 (by omega)
  have gm := g s.m le_rfl
  simp only [Nat.sub_zero, Nat.sub_self] at d0 dm c0 cm g0 gm
  rw [ht.left1, ht.left2, ht.right1, ht.right2, hs.left1, hs.left2, hs.right1, hs.right2, m, dt, zs, zl, d0, dm,
    c0, cm, g0, gm]
  exact ⟨rfl, rfl, rfl, rfl⟩

/-- **C14**, symmetric lines: on a line that is its own mirror image, exciting from the other end gives at a
voltage probe at the mirrored node the same readings, and at a current probe at the mirrored cell the
negative readings. -/
theorem C14_symmetric_line (T : ℝ) (s t s' t' : MTL n p) (N : ℕ) (trs trt : ℕ → MTL n p)
    (Rs : RunTrace s T s' N trs) (Rt : RunTrace t T t' N trt) (hm : 0 < s.m) (h : MirroredMedium s s)
    (hmed : s.SameMedium t) (ht : t.time = s.time) (hS : MirroredSources s t) (hst : MirroredState s t)
    (x y : ℕ) (q q' : Probe n) (hq : s'.probes[x]? = some q) (hq' : t'.probes[y]? = some q') :
    (q.type = "voltage" → q'.type = "voltage" → q.index ≤ s.m → q'.index = s.m - q.index → q'.val = q.val) ∧
    (q.type = "current" → q'.type = "current" → q.index < s.m → q'.index = s.m - 1 - q.index →
      ∃ r, q.val = .rows r ∧ q'.val = .rows (r.map fun w => -w)) := by
  have hmir : MirroredMedium s t := by
    constructor
    · exact hmed.m
    · exact hmed.dt
    · intro k hk; rw [hmed.dun]; exact h.dun k hk
    · intro k hk; rw [hmed.l]; exact h.l k hk
    · intro k hk; rw [hmed.r]; exact h.r k hk
    · intro k hk; rw [hmed.c]; exact h.c k hk
    · intro k hk; rw [hmed.g]; exact h.g k hk
    · rw [hmed.zs]; exact h.zs
    · rw [hmed.zl]; exact h.zl
    · rw [hmed.left1]; exact h.left1
    · rw [hmed.left2]; exact h.left2
    · rw [hmed.right1]; exact h.right1
    · rw [hmed.right2]; exact h.right2
    · intro k hk; rw [hmed.conn]; exact h.q1 k hk
    · intro k hk; rw [hmed.conn]; exact h.q2 k hk
    · intro k hk; rw [hmed.conn]; exact h.q3 k hk
    · intro k hk; rw [hmed.conn]; exact h.d k hk
    · intro k hk; rw [hmed.conn]; exact h.e k hk
    · intro k hk; rw [hmed.conn]; exact h.q1sum k hk
    · intro k hk; rw [hmed.conn]; exact h.q2sum k hk
  have key := C14_mirror T s t s' t' N trs trt Rs Rt hm hmir ht hS hst
  have ps := Rs.probes N le_rfl
  have pt := Rt.probes N le_rfl
  rw [Rs.final] at ps
  rw [Rt.final] at pt
  rw [ps, List.getElem?_map, Option.map_eq_some_iff] at hq
  rw [pt, List.getElem?_map, Option.map_eq_some_iff] at hq'
  obtain ⟨o, -, rfl⟩ := hq
  obtain ⟨o', -, rfl⟩ := hq'
  have hne : ¬ ("current" = "voltage") := by decide
  refine ⟨?_, ?_⟩
  · intro h1 h2 h3 h4
    have h1 : o.type = "voltage" := h1
    have h2 : o'.type = "voltage" := h2
    have h3 : o.index ≤ s.m := h3
    have h4 : o'.index = s.m - o.index := h4
    simp only [Probe.recorded, filled_full, Probe.column, h1, h2, h4, if_true, hmed.m]
    congr 1
    apply List.map_congr_left
    intro j hj
    have hj : j < N := List.mem_range.1 hj
    rw [(key (j + 1) (by omega)).1 _ (by omega), show s.m - (s.m - o.index) = o.index by omega]
  · intro h1 h2 h3 h4
    have h1 : o.type = "current" := h1
    have h2 : o'.type = "current" := h2
    have h3 : o.index < s.m := h3
    have h4 : o'.index = s.m - 1 - o.index := h4
    refine ⟨_, rfl, ?_⟩
    simp only [Probe.recorded, filled_full, Probe.column, h1, h2, h4, if_neg hne, hmed.m,
      if_neg (show ¬ o.index = s.m by omega), if_neg (show ¬ s.m - 1 - o.index = s.m by omega), List.map_map]
    congr 1
    apply List.map_congr_left
    intro j hj
    have hj : j < N := List.mem_range.1 hj
    rw [(key (j + 1) (by omega)).2 _ (by omega), show s.m - 1 - (s.m - 1 - o.index) = o.index by omega]
    rfl

/-- The demo line is its own mirror image, and the demo line with the source at the other end runs
(non-vacuity of C14). -/
example : MirroredMedium (demoLine 0) (demoLine 0) ∧
    ∃ t : MTL 1 0, (demoLine 0).SameMedium t ∧ MirroredSources (demoLine 0) t ∧ MirroredState (demoLine 0) t ∧
      t.vSources 2 0 0 = 1 ∧ ∃ t', t.runUntil 5 = .ok t' := by
  have hk : ∀ k, k < 2 → (k = 0 ∨ k = 1) := by intro k h; omega
  refine ⟨?_, { demoLine 0 with vSources := fun k j t => (demoLine 0).vSources (2 - k) j t },
    by constructor <;> rfl, ?_, ?_, ?_, ?_⟩
  · refine ⟨rfl, rfl, ?_, fun _ _ => rfl, fun _ _ => rfl, fun _ _ => rfl, fun _ _ => rfl, rfl, rfl, rfl, rfl, rfl,
      rfl, fun _ _ => rfl, fun _ _ => rfl, fun _ _ => rfl, fun _ _ => rfl, fun _ _ => rfl, fun _ _ => rfl,
      fun _ _ => rfl⟩
    intro k h
    rcases hk k h with rfl | rfl <;> simp [demoLine, demoBare]
  · refine ⟨fun _ _ => rfl, fun _ _ => rfl, fun k _ x τ => ?_⟩
    simp [demoLine, demoBare]
  · refine ⟨fun k _ => rfl, fun k _ => ?_, fun k _ x σ => σ.elim0⟩
    simp [demoLine, demoBare]
  · simp [demoLine]
  · exact (runUntil_success_iff 5 _).2
      ⟨by simp [demoLine, demoBare], demo_lr 0, demo_cg 0, Or.inr (demo_valid 0)⟩

/-- The part of a line made of the conductors `e 0, e 1, …`. -/
noncomputable def MTL.part {n₁ : ℕ} (e : Fin n₁ → Fin n) (s : MTL n p) : MTL n₁ p where
  name := s.name
  m := s.m
  u := s.u
  du := s.du
  dun := s.dun
  l := fun k => (s.l k).submatrix e e
  c := fun k => (s.c k).submatrix e e
  r := fun k => (s.r k).submatrix e e
  g := fun k => (s.g k).submatrix e e
  zs := s.zs.submatrix e e
  zl := s.zl.submatrix e e
  dt := s.dt
  time := s.time
  v := fun k a => s.v k (e a)
  i := fun k a => s.i k (e a)
  phi := fun k a => s.phi k (e a)
  probes := []
  conn :=
    { dt := s.conn.dt
      q1 := fun k a b => s.conn.q1 k (e a) (e b)
      q2 := fun k a b => s.conn.q2 k (e a) (e b)
      q3 := fun k a b => s.conn.q3 k (e a) (e b)
      d := fun k => (s.conn.d k).submatrix e e
      e := fun k => (s.conn.e k).submatrix e e
      q1sum := fun k => (s.conn.q1sum k).submatrix e e
      q2sum := fun k => (s.conn.q2sum k).submatrix e e }
  vSources := fun k a => s.vSources k (e a)
  eL := fun k a => s.eL k (e a)
  eT := fun k a => s.eT k (e a)
  left1 := s.left1.submatrix e e
  left2 := s.left2.submatrix e e
  right1 := s.right1.submatrix e e
  right2 := s.right2.submatrix e e
  lr := none
  cg := none

/-- **C19.** Uncoupled conductors.  `S` is a group of conductors into which no matrix of the line couples a
conductor outside the group.  Two lines of that hardware whose states and sources agree on the group (they
may differ arbitrarily on the other conductors) agree on the group after every step. -/
theorem C19_uncoupled (T : ℝ) (S : Finset (Fin n)) (s t s' t' : MTL n p) (N : ℕ) (trs trt : ℕ → MTL n p)
    (Rs : RunTrace s T s' N trs) (Rt : RunTrace t T t' N trt) (hm : 0 < s.m) (hmed : s.SameMedium t)
    (ht : t.time = s.time) (hT : s.TermConsistent) (h : s.Uncoupled S)
    (hv : ∀ k, ∀ x ∈ S, t.v k x = s.v k x) (hi : ∀ k, ∀ x ∈ S, t.i k x = s.i k x)
    (hphi : ∀ k, ∀ x ∈ S, t.phi k x = s.phi k x)
    (hS : ∀ k, ∀ x ∈ S, t.vSources k x = s.vSources k x) (hL : ∀ k, ∀ x ∈ S, t.eL k x = s.eL k x)
    (heT : ∀ k, ∀ x ∈ S, t.eT k x = s.eT k x) :
    ∀ j ≤ N, ∀ k, ∀ x ∈ S, (trt j).v k x = (trs j).v k x ∧ (trt j).i k x = (trs j).i k x := by
  obtain ⟨lr, cg, hlr, hcg, c₁, c₂⟩ := two_runs hmed Rs Rt
  let e : Fin S.card → Fin n := S.orderEmbOfFin rfl
  have he : Function.Injective e := (S.orderEmbOfFin rfl).injective
  have hmem : ∀ a, e a ∈ S := fun a => S.orderEmbOfFin_mem rfl a
  have hrange : ∀ x, x ∉ Set.range e → x ∉ S := by
    intro x hx hxS
    apply hx
    have : Set.range e = (S : Set (Fin n)) := Finset.range_orderEmbOfFin S rfl
    rw [this]; exact hxS
  have hsurj : ∀ x ∈ S, ∃ a, e a = x := by
    intro x hxS
    have : Set.range e = (S : Set (Fin n)) := Finset.range_orderEmbOfFin S rfl
    have hx : x ∈ Set.range e := by rw [this]; exact hxS
    exact hx
  have sm : ∀ A : Mat n, Decoupled S A → SubMat e A (A.submatrix e e) := fun A hA =>
    ⟨fun _ _ => rfl, fun a x hx => hA _ (hmem a) x (hrange x hx)⟩
  obtain ⟨l2, l1⟩ := sub_terminal he (sm _ h.zs) (sm _ (h.c 0)) (sm _ (h.g 0)) hT.det_left
  obtain ⟨r2, r1⟩ := sub_terminal he (sm _ h.zl) (sm _ (h.c s.m)) (sm _ (h.g s.m)) hT.det_right
  rw [← hT.left1] at l1
  rw [← hT.left2] at l2
  rw [← hT.right1] at r1
  rw [← hT.right2] at r2
  have fix : ∀ {A : Mat n} {B : Mat S.card}, SubMat e A B → SubMat e A (A.submatrix e e) := fun hAB =>
    ⟨fun _ _ => rfl, hAB.outside⟩
  have M : SubMedium e s (s.part e) :=
    ⟨rfl, rfl, rfl, fun k => sm _ (h.l k), fun k => sm _ (h.c k), fun k => sm _ (h.r k), fun k => sm _ (h.g k),
      sm _ h.zs, sm _ h.zl, fix l1, fix l2, fix r1, fix r2,
      fun k => ⟨fun _ _ => rfl, fun a x hx => h.q1 k _ (hmem a) x (hrange x hx)⟩,
      fun k => ⟨fun _ _ => rfl, fun a x hx => h.q2 k _ (hmem a) x (hrange x hx)⟩,
      fun k => ⟨fun _ _ => rfl, fun a x hx => h.q3 k _ (hmem a) x (hrange x hx)⟩,
      fun k => sm _ (h.d k), fun k => sm _ (h.e k), fun k => sm _ (h.q1sum k), fun k => sm _ (h.q2sum k)⟩
  have M' : SubMedium e t (s.part e) := by
    constructor
    · exact hmed.m.symm
    · exact hmed.dt.symm
    · exact hmed.dun.symm
    · rw [hmed.l]; exact M.l
    · rw [hmed.c]; exact M.c
    · rw [hmed.r]; exact M.r
    · rw [hmed.g]; exact M.g
    · rw [hmed.zs]; exact M.zs
    · rw [hmed.zl]; exact M.zl
    · rw [hmed.left1]; exact M.left1
    · rw [hmed.left2]; exact M.left2
    · rw [hmed.right1]; exact M.right1
    · rw [hmed.right2]; exact M.right2
    · rw [hmed.conn]; exact M.q1
    · rw [hmed.conn]; exact M.q2
    · rw [hmed.conn]; exact M.q3
    · rw [hmed.conn]; exact M.d
    · rw [hmed.conn]; exact M.de
    · rw [hmed.conn]; exact M.q1sum
    · rw [hmed.conn]; exact M.q2sum
  obtain ⟨lr', hlr', a1, a2⟩ := sub_updateLr he M hlr
  obtain ⟨cg', hcg', b1, b2⟩ := sub_updateCg he M hcg
  intro j hj k x hx
  obtain ⟨a, rfl⟩ := hsurj x hx
  have h1 := sub_iterate he j M hm ⟨a1, a2, b1, b2⟩ rfl ⟨fun _ _ => rfl, fun _ _ => rfl, fun _ _ => rfl⟩
    ⟨fun _ _ => rfl, fun _ _ => rfl, fun _ _ => rfl⟩
  have hmm := hmed.m
  have h2 := sub_iterate he j (lr := lr) (cg := cg) (lr' := lr') (cg' := cg') M' (by rw [hmm]; exact hm)
    (by rw [hmm]; exact ⟨a1, a2, b1, b2⟩) ht.symm
    ⟨fun k a => (hS k _ (hmem a)).symm, fun k a => (hL k _ (hmem a)).symm, fun k a => (heT k _ (hmem a)).symm⟩
    ⟨fun k a => (hv k _ (hmem a)).symm, fun k a => (hi k _ (hmem a)).symm, fun k a => (hphi k _ (hmem a)).symm⟩
  rw [c₁ j hj, c₂ j hj]
  exact ⟨(h2.v k a).symm.trans (h1.v k a), (h2.i k a).symm.trans (h1.i k a)⟩

/-- Non-vacuity of C19: two uncoupled conductors; conductor 1 is quiet while conductor 0 has a source in one
line and none in the other. -/
example : ∃ t : MTL 2 0, (demoWide 2 0).SameMedium t ∧ (demoWide 2 0).Uncoupled {1} ∧
    t.vSources 0 0 ≠ (demoWide 2 0).vSources 0 0 ∧
    (∀ k, ∀ x ∈ ({1} : Finset (Fin 2)), t.vSources k x = (demoWide 2 0).vSources k x) ∧
    (∃ s', (demoWide 2 0).runUntil 5 = .ok s') ∧ ∃ t', t.runUntil 5 = .ok t' := by
  have hone : Decoupled ({1} : Finset (Fin 2)) 1 := by
    intro i hi j hj
    apply Matrix.one_apply_ne
    rintro rfl
    exact hj hi
  have hzero : Decoupled ({1} : Finset (Fin 2)) 0 := fun _ _ _ _ => rfl
  refine ⟨{ demoWide 2 0 with vSources := fun _ _ _ => 0 }, by constructor <;> rfl, ?_, ?_, ?_,
    wide_run 2 0 5 _ rfl rfl rfl rfl rfl rfl rfl rfl rfl, wide_run 2 0 5 _ rfl rfl rfl rfl rfl rfl rfl rfl rfl⟩
  · exact ⟨fun _ => hone, fun _ => hone, fun _ => hzero, fun _ => hzero, hone, hone, fun _ => hzero,
      fun _ => hzero, fun _ => hzero, fun _ => hzero, fun _ _ _ _ _ => rfl, fun _ _ _ _ _ => rfl,
      fun _ _ _ _ _ => rfl⟩
  · intro h
    have := congrFun h 0
    simp [demoWide] at this
  · intro k x hx
    funext t
    simp at hx
    subst hx
    simp [demoWide]

/-- **C20.** Renumbering the conductors of a line by any permutation renumbers the result of every run
(fields, memory and probe recordings) by the same permutation; runs fail for both lines or for none, with the
same error. -/
theorem C20_renumbering (π : Equiv.Perm (Fin n)) (T : ℝ) (s : MTL n p) :
    (s.renumber π).runUntil T = (s.runUntil T).map (MTL.renumber π) :=
  renumber_runUntil π T s

/-- **C20** for the constructor: a line built from renumbered matrices has renumbered terminal coefficients. -/
theorem C20_terminal_coefficients (π : Equiv.Perm (Fin n)) (s : MTL n p) :
    (s.renumber π).computeTerminalTerms = s.computeTerminalTerms.map (MTL.renumber π) := by
  have h1 : ∀ dt du (z c g : Mat n), termF1 dt du (renumMat π z) (renumMat π c) (renumMat π g) =
      renumMat π (termF1 dt du z c g) := by
    intro dt du z c g
    unfold termF1
    rw [renumMat_add, renumMat_add, renumMat_smul, renumMat_smul, renumMat_mul, renumMat_mul]
    congr 1
    ext a b
    simp [renumMat, Matrix.one_apply]
  have h2 : ∀ dt du (z c g : Mat n), termF2 dt du (renumMat π z) (renumMat π c) (renumMat π g) =
      renumMat π (termF2 dt du z c g) := by
    intro dt du z c g
    unfold termF2
    rw [renumMat_sub, renumMat_sub, renumMat_smul, renumMat_smul, renumMat_mul, renumMat_mul]
    congr 1
    ext a b
    simp [renumMat, Matrix.one_apply]
  unfold MTL.computeTerminalTerms
  simp only [show (s.renumber π).dt = s.dt from rfl, show (s.renumber π).dun = s.dun from rfl,
    show (s.renumber π).m = s.m from rfl, show (s.renumber π).zs = renumMat π s.zs from rfl,
    show (s.renumber π).zl = renumMat π s.zl from rfl, show ∀ k, (s.renumber π).c k = renumMat π (s.c k) from
    fun _ => rfl, show ∀ k, (s.renumber π).g k = renumMat π (s.g k) from fun _ => rfl, h1, h2, renumMat_det,
    ← renumMat_inv, ← renumMat_mul]
  unfold raiseIf
  split
  · rfl
  · simp only [bind, Except.bind]
    split
    · rename_i e _
      rename_i h
      split at h <;> simp_all [Except.map]
    · split <;> simp_all [Except.map, MTL.renumber]

end Mtln
