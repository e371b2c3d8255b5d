import Verif.Spec.Construct
import Verif.Lemmas.Run

/-! # The constructor, step by step -/

namespace Mtln

open Matrix

variable {n p : ℕ}

/-- The line the constructor has assembled before `compute_terminal_terms` (mtl.py:96-168). -/
noncomputable def assembled (n p : ℕ) (la ca ga ra zsa zla : ℕ → ℕ → ℝ) (M : ℕ) (mem : MeshMem) (dt : ℝ)
    (name : String) : MTL n p :=
  { name := name
    m := M
    u := fun k => (mem.u k).getD 0
    du := fun k => (mem.du k).getD 0
    dun := fun k => norm3 ((mem.du k).getD 0)
    l := fun _ => toMat n la
    c := fun _ => toMat n ca
    r := fun _ => toMat n ra
    g := fun _ => toMat n ga
    zs := toMat n zsa
    zl := toMat n zla
    dt := dt
    time := 0
    v := fun _ => 0
    i := fun _ => 0
    phi := fun _ _ => 0
    probes := []
    conn := Disp.new dt
    vSources := fun _ _ _ => 0
    eL := fun _ _ _ => 0
    eT := fun _ _ _ => 0
    left1 := 0
    left2 := 0
    right1 := 0
    right2 := 0
    lr := none
    cg := none }

theorem new_ok_iff {l c r g : Arg} {length : ℝ} {positions : List V3} {ndiv : List ℕ} {Zs Zl : ZArg}
    {name : String} {s : MTL n p} :
    MTL.new p l c r g length positions ndiv Zs Zl name = .ok ⟨n, s⟩ ↔
    ∃ la ca ga ra zsa zla mem dt, initLC l c = .ok (n, la, ca) ∧ initRGone n g = .ok ga ∧
      initRGone n r = .ok ra ∧ initZt n Zs Zl = .ok (zsa, zla) ∧
      buildMesh (if positions = [] then [![0, 0, 0], ![0, 0, length]] else positions) ndiv = .ok mem ∧
      (∀ k < ndiv.sum, mem.u k ≠ none ∧ mem.du k ≠ none) ∧
      maxTimestep ndiv.sum (fun k => norm3 ((mem.du k).getD 0)) (fun _ => toMat n la) (fun _ => toMat n ca)
        = .ok dt ∧
      (assembled n p la ca ga ra zsa zla ndiv.sum mem dt name).computeTerminalTerms = .ok s := by
  classical
  unfold MTL.new
  constructor
  · intro h
    obtain ⟨⟨n', la, ca⟩, h1, h⟩ := bind_ok_iff.1 h
    obtain ⟨ga, h2, h⟩ := bind_ok_iff.1 h
    obtain ⟨ra, h3, h⟩ := bind_ok_iff.1 h
    obtain ⟨⟨zsa, zla⟩, h4, h⟩ := bind_ok_iff.1 h
    obtain ⟨mem, h5, h⟩ := bind_ok_iff.1 h
    obtain ⟨_, h6, h⟩ := bind_ok_iff.1 h
    obtain ⟨dt, h7, h⟩ := bind_ok_iff.1 h
    obtain ⟨s1, h8, h⟩ := bind_ok_iff.1 h
    injection h with h
    obtain ⟨rfl, h⟩ := Sigma.mk.inj_iff.1 h
    have := eq_of_heq h
    subst this
    refine ⟨la, ca, ga, ra, zsa, zla, mem, dt, h1, h2, h3, h4, h5, ?_, h7, h8⟩
    have h6 := raiseIf_ok_iff.1 h6
    push Not at h6
    exact h6
  · rintro ⟨la, ca, ga, ra, zsa, zla, mem, dt, h1, h2, h3, h4, h5, h6, h7, h8⟩
    refine bind_ok_iff.2 ⟨_, h1, ?_⟩
    refine bind_ok_iff.2 ⟨_, h2, ?_⟩
    refine bind_ok_iff.2 ⟨_, h3, ?_⟩
    refine bind_ok_iff.2 ⟨_, h4, ?_⟩
    refine bind_ok_iff.2 ⟨_, h5, ?_⟩
    refine bind_ok_iff.2 ⟨(), raiseIf_ok_iff.2 ?_, ?_⟩
    · push Not; exact h6
    refine bind_ok_iff.2 ⟨_, h7, ?_⟩
    refine bind_ok_iff.2 ⟨_, h8, rfl⟩

theorem computeTerminalTerms_ok_iff {s s' : MTL n p} :
    s.computeTerminalTerms = .ok s' ↔ s.dt ≠ 0 ∧
      (termF1 s.dt (s.dun 0) s.zs (s.c 0) (s.g 0)).det ≠ 0 ∧
      (termF1 s.dt (s.dun (s.m - 1)) s.zl (s.c s.m) (s.g s.m)).det ≠ 0 ∧
      s' = { s with
        left1 := (termF1 s.dt (s.dun 0) s.zs (s.c 0) (s.g 0))⁻¹ * termF2 s.dt (s.dun 0) s.zs (s.c 0) (s.g 0)
        left2 := (termF1 s.dt (s.dun 0) s.zs (s.c 0) (s.g 0))⁻¹
        right1 := (termF1 s.dt (s.dun (s.m - 1)) s.zl (s.c s.m) (s.g s.m))⁻¹ *
          termF2 s.dt (s.dun (s.m - 1)) s.zl (s.c s.m) (s.g s.m)
        right2 := (termF1 s.dt (s.dun (s.m - 1)) s.zl (s.c s.m) (s.g s.m))⁻¹ } := by
  unfold MTL.computeTerminalTerms
  simp only [bind_ok_iff, raiseIf_ok_iff]
  constructor
  · rintro ⟨_, h0, _, h1, _, h2, h⟩
    injection h with h
    exact ⟨h0, h1, h2, h.symm⟩
  · rintro ⟨h0, h1, h2, rfl⟩
    exact ⟨(), h0, (), h1, (), h2, rfl⟩

theorem initLC_ok_iff {l c : Arg} {la ca : ℕ → ℕ → ℝ} :
    initLC l c = .ok (n, la, ca) ↔
      GoodLC n l c ∧ (∀ i j, la i j = match l with | .scalar x => x | .mat _ _ a => a i j | _ => 0) ∧
        (∀ i j, ca i j = match c with | .scalar x => x | .mat _ _ a => a i j | _ => 0) := by
  unfold initLC
  split
  · constructor
    · intro h
      injection h with h
      simp only [Prod.mk.injEq] at h
      obtain ⟨rfl, rfl, rfl⟩ := h
      exact ⟨.floats _ _, fun _ _ => rfl, fun _ _ => rfl⟩
    · rintro ⟨h, h1, h2⟩
      cases h
      have e1 : la = _ := funext fun i => funext fun j => h1 i j
      have e2 : ca = _ := funext fun i => funext fun j => h2 i j
      rw [e1, e2]
  · simp only [bind_ok_iff, pyAssert_ok_iff]
    constructor
    · rintro ⟨_, h1, _, h2, h⟩
      injection h with h
      simp only [Prod.mk.injEq] at h
      obtain ⟨rfl, rfl, rfl⟩ := h
      obtain ⟨rfl, rfl⟩ := h1
      subst h2
      exact ⟨.matrices _ _ _, fun _ _ => rfl, fun _ _ => rfl⟩
    · rintro ⟨h, h1, h2⟩
      cases h
      have e1 : la = _ := funext fun i => funext fun j => h1 i j
      have e2 : ca = _ := funext fun i => funext fun j => h2 i j
      rw [e1, e2]
      exact ⟨(), ⟨rfl, rfl⟩, (), rfl, rfl⟩
  · constructor
    · intro h
      obtain ⟨_, _, h⟩ := bind_ok_iff.1 h
      cases h
    · rintro ⟨h, -⟩
      cases h
  · simp only [reduceCtorEq, false_iff, not_and]; intro h; cases h
  · simp only [reduceCtorEq, false_iff, not_and]; intro h; cases h
  · rename_i h1 h2 _ _ _
    simp only [reduceCtorEq, false_iff, not_and]
    intro h
    cases h
    · exact (h1 _ _ rfl rfl).elim
    · exact (h2 _ _ _ _ _ _ rfl rfl).elim

theorem initRGone_ok_iff {x : Arg} {a : ℕ → ℕ → ℝ} :
    initRGone n x = .ok a ↔
      GoodRG n x ∧ ∀ i j, a i j = match x with | .scalar x => x | .mat _ _ a => a i j | _ => 0 := by
  unfold initRGone
  split
  · rename_i x
    by_cases hx : x = 0
    · subst hx
      simp only [ne_eq, not_true_eq_false, if_false]
      constructor
      · intro h
        injection h with h
        exact ⟨.zero, fun i j => by rw [← h]⟩
      · rintro ⟨-, h⟩
        have : a = fun _ _ => 0 := funext fun i => funext fun j => h i j
        rw [this]
    · simp only [ne_eq, hx, not_false_eq_true, if_true, bind_ok_iff, pyAssert_ok_iff]
      constructor
      · rintro ⟨_, h1, h⟩
        injection h with h
        exact ⟨.one x h1, fun i j => by rw [← h]⟩
      · rintro ⟨hg, h⟩
        have e : a = fun _ _ => x := funext fun i => funext fun j => h i j
        refine ⟨(), ?_, by rw [e]⟩
        cases hg
        · exact absurd rfl hx
        · assumption
  · simp only [bind_ok_iff, pyAssert_ok_iff]
    constructor
    · rintro ⟨_, rfl, _, rfl, h⟩
      injection h with h
      exact ⟨.matrix _, fun i j => by rw [← h]⟩
    · rintro ⟨hg, h⟩
      have e : a = _ := funext fun i => funext fun j => h i j
      cases hg
      exact ⟨(), rfl, (), rfl, by rw [e]⟩
  · constructor
    · intro h
      obtain ⟨_, _, h⟩ := bind_ok_iff.1 h
      cases h
    · rintro ⟨h, -⟩
      cases h
  · simp only [reduceCtorEq, false_iff, not_and]; intro h; cases h

theorem initZt_ok {zs zl : ZArg} {a b : ℕ → ℕ → ℝ} (h : initZt n zs zl = .ok (a, b)) : GoodZ n zs zl ∧
    (∀ i < n, ∀ j, a i j = if i = j then zs.value i else 0) ∧
    (∀ i < n, ∀ j, b i j = if i = j then zl.value i else 0) := by
  unfold initZt at h
  split at h
  · injection h with h
    injection h with h1 h2
    exact ⟨.numbers _ _, fun i _ j => by rw [← h1]; rfl, fun i _ j => by rw [← h2]; rfl⟩
  · simp only [bind_ok_iff, pyAssert_ok_iff] at h
    obtain ⟨_, e1, _, e2, h⟩ := h
    injection h with h
    injection h with h1 h2
    exact ⟨.vectors _ _ e2 (e1 ▸ e2), fun i _ j => by rw [← h1]; rfl, fun i _ j => by rw [← h2]; rfl⟩
  · simp only [bind_ok_iff, pyAssert_ok_iff] at h
    obtain ⟨_, ⟨rfl, rfl⟩, _, -, _, -, h⟩ := h
    split at h
    · rename_i hc
      obtain ⟨rfl, rfl⟩ := hc
      injection h with h
      injection h with h1 h2
      refine ⟨.row _ _, fun i _ j => ?_, fun i _ j => ?_⟩
      · rw [← h1]
        by_cases e : i = j
        · subst e; simp [ZArg.value]
        · simp [e]
      · rw [← h2]
        by_cases e : i = j
        · subst e; simp [ZArg.value]
        · simp [e]
    · split at h
      · rename_i hc hc'
        obtain ⟨rfl, rfl⟩ := hc'
        injection h with h
        injection h with h1 h2
        refine ⟨.column _ _, fun i _ j => ?_, fun i _ j => ?_⟩
        · rw [← h1]
          by_cases e : i = j
          · subst e
            simp only [if_true, ZArg.value]
            rw [if_neg (fun h => hc ⟨h, h.symm⟩)]
          · simp [e]
        · rw [← h2]
          by_cases e : i = j
          · subst e
            simp only [if_true, ZArg.value]
            rw [if_neg (fun h => hc ⟨h, h.symm⟩)]
          · simp [e]
      · cases h
  · cases h
  · cases h
  · cases h

theorem initZt_good {zs zl : ZArg} (h : GoodZ n zs zl) : ∃ a b, initZt n zs zl = .ok (a, b) := by
  cases h with
  | numbers x y => exact ⟨_, _, rfl⟩
  | vectors a b ha hb =>
    refine ⟨fun i j => if i = j then a.getD i 0 else 0, fun i j => if i = j then b.getD i 0 else 0, ?_⟩
    unfold initZt
    exact bind_ok_iff.2 ⟨(), pyAssert_ok_iff.2 (ha.trans hb.symm), bind_ok_iff.2 ⟨(), pyAssert_ok_iff.2 ha, rfl⟩⟩
  | row a b =>
    refine ⟨fun i j => if i = j then a 0 j else 0, fun i j => if i = j then b 0 j else 0, ?_⟩
    unfold initZt
    refine bind_ok_iff.2 ⟨(), pyAssert_ok_iff.2 ⟨rfl, rfl⟩, bind_ok_iff.2 ⟨(), pyAssert_ok_iff.2 (Or.inl rfl),
      bind_ok_iff.2 ⟨(), pyAssert_ok_iff.2 (Or.inr rfl), ?_⟩⟩⟩
    exact if_pos ⟨rfl, rfl⟩
  | column a b =>
    by_cases hn : n = 1
    · subst hn
      refine ⟨fun i j => if i = j then a 0 j else 0, fun i j => if i = j then b 0 j else 0, ?_⟩
      unfold initZt
      refine bind_ok_iff.2 ⟨(), pyAssert_ok_iff.2 ⟨rfl, rfl⟩, bind_ok_iff.2 ⟨(), pyAssert_ok_iff.2 (Or.inr rfl),
        bind_ok_iff.2 ⟨(), pyAssert_ok_iff.2 (Or.inl rfl), ?_⟩⟩⟩
      exact if_pos ⟨rfl, rfl⟩
    · refine ⟨fun i j => if i = j then a i 0 else 0, fun i j => if i = j then b i 0 else 0, ?_⟩
      unfold initZt
      refine bind_ok_iff.2 ⟨(), pyAssert_ok_iff.2 ⟨rfl, rfl⟩, bind_ok_iff.2 ⟨(), pyAssert_ok_iff.2 (Or.inr rfl),
        bind_ok_iff.2 ⟨(), pyAssert_ok_iff.2 (Or.inl rfl), ?_⟩⟩⟩
      rw [if_neg (fun h => hn h.1)]
      exact if_pos ⟨rfl, rfl⟩

/-- A successful constructor: what the line contains. -/
theorem new_ok_contents {l c r g : Arg} {length : ℝ} {positions : List V3} {ndiv : List ℕ} {Zs Zl : ZArg}
    {name : String} {s : MTL n p}
    (h : MTL.new p l c r g length positions ndiv Zs Zl name = .ok ⟨n, s⟩) :
    GoodLC n l c ∧ GoodRG n r ∧ GoodRG n g ∧ GoodZ n Zs Zl ∧
    s.l = (fun _ => l.matrix n) ∧ s.c = (fun _ => c.matrix n) ∧ s.r = (fun _ => r.matrix n) ∧
    s.g = (fun _ => g.matrix n) ∧ s.zs = Matrix.diagonal (fun i : Fin n => Zs.value i) ∧
    s.zl = Matrix.diagonal (fun i : Fin n => Zl.value i) ∧ maxTimestep s.m s.dun s.l s.c = .ok s.dt ∧
    s.m = ndiv.sum ∧ (∃ mem,
      buildMesh (if positions = [] then [![0, 0, 0], ![0, 0, length]] else positions) ndiv = .ok mem ∧
      (∀ k < ndiv.sum, mem.u k = some (s.u k) ∧ mem.du k = some (s.du k)) ∧
      s.u = (fun k => (mem.u k).getD 0)) ∧
    s.dun = (fun k => norm3 (s.du k)) ∧ s.conn = Disp.new s.dt := by
  obtain ⟨la, ca, ga, ra, zsa, zla, mem, dt, h1, h2, h3, h4, h5, h6, h7, h8⟩ := new_ok_iff.1 h
  obtain ⟨h0, hd1, hd2, rfl⟩ := computeTerminalTerms_ok_iff.1 h8
  obtain ⟨g1, el, ec⟩ := initLC_ok_iff.1 h1
  obtain ⟨g2, eg⟩ := initRGone_ok_iff.1 h2
  obtain ⟨g3, er⟩ := initRGone_ok_iff.1 h3
  obtain ⟨g4, ezs, ezl⟩ := initZt_ok h4
  refine ⟨g1, g3, g2, g4, ?_, ?_, ?_, ?_, ?_, ?_, h7, rfl, ⟨mem, h5, ?_, rfl⟩, rfl, rfl⟩
  · funext _; ext i j; simp only [assembled, toMat, of_apply, el]; cases g1 <;> rfl
  · funext _; ext i j; simp only [assembled, toMat, of_apply, ec]; cases g1 <;> rfl
  · funext _; ext i j; simp only [assembled, toMat, of_apply, er]; cases g3 <;> rfl
  · funext _; ext i j; simp only [assembled, toMat, of_apply, eg]; cases g2 <;> rfl
  · ext i j
    simp only [assembled, toMat, of_apply, ezs i i.2, diagonal_apply, Fin.ext_iff]
  · ext i j
    simp only [assembled, toMat, of_apply, ezl i i.2, diagonal_apply, Fin.ext_iff]
  · intro k hk
    obtain ⟨a, b⟩ := h6 k hk
    constructor
    · obtain ⟨x, hx⟩ := Option.ne_none_iff_exists'.1 a
      simp only [assembled, hx, Option.getD_some]
    · obtain ⟨x, hx⟩ := Option.ne_none_iff_exists'.1 b
      simp only [assembled, hx, Option.getD_some]

end Mtln
