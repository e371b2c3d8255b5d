import Verif.Spec.Program
import Verif.Lemmas.BlockSum
import Verif.Lemmas.Physical
import Verif.Props.ManagerTotal
import Verif.Props.Registration
import Verif.Props.Construct

/-! # The time step of bundles: C158 -/

namespace Mtln

open Matrix

variable {n p : ℕ}

theorem blockMat_eq (lines : List (AnyLine p)) (f : ∀ {n}, MTL n p → ℕ → Mat n) (k : ℕ) :
    blockMat (totalConductors lines) lines f k = blockOf (α := AnyLine p) Sigma.fst (fun L i j => f L.2 k i j) lines := rfl

/-- What a successful constructor of bundles returns. -/
theorem bundleNew_ok_iff {levels : List (List (AnyLine p))} {name : String} {b : AnyBundle p} :
    MTLD.new levels name = .ok b ↔ ∃ first rest, levels = [first] :: rest ∧
      (∀ L ∈ levels.flatten, SameMesh first.2.m first.2.u L) ∧ b = ⟨_, MTLD.assemble first levels name⟩ := by
  unfold MTLD.new
  constructor
  · intro h
    split at h
    · exact absurd h (by simp)
    · rename_i levels' first rest
      split at h
      · rename_i hs
        exact ⟨first, rest, rfl, hs, (Except.ok.inj h).symm⟩
      · exact absurd h (by simp)
    · exact absurd h (by simp)
  · rintro ⟨first, rest, rfl, hs, rfl⟩
    simp only
    rw [if_pos hs]

theorem minDt_spec : ∀ (lines : List (AnyLine p)) (d : ℝ),
    (lines.foldl (fun d L => if L.2.dt < d then L.2.dt else d) d ≤ d ∧
      ∀ L ∈ lines, lines.foldl (fun d L => if L.2.dt < d then L.2.dt else d) d ≤ L.2.dt) ∧
    (lines.foldl (fun d L => if L.2.dt < d then L.2.dt else d) d = d ∨
      ∃ L ∈ lines, lines.foldl (fun d L => if L.2.dt < d then L.2.dt else d) d = L.2.dt)
  | [], d => by simp
  | L :: lines, d => by
    simp only [List.foldl_cons]
    obtain ⟨⟨h1, h2⟩, h3⟩ := minDt_spec lines (if L.2.dt < d then L.2.dt else d)
    refine ⟨⟨?_, ?_⟩, ?_⟩
    · refine h1.trans ?_
      split_ifs with h
      exacts [h.le, le_rfl]
    · intro K hK
      rcases List.mem_cons.1 hK with rfl | hK
      · refine h1.trans ?_
        split_ifs with h
        exacts [le_rfl, not_lt.1 h]
      · exact h2 K hK
    · rcases h3 with h3 | ⟨K, hK, h3⟩
      · rw [h3]
        split_ifs with h
        · exact .inr ⟨L, List.mem_cons_self, rfl⟩
        · exact .inl rfl
      · exact .inr ⟨K, List.mem_cons_of_mem _ hK, h3⟩

/-- The eigenvalues of a bundle are those of its lines. -/
theorem eigRe_block (lines : List (AnyLine p)) (k : ℕ) :
    eigRe (blockMat (totalConductors lines) lines MTL.l k * blockMat (totalConductors lines) lines MTL.c (k + 1)) =
      {x | ∃ L ∈ lines, x ∈ eigRe (L.2.l k * L.2.c (k + 1))} := by
  rw [blockMat_eq, blockMat_eq]
  have := blockOf_mul (s := (Sigma.fst : AnyLine p → ℕ)) (f := fun L i j => L.2.l k i j) (g := fun L i j => L.2.c (k + 1) i j) lines
  exact (congrArg eigRe this).trans (eigRe_blockOf lines)

/-- **C158.** The automatic time step of a bundle, computed from the matrices of the whole bundle, is the smallest of
those of its lines; this (or `1e10`) is the time step the constructor gives it. -/
theorem C158_timestep {levels : List (List (AnyLine p))} {name : String} {b : AnyBundle p}
    (h : MTLD.new levels name = .ok b)
    (hm : ∀ L ∈ levels.flatten, ∀ k < L.2.m, L.2.dun k = norm3 (L.2.u (k + 1) - L.2.u k))
    (hd : ∀ L ∈ levels.flatten, maxTimestep L.2.m L.2.dun L.2.l L.2.c = .ok L.2.dt) :
    ∃ d, maxTimestep b.2.m b.2.dun b.2.l b.2.c = .ok d ∧ (∀ L ∈ levels.flatten, d ≤ L.2.dt) ∧
      (∃ L ∈ levels.flatten, d = L.2.dt) ∧ b.2.dt = min (10 ^ 10) d := by
  obtain ⟨first, rest, hl, hs, rfl⟩ := bundleNew_ok_iff.1 h
  have hfm : first ∈ levels.flatten := by rw [hl]; simp
  clear h
  show ∃ d, maxTimestep first.2.m first.2.dun (blockMat (totalConductors levels.flatten) levels.flatten MTL.l)
    (blockMat (totalConductors levels.flatten) levels.flatten MTL.c) = .ok d ∧ (∀ L ∈ levels.flatten, d ≤ L.2.dt) ∧
      (∃ L ∈ levels.flatten, d = L.2.dt) ∧ minDt levels.flatten = min (10 ^ 10) d
  clear hl
  generalize levels.flatten = lines at *
  have hcell : ∀ L ∈ lines, L.2.m = first.2.m ∧ ∀ k < first.2.m, L.2.dun k = first.2.dun k := by
    intro L hL
    obtain ⟨h1, h2⟩ := hs L hL
    refine ⟨h1, fun k hk => ?_⟩
    rw [hm L hL k (h1 ▸ hk), hm first hfm k hk, h2 k hk.le, h2 (k + 1) hk]
  have hd0 : ∀ L ∈ lines, ∀ k < L.2.m, 0 ≤ L.2.dun k := by
    intro L hL k hk
    rw [hm L hL k hk]
    exact norm3_nonneg _
  have hspec : ∀ L ∈ lines, _ := fun L hL => maxTimestep_spec (hd L hL) (hd0 L hL)
  have hv : ∀ L ∈ lines, ∀ k, ∀ w ∈ phaseVelocities L.2.l L.2.c k, ∀ q : ℝ, q * w ≠ 0 → 0 < w := by
    rintro L hL k w ⟨x, -, rfl⟩ q hq
    refine lt_of_le_of_ne (by positivity) fun e => hq ?_
    rw [← e, mul_zero]
  have hmem : ∀ k w, w ∈ phaseVelocities (blockMat (totalConductors lines) lines MTL.l)
      (blockMat (totalConductors lines) lines MTL.c) k ↔ ∃ L ∈ lines, w ∈ phaseVelocities L.2.l L.2.c k := by
    intro k w
    unfold phaseVelocities
    rw [eigRe_block]
    constructor
    · rintro ⟨x, ⟨L, hL, hx⟩, rfl⟩; exact ⟨L, hL, x, hx, rfl⟩
    · rintro ⟨L, hL, x, hx, rfl⟩; exact ⟨x, ⟨L, hL, hx⟩, rfl⟩
  obtain ⟨-, -, -, k0, hk0, hne0, -⟩ := hspec first hfm
  have hn : totalConductors lines ≠ 0 := by
    intro h0
    have h1 : first.1 ≤ totalConductors lines := List.single_le_sum (by simp) _ (List.mem_map.2 ⟨first, hfm, rfl⟩)
    have h2 := hd first hfm
    unfold maxTimestep at h2
    rw [if_pos (.inl (by omega))] at h2
    exact absurd h2 (by simp)
  obtain ⟨d, hbd⟩ : ∃ d, maxTimestep first.2.m first.2.dun (blockMat (totalConductors lines) lines MTL.l)
      (blockMat (totalConductors lines) lines MTL.c) = .ok d := by
    refine maxTimestep_ok hn ⟨k0, hk0, hne0⟩ fun k hk x hx => ?_
    rw [eigRe_block] at hx
    obtain ⟨L, hL, hx⟩ := hx
    exact (hspec L hL).2.1 k ((hcell L hL).1 ▸ hk) x hx
  obtain ⟨hdpos, -, hdle, k1, hk1, hne1, k2, hk2, w, hw, he⟩ := maxTimestep_spec hbd (hd0 first hfm)
  have hle : ∀ L ∈ lines, d ≤ L.2.dt := by
    intro L hL
    obtain ⟨-, -, -, k, hk, hne, k', hk', w, hw, he⟩ := hspec L hL
    have hwp := hv L hL k' w hw L.2.dt (by rw [he]; exact hne)
    rw [(hcell L hL).1] at hk hk'
    rw [(hcell L hL).2 k hk] at hne he
    have := hdle k hk hne k' hk' w ((hmem k' w).2 ⟨L, hL, hw⟩)
    rw [← he] at this
    exact le_of_mul_le_mul_right this hwp
  have hex : ∃ L ∈ lines, d = L.2.dt := by
    obtain ⟨L, hL, hwL⟩ := (hmem k2 w).1 hw
    refine ⟨L, hL, le_antisymm (hle L hL) ?_⟩
    obtain ⟨-, -, hLle, -⟩ := hspec L hL
    have hwp := hv L hL k2 w hwL d (by rw [he]; exact hne1)
    have h1 := (hcell L hL).1
    have := hLle k1 (h1 ▸ hk1) (by rw [(hcell L hL).2 k1 hk1]; exact hne1) k2 (h1 ▸ hk2) w hwL
    rw [(hcell L hL).2 k1 hk1, ← he] at this
    exact le_of_mul_le_mul_right this hwp
  refine ⟨d, hbd, hle, hex, ?_⟩
  unfold minDt
  obtain ⟨⟨h1, h2⟩, h3⟩ := minDt_spec lines (10 ^ 10)
  obtain ⟨L, hL, e⟩ := hex
  refine le_antisymm (le_min h1 (e ▸ h2 L hL)) ?_
  rcases h3 with h3 | ⟨K, hK, h3⟩
  · rw [h3]; exact min_le_left _ _
  · rw [h3]; exact (min_le_right _ _).trans (hle K hK)

/-- Outside of the blocks and in all of them. -/
theorem blockEntry_all {α : Type} {z : α} {P : α → Prop} (hz : P z) : ∀ {l : List (Σ n, Fin n → Fin n → α)},
    (∀ A ∈ l, ∀ a b, P (A.2 a b)) → ∀ i j, P (blockEntry z l i j)
  | [], _, _, _ => hz
  | ⟨n, A⟩ :: l, h, i, j => by
    unfold blockEntry
    split_ifs
    · exact h _ List.mem_cons_self _ _
    · exact hz
    · exact hz
    · exact blockEntry_all hz (fun B hB => h B (List.mem_cons_of_mem _ hB)) _ _

theorem blockQ_none {lines : List (AnyLine p)} {f : ∀ {n}, MTL n p → ℕ → Fin n → Fin n → QEntry p} {k : ℕ}
    (h : ∀ L ∈ lines, ∀ a b, f L.2 k a b = none) (a b : Fin (totalConductors lines)) :
    blockQ (totalConductors lines) lines f k a b = none :=
  blockEntry_all (P := fun q => q = none) rfl (fun A hA => by
    obtain ⟨L, hL, rfl⟩ := List.mem_map.1 hA
    exact h L hL) _ _

theorem vSum_none {q : ℕ → Fin n → Fin n → QEntry p} {k : ℕ} (h : ∀ a b, q k a b = none) : vSum q k = 0 := by
  ext a b
  simp [vSum, h a b, poleSum, QEntry.val]

theorem SPD.dissipative {A : Mat n} (h : SPD A) : Dissipative A := fun x => by
  by_cases hx : x = 0
  · subst hx; simp
  · exact (h.pos x hx).le

/-- A bundle of proper lines: what its matrices are like. -/
structure MTLD.Proper (b : MTLD n p) : Prop where
  cells : 0 < b.m
  dun : ∀ k < b.m, 0 < b.dun k
  l : ∀ k < b.m, SPD (b.l k)
  c : ∀ k ≤ b.m, b.c k = b.c 0
  c_spd : SPD (b.c 0)
  r : ∀ k < b.m, Dissipative (b.r k + b.tz.d k) ∧ (b.r k + b.tz.d k)ᵀ = b.r k + b.tz.d k
  g : ∀ k ≤ b.m, Dissipative (b.g k) ∧ (b.g k)ᵀ = b.g k
  e : ∀ k < b.m, Dissipative (b.tz.e k) ∧ (b.tz.e k)ᵀ = b.tz.e k
  q1 : ∀ k < b.m, b.tz.q1sum k = 0
  q2 : ∀ k < b.m, b.tz.q2sum k = 0
  q3 : ∀ k < b.m, ∀ a b', b.tz.q3 k a b' = none

theorem blockMat_good {lines : List (AnyLine p)} {f : ∀ {n}, MTL n p → ℕ → Mat n} {k : ℕ}
    (h : ∀ L ∈ lines, Dissipative (f L.2 k) ∧ (f L.2 k)ᵀ = f L.2 k) :
    Dissipative (blockMat (totalConductors lines) lines f k) ∧
      (blockMat (totalConductors lines) lines f k)ᵀ = blockMat (totalConductors lines) lines f k := by
  rw [blockMat_eq]
  refine ⟨blockOf_dissipative fun L hL => (h L hL).1, ?_⟩
  refine (blockOf_transpose lines).trans (blockOf_congr fun L hL => ?_)
  funext i j
  exact congrFun (congrFun (h L hL).2 i) j

/-- **C158.** Bundles of proper lines are proper. -/
theorem C158_proper {levels : List (List (AnyLine p))} {name : String} {b : AnyBundle p}
    (h : MTLD.new levels name = .ok b) (hp : ∀ L ∈ levels.flatten, L.2.Proper) : b.2.Proper := by
  obtain ⟨first, rest, hl, hs, rfl⟩ := bundleNew_ok_iff.1 h
  have hfm : first ∈ levels.flatten := by rw [hl]; simp
  have hm : ∀ L ∈ levels.flatten, L.2.m = first.2.m := fun L hL => (hs L hL).1
  have hk1 : ∀ k < first.2.m, ∀ L ∈ levels.flatten, k < L.2.m := fun k hk L hL => hm L hL ▸ hk
  have hk2 : ∀ k ≤ first.2.m, ∀ L ∈ levels.flatten, k ≤ L.2.m := fun k hk L hL => hm L hL ▸ hk
  refine ⟨(hp first hfm).cells, (hp first hfm).dun, fun k hk => ?_, fun k hk => ?_, ?_, fun k hk => ?_, fun k hk => ?_,
    fun k hk => ?_, fun k hk => ?_, fun k hk => ?_, fun k hk => ?_⟩
  · exact blockOf_spd (α := AnyLine p) (f := fun L i j => L.2.l k i j) fun L hL => (hp L hL).l k (hk1 k hk L hL)
  · refine blockOf_congr (α := AnyLine p) (s := Sigma.fst) (f := fun L i j => L.2.c k i j) (g := fun L i j => L.2.c 0 i j)
      fun L hL => ?_
    rw [(hp L hL).c k (hk2 k hk L hL)]
  · exact blockOf_spd (α := AnyLine p) (f := fun L i j => L.2.c 0 i j) fun L hL => (hp L hL).c_spd
  · have e : blockMat (totalConductors levels.flatten) levels.flatten MTL.r k +
        blockMat (totalConductors levels.flatten) levels.flatten (fun L => L.conn.d) k =
        blockMat (totalConductors levels.flatten) levels.flatten (fun L k => L.r k + L.conn.d k) k :=
      blockOf_add (α := AnyLine p) (s := Sigma.fst) (f := fun L i j => L.2.r k i j) (g := fun L i j => L.2.conn.d k i j) _
    show Dissipative (blockMat _ _ MTL.r k + blockMat _ _ (fun L => L.conn.d) k) ∧
      (blockMat _ _ MTL.r k + blockMat _ _ (fun L => L.conn.d) k)ᵀ = blockMat _ _ MTL.r k + blockMat _ _ (fun L => L.conn.d) k
    rw [e]
    exact blockMat_good fun L hL => (hp L hL).r k (hk1 k hk L hL)
  · exact blockMat_good (f := MTL.g) fun L hL => (hp L hL).g k (hk2 k hk L hL)
  · exact blockMat_good (f := fun L => L.conn.e) fun L hL => (hp L hL).e k (hk1 k hk L hL)
  · exact vSum_none fun a b => blockQ_none (f := fun L => L.conn.q1) (fun L hL => (hp L hL).q1 k (hk1 k hk L hL)) a b
  · exact vSum_none fun a b => blockQ_none (f := fun L => L.conn.q2) (fun L hL => (hp L hL).q2 k (hk1 k hk L hL)) a b
  · exact blockQ_none (f := fun L => L.conn.q3) fun L hL => (hp L hL).q3 k (hk1 k hk L hL)

/-- Proper bundles are passive. -/
theorem MTLD.Proper.passive {b : MTLD n p} (h : b.Proper) (hdt : 0 < b.dt) : b.asLine.Passive where
  cells := h.cells
  dt_pos := hdt
  dun := fun k hk => (h.dun k hk).le
  l := fun k hk => by
    show (b.l k + b.tz.e k)ᵀ = b.l k + b.tz.e k
    rw [transpose_add, (h.l k hk).symm, (h.e k hk).2]
  c := fun k hk => by
    show (b.c k)ᵀ = b.c k
    rw [h.c k hk, h.c_spd.symm]
  r := fun k hk => (h.r k hk).1
  g := fun k hk => (h.g k hk).1
  zs := fun x => by show 0 ≤ x ⬝ᵥ ((0 : Mat n) *ᵥ x); simp
  zl := fun x => by show 0 ≤ x ⬝ᵥ ((0 : Mat n) *ᵥ x); simp
  q1 := h.q1
  q2 := h.q2
  q3 := h.q3

theorem MTLD.Proper.regular {b : MTLD n p} (h : b.Proper) : b.asLine.Regular (b.c 0) :=
  ⟨h.c, h.c_spd, h.l, fun k hk => (h.e k hk).1, h.dun⟩

theorem MTLD.Proper.physical {b : MTLD n p} (h : b.Proper) (hq : ∀ q ∈ b.probes, q.Valid) : b.Physical :=
  ⟨h.cells, h.dun, h.l, fun k hk => h.c k hk ▸ h.c_spd, fun k hk => (h.r k hk).1, fun k hk => (h.g k hk).1,
    fun k hk => (h.e k hk).1, h.q1, hq⟩

/-- **C158.** A bundle of proper lines is stable for every time step below those of its lines, in particular for every
one below its own. -/
theorem C158_stable {levels : List (List (AnyLine p))} {name : String} {b : AnyBundle p}
    (h : MTLD.new levels name = .ok b) (hp : ∀ L ∈ levels.flatten, L.2.Proper) {dt : ℝ}
    (hlt : ∀ L ∈ levels.flatten, dt < L.2.dt) : (b.2.withDt dt).Stable := by
  obtain ⟨d, h1, h2, ⟨L, hL, h3⟩, h4⟩ := C158_timestep h (fun L hL => (hp L hL).mesh) fun L hL => (hp L hL).dt
  have hb := C158_proper h hp
  exact ⟨b.2.c 0, d, ⟨hb.c, hb.c_spd, hb.l, fun k hk => (hb.e k hk).1, hb.dun⟩, h1, h3 ▸ hlt L hL⟩

/-- **C158.** The constructor makes proper lines of physical data. -/
theorem C158_line {l c r g : Arg} {length : ℝ} {positions : List V3} {ndiv : List ℕ} {Zs Zl : ZArg} {name : String}
    {s : MTL n p} {d : ℕ} (hd : 0 < d) (hds : ∀ x ∈ ndiv, x = d)
    (h : MTL.new p l c r g length positions ndiv Zs Zl name = .ok ⟨n, s⟩) (hl : SPD (l.matrix n)) (hc : SPD (c.matrix n))
    (hr : Dissipative (r.matrix n) ∧ (r.matrix n)ᵀ = r.matrix n)
    (hg : Dissipative (g.matrix n) ∧ (g.matrix n)ᵀ = g.matrix n) (hdu : ∀ k < s.m, s.du k ≠ 0) : s.Proper := by
  obtain ⟨-, -, -, -, e1, e2, e3, e4, -, -, e5, e6, -, e7, e8⟩ := new_ok_contents h
  have hS := C24_mesh_partial hd hds h
  have hdun : ∀ k < s.m, 0 < s.dun k := fun k hk => by
    rw [e7]
    exact lt_of_le_of_ne (norm3_nonneg _) fun e => hdu k hk (norm3_eq_zero.1 e.symm)
  obtain ⟨-, -, -, k0, hk0, -⟩ := maxTimestep_spec e5 fun k hk => (hdun k hk).le
  have hz : Dissipative (0 : Mat n) := fun x => by simp
  refine ⟨by omega, fun k hk => ?_, hdun, fun k _ => ?_, fun k _ => ?_, ?_, fun k _ => ?_, fun k _ => ?_, fun k _ => ?_,
    fun k _ a b => ?_, fun k _ a b => ?_, fun k _ a b => ?_, e5⟩
  · rw [e7, hS.contiguous k hk, add_sub_cancel_left]
  · rw [e1]; exact hl
  · rw [e2]
  · rw [e2]; exact hc
  · rw [e3, e8]
    show Dissipative (r.matrix n + 0) ∧ (r.matrix n + 0)ᵀ = r.matrix n + 0
    rw [add_zero]; exact hr
  · rw [e4]; exact hg
  · rw [e8]; exact ⟨hz, transpose_zero⟩
  all_goals rw [e8]; rfl

/-- The hypotheses can be met: two constructed lines, one in the other. -/
theorem demoProper : ∃ s : MTL 1 p, MTL.new p (.scalar 1) (.scalar 1) (.scalar 0) (.scalar 0) 2 [] [2]
    (.scalar 1) (.scalar 1) "demo" = .ok ⟨1, s⟩ ∧ s.Proper := by
  obtain ⟨s, hs⟩ := demoLine_accepted (p := p)
  have hS := C24_mesh_partial (d := 2) (by norm_num) (by simp) hs
  have hdu : ∀ k < s.m, s.du k ≠ 0 := by
    intro k hk h0
    have hm : s.m = 2 := by have := hS.cells; simpa using this
    have := hS.equal 0 (by simp) k (by simpa [hm] using hk) 2
    simp [h0] at this
  have hz : Dissipative ((Arg.scalar 0).matrix 1) ∧ ((Arg.scalar 0).matrix 1)ᵀ = (Arg.scalar 0).matrix 1 :=
    ⟨dissipative_zero, by ext a b; rw [Subsingleton.elim a b]; rfl⟩
  exact ⟨s, hs, C158_line (d := 2) (by norm_num) (by simp) hs (spd_one one_pos) (spd_one one_pos) hz hz hdu⟩

example : ∃ (s : MTL 1 p) (b : AnyBundle p), MTLD.new [[⟨1, s⟩], [⟨1, s⟩]] "cable" = .ok b ∧ b.2.Proper ∧
    (b.2.withDt (s.dt / 2)).Stable := by
  obtain ⟨s, -, hs⟩ := demoProper (p := p)
  have hl : ∀ L ∈ [[(⟨1, s⟩ : AnyLine p)], [⟨1, s⟩]].flatten, L = ⟨1, s⟩ := by simp
  have h : MTLD.new [[⟨1, s⟩], [⟨1, s⟩]] "cable" = .ok ⟨_, MTLD.assemble ⟨1, s⟩ [[⟨1, s⟩], [⟨1, s⟩]] "cable"⟩ :=
    bundleNew_ok_iff.2 ⟨_, _, rfl, fun L hL => by rw [hl L hL]; exact ⟨rfl, fun _ _ => rfl⟩, rfl⟩
  have hd : 0 < s.dt := (maxTimestep_spec hs.dt fun k hk => (hs.dun k hk).le).1
  exact ⟨s, _, h, C158_proper h fun L hL => by rw [hl L hL]; exact hs,
    C158_stable h (fun L hL => by rw [hl L hL]; exact hs) fun L hL => by rw [hl L hL]; exact half_lt_self hd⟩

end Mtln
