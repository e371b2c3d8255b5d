import Verif.Props.NetworkBuild
import Verif.Lemmas.BlockSum
import Verif.Spec.Program

/-! # Where the nodes of a network are, when every conductor of its lines has one -/

namespace Mtln

open Matrix

variable {p N S : ℕ}

section lists

variable {α β : Type} {s : α → ℕ} {f : α → ℕ → β}

theorem flatMap_get : ∀ (l : List α) (i : ℕ) (x : β), (l.flatMap fun a => (List.range (s a)).map (f a))[i]? = some x →
    ∃ pre a post j, l = pre ++ a :: post ∧ j < s a ∧ i = (pre.map s).sum + j ∧ x = f a j
  | [], i, x, h => by simp at h
  | a :: l, i, x, h => by
    rw [List.flatMap_cons] at h
    by_cases hi : i < s a
    · rw [List.getElem?_append_left (by simpa using hi)] at h
      refine ⟨[], a, l, i, rfl, hi, by simp, ?_⟩
      simpa [hi, eq_comm] using h
    · rw [List.getElem?_append_right (by simpa using hi)] at h
      obtain ⟨pre, b, post, j, h1, h2, h3, h4⟩ := flatMap_get l _ x h
      refine ⟨a :: pre, b, post, j, by rw [h1]; rfl, h2, ?_, h4⟩
      simp only [List.length_map, List.length_range] at h3
      simp only [List.map_cons, List.sum_cons]
      omega

theorem flatMap_at : ∀ (pre : List α) (a : α) (post : List α) (j : ℕ), j < s a →
    ((pre ++ a :: post).flatMap fun a => (List.range (s a)).map (f a))[(pre.map s).sum + j]? = some (f a j)
  | [], a, post, j, h => by
    simp only [List.map_nil, List.sum_nil, zero_add, List.nil_append, List.flatMap_cons]
    rw [List.getElem?_append_left (by simpa using h)]
    simp [h]
  | b :: pre, a, post, j, h => by
    simp only [List.map_cons, List.sum_cons, List.cons_append, List.flatMap_cons]
    rw [List.getElem?_append_right (by simp; omega)]
    have := flatMap_at pre a post j h
    rw [← this]
    congr 1
    simp
    omega

theorem flatMap_length (l : List α) : (l.flatMap fun a => (List.range (s a)).map (f a)).length = (l.map s).sum := by
  induction l with
  | nil => rfl
  | cons a l ih => simp [ih]

theorem split_cases {pre pre' post post' : List α} {a a' : α} (h : pre ++ a :: post = pre' ++ a' :: post') :
    (pre = pre' ∧ a = a' ∧ post = post') ∨ (∃ mid, pre' = pre ++ a :: mid) ∨ ∃ mid, pre = pre' ++ a' :: mid := by
  rcases List.append_eq_append_iff.1 h with ⟨l, h1, h2⟩ | ⟨l, h1, h2⟩
  · cases l with
    | nil => simp only [List.nil_append, List.cons.injEq] at h2; exact .inl ⟨by simpa using h1.symm, h2⟩
    | cons b l =>
      simp only [List.cons_append, List.cons.injEq] at h2
      exact .inr (.inl ⟨l, by rw [h1, h2.1]⟩)
  · cases l with
    | nil => simp only [List.nil_append, List.cons.injEq] at h2; exact .inl ⟨by simpa using h1, h2.1.symm, h2.2.symm⟩
    | cons b l =>
      simp only [List.cons_append, List.cons.injEq] at h2
      exact .inr (.inr ⟨l, by rw [h1, h2.1]⟩)

end lists

theorem LineConnections.Complete.ordered {d : LineConnections p} (h : d.Complete) :
    d.ordered.map Connection.conductor = List.range d.line.1 := by
  obtain ⟨h1, h2⟩ := C53_sorted d
  refine List.Perm.eq_of_pairwise (le := (· ≤ ·)) (fun a b _ _ => le_antisymm) ?_ ?_ ((h1.map _).trans h)
  · rw [List.pairwise_map]; exact h2
  · exact List.pairwise_le_range

/-- Length of the cell, capacitance at the end named by an item of a description. -/
def LineConnections.cell (d : LineConnections p) : ℝ := d.line.2.dun (d.end'.cell d.line.2.m)

/-- The capacitance matrix at the end named by an item of a description. -/
def LineConnections.cap (d : LineConnections p) : Mat d.line.1 := d.line.2.c (d.end'.node d.line.2.m)

/-- What matters of a node. -/
def Node.place (d : Node) : ℕ × Side × String × ℝ := (d.lineIndex, d.side, d.bundleName, d.dx)

/-- What matters of the node of a conductor. -/
def LineConnections.place (d : LineConnections p) (j : ℕ) : ℕ × Side × String × ℝ := (j, d.end', d.bundleName, d.cell)

/-- The places of the nodes and the blocks of the capacitance matrix while the constructor runs. -/
structure NetBuild.Laid (B : NetBuild) (ds : List (LineConnections p)) : Prop where
  places : B.nodes.map Node.place = ds.flatMap fun d => (List.range d.line.1).map d.place
  blocks : B.blocks = ds.map fun d => ⟨d.line.1, fun i j => d.cap i j⟩

theorem addNodes_places {d : LineConnections p} : ∀ {cs : List Connection} {B B' : NetBuild},
    cs.foldlM (fun (B : NetBuild) c => B.addNode d.end' d.line d.bundleName c) B = .ok B' →
      B'.nodes.map Node.place = B.nodes.map Node.place ++ (cs.map Connection.conductor).map d.place ∧ B'.blocks = B.blocks
  | [], B, B', h => by
    simp only [List.foldlM_nil, pure, Except.pure, Except.ok.injEq] at h
    subst h; simp
  | c :: cs, B, B', h => by
    simp only [List.foldlM_cons, bind_ok_iff] at h
    obtain ⟨B1, h1, h2⟩ := h
    obtain ⟨h3, h4⟩ := addNodes_places h2
    obtain ⟨-, -, k, -, -, hc, rfl⟩ := NetBuild.addNode_ok_iff.1 h1
    refine ⟨?_, h4⟩
    rw [h3]
    simp only [List.map_append, List.map_cons, List.map_nil, List.append_assoc, List.cons_append, List.nil_append]
    congr 2

theorem NetBuild.Laid.addLine {B B' : NetBuild} {ds : List (LineConnections p)} {d : LineConnections p} (hB : B.Laid ds)
    (hd : d.Complete) (h : B.addLine d = .ok B') : B'.Laid (ds ++ [d]) := by
  obtain ⟨-, h1⟩ := NetBuild.addLine_ok_iff.1 h
  obtain ⟨h2, h3⟩ := addNodes_places h1
  refine ⟨?_, ?_⟩
  · rw [h2, hd.ordered]
    show B.nodes.map Node.place ++ _ = _
    rw [hB.places]
    simp
  · rw [h3]
    show B.blocks ++ _ = _
    rw [hB.blocks, List.map_append]
    congr 1

theorem NetBuild.Laid.addLines : ∀ {ds : List (LineConnections p)} {B B' : NetBuild} {pre}, B.Laid pre →
    (∀ d ∈ ds, d.Complete) → ds.foldlM NetBuild.addLine B = .ok B' → B'.Laid (pre ++ ds)
  | [], B, B', pre, hB, _, h => by
    simp only [List.foldlM_nil, pure, Except.pure, Except.ok.injEq] at h
    subst h; simpa using hB
  | d :: ds, B, B', pre, hB, hd, h => by
    simp only [List.foldlM_cons, bind_ok_iff] at h
    obtain ⟨B1, h1, h2⟩ := h
    have := (hB.addLine (hd d List.mem_cons_self) h1).addLines (fun e he => hd e (List.mem_cons_of_mem _ he)) h2
    simpa using this

/-- A network whose nodes are, in this order, the conductors of the lines of a description. -/
structure Network.Laid (nw : Network N S) (ds : List (LineConnections p)) : Prop where
  size : nw.cSize = N
  count : N = (ds.map fun d => d.line.1).sum
  c : nw.c = blockEntry 0 (ds.map fun d => ⟨d.line.1, fun i j => d.cap i j⟩)
  places : List.ofFn (fun a => (nw.nodes a).place) = ds.flatMap fun d => (List.range d.line.1).map d.place

/-- The constructor makes such a network. -/
theorem new_laid {ds : List (LineConnections p)} {nw : AnyNetwork} (h : Network.new ds = .ok nw)
    (hd : ∀ d ∈ ds, d.Complete) : nw.2.2.Laid ds := by
  obtain ⟨B, hB, rfl⟩ := networkNew_ok_iff.1 h
  have h0 : NetBuild.Laid (p := p) {} [] := ⟨rfl, rfl⟩
  have g := h0.addLines hd hB
  rw [List.nil_append] at g
  have hlen : B.nodes.length = (ds.map fun d => d.line.1).sum := by
    rw [← List.length_map (f := Node.place), g.places]
    exact flatMap_length ds
  refine ⟨?_, hlen, ?_, ?_⟩
  · show (B.blocks.map Sigma.fst).sum = B.nodes.length
    rw [hlen, g.blocks, List.map_map]
    rfl
  · show blockEntry 0 B.blocks = _
    rw [g.blocks]
  · rw [← g.places]
    show List.ofFn (fun a => (B.nodes.get a).place) = _
    conv_rhs => rw [← List.ofFn_get B.nodes, List.map_ofFn]
    rfl

/-- Every node belongs to a conductor of one of the lines. -/
theorem Network.Laid.node {nw : Network N S} {ds : List (LineConnections p)} (h : nw.Laid ds) (a : Fin N) :
    ∃ pre d post j, ds = pre ++ d :: post ∧ j < d.line.1 ∧ (a : ℕ) = (pre.map fun d => d.line.1).sum + j ∧
      (nw.nodes a).place = d.place j := by
  refine flatMap_get ds a _ ?_
  rw [← h.places]
  simp

/-- Every conductor of every line has a node. -/
theorem Network.Laid.exists_node {nw : Network N S} {pre post : List (LineConnections p)} {d : LineConnections p}
    (h : nw.Laid (pre ++ d :: post)) {j : ℕ} (hj : j < d.line.1) :
    ∃ a : Fin N, (a : ℕ) = (pre.map fun d => d.line.1).sum + j ∧ (nw.nodes a).place = d.place j := by
  have h1 := flatMap_at (s := fun d : LineConnections p => d.line.1) (f := LineConnections.place) pre d post j hj
  rw [← h.places] at h1
  have h2 : (pre.map fun d => d.line.1).sum + j < N := by
    rw [h.count]
    simp only [List.map_append, List.map_cons, List.sum_append, List.sum_cons]
    omega
  refine ⟨⟨_, h2⟩, rfl, ?_⟩
  simpa [h2] using h1

/-- The capacitances of the half cells, for two nodes of the same line. -/
theorem Network.Laid.dxc_same {nw : Network N S} {pre post : List (LineConnections p)} {d : LineConnections p}
    (h : nw.Laid (pre ++ d :: post)) {a b : Fin N} {i j : Fin d.line.1}
    (ha : (a : ℕ) = (pre.map fun d => d.line.1).sum + i) (hb : (b : ℕ) = (pre.map fun d => d.line.1).sum + j)
    (hpa : (nw.nodes a).place = d.place i) : nw.dxc a b = d.cell * d.cap i j := by
  have e1 : (nw.nodes a).dx = d.cell := congrArg (fun q => q.2.2.2) hpa
  show (nw.nodes a).dx * nw.c a b = _
  rw [e1, h.c, ha, hb, List.map_append, List.map_cons]
  have := blockEntry_inside (z := (0 : ℝ)) (A := fun i j => d.cap i j)
    (post := post.map fun d => ⟨d.line.1, fun i j => d.cap i j⟩)
    (pre.map fun d : LineConnections p => ⟨d.line.1, fun i j => d.cap i j⟩) i j
  simp only [List.map_map, Function.comp_def] at this
  rw [this]

/-- The capacitances of the half cells, for two nodes of different lines. -/
theorem Network.Laid.dxc_other {nw : Network N S} {pre post : List (LineConnections p)} {d : LineConnections p}
    (h : nw.Laid (pre ++ d :: post)) {a b : Fin N} {i : Fin d.line.1}
    (ha : (a : ℕ) = (pre.map fun d => d.line.1).sum + i)
    (hb : ¬ ((pre.map fun d => d.line.1).sum ≤ (b : ℕ) ∧ (b : ℕ) < (pre.map fun d => d.line.1).sum + d.line.1)) :
    nw.dxc a b = 0 := by
  show (nw.nodes a).dx * nw.c a b = _
  rw [h.c, ha, List.map_append, List.map_cons]
  have := blockEntry_outside (z := (0 : ℝ)) (A := fun i j => d.cap i j)
    (post := post.map fun d => ⟨d.line.1, fun i j => d.cap i j⟩)
    (pre.map fun d : LineConnections p => ⟨d.line.1, fun i j => d.cap i j⟩) i b
  simp only [List.map_map, Function.comp_def] at this
  rw [this hb, mul_zero]

/-- The matrix of the half cells is block-diagonal. -/
theorem Network.Laid.dxc {nw : Network N S} {ds : List (LineConnections p)} (h : nw.Laid ds) (a b : Fin N) :
    nw.dxc a b = blockEntry 0 (ds.map fun d => ⟨d.line.1, fun i j => d.cell * d.cap i j⟩) a b := by
  obtain ⟨pre, d, post, i, rfl, hi, ha, hpa⟩ := h.node a
  by_cases hb : (pre.map fun d => d.line.1).sum ≤ (b : ℕ) ∧ (b : ℕ) < (pre.map fun d => d.line.1).sum + d.line.1
  · have hbj : (b : ℕ) = (pre.map fun d => d.line.1).sum + (b - (pre.map fun d => d.line.1).sum) := by omega
    have hj : (b - (pre.map fun d => d.line.1).sum : ℕ) < d.line.1 := by omega
    rw [h.dxc_same (i := ⟨i, hi⟩) (j := ⟨_, hj⟩) ha hbj hpa]
    have := blockEntry_inside (z := (0 : ℝ)) (A := fun i j => d.cell * d.cap i j)
      (post := post.map fun d => ⟨d.line.1, fun i j => d.cell * d.cap i j⟩)
      (pre.map fun d : LineConnections p => ⟨d.line.1, fun i j => d.cell * d.cap i j⟩) ⟨i, hi⟩ ⟨_, hj⟩
    simp only [List.map_map, Function.comp_def] at this
    rw [List.map_append, List.map_cons, ha]
    conv_rhs => rw [hbj]
    exact this.symm
  · rw [h.dxc_other (i := ⟨i, hi⟩) ha hb]
    have := blockEntry_outside (z := (0 : ℝ)) (A := fun i j => d.cell * d.cap i j)
      (post := post.map fun d => ⟨d.line.1, fun i j => d.cell * d.cap i j⟩)
      (pre.map fun d : LineConnections p => ⟨d.line.1, fun i j => d.cell * d.cap i j⟩) ⟨i, hi⟩ b
    simp only [List.map_map, Function.comp_def] at this
    rw [List.map_append, List.map_cons, ha]
    exact (this hb).symm

/-- It is symmetric and positive definite if the lines have such capacitances and cells of positive length. -/
theorem Network.Laid.spd {nw : Network N S} {ds : List (LineConnections p)} (h : nw.Laid ds)
    (hd : ∀ d ∈ ds, 0 < d.cell ∧ SPD d.cap) : SPD nw.dxc := by
  have e := h.dxc
  have hN := h.count
  subst hN
  have : nw.dxc = blockOf (fun d : LineConnections p => d.line.1) (fun d i j => d.cell * d.cap i j) ds := by
    ext a b
    exact e a b
  rw [this]
  refine blockOf_spd fun d hdm => ?_
  obtain ⟨h1, h2⟩ := hd d hdm
  have e2 : (of fun i j => d.cell * d.cap i j : Mat d.line.1) = d.cell • d.cap := rfl
  refine ⟨?_, fun x hx => ?_⟩
  · rw [e2, transpose_smul, h2.symm]
  · rw [e2, smul_mulVec, dotProduct_smul]
    exact mul_pos h1 (h2.pos x hx)

end Mtln
