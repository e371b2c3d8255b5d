import Verif.Lemmas.Sub
import Verif.Spec.Bundle

/-! # Lemmas about bundles -/

namespace Mtln

open Matrix

variable {n N p : ℕ}

section blocks

variable {α : Type} {z : α} {A : Fin n → Fin n → α} {post : List (Σ n, Fin n → Fin n → α)}

theorem blockEntry_inside : ∀ (pre : List (Σ n, Fin n → Fin n → α)) (a b : Fin n),
    blockEntry z (pre ++ ⟨n, A⟩ :: post) ((pre.map Sigma.fst).sum + a) ((pre.map Sigma.fst).sum + b) = A a b
  | [], a, b => by simp [blockEntry]
  | ⟨k, B⟩ :: pre, a, b => by
    simp only [List.cons_append, List.map_cons, List.sum_cons, blockEntry]
    rw [dif_neg (by omega), if_neg (by omega)]
    have := blockEntry_inside pre a b
    rw [← this]
    congr 1 <;> omega

theorem blockEntry_outside : ∀ (pre : List (Σ n, Fin n → Fin n → α)) (a : Fin n) (x : ℕ),
    ¬ ((pre.map Sigma.fst).sum ≤ x ∧ x < (pre.map Sigma.fst).sum + n) →
    blockEntry z (pre ++ ⟨n, A⟩ :: post) ((pre.map Sigma.fst).sum + a) x = z
  | [], a, x, h => by
    simp only [List.map_nil, List.sum_nil, Nat.zero_le, true_and, Nat.zero_add] at h
    simp [blockEntry, h]
  | ⟨k, B⟩ :: pre, a, x, h => by
    simp only [List.map_cons, List.sum_cons] at h
    simp only [List.cons_append, List.map_cons, List.sum_cons, blockEntry]
    rw [dif_neg (by omega)]
    split
    · rfl
    · rename_i hx
      rw [show k + (pre.map Sigma.fst).sum + (a : ℕ) - k = (pre.map Sigma.fst).sum + (a : ℕ) by omega]
      exact blockEntry_outside pre a (x - k) (by omega)

end blocks

section

variable {pre post lines : List (AnyLine p)} {L : AnyLine p}

theorem blockRow_injective (h : lines = pre ++ L :: post) : Function.Injective (blockRow pre h) := by
  intro a b hab
  have := congrArg Fin.val hab
  simp only [blockRow] at this
  exact Fin.ext (by omega)

theorem blockRow_range (h : lines = pre ++ L :: post) {x : Fin (totalConductors lines)}
    (hx : x ∉ Set.range (blockRow pre h)) :
    ¬ (totalConductors pre ≤ (x : ℕ) ∧ (x : ℕ) < totalConductors pre + L.1) := by
  rintro ⟨h1, h2⟩
  exact hx ⟨⟨x - totalConductors pre, by omega⟩, Fin.ext (by simp only [blockRow]; omega)⟩

theorem fst_blocks {α : Type} (f : ∀ {n}, MTL n p → Fin n → Fin n → α) (pre : List (AnyLine p)) :
    ((pre.map fun L => (⟨L.1, f L.2⟩ : Σ n, Fin n → Fin n → α)).map Sigma.fst).sum = totalConductors pre := by
  simp [totalConductors, List.map_map, Function.comp_def]

theorem block_entry_in {α : Type} {z : α} (h : lines = pre ++ L :: post)
    (f : ∀ {n}, MTL n p → Fin n → Fin n → α) (a b : Fin L.1) :
    blockEntry z (lines.map fun L => ⟨L.1, f L.2⟩) (blockRow pre h a) (blockRow pre h b) = f L.2 a b := by
  have := blockEntry_inside (z := z) (A := f L.2) (post := post.map fun L => ⟨L.1, f L.2⟩)
    (pre.map fun L => ⟨L.1, f L.2⟩) a b
  rw [fst_blocks] at this
  subst h
  rw [List.map_append, List.map_cons]
  exact this

theorem block_entry_out {α : Type} {z : α} (h : lines = pre ++ L :: post)
    (f : ∀ {n}, MTL n p → Fin n → Fin n → α) (a : Fin L.1) {x : Fin (totalConductors lines)}
    (hx : x ∉ Set.range (blockRow pre h)) :
    blockEntry z (lines.map fun L => ⟨L.1, f L.2⟩) (blockRow pre h a) x = z := by
  have h0 := blockRow_range h hx
  have := blockEntry_outside (z := z) (A := f L.2) (post := post.map fun L => ⟨L.1, f L.2⟩)
    (pre.map fun L => ⟨L.1, f L.2⟩) a x (by rw [fst_blocks]; exact h0)
  rw [fst_blocks] at this
  have e1 : (lines.map fun L => (⟨L.1, f L.2⟩ : Σ n, Fin n → Fin n → α)) =
      (pre.map fun L => ⟨L.1, f L.2⟩) ++ ⟨L.1, f L.2⟩ :: post.map fun L => ⟨L.1, f L.2⟩ := by
    subst h; rw [List.map_append, List.map_cons]
  rw [e1]
  exact this

theorem block_subMat (h : lines = pre ++ L :: post) (f : ∀ {n}, MTL n p → ℕ → Mat n) (k : ℕ) :
    SubMat (blockRow pre h) (blockMat _ lines f k) (f L.2 k) :=
  ⟨fun a b => (block_entry_in h (fun s i j => f s k i j) a b).symm ▸ rfl,
    fun a _ hx => block_entry_out h (fun s i j => f s k i j) a hx⟩

theorem block_subQ (h : lines = pre ++ L :: post) (f : ∀ {n}, MTL n p → ℕ → Fin n → Fin n → QEntry p) (k : ℕ) :
    SubQ (blockRow pre h) (blockQ _ lines f k) (f L.2 k) :=
  ⟨fun a b => by rw [blockQ, block_entry_in h (fun s i j => f s k i j) a b],
    fun a _ hx => by rw [blockQ, block_entry_out h (fun s i j => f s k i j) a hx]; rfl⟩

end

theorem sub_vSum {n₁ : ℕ} {e : Fin n₁ → Fin n} {q : ℕ → Fin n → Fin n → QEntry p}
    {q' : ℕ → Fin n₁ → Fin n₁ → QEntry p} {k : ℕ} (h : SubQ e (q k) (q' k)) : SubMat e (vSum q k) (vSum q' k) :=
  ⟨fun a b => by simp only [vSum, Matrix.of_apply]; rw [h.inside],
    fun a x hx => by simp only [vSum, Matrix.of_apply]; rw [h.outside a x hx]; simp [poleSum]⟩

/-- A bundle seen as a line (used only in proofs). -/
def MTLD.asLine (b : MTLD n p) : MTL n p where
  name := b.name
  m := b.m
  u := b.u
  du := b.du
  dun := b.dun
  l := b.l
  c := b.c
  r := b.r
  g := b.g
  zs := 0
  zl := 0
  dt := b.dt
  time := 0
  v := b.v
  i := b.i
  phi := b.phi
  probes := []
  conn := b.tz
  vSources := fun _ _ _ => 0
  eL := b.eL
  eT := b.eT
  left1 := 0
  left2 := 0
  right1 := 0
  right2 := 0
  lr := none
  cg := none

theorem updateLr_congr {m : ℕ} {dt : ℝ} {dun dun' : ℕ → ℝ} {l r : ℕ → Mat n} {D : Disp n p}
    (h : ∀ k < m, dun k = dun' k) {lr : LR n} (hlr : updateLr m dt dun l r D = .ok lr) :
    ∃ lr', updateLr m dt dun' l r D = .ok lr' ∧ (∀ k < m, lr'.iTerm k = lr.iTerm k) ∧
      ∀ k < m, lr'.vDiff k = lr.vDiff k := by
  obtain ⟨hdt, hdet, rfl⟩ := updateLr_ok_iff.1 hlr
  have e1 : ∀ k < m, lrF1 dt dun' l r D k = lrF1 dt dun l r D k := fun k hk => by
    unfold lrF1; rw [h k hk]
  have e2 : ∀ k < m, lrF2 dt dun' l r D k = lrF2 dt dun l r D k := fun k hk => by
    unfold lrF2; rw [h k hk]
  exact ⟨_, updateLr_ok_iff.2 ⟨hdt, fun k hk => by rw [e1 k hk]; exact hdet k hk, rfl⟩,
    fun k hk => by simp only [e1 k hk, e2 k hk], fun k hk => by simp only [e1 k hk]⟩

theorem nodalLength_congr {m : ℕ} {dun dun' : ℕ → ℝ} (hm : 0 < m) (h : ∀ k < m, dun k = dun' k) {k : ℕ} :
    nodalLength m dun k = nodalLength m dun' k := by
  unfold nodalLength
  split_ifs with h1 h2
  · exact h 0 hm
  · rw [h k h2, h (k - 1) (by omega)]
  · exact h _ (by omega)

theorem updateCg_congr {m : ℕ} (hm : 0 < m) {dt : ℝ} {dun dun' : ℕ → ℝ} {c g : ℕ → Mat n}
    (h : ∀ k < m, dun k = dun' k) {cg : CG n} (hcg : updateCg m dt dun c g = .ok cg) :
    updateCg m dt dun' c g = .ok cg := by
  have e0 : nodalLength m dun = nodalLength m dun' := funext fun k => nodalLength_congr hm h
  have e1 : cgF1 m dt dun' c g = cgF1 m dt dun c g := funext fun k => by unfold cgF1; rw [e0]
  have e2 : cgF2 m dt dun' c g = cgF2 m dt dun c g := funext fun k => by unfold cgF2; rw [e0]
  rw [← hcg]
  unfold updateCg
  rw [e1, e2]

theorem MTLD.prepare_ok_iff {b b' : MTLD n p} : b.prepare = .ok b' ↔
    ∃ lr cg, updateLr b.m b.dt b.dun b.l b.r b.tz = .ok lr ∧ updateCg b.m b.dt b.dun b.c b.g = .ok cg ∧
      b' = { b with lr := some lr, cg := some cg } := by
  simp only [MTLD.prepare, MTLD.updateLrTerms, MTLD.updateCgTerms, bind_ok_iff, Except.ok.injEq]
  constructor
  · rintro ⟨_, ⟨lr, h1, rfl⟩, cg, h2, rfl⟩
    exact ⟨lr, cg, h1, h2, rfl⟩
  · rintro ⟨lr, cg, h1, h2, rfl⟩
    exact ⟨_, ⟨lr, h1, rfl⟩, cg, h2, rfl⟩

theorem MTLD.stepVoltage_ok_iff {time dt : ℝ} {b b' : MTLD n p} : b.stepVoltage time dt = .ok b' ↔
    ∃ cg, b.cg = some cg ∧ b' = { b with v := advanceVoltage b.m cg (b.sample time dt) b.v b.i } := by
  unfold MTLD.stepVoltage
  rcases b.cg with _ | cg
  · simp
  · simp [eq_comm]

theorem MTLD.stepCurrent_ok_iff {time dt : ℝ} {b b' : MTLD n p} : b.stepCurrent time dt = .ok b' ↔
    ∃ lr, b.lr = some lr ∧ b' = { b with
      i := advanceCurrent b.m lr b.dun (b.tz.q3phi b.phi) (b.sample time dt) b.v b.i
      phi := b.tz.updatePhi b.phi
        (advanceCurrent b.m lr b.dun (b.tz.q3phi b.phi) (b.sample time dt) b.v b.i)
        (advanceCurrent b.m lr b.dun (b.tz.q3phi b.phi) (b.sample time dt) b.v b.i) } := by
  unfold MTLD.stepCurrent
  rcases b.lr with _ | lr
  · simp
  · simp [eq_comm]

end Mtln
