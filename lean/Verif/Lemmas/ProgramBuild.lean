import Verif.Lemmas.NetworkLayout
import Verif.Lemmas.Grounding
import Verif.Props.BundleStep
import Verif.Props.Registration
import Verif.Props.ManagerOrder
import Verif.Props.ManagerSteady

/-! # What programs build -/

namespace Mtln

open Matrix

variable {n p N S : ℕ}

theorem bundleCall_ok {b b' : MTLD n p} {c : BundleCall} (h : c.run b = .ok b') :
    ∃ eL eT probes, b' = { b with eL := eL, eT := eT, probes := probes } ∧
      ∀ q ∈ probes, q ∈ b.probes ∨ ∃ x t, c = .probe x t ∧ q.type = t := by
  cases c with
  | probe x t =>
    simp only [BundleCall.run, MTLD.addProbe, bind_ok_iff, Except.ok.injEq] at h
    obtain ⟨-, -, -, -, rfl⟩ := h
    refine ⟨b.eL, b.eT, _, rfl, fun q hq => ?_⟩
    rcases List.mem_append.1 hq with hq | hq
    · exact .inl hq
    · obtain rfl := List.mem_singleton.1 hq
      exact .inr ⟨x, t, rfl, rfl⟩
  | field x y c f t =>
    simp only [BundleCall.run] at h
    split_ifs at h with hc
    simp only [MTLD.addLocalizedField, bind_ok_iff, Except.ok.injEq] at h
    obtain ⟨-, -, -, -, d, -, -, -, eL, -, rfl⟩ := h
    exact ⟨eL, b.eT, b.probes, rfl, fun q hq => .inl hq⟩
  | external F D loc =>
    simp only [BundleCall.run, MTLD.addExternalField, bind_ok_iff, Except.ok.injEq] at h
    obtain ⟨-, -, e, -, rfl⟩ := h
    exact ⟨e.1, e.2, b.probes, rfl, fun q hq => .inl hq⟩

theorem bundleCalls_ok : ∀ {l : List BundleCall} {b b' : MTLD n p}, l.foldlM (fun b c => BundleCall.run b c) b = .ok b' →
    ∃ eL eT probes, b' = { b with eL := eL, eT := eT, probes := probes } ∧
      ∀ q ∈ probes, q ∈ b.probes ∨ ∃ x t, .probe x t ∈ l ∧ q.type = t
  | [], b, b', h => by
    simp only [List.foldlM_nil, pure, Except.pure, Except.ok.injEq] at h
    subst h
    exact ⟨b.eL, b.eT, b.probes, rfl, fun q hq => .inl hq⟩
  | c :: l, b, b', h => by
    simp only [List.foldlM_cons, bind_ok_iff] at h
    obtain ⟨b1, h1, h2⟩ := h
    obtain ⟨eL1, eT1, pr1, rfl, hp1⟩ := bundleCall_ok h1
    obtain ⟨eL, eT, pr, rfl, hp⟩ := bundleCalls_ok h2
    refine ⟨eL, eT, pr, rfl, fun q hq => ?_⟩
    rcases hp q hq with hq | ⟨x, t, hx, ht⟩
    · rcases hp1 q hq with hq | ⟨x, t, hx, ht⟩
      · exact .inl hq
      · exact .inr ⟨x, t, by rw [hx]; exact List.mem_cons_self, ht⟩
    · exact .inr ⟨x, t, List.mem_cons_of_mem _ hx, ht⟩

/-- A bundle built from the lines of a plan, and what its calls can have changed. -/
def BundlePlan.Built (B : BundlePlan p) (b : AnyBundle p) : Prop :=
  ∃ b0, MTLD.new (B.lines.map fun L => [L]) B.name = .ok b0 ∧ ∃ eL eT probes,
    b = ⟨b0.1, { b0.2 with eL := eL, eT := eT, probes := probes }⟩ ∧
    ∀ q ∈ probes, ∃ x t, .probe x t ∈ B.calls ∧ q.type = t

theorem bundleMake_built {B : BundlePlan p} {b : AnyBundle p} (h : B.make = .ok b) : B.Built b := by
  simp only [BundlePlan.make, bind_ok_iff, Except.ok.injEq] at h
  obtain ⟨b0, h0, b', h1, rfl⟩ := h
  obtain ⟨eL, eT, pr, rfl, hp⟩ := bundleCalls_ok h1
  refine ⟨b0, h0, eL, eT, pr, rfl, fun q hq => ?_⟩
  obtain ⟨first, rest, -, -, rfl⟩ := bundleNew_ok_iff.1 h0
  rcases hp q hq with hq | hq
  · exact absurd hq (by show q ∉ ([] : List _); simp)
  · exact hq

theorem built_names {l : List (BundlePlan p)} {bs : List (AnyBundle p)} (h : List.Forall₂ BundlePlan.Built l bs) :
    (bs.map fun b => b.2.name) = l.map BundlePlan.name := by
  induction h with
  | nil => rfl
  | cons hb _ ih =>
    rw [List.map_cons, List.map_cons, ih]
    obtain ⟨b0, h0, eL, eT, pr, rfl, -⟩ := hb
    congr 1
    exact (new_inLevel h0).2.1

/-- A network built from a plan and registered by a manager. -/
def NetPlan.Built (bs : List (AnyBundle p)) (Q : NetPlan p) (e : ℕ × AnyNetwork) : Prop :=
  ∃ (nw : AnyNetwork) (nw' : Network nw.1 nw.2.1), Network.new Q.lines = .ok nw ∧ nw.2.2.calls Q.calls = .ok nw' ∧
    e = (Q.level, ⟨nw.1, nw.2.1, nw'.registered bs Q.level⟩)

/-- What a successful program returns. -/
theorem make_ok {P : Program p} {M : MTLN p} (h : P.make = .ok M) :
    (P.bundles.map BundlePlan.name).Nodup ∧ List.Forall₂ BundlePlan.Built P.bundles M.bundles ∧
    List.Forall₂ (List.Forall₂ (NetPlan.Built M.bundles)) P.networks M.networks ∧
    IsLeast ({10 ^ 10} ∪ {t | ∃ b ∈ M.bundles, t = b.2.dt}) M.dt ∧ M.time = 0 ∧
    (M.bundles.map fun b => b.2.name) = P.bundles.map BundlePlan.name := by
  simp only [Program.make, bind_ok_iff] at h
  obtain ⟨bs, h1, nws, h2, h3⟩ := h
  obtain ⟨g1, g2, rfl, g4, g5⟩ := managerNew_ok_iff.1 h3
  have hB : List.Forall₂ BundlePlan.Built P.bundles M.bundles :=
    (mapPy_ok_iff.1 h1).imp fun B b hb => bundleMake_built hb
  have hnames : (M.bundles.map fun b => b.2.name) = P.bundles.map BundlePlan.name := built_names hB
  refine ⟨hnames ▸ g1, hB, ?_, g2, g5, hnames⟩
  have g6 := mapPy_ok_iff.1 g4
  have g7 := mapPy_ok_iff.1 h2
  refine forall₂_comp_mem g7 g6 fun Qs _ nwd nwd' hQ hn => ?_
  obtain ⟨-, rfl⟩ := updateIndexNumbers_ok_iff.1 hn
  rw [List.forall₂_map_right_iff]
  refine (mapPy_ok_iff.1 hQ).imp fun Q e he => ?_
  simp only [NetPlan.make, bind_ok_iff, Except.ok.injEq] at he
  obtain ⟨nw, a1, nw', a2, rfl⟩ := he
  exact ⟨nw, nw', a1, a2, rfl⟩

/-! ## Rows of bundles -/

/-- The first row of a level. -/
def BundlePlan.row (B : BundlePlan p) (level : ℕ) : ℕ := totalConductors (B.lines.take level)

theorem row_lt {B : BundlePlan p} {x y : ℕ} {L : AnyLine p} (hx : B.lines[x]? = some L) (h : x < y) :
    B.row x + L.1 ≤ B.row y := by
  have hl : x < B.lines.length := (List.getElem?_eq_some_iff.1 hx).1
  have e : B.lines.take (x + 1) = B.lines.take x ++ [L] := by
    rw [List.take_add_one, hx]; rfl
  have h1 : B.row (x + 1) = B.row x + L.1 := by
    unfold BundlePlan.row
    rw [e, totalConductors_append]
    simp [totalConductors]
  rw [← h1]
  unfold BundlePlan.row
  have : B.lines.take y = B.lines.take (x + 1) ++ (B.lines.drop (x + 1)).take (y - (x + 1)) := by
    rw [← List.take_add]; congr 1; omega
  rw [this, totalConductors_append]
  omega

theorem split_level {B : BundlePlan p} {x : ℕ} {L : AnyLine p} (hx : B.lines[x]? = some L) :
    B.lines = B.lines.take x ++ L :: B.lines.drop (x + 1) := by
  obtain ⟨h1, h2⟩ := List.getElem?_eq_some_iff.1 hx
  rw [← h2, List.cons_getElem_drop_succ, List.take_append_drop]

theorem flatten_singles (l : List (AnyLine p)) : (l.map fun L => [L]).flatten = l := by
  induction l with
  | nil => rfl
  | cons a l ih => simp [ih]

/-- What a built bundle is like. -/
structure BundlePlan.Shape (B : BundlePlan p) (b : AnyBundle p) : Prop where
  name : b.2.name = B.name
  size : b.1 = totalConductors B.lines
  before : ∀ level, conductorsBefore b.2.inLevel level = B.row level
  m : ∀ L ∈ B.lines, L.2.m = b.2.m
  dun : ∀ L ∈ B.lines, ∀ k < b.2.m, b.2.dun k = L.2.dun k
  c : ∀ k i j, b.2.c k i j = blockEntry 0 (B.lines.map fun L => ⟨L.1, fun i j => L.2.c k i j⟩) i j
  rest : (∀ k x, b.2.v k x = 0) ∧ (∀ k x, b.2.i k x = 0) ∧ ∀ k x σ, b.2.phi k x σ = 0

theorem BundlePlan.Built.shape {B : BundlePlan p} {b : AnyBundle p} (h : B.Built b) (hp : ∀ L ∈ B.lines, L.2.Proper) :
    B.Shape b := by
  obtain ⟨b0, h0, eL, eT, pr, rfl, -⟩ := h
  obtain ⟨h1, h2, h3⟩ := new_inLevel h0
  rw [flatten_singles] at h3
  obtain ⟨first, rest, hl, hs, rfl⟩ := bundleNew_ok_iff.1 h0
  have hfm : first ∈ B.lines := by
    have : first ∈ (B.lines.map fun L => [L]).flatten := by rw [hl]; simp
    rwa [flatten_singles] at this
  rw [flatten_singles] at hs
  refine ⟨h2, h3, fun level => ?_, fun L hL => (hs L hL).1, fun L hL k hk => ?_, fun k i j => ?_,
    ⟨fun _ _ => rfl, fun _ _ => rfl, fun _ _ _ => rfl⟩⟩
  · show conductorsBefore (MTLD.assemble first (B.lines.map fun L => [L]) B.name).inLevel level = _
    rw [h1, before_eq, ← List.map_take, flatten_singles]
    rfl
  · obtain ⟨e1, e2⟩ := hs L hL
    have hk' : k < first.2.m := hk
    show first.2.dun k = L.2.dun k
    rw [(hp L hL).mesh k (by omega), (hp first hfm).mesh k hk', e2 (k + 1) (by omega), e2 k (by omega)]
  · exact congrArg (fun l : List (AnyLine p) => blockEntry (0 : ℝ) (l.map fun L => ⟨L.1, fun i j => L.2.c k i j⟩) i j)
      (flatten_singles B.lines)

theorem row_size {B : BundlePlan p} {x : ℕ} {L : AnyLine p} (hx : B.lines[x]? = some L) :
    B.row x + L.1 ≤ totalConductors B.lines := by
  conv_rhs => rw [split_level hx]
  rw [totalConductors_append]
  show totalConductors (B.lines.take x) + L.1 ≤ _
  simp only [totalConductors, List.map_cons, List.sum_cons]
  omega

/-- The capacitances of a bundle at the rows of one level. -/
theorem BundlePlan.Shape.c_same {B : BundlePlan p} {b : AnyBundle p} (h : B.Shape b) {x : ℕ} {L : AnyLine p}
    (hx : B.lines[x]? = some L) (k : ℕ) {i j : Fin L.1} {r s : Fin b.1} (hr : (r : ℕ) = B.row x + i)
    (hs : (s : ℕ) = B.row x + j) : b.2.c k r s = L.2.c k i j := by
  rw [h.c, hr, hs]
  conv_lhs => rw [split_level hx]
  rw [List.map_append, List.map_cons]
  have := blockEntry_inside (z := (0 : ℝ)) (A := fun i j => L.2.c k i j)
    (post := (B.lines.drop (x + 1)).map fun L => ⟨L.1, fun i j => L.2.c k i j⟩)
    ((B.lines.take x).map fun L => ⟨L.1, fun i j => L.2.c k i j⟩) i j
  simp only [List.map_map, Function.comp_def] at this
  exact this

/-- The capacitances of a bundle at rows of different levels. -/
theorem BundlePlan.Shape.c_other {B : BundlePlan p} {b : AnyBundle p} (h : B.Shape b) {x : ℕ} {L : AnyLine p}
    (hx : B.lines[x]? = some L) (k : ℕ) {i : Fin L.1} {r s : Fin b.1} (hr : (r : ℕ) = B.row x + i)
    (hs : ¬ (B.row x ≤ (s : ℕ) ∧ (s : ℕ) < B.row x + L.1)) : b.2.c k r s = 0 := by
  rw [h.c, hr]
  conv_lhs => rw [split_level hx]
  rw [List.map_append, List.map_cons]
  have := blockEntry_outside (z := (0 : ℝ)) (A := fun i j => L.2.c k i j)
    (post := (B.lines.drop (x + 1)).map fun L => ⟨L.1, fun i j => L.2.c k i j⟩)
    ((B.lines.take x).map fun L => ⟨L.1, fun i j => L.2.c k i j⟩) i s
  simp only [List.map_map, Function.comp_def] at this
  exact this hs

end Mtln
