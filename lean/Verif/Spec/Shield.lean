import Verif.Model.Manager

/-!
# What is outside of shields (C169)

The outer conductors of a bundle are its first rows.  A manager shows another one, which has only the outer conductors, if nothing
that is inside acts on them.
-/

namespace Mtln

variable {n p a : ℕ}

/-- `B` is the square of the first `a` rows and columns of `A`, and the rest of these rows is zero. -/
def ShowsMat (h : a ≤ n) (A : Mat n) (B : Mat a) : Prop :=
  ∀ x : Fin a, (∀ y : Fin a, A (Fin.castLE h x) (Fin.castLE h y) = B x y) ∧ ∀ y : Fin n, a ≤ (y : ℕ) → A (Fin.castLE h x) y = 0

/-- The same for arrays of pole coefficients. -/
def ShowsPoles (h : a ≤ n) (A : Fin n → Fin n → QEntry p) (B : Fin a → Fin a → QEntry p) : Prop :=
  ∀ x : Fin a, (∀ y : Fin a, (A (Fin.castLE h x) (Fin.castLE h y)).val = (B x y).val) ∧
    ∀ y : Fin n, a ≤ (y : ℕ) → (A (Fin.castLE h x) y).val = 0

/-- The first `a` entries. -/
def ShowsCol {α : Type} (h : a ≤ n) (v : Fin n → α) (w : Fin a → α) : Prop := ∀ x, v (Fin.castLE h x) = w x

/-- The recorded values of the first `a` conductors. -/
def ShowsVal (h : a ≤ n) : ProbeVal n → ProbeVal a → Prop
  | .empty, .empty => True
  | .view, .view => True
  | .rows r, .rows s => List.Forall₂ (ShowsCol h) r s
  | _, _ => False

/-- A probe that records the first `a` conductors at the same place. -/
structure Probe.Shows (h : a ≤ n) (q : Probe n) (q' : Probe a) : Prop where
  type : q'.type = q.type
  t : q'.t = q.t
  val : ShowsVal h q.val q'.val
  index : q'.index = q.index
  dt : q'.dt = q.dt
  currentFrame : q'.currentFrame = q.currentFrame

/-- The dispersive coefficients of the first `a` conductors, on which the others do not act. -/
structure Disp.Shows (h : a ≤ n) (D : Disp n p) (E : Disp a p) : Prop where
  d : ∀ k, ShowsMat h (D.d k) (E.d k)
  e : ∀ k, ShowsMat h (D.e k) (E.e k)
  q1sum : ∀ k, ShowsMat h (D.q1sum k) (E.q1sum k)
  q2sum : ∀ k, ShowsMat h (D.q2sum k) (E.q2sum k)
  q1 : ∀ k, ShowsPoles h (D.q1 k) (E.q1 k)
  q2 : ∀ k, ShowsPoles h (D.q2 k) (E.q2 k)
  q3 : ∀ k, ShowsPoles h (D.q3 k) (E.q3 k)

/-- `s` has the first `a` conductors of the bundle `b`, with their parameters, fields, excitations and probes, and the other
conductors of `b` do not act on them. -/
structure MTLD.Shows (h : a ≤ n) (b : MTLD n p) (s : MTLD a p) : Prop where
  name : s.name = b.name
  m : s.m = b.m
  dun : s.dun = b.dun
  dt : s.dt = b.dt
  l : ∀ k, ShowsMat h (b.l k) (s.l k)
  c : ∀ k, ShowsMat h (b.c k) (s.c k)
  r : ∀ k, ShowsMat h (b.r k) (s.r k)
  g : ∀ k, ShowsMat h (b.g k) (s.g k)
  tz : b.tz.Shows h s.tz
  v : ∀ k, ShowsCol h (b.v k) (s.v k)
  i : ∀ k, ShowsCol h (b.i k) (s.i k)
  phi : ∀ k, ShowsCol h (b.phi k) (s.phi k)
  eL : ∀ k, ShowsCol h (b.eL k) (s.eL k)
  eT : ∀ k, ShowsCol h (b.eT k) (s.eT k)
  probes : List.Forall₂ (Probe.Shows h) b.probes s.probes

/-- The same for a bundle of some size; `A` gives for each name the number of outer conductors. -/
inductive BundleShows (A : String → ℕ) : AnyBundle p → AnyBundle p → Prop
  | mk {n a : ℕ} {b : MTLD n p} {s : MTLD a p} (h : a ≤ n) : a = A b.name → b.Shows h s → BundleShows A ⟨n, b⟩ ⟨a, s⟩

/-- A network all of whose nodes are outer conductors. -/
def isOuter (A : String → ℕ) (e : ℕ × AnyNetwork) : Bool :=
  (List.ofFn e.2.2.2.nodes).all fun d => d.lineIndex < A d.bundleName

/-- No network joins an outer conductor with another one. -/
def ShieldedNets (A : String → ℕ) (nws : List NetworkD) : Prop :=
  ∀ nwd ∈ nws, ∀ e ∈ nwd, (∀ x, (e.2.2.2.nodes x).lineIndex < A (e.2.2.2.nodes x).bundleName) ∨
    ∀ x, A (e.2.2.2.nodes x).bundleName ≤ (e.2.2.2.nodes x).lineIndex

/-- `R` is what is outside in `M`: the outer conductors of all bundles, on which the others do not act, and the networks between
outer conductors. -/
structure MTLN.Shows (A : String → ℕ) (M R : MTLN p) : Prop where
  dt : R.dt = M.dt
  time : R.time = M.time
  bundles : List.Forall₂ (BundleShows A) M.bundles R.bundles
  networks : R.networks = M.networks.map fun nwd => nwd.filter (isOuter A)

/-- Calls of methods of a bundle `b` with `L` outer levels, and of a bundle `s` that has only these: transfer impedances that lead inward,
and localized fields on inner conductors, are left out in `s`; calls that concern the outer levels are made on both. -/
inductive OuterCalls (L : ℕ) (b : MTLD n p) (s : MTLD a p) : MTLD n p → MTLD a p → Prop
  | done : OuterCalls L b s b s
  | innerTransfer {b1 b2 : MTLD n p} {s1 : MTLD a p} {ol il : ℕ} {oc ic : List ℕ} {Z : TransferModel} : OuterCalls L b s b1 s1 →
      L ≤ il → Z.direction ≠ "out" → b1.addTransferImpedance ol oc il ic Z = .ok b2 → OuterCalls L b s b2 s1
  | innerConnector {b1 b2 : MTLD n p} {s1 : MTLD a p} {side : String} {ol il : ℕ} {oc ic : List ℕ} {Z : TransferModel} :
      OuterCalls L b s b1 s1 → L ≤ il → Z.direction ≠ "out" → b1.setConnectorTransferImpedance side ol oc il ic Z = .ok b2 →
      OuterCalls L b s b2 s1
  | outerTransfer {b1 b2 : MTLD n p} {s1 s2 : MTLD a p} {ol il : ℕ} {oc ic : List ℕ} {Z : TransferModel} : OuterCalls L b s b1 s1 →
      ol < L → il < L → b1.addTransferImpedance ol oc il ic Z = .ok b2 → s1.addTransferImpedance ol oc il ic Z = .ok s2 →
      OuterCalls L b s b2 s2
  | innerField {b1 b2 : MTLD n p} {s1 : MTLD a p} {start stop : Pos} {x : Fin n} {magnitude : ℝ → ℝ} {type : String} :
      OuterCalls L b s b1 s1 → a ≤ (x : ℕ) → b1.addLocalizedField start stop x magnitude type = .ok b2 → OuterCalls L b s b2 s1
  | outerField {b1 b2 : MTLD n p} {s1 s2 : MTLD a p} {start stop : Pos} {x : Fin n} {y : Fin a} {magnitude : ℝ → ℝ}
      {type : String} : OuterCalls L b s b1 s1 → (x : ℕ) = y → b1.addLocalizedField start stop x magnitude type = .ok b2 →
      s1.addLocalizedField start stop y magnitude type = .ok s2 → OuterCalls L b s b2 s2
  | probe {b1 b2 : MTLD n p} {s1 s2 : MTLD a p} {position : Pos} {type : String} : OuterCalls L b s b1 s1 →
      b1.addProbe position type = .ok b2 → s1.addProbe position type = .ok s2 → OuterCalls L b s b2 s2

end Mtln
