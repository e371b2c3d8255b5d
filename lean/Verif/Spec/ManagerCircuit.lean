import Verif.Spec.ManagerSteady

/-!
# Specification: solutions of the direct current circuit of a manager

Voltages `V` and currents `I` are given by the name of the bundle, the node or cell, and the row of the conductor.
-/

namespace Mtln

variable {p : ℕ}

/-- A bundle with given voltages and currents. -/
def AnyBundle.withState (V I : String → ℕ → ℕ → ℝ) (b : AnyBundle p) : AnyBundle p :=
  ⟨b.1, { b.2 with v := fun k a => V b.2.name k a, i := fun k a => I b.2.name k a }⟩

/-- The voltage of a node of a bundle, seen by name. -/
noncomputable def nodeV (bs : List (AnyBundle p)) (name : String) (k a : ℕ) : ℝ :=
  match findBundle bs name with
  | some b => if h : a < b.1 then b.2.v k ⟨a, h⟩ else 0
  | none => 0

/-- The current of a cell of a bundle, seen by name. -/
noncomputable def cellI (bs : List (AnyBundle p)) (name : String) (k a : ℕ) : ℝ :=
  match findBundle bs name with
  | some b => if h : a < b.1 then b.2.i k ⟨a, h⟩ else 0
  | none => 0

/-- A network with the voltages and currents of the ends its nodes are attached to. -/
noncomputable def levelWith (bs : List (AnyBundle p)) (e : ℕ × AnyNetwork) : ℕ × AnyNetwork :=
  (e.1, ⟨e.2.1, e.2.2.1, { e.2.2.2 with
    v := fun a => endV bs (e.2.2.2.nodes a).end'
    vPrev := fun a => endV bs (e.2.2.2.nodes a).end'
    i := fun a => endI bs (e.2.2.2.nodes a).end' }⟩)

/-- A manager with given voltages and currents. -/
noncomputable def MTLN.withState (M : MTLN p) (V I : String → ℕ → ℕ → ℝ) : MTLN p :=
  { M with
    bundles := M.bundles.map (AnyBundle.withState V I)
    networks := M.networks.map fun nwd => nwd.map (levelWith (M.bundles.map (AnyBundle.withState V I))) }

/-- The circuit has a solution for sources and fields as they are at the time `t`, with voltage zero at the ends without a
node. -/
def MTLN.Solvable (M : MTLN p) (t : ℝ) : Prop :=
  ∃ V I, (M.withState V I).DC t ∧
    ∀ x, x ∉ (allNodes M.networks).map Node.end' → endV (M.withState V I).bundles x = 0

end Mtln
