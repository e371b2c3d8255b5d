import Verif.Spec.Run

/-!
# Specification: mirrored lines, sub-lines, renumbered lines
-/

namespace Mtln

open Matrix

variable {n p : ℕ}

/-- `t` is made of the hardware of `s` with its two ends exchanged: cell `k` of `t` is cell `m-1-k` of `s`,
node `k` is node `m-k`, `Zs` and `Zl` are swapped. -/
structure MirroredMedium (s t : MTL n p) : Prop where
  m : t.m = s.m
  dt : t.dt = s.dt
  dun : ∀ k < s.m, t.dun k = s.dun (s.m - 1 - k)
  l : ∀ k < s.m, t.l k = s.l (s.m - 1 - k)
  r : ∀ k < s.m, t.r k = s.r (s.m - 1 - k)
  c : ∀ k ≤ s.m, t.c k = s.c (s.m - k)
  g : ∀ k ≤ s.m, t.g k = s.g (s.m - k)
  zs : t.zs = s.zl
  zl : t.zl = s.zs
  left1 : t.left1 = s.right1
  left2 : t.left2 = s.right2
  right1 : t.right1 = s.left1
  right2 : t.right2 = s.left2
  q1 : ∀ k < s.m, t.conn.q1 k = s.conn.q1 (s.m - 1 - k)
  q2 : ∀ k < s.m, t.conn.q2 k = s.conn.q2 (s.m - 1 - k)
  q3 : ∀ k < s.m, t.conn.q3 k = s.conn.q3 (s.m - 1 - k)
  d : ∀ k < s.m, t.conn.d k = s.conn.d (s.m - 1 - k)
  e : ∀ k < s.m, t.conn.e k = s.conn.e (s.m - 1 - k)
  q1sum : ∀ k < s.m, t.conn.q1sum k = s.conn.q1sum (s.m - 1 - k)
  q2sum : ∀ k < s.m, t.conn.q2sum k = s.conn.q2sum (s.m - 1 - k)

/-- The sources are mirrored; the longitudinal field, which has a direction along the line, also changes
sign. -/
structure MirroredSources (s t : MTL n p) : Prop where
  vS : ∀ k ≤ s.m, t.vSources k = s.vSources (s.m - k)
  eT : ∀ k ≤ s.m, t.eT k = s.eT (s.m - k)
  eL : ∀ k < s.m, ∀ x τ, t.eL k x τ = -s.eL (s.m - 1 - k) x τ

/-- Voltages are mirrored, currents and memory are mirrored and change sign. -/
structure MirroredState (s t : MTL n p) : Prop where
  v : ∀ k ≤ s.m, t.v k = s.v (s.m - k)
  i : ∀ k < s.m, t.i k = -s.i (s.m - 1 - k)
  phi : ∀ k < s.m, ∀ x σ, t.phi k x σ = -s.phi (s.m - 1 - k) x σ

/-- Matrix `B` is the part of `A` that concerns the conductors `e 0, e 1, …`, and these conductors do not
feel the others (no entry of `A` in their rows outside their columns). -/
structure SubMat {n₁ : ℕ} (e : Fin n₁ → Fin n) (A : Mat n) (B : Mat n₁) : Prop where
  inside : ∀ a b, A (e a) (e b) = B a b
  outside : ∀ a x, x ∉ Set.range e → A (e a) x = 0

/-- The same for the pole coefficients of one cell. -/
structure SubQ {n₁ : ℕ} (e : Fin n₁ → Fin n) (A : Fin n → Fin n → QEntry p)
    (B : Fin n₁ → Fin n₁ → QEntry p) : Prop where
  inside : ∀ a b, (A (e a) (e b)).val = (B a b).val
  outside : ∀ a x, x ∉ Set.range e → (A (e a) x).val = 0

/-- `t` is made of the conductors `e 0, e 1, …` of `s`, which do not feel the other conductors. -/
structure SubMedium {n₁ : ℕ} (e : Fin n₁ → Fin n) (s : MTL n p) (t : MTL n₁ p) : Prop where
  m : t.m = s.m
  dt : t.dt = s.dt
  dun : t.dun = s.dun
  l : ∀ k, SubMat e (s.l k) (t.l k)
  c : ∀ k, SubMat e (s.c k) (t.c k)
  r : ∀ k, SubMat e (s.r k) (t.r k)
  g : ∀ k, SubMat e (s.g k) (t.g k)
  zs : SubMat e s.zs t.zs
  zl : SubMat e s.zl t.zl
  left1 : SubMat e s.left1 t.left1
  left2 : SubMat e s.left2 t.left2
  right1 : SubMat e s.right1 t.right1
  right2 : SubMat e s.right2 t.right2
  q1 : ∀ k, SubQ e (s.conn.q1 k) (t.conn.q1 k)
  q2 : ∀ k, SubQ e (s.conn.q2 k) (t.conn.q2 k)
  q3 : ∀ k, SubQ e (s.conn.q3 k) (t.conn.q3 k)
  d : ∀ k, SubMat e (s.conn.d k) (t.conn.d k)
  de : ∀ k, SubMat e (s.conn.e k) (t.conn.e k)
  q1sum : ∀ k, SubMat e (s.conn.q1sum k) (t.conn.q1sum k)
  q2sum : ∀ k, SubMat e (s.conn.q2sum k) (t.conn.q2sum k)

/-- The sources of `t` are those of the conductors `e 0, e 1, …` of `s`. -/
structure SubSources {n₁ : ℕ} (e : Fin n₁ → Fin n) (s : MTL n p) (t : MTL n₁ p) : Prop where
  vS : ∀ k a, t.vSources k a = s.vSources k (e a)
  eL : ∀ k a, t.eL k a = s.eL k (e a)
  eT : ∀ k a, t.eT k a = s.eT k (e a)

/-- The state of `t` is that of the conductors `e 0, e 1, …` of `s`. -/
structure SubState {n₁ : ℕ} (e : Fin n₁ → Fin n) (s : MTL n p) (t : MTL n₁ p) : Prop where
  v : ∀ k a, t.v k a = s.v k (e a)
  i : ∀ k a, t.i k a = s.i k (e a)
  phi : ∀ k a, t.phi k a = s.phi k (e a)

end Mtln

namespace Mtln

open Matrix

variable {n p : ℕ}

/-- No conductor of the group `S` feels a conductor outside the group through the matrix `A`. -/
def Decoupled (S : Finset (Fin n)) (A : Mat n) : Prop := ∀ i ∈ S, ∀ j, j ∉ S → A i j = 0

/-- No matrix of the line couples a conductor outside `S` into `S`. -/
structure MTL.Uncoupled (S : Finset (Fin n)) (s : MTL n p) : Prop where
  l : ∀ k, Decoupled S (s.l k)
  c : ∀ k, Decoupled S (s.c k)
  r : ∀ k, Decoupled S (s.r k)
  g : ∀ k, Decoupled S (s.g k)
  zs : Decoupled S s.zs
  zl : Decoupled S s.zl
  d : ∀ k, Decoupled S (s.conn.d k)
  e : ∀ k, Decoupled S (s.conn.e k)
  q1sum : ∀ k, Decoupled S (s.conn.q1sum k)
  q2sum : ∀ k, Decoupled S (s.conn.q2sum k)
  q1 : ∀ k, ∀ i ∈ S, ∀ j, j ∉ S → (s.conn.q1 k i j).val = 0
  q2 : ∀ k, ∀ i ∈ S, ∀ j, j ∉ S → (s.conn.q2 k i j).val = 0
  q3 : ∀ k, ∀ i ∈ S, ∀ j, j ∉ S → (s.conn.q3 k i j).val = 0

/-- A column with its conductors renumbered: entry `j` of the result is entry `π j`. -/
def renumCol (π : Equiv.Perm (Fin n)) (x : Col n) : Col n := fun j => x (π j)

/-- A matrix with its conductors renumbered. -/
def renumMat (π : Equiv.Perm (Fin n)) (A : Mat n) : Mat n := A.submatrix π π

/-- The recorded values of a probe with the conductors renumbered. -/
def ProbeVal.renumber (π : Equiv.Perm (Fin n)) : ProbeVal n → ProbeVal n
  | .empty => .empty
  | .view => .view
  | .rows r => .rows (r.map (renumCol π))

/-- A probe with the conductors renumbered. -/
def Probe.renumber (π : Equiv.Perm (Fin n)) (q : Probe n) : Probe n := { q with val := q.val.renumber π }

/-- Dispersive coefficients with the conductors renumbered. -/
def Disp.renumber (π : Equiv.Perm (Fin n)) (D : Disp n p) : Disp n p where
  dt := D.dt
  q1 := fun k i j => D.q1 k (π i) (π j)
  q2 := fun k i j => D.q2 k (π i) (π j)
  q3 := fun k i j => D.q3 k (π i) (π j)
  d := fun k => renumMat π (D.d k)
  e := fun k => renumMat π (D.e k)
  q1sum := fun k => renumMat π (D.q1sum k)
  q2sum := fun k => renumMat π (D.q2sum k)

/-- The line with its conductors renumbered: conductor `j` of the result is conductor `π j` of `s`. -/
def MTL.renumber (π : Equiv.Perm (Fin n)) (s : MTL n p) : MTL n p where
  name := s.name
  m := s.m
  u := s.u
  du := s.du
  dun := s.dun
  l := fun k => renumMat π (s.l k)
  c := fun k => renumMat π (s.c k)
  r := fun k => renumMat π (s.r k)
  g := fun k => renumMat π (s.g k)
  zs := renumMat π s.zs
  zl := renumMat π s.zl
  dt := s.dt
  time := s.time
  v := fun k => renumCol π (s.v k)
  i := fun k => renumCol π (s.i k)
  phi := fun k j => s.phi k (π j)
  probes := s.probes.map (Probe.renumber π)
  conn := s.conn.renumber π
  vSources := fun k j => s.vSources k (π j)
  eL := fun k j => s.eL k (π j)
  eT := fun k j => s.eT k (π j)
  left1 := renumMat π s.left1
  left2 := renumMat π s.left2
  right1 := renumMat π s.right1
  right2 := renumMat π s.right2
  lr := s.lr.map fun x => ⟨fun k => renumMat π (x.iTerm k), fun k => renumMat π (x.vDiff k)⟩
  cg := s.cg.map fun x => ⟨fun k => renumMat π (x.vTerm k), fun k => renumMat π (x.iDiff k)⟩

end Mtln
