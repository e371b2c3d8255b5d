import Verif.Lemmas.ManagerRedriven
import Mathlib.Topology.Algebra.Order.LiminfLimsup
import Mathlib.LinearAlgebra.FiniteDimensional.Basic

/-! # What managers show from step to step, as sequences -/

namespace Mtln

open Matrix Filter

variable {n p N S : ℕ}

/-- A voltage or a current, seen by the name of the bundle. -/
noncomputable def MTLN.reading (M : MTLN p) (q : Bool × String × ℕ × ℕ) : ℝ :=
  if q.1 then nodeV M.bundles q.2.1 q.2.2.1 q.2.2.2 else cellI M.bundles q.2.1 q.2.2.1 q.2.2.2

/-- The nodes (`true`) and cells (`false`) of bundles. -/
def Places (bs : List (AnyBundle p)) : Set (Bool × String × ℕ × ℕ) := { q | ∃ b ∈ bs, q.2.1 = b.2.name ∧ q.2.2.2 < b.1 ∧
  (q.1 = true ∧ q.2.2.1 ≤ b.2.m ∨ q.1 = false ∧ q.2.2.1 < b.2.m) }

theorem Places.finite (bs : List (AnyBundle p)) : (Places bs).Finite := by
  have : (⋃ b ∈ { b | b ∈ bs }, (Set.univ ×ˢ ({b.2.name} ×ˢ (Set.Iic b.2.m ×ˢ Set.Iio b.1)) : Set (Bool × String × ℕ × ℕ))).Finite := by
    refine Set.Finite.biUnion (List.finite_toSet bs) fun b _ => ?_
    exact Set.Finite.prod Set.finite_univ ((Set.finite_singleton _).prod ((Set.finite_Iic _).prod (Set.finite_Iio _)))
  refine this.subset ?_
  rintro ⟨w, name, k, a⟩ ⟨b, hb, h1, h2, h3⟩
  refine Set.mem_biUnion (show b ∈ { b | b ∈ bs } from hb) ?_
  refine ⟨trivial, h1, ?_, h2⟩
  rcases h3 with ⟨-, h⟩ | ⟨-, h⟩
  · exact h
  · exact le_of_lt h

/-- Bundles with the same voltages and currents, wherever. -/
def SameEnds (b c : AnyBundle p) : Prop := ∃ c' : MTLD b.1 p, c = ⟨b.1, c'⟩ ∧ c'.name = b.2.name ∧ c'.m = b.2.m ∧ c'.v = b.2.v ∧ c'.i = b.2.i

theorem find_sameEnds {l l' : List (AnyBundle p)} (h : List.Forall₂ SameEnds l l') (name : String) :
    (findBundle l name = none ∧ findBundle l' name = none) ∨
    ∃ b c, findBundle l name = some b ∧ findBundle l' name = some c ∧ SameEnds b c := by
  induction h with
  | nil => exact .inl ⟨rfl, rfl⟩
  | @cons b c l l' hr _ ih =>
    have hn : c.2.name = b.2.name := by obtain ⟨_, rfl, h, _⟩ := hr; exact h
    unfold findBundle at ih ⊢
    by_cases e : b.2.name = name
    · exact .inr ⟨b, c, by simp [e], by simp [hn, e], hr⟩
    · rw [List.find?_cons_of_neg (by simpa using e), List.find?_cons_of_neg (by simpa [hn] using e)]
      exact ih

theorem ends_same {l l' : List (AnyBundle p)} (h : List.Forall₂ SameEnds l l') (x : End) : endV l' x = endV l x ∧ endI l' x = endI l x := by
  unfold endV endI
  rcases find_sameEnds h x.bundle with ⟨e1, e2⟩ | ⟨b, _, e1, e2, c, rfl, -, h2, h3, h4⟩
  · rw [e1, e2]; exact ⟨rfl, rfl⟩
  · rw [e1, e2]
    simp only [h2, h3, h4, and_self]

theorem reading_same {M M' : MTLN p} (h : List.Forall₂ SameEnds M.bundles M'.bundles) : M'.reading = M.reading := by
  funext q
  unfold MTLN.reading nodeV cellI
  rcases find_sameEnds h q.2.1 with ⟨e1, e2⟩ | ⟨b, _, e1, e2, c, rfl, -, h2, h3, h4⟩
  · rw [e1, e2]
  · rw [e1, e2]
    simp only [h3, h4]

theorem MTLN.Twin.same {M M' : MTLN p} (h : M.Twin M') : List.Forall₂ SameEnds M.bundles M'.bundles :=
  h.bundles.imp fun _ _ ⟨_, _, e⟩ => ⟨_, e, rfl, rfl, rfl, rfl⟩

theorem MTLN.Twin.linked {M M' : MTLN p} (h : M.Twin M') (hl : M.Linked) : M'.Linked := by
  refine ⟨fun nwd hn e he a => ?_, fun nwd hn e he a => ?_, fun x hx => ?_⟩
  · rw [h.networks] at hn
    rw [(ends_same h.same _).1]
    exact hl.v nwd hn e he a
  · rw [h.networks] at hn
    rw [(ends_same h.same _).2]
    exact hl.i nwd hn e he a
  · rw [h.networks] at hx
    rw [(ends_same h.same _).1]
    exact hl.free x hx

theorem reading_superposed {a b : ℝ} {A B C : MTLN p} (h : MTLN.Comb a b A B C) (q : Bool × String × ℕ × ℕ) :
    C.reading q = a * A.reading q + b * B.reading q := by
  unfold MTLN.reading nodeV cellI
  rcases find_superposed h.bundles q.2.1 with ⟨e1, e2, e3⟩ | ⟨b₁, b₂, b₃, e1, e2, e3, hr⟩
  · rw [e1, e2, e3]; simp
  · rw [e1, e2, e3]
    obtain ⟨hc⟩ := hr
    simp only
    split
    · split
      · exact hc.v _ _
      · ring
    · split
      · exact hc.i _ _
      · ring

theorem reading_node {M : MTLN p} (hn : (M.bundles.map fun b => b.2.name).Nodup) {b : AnyBundle p} (hb : b ∈ M.bundles) (k : ℕ) (a : Fin b.1) :
    M.reading (true, b.2.name, k, a) = b.2.v k a := nodeV_eq hn hb k a

theorem reading_cell {M : MTLN p} (hn : (M.bundles.map fun b => b.2.name).Nodup) {b : AnyBundle p} (hb : b ∈ M.bundles) (k : ℕ) (a : Fin b.1) :
    M.reading (false, b.2.name, k, a) = b.2.i k a := cellI_eq hn hb k a

theorem reading_fields {M M' : MTLN p} (hn : (M.bundles.map fun b => b.2.name).Nodup) (hn' : (M'.bundles.map fun b => b.2.name).Nodup)
    (h : List.Forall₂ SameFields M.bundles M'.bundles) {q : Bool × String × ℕ × ℕ} (hq : q ∈ Places M.bundles) : M'.reading q = M.reading q := by
  obtain ⟨w, name, k, a⟩ := q
  obtain ⟨b, hb, h1, h2, h3⟩ := hq
  simp only at h1 h2 h3
  subst h1
  obtain ⟨c, hc, hr⟩ := forall₂_mem_left h b hb
  obtain @⟨n, s, t, e1, e2, g1, g2⟩ := hr
  have e1 : t.name = s.name := e1
  rcases h3 with ⟨rfl, h3⟩ | ⟨rfl, h3⟩
  · have q1 := reading_node hn hb k ⟨a, h2⟩
    have q2 := reading_node hn' hc k ⟨a, h2⟩
    simp only [e1] at q1 q2
    rw [q1, q2, g1 k h3]
  · have q1 := reading_cell hn hb k ⟨a, h2⟩
    have q2 := reading_cell hn' hc k ⟨a, h2⟩
    simp only [e1] at q1 q2
    rw [q1, q2, g2 k h3]

theorem names_free {l l' : List (AnyBundle p)} (h : List.Forall₂ FreeBundle l l') : l'.map (fun b => b.2.name) = l.map fun b => b.2.name := by
  induction h with
  | nil => rfl
  | cons hr _ ih =>
    obtain ⟨_, _, _, _, _, _, rfl⟩ := hr
    simp only [List.map_cons, ih]

theorem places_eq {R : AnyBundle p → AnyBundle p → Prop} (hR : ∀ b c, R b c → ∃ c' : MTLD b.1 p, c = ⟨b.1, c'⟩ ∧ c'.name = b.2.name ∧ c'.m = b.2.m)
    {l l' : List (AnyBundle p)} (h : List.Forall₂ R l l') : Places l' = Places l := by
  ext q
  constructor
  · rintro ⟨c, hc, h1, h2, h3⟩
    obtain ⟨b, hb, hr⟩ := forall₂_right_mem h c hc
    obtain ⟨c', rfl, e1, e2⟩ := hR _ _ hr
    exact ⟨b, hb, h1.trans e1, h2, by rw [← e2]; exact h3⟩
  · rintro ⟨b, hb, h1, h2, h3⟩
    obtain ⟨c, hc, hr⟩ := forall₂_mem_left h b hb
    obtain ⟨c', rfl, e1, e2⟩ := hR _ _ hr
    refine ⟨_, hc, h1.trans e1.symm, h2, ?_⟩
    simp only [e2]
    exact h3

theorem places_free {l l' : List (AnyBundle p)} (h : List.Forall₂ FreeBundle l l') : Places l' = Places l :=
  places_eq (fun _ _ ⟨_, _, _, _, _, _, e⟩ => ⟨_, e, rfl, rfl⟩) h

theorem MTLN.Remade.places {M A : MTLN p} (h : M.Remade A) : Places A.bundles = Places M.bundles :=
  places_eq (fun _ _ ⟨_, _, _, _, _, e⟩ => ⟨_, e, rfl, rfl⟩) h.bundles

/-! ## Sequences -/

/-- A manager, with its time step set, that comes to rest without sources. -/
structure MTLN.Damped (N : MTLN p) (dt : ℝ) : Prop where
  over : N.overrideDt dt = N
  startable : N.Startable dt
  pos : 0 < N.dt
  passive : N.Passive
  matched : N.Matched
  stable : ∀ b ∈ N.bundles, b.2.Stable
  dissipates : N.Dissipates

theorem MTLN.Remade.damped {N A : MTLN p} {dt : ℝ} (h : N.Remade A) (hd : N.Damped dt) : A.Damped dt :=
  ⟨h.over hd.over, h.startable hd.over hd.startable, by rw [h.dt]; exact hd.pos, h.passive hd.passive, h.matched hd.matched,
    h.stable hd.stable, h.dissipates hd.dissipates⟩

theorem MTLN.Damped.runDt {N : MTLN p} {dt : ℝ} (h : N.Damped dt) : N.runDt dt = N.dt := by
  unfold MTLN.runDt; rw [h.over]

theorem MTLN.Damped.steps {N : MTLN p} {dt : ℝ} (h : N.Damped dt) (j : ℕ) : ⌊(j * N.dt) / N.runDt dt⌋.toNat = j := by
  rw [h.runDt, mul_div_assoc, div_self h.pos.ne', mul_one, Int.floor_natCast, Int.toNat_natCast]

/-- The readings after `j` steps. -/
noncomputable def MTLN.wave (A : MTLN p) (dt : ℝ) (j : ℕ) (q : Bool × String × ℕ × ℕ) : ℝ :=
  match A.runUntil (j * A.dt) dt with
  | .ok M => M.reading q
  | .error _ => 0

theorem MTLN.wave_eq {A M : MTLN p} {dt : ℝ} {j : ℕ} (h : A.runUntil (j * A.dt) dt = .ok M) : A.wave dt j = M.reading := by
  funext q
  unfold MTLN.wave
  rw [h]

section

variable {M A B C : MTLN p} {dt : ℝ}

theorem MTLN.Comb.wave {a b : ℝ} (h : MTLN.Comb a b A B C) (hA : A.Damped dt) (hB : B.Damped dt) (hC : C.Damped dt) (j : ℕ)
    (q : Bool × String × ℕ × ℕ) : C.wave dt j q = a * A.wave dt j q + b * B.wave dt j q := by
  obtain ⟨A', hA'⟩ := hA.startable.run (j * A.dt)
  obtain ⟨B', hB'⟩ := hB.startable.run (j * B.dt)
  obtain ⟨C', hC'⟩ := hC.startable.run (j * C.dt)
  rw [MTLN.wave_eq hA', MTLN.wave_eq hB', MTLN.wave_eq hC']
  rw [h.dt₂] at hB'
  rw [h.dt₃] at hC'
  exact reading_superposed (C62_superposition a b _ dt A B C A' B' C' h hA' hB' hC') q

/-- What a run of a manager leaves as it is. -/
theorem MTLN.Damped.after (hA : A.Damped dt) {T : ℝ} {A' : MTLN p} (h : A.runUntil T dt = .ok A') :
    (A'.bundles.map fun b => b.2.name).Nodup ∧ Places A'.bundles = Places A.bundles := by
  have := MTLN.run_free h
  rw [hA.over] at this
  exact ⟨by rw [names_free this]; exact hA.passive.names, places_free this⟩

theorem reading_le {ε : ℝ} (hn : (M.bundles.map fun b => b.2.name).Nodup) (h : ∀ b ∈ M.bundles, (∀ k ≤ b.2.m, ∀ a, |b.2.v k a| ≤ ε) ∧
    ∀ k < b.2.m, ∀ a, |b.2.i k a| ≤ ε) {q : Bool × String × ℕ × ℕ} (hq : q ∈ Places M.bundles) : |M.reading q| ≤ ε := by
  obtain ⟨w, name, k, a⟩ := q
  obtain ⟨b, hb, h1, h2, h3⟩ := hq
  simp only at h1 h2 h3
  subst h1
  rcases h3 with ⟨rfl, h3⟩ | ⟨rfl, h3⟩
  · have := reading_node hn hb k ⟨a, h2⟩
    simp only at this
    rw [this]
    exact (h b hb).1 k h3 _
  · have := reading_cell hn hb k ⟨a, h2⟩
    simp only at this
    rw [this]
    exact (h b hb).2 k h3 _

/-- Without sources from some time on, all readings tend to zero. -/
theorem MTLN.Damped.fades (hA : A.Damped dt) (hl : A.Linked) {t₀ : ℝ} (hx : A.SilentFrom t₀) {q : Bool × String × ℕ × ℕ}
    (hq : q ∈ Places A.bundles) : Tendsto (fun j => A.wave dt j q) atTop (nhds 0) := by
  rw [Metric.tendsto_atTop]
  intro ε hε
  obtain ⟨T₀, hT⟩ := C157_relax A dt t₀ (by rw [hA.runDt]; exact hA.pos) (by rw [hA.over]; exact hA.passive) (by rw [hA.over]; exact hl)
    (by rw [hA.over]; exact hA.matched) (by rw [hA.over]; exact hA.stable) (by rw [hA.over]; exact hA.dissipates)
    (by rw [hA.over]; exact hx) hA.startable (ε / 2) (by linarith)
  obtain ⟨J, hJ⟩ := exists_nat_ge (T₀ / A.dt)
  refine ⟨J, fun j hj => ?_⟩
  obtain ⟨A', hA'⟩ := hA.startable.run (j * A.dt)
  obtain ⟨n1, n2⟩ := hA.after hA'
  have hT' : T₀ ≤ j * A.dt := by
    have := (div_le_iff₀ hA.pos).1 hJ
    have : (J : ℝ) * A.dt ≤ j * A.dt := mul_le_mul_of_nonneg_right (by exact_mod_cast hj) hA.pos.le
    linarith
  rw [MTLN.wave_eq hA', Real.dist_0_eq_abs]
  have := reading_le n1 (hT _ hT' A' hA') (n2 ▸ hq)
  linarith

/-! ## Nothing comes from nothing -/

theorem endV_zero {bs : List (AnyBundle p)} (h : ∀ b ∈ bs, ∀ k ≤ b.2.m, ∀ a, b.2.v k a = 0) (x : End) : endV bs x = 0 := by
  unfold endV
  split
  · rename_i b hf
    obtain ⟨hb, -⟩ := findBundle_some hf
    split
    · refine h b hb _ ?_ _
      cases x.side <;> simp [Side.node]
    · rfl
  · rfl

/-- Zero readings everywhere. -/
theorem fields_zero (hn : (M.bundles.map fun b => b.2.name).Nodup) (h : ∀ q ∈ Places M.bundles, M.reading q = 0) :
    ∀ b ∈ M.bundles, (∀ k ≤ b.2.m, ∀ a, b.2.v k a = 0) ∧ ∀ k < b.2.m, ∀ a, b.2.i k a = 0 := by
  refine fun b hb => ⟨fun k hk a => ?_, fun k hk a => ?_⟩
  · rw [← reading_node hn hb k a]
    exact h _ ⟨b, hb, rfl, a.2, .inl ⟨rfl, hk⟩⟩
  · rw [← reading_cell hn hb k a]
    exact h _ ⟨b, hb, rfl, a.2, .inr ⟨rfl, hk⟩⟩

theorem energy_zero {b : AnyBundle p} (hv : ∀ k ≤ b.2.m, ∀ a, b.2.v k a = 0) (hi : ∀ k < b.2.m, ∀ a, b.2.i k a = 0) :
    b.2.asLine.energy = 0 := by
  have hv' : ∀ k ≤ b.2.m, b.2.v k = 0 := fun k hk => funext (hv k hk)
  have hi' : ∀ k < b.2.m, b.2.i k = 0 := fun k hk => funext (hi k hk)
  unfold MTL.energy MTL.energyW MTL.electric MTL.magnetic
  rw [Finset.sum_eq_zero, Finset.sum_eq_zero, Finset.sum_eq_zero]
  · simp
  · intro k hk
    have hk : k < b.2.m := Finset.mem_range.1 hk
    show b.2.i k ⬝ᵥ (b.2.v (k + 1) - b.2.v k) = 0
    rw [hi' k hk, zero_dotProduct]
  · intro k hk
    have hk : k < b.2.m := Finset.mem_range.1 hk
    show b.2.dun k * (b.2.i k ⬝ᵥ _) = 0
    rw [hi' k hk, zero_dotProduct, mul_zero]
  · intro k hk
    have hk : k < b.2.m := Finset.mem_range.1 hk
    show b.2.dun k / 2 * (1 * (b.2.v k ⬝ᵥ _) + 1 * (b.2.v (k + 1) ⬝ᵥ _)) = 0
    rw [hv' k hk.le, hv' (k + 1) hk, zero_dotProduct, zero_dotProduct]
    ring

/-- A manager without sources that shows nothing at two steps shows nothing ever. -/
theorem MTLN.Damped.stays_zero (hA : A.Damped dt) (hl : A.Linked) (hx : ∀ t₀, A.SilentFrom t₀)
    (h0 : ∀ q ∈ Places A.bundles, A.wave dt 0 q = 0) (h1 : ∀ q ∈ Places A.bundles, A.wave dt 1 q = 0) (j : ℕ) :
    ∀ q ∈ Places A.bundles, A.wave dt j q = 0 := by
  obtain ⟨tr, htr, ⟨k, hk⟩, hrun⟩ := hA.startable.traced (by rw [hA.runDt]; exact hA.pos) (by rw [hA.over]; exact hA.passive)
    (by rw [hA.over]; exact hl)
  rw [hA.over] at htr
  have hwave : ∀ j, A.wave dt j = (tr j).reading := by
    intro j
    obtain ⟨A', hA'⟩ := hA.startable.run (j * A.dt)
    have := hrun _ _ hA'
    rw [hA.steps] at this
    rw [MTLN.wave_eq hA', reading_same this.same]
  have hnames : ∀ j, ((tr j).bundles.map fun b => b.2.name).Nodup := fun j => (htr.sound j).passive.names
  have hplaces : ∀ j, Places (tr j).bundles = Places A.bundles := fun j => places_free (htr.bundles j)
  have hpar : ∀ j, SameParts A (tr j) := fun j => by
    have := (MTLN.start_parts hk).trans (parts_trace (k := j) (fun j _ => htr.step j) j le_rfl)
    rwa [hA.over] at this
  have z0 := fields_zero (hnames 0) fun q hq => by rw [← hwave]; exact h0 q (hplaces 0 ▸ hq)
  have z1 := fields_zero (hnames 1) fun q hq => by rw [← hwave]; exact h1 q (hplaces 1 ▸ hq)
  have hE : (tr 1).energy = 0 := by
    rw [((hpar 1).matched hA.matched).energy (htr.sound 1).passive (htr.sound 1).linked]
    have a1 : ((tr 1).bundles.map fun b => b.2.asLine.energy).sum = 0 := by
      refine List.sum_eq_zero fun x hx => ?_
      obtain ⟨b, hb, rfl⟩ := List.mem_map.1 hx
      exact energy_zero (z1 b hb).1 (z1 b hb).2
    have a2 : capsEnergy (tr 1).networks = 0 := by
      refine List.sum_eq_zero fun x hx => ?_
      obtain ⟨nwd', hn', rfl⟩ := List.mem_map.1 hx
      refine List.sum_eq_zero fun x hx => ?_
      obtain ⟨e', he', rfl⟩ := List.mem_map.1 hx
      have hv : e'.2.2.2.v = 0 := by
        funext a
        rw [(htr.sound 1).linked.v nwd' hn' e' he' a]
        exact endV_zero (fun b hb => (z1 b hb).1) _
      have hp : e'.2.2.2.vPrev = 0 := by
        obtain ⟨nwd, hn, hr⟩ := forall₂_right_mem (MTLN.step_moved (htr.step 0) (htr.sound 0).ready).2 nwd' hn'
        obtain ⟨e, he, v', X', i', -, rfl⟩ := forall₂_right_mem hr e' he'
        funext a
        refine ((htr.sound 0).linked.v nwd hn e he a).trans ?_
        exact endV_zero (fun b hb => (z0 b hb).1) _
      unfold Network.capEnergy
      rw [hv, hp]
      simp
    rw [a1, a2, add_zero]
  have hmono : ∀ j, (tr (1 + j)).energy ≤ 0 := by
    intro j
    induction j with
    | zero => exact hE.le
    | succ j ih => exact (((htr.sound (1 + j)).step (htr.step (1 + j))).2 (htr.silent (hx _) _)).trans ih
  obtain ⟨κ, hκ0, hκ⟩ := MTLN.below_sqrt A hA.pos hA.passive hA.matched hA.stable
  rcases j with _ | j
  · exact h0
  · intro q hq
    rw [hwave, show j + 1 = 1 + j by ring]
    have hb : ∀ ε > 0, |(tr (1 + j)).reading q| ≤ κ * ε := by
      intro ε hε
      have := hκ (tr (1 + j)) (hpar _) (htr.sound _) (ε ^ 2) (by positivity) ((hmono j).trans (by positivity))
      rw [Real.sqrt_sq hε.le] at this
      exact reading_le (hnames _) this (by rw [hplaces]; exact hq)
    have : |(tr (1 + j)).reading q| ≤ 0 := by
      refine le_of_forall_pos_le_add fun δ hδ => ?_
      refine (hb (δ / (κ + 1)) (by positivity)).trans ?_
      rw [zero_add, mul_div_assoc', div_le_iff₀ (by positivity)]
      nlinarith
    exact abs_nonpos_iff.1 this

/-! ## Later starts -/

/-- All sources and fields satisfy `D`. -/
structure MTLN.Sources (D : (ℝ → ℝ) → Prop) (M : MTLN p) : Prop where
  bundles : ∀ b ∈ M.bundles, (∀ k x, D (b.2.eL k x)) ∧ ∀ k x, D (b.2.eT k x)
  networks : ∀ nwd ∈ M.networks, ∀ e ∈ nwd, (∀ x, D (e.2.2.2.vSources x)) ∧ ∀ x, D (e.2.2.2.nodes x).eT

theorem MTLN.Redriven.sources {ρ : (ℝ → ℝ) → (ℝ → ℝ) → Prop} {D D' : (ℝ → ℝ) → Prop} (hρ : ∀ f g, ρ f g → D f → D' g) (h : M.Redriven ρ A)
    (hM : M.Sources D) : A.Sources D' := by
  refine ⟨fun b hb => ?_, fun nwd hn e he => ?_⟩
  · obtain ⟨b0, hb0, v, i, phi, eL, eT, h1, h2, rfl⟩ := forall₂_right_mem h.bundles b hb
    exact ⟨fun k x => hρ _ _ (h1 k x) ((hM.bundles b0 hb0).1 k x), fun k x => hρ _ _ (h2 k x) ((hM.bundles b0 hb0).2 k x)⟩
  · obtain ⟨nwd0, hn0, hl⟩ := forall₂_right_mem h.networks nwd hn
    obtain ⟨e0, he0, v, vP, i, X, vS, eT, h1, h2, rfl⟩ := forall₂_right_mem hl e he
    exact ⟨fun x => hρ _ _ (h1 x) ((hM.networks _ hn0 _ he0).1 x), fun x => hρ _ _ (h2 x) ((hM.networks _ hn0 _ he0).2 x)⟩

theorem exists_between {α : Type} {R R₁ R₂ : α → α → Prop} (h : ∀ a c, R a c → ∃ b, R₁ a b ∧ R₂ b c) {l l'' : List α}
    (hl : List.Forall₂ R l l'') : ∃ l', List.Forall₂ R₁ l l' ∧ List.Forall₂ R₂ l' l'' := by
  induction hl with
  | nil => exact ⟨[], .nil, .nil⟩
  | cons hr _ ih =>
    obtain ⟨b, h1, h2⟩ := h _ _ hr
    obtain ⟨l', g1, g2⟩ := ih
    exact ⟨b :: l', .cons h1 g1, .cons h2 g2⟩

/-- What happens later is what happens from another start, with sources that are ahead. -/
theorem MTLN.Damped.ahead (hA : A.Damped dt) (hl : A.Linked) (P : ℕ) :
    ∃ B, A.Redriven (fun f g => g = fun t => f (t + P * A.dt)) B ∧ B.Linked ∧ ∀ j, ∀ q ∈ Places A.bundles, B.wave dt j q = A.wave dt (j + P) q := by
  obtain ⟨tr, htr, ⟨k, hk⟩, hrun⟩ := hA.startable.traced (by rw [hA.runDt]; exact hA.pos) (by rw [hA.over]; exact hA.passive)
    (by rw [hA.over]; exact hl)
  rw [hA.over] at htr
  obtain ⟨M1, hM1⟩ := hA.startable.run (P * A.dt)
  have htw := hrun _ _ hM1
  rw [hA.steps] at htw
  have hl1 : M1.Linked := htw.linked (htr.sound P).linked
  have hfb := MTLN.run_free hM1
  rw [hA.over] at hfb
  have hfn := htr.networks P
  rw [← htw.networks] at hfn
  obtain ⟨bs, b1, b2⟩ := exists_between (R := FreeBundle) (R₁ := RedrivenBundle fun f g => g = fun t => f (t + P * A.dt))
    (R₂ := fun b c => BundleAlike Set.univ (P * A.dt) b c ∧ SameEnds b c) (by
      rintro b _ ⟨v, i, phi, probes, lr, cg, rfl⟩
      refine ⟨⟨b.1, { b.2 with v := v, i := i, phi := phi, eL := fun k x t => b.2.eL k x (t + P * A.dt),
                                eT := fun k x t => b.2.eT k x (t + P * A.dt) }⟩, ⟨_, _, _, _, _, fun _ _ => rfl, fun _ _ => rfl, rfl⟩, .mk ?_,
        _, rfl, rfl, rfl, rfl, rfl⟩
      exact ⟨⟨rfl, rfl, rfl, rfl, rfl, rfl, rfl, rfl, rfl⟩, fun _ _ _ => rfl, fun _ _ _ => rfl, fun _ _ _ _ => rfl,
        fun _ _ _ _ _ => rfl, fun _ _ _ _ _ => rfl⟩)
    hfb
  obtain ⟨nws, n1, n2⟩ := exists_between (R := List.Forall₂ FreeLevel)
    (R₁ := List.Forall₂ (RedrivenLevel fun f g => g = fun t => f (t + P * A.dt))) (R₂ := List.Forall₂ (LevelAlike Set.univ (P * A.dt))) (by
      intro d c h
      refine exists_between ?_ h
      rintro ⟨l, N, S, e⟩ _ ⟨v, vP, i, X, terms, rfl⟩
      refine ⟨(l, ⟨N, S, { e with v := v, vPrev := vP, i := i, X := X, vSources := fun x t => e.vSources x (t + P * A.dt),
                                  nodes := fun x => { e.nodes x with eT := fun t => (e.nodes x).eT (t + P * A.dt) } }⟩), ⟨_, _, _, _, _, _, fun _ => rfl, fun _ => rfl, rfl⟩, .mk ?_⟩
      exact ⟨⟨fun _ => rfl, fun _ => rfl, fun _ => rfl, fun _ => rfl, rfl, rfl, rfl, rfl, rfl, rfl, rfl, rfl, rfl, rfl⟩,
        fun _ => rfl, fun _ => rfl, fun _ => rfl, fun _ => rfl, fun _ _ _ => rfl, fun _ _ _ => rfl⟩)
    hfn
  obtain ⟨B, hB⟩ : ∃ B : MTLN p, B = { A with bundles := bs, networks := nws } := ⟨_, rfl⟩
  have hBb : B.bundles = bs := by rw [hB]
  have hBn : B.networks = nws := by rw [hB]
  have hAB : A.Redriven (fun f g => g = fun t => f (t + P * A.dt)) B := by rw [hB]; exact ⟨rfl, rfl, b1, n1⟩
  have hBd := hAB.remade.damped hA
  have hdt : B.dt = A.dt := hAB.dt
  have hsame : List.Forall₂ SameEnds B.bundles M1.bundles := by rw [hBb]; exact b2.imp fun _ _ h => h.2
  refine ⟨B, hAB, ?_, fun j q hq => ?_⟩
  · have hkey : ∀ nwd ∈ B.networks, ∀ e ∈ nwd, ∃ nwd' ∈ M1.networks, ∃ e' ∈ nwd', LevelAlike Set.univ (P * A.dt) e e' := by
      intro nwd hn e he
      rw [hBn] at hn
      obtain ⟨nwd', hn', hr⟩ := forall₂_mem_left n2 nwd hn
      obtain ⟨e', he', hr'⟩ := forall₂_mem_left hr e he
      exact ⟨nwd', hn', e', he', hr'⟩
    refine ⟨fun nwd hn e he a => ?_, fun nwd hn e he a => ?_, fun x hx => ?_⟩
    · obtain ⟨nwd', hn', e', he', hr⟩ := hkey nwd hn e he
      obtain ⟨hc⟩ := hr
      have := hl1.v nwd' hn' _ he' a
      rw [(ends_same hsame _).1] at this
      simp only [Node.end', hc.hw.bundleName, hc.hw.lineIndex, hc.hw.side, hc.v] at this ⊢
      exact this
    · obtain ⟨nwd', hn', e', he', hr⟩ := hkey nwd hn e he
      obtain ⟨hc⟩ := hr
      have := hl1.i nwd' hn' _ he' a
      rw [(ends_same hsame _).2] at this
      simp only [Node.end', hc.hw.bundleName, hc.hw.lineIndex, hc.hw.side, hc.i] at this ⊢
      exact this
    · rw [← (ends_same hsame _).1]
      refine hl1.free x ?_
      rw [hAB.remade.ends] at hx
      have : (allNodes M1.networks).map Node.end' = (allNodes A.networks).map Node.end' := by
        have hpar := ((MTLN.start_parts hk).trans (parts_trace (k := P) (fun j _ => htr.step j) P le_rfl)).nodes
        rw [htw.networks, hpar, hA.over]
      rw [this]
      exact hx
  · obtain ⟨M3, hM3⟩ := hA.startable.run ((j + P : ℕ) * A.dt)
    have hf : ⌊(((j + P : ℕ) : ℝ) * A.dt) / A.runDt dt⌋.toNat = ⌊((P : ℝ) * A.dt) / A.runDt dt⌋.toNat + ⌊((j : ℝ) * A.dt) / A.runDt dt⌋.toNat := by
      rw [hA.steps, hA.steps, hA.steps]; ring
    obtain ⟨M1', M2, e1, e2, e3⟩ := C154_join A M3 (P * A.dt) (j * A.dt) _ dt hM3 hf
    rw [hM1] at e1
    obtain rfl := Except.ok.inj e1
    obtain ⟨B', hB'⟩ := hBd.startable.run (j * B.dt)
    rw [MTLN.wave_eq hB', MTLN.wave_eq hM3, reading_same e3.same]
    rw [hdt] at hB'
    have hcone := C149_cone (Q := fun _ => True) (c := 1) (σ := P * A.dt) (T := j * A.dt) (dt := dt) (d := fun _ _ => (j : ℝ)) (M₁ := B) (M₂ := M1)
      (by rw [hBd.runDt]; exact hBd.pos) ⟨by rw [htw.dt, htr.dt, hdt], by rw [htw.time, htr.time, hAB.time], ?_, ?_⟩ hB' e2
    · have hj : ⌊(j : ℝ) * A.dt / B.runDt dt⌋.toNat = j := by rw [← hdt]; exact hBd.steps j
      rw [hj] at hcone
      have hsf : List.Forall₂ SameFields B'.bundles M2.bundles := hcone.bundles.imp fun _ _ h => h.sameFields le_rfl
      obtain ⟨m1, m2⟩ := hBd.after hB'
      have hn2 : (M2.bundles.map fun b => b.2.name).Nodup := by
        have : M3.bundles.map (fun b => b.2.name) = M2.bundles.map fun b => b.2.name := by
          have := e3.bundles
          generalize M2.bundles = l at this
          generalize M3.bundles = l' at this
          induction this with
          | nil => rfl
          | cons hr _ ih =>
            obtain ⟨_, _, rfl⟩ := hr
            simp only [List.map_cons, ih]
        rw [← this]
        exact (hA.after hM3).1
      refine (reading_fields m1 hn2 hsf ?_).symm
      rw [m2, hAB.remade.places]
      exact hq
    · rw [hBb]
      exact b2.imp fun _ _ h => h.1.cone fun τ _ => Set.mem_univ τ
    · rw [hBn]
      exact n2.imp fun _ _ h => h.imp fun _ _ h => h.cone (fun τ _ => Set.mem_univ τ) trivial

theorem MTLN.Redriven.imp_sources {ρ₁ ρ₂ : (ℝ → ℝ) → (ℝ → ℝ) → Prop} {D : (ℝ → ℝ) → Prop} (hρ : ∀ f g, D f → ρ₁ f g → ρ₂ f g)
    (hM : M.Sources D) (h : M.Redriven ρ₁ A) : M.Redriven ρ₂ A := by
  refine ⟨h.dt, h.time, ?_, ?_⟩
  · refine ((List.forall₂_and_left _ _).2 ⟨hM.bundles, h.bundles⟩).imp ?_
    rintro b c ⟨⟨d1, d2⟩, v, i, phi, eL, eT, h1, h2, e⟩
    exact ⟨v, i, phi, eL, eT, fun k x => hρ _ _ (d1 k x) (h1 k x), fun k x => hρ _ _ (d2 k x) (h2 k x), e⟩
  · refine ((List.forall₂_and_left _ _).2 ⟨hM.networks, h.networks⟩).imp ?_
    rintro d c ⟨hd, hl⟩
    refine ((List.forall₂_and_left _ _).2 ⟨hd, hl⟩).imp ?_
    rintro e e' ⟨⟨d1, d2⟩, v, vP, i, X, vS, eT, h1, h2, rfl⟩
    exact ⟨v, vP, i, X, vS, eT, fun x => hρ _ _ (d1 x) (h1 x), fun x => hρ _ _ (d2 x) (h2 x), rfl⟩

/-- With periodic sources, what happens after a period is what happens from another start. -/
theorem MTLN.Damped.later (hA : A.Damped dt) (hl : A.Linked) (P : ℕ) (hper : A.Sources fun f => ∀ t, f (t + P * A.dt) = f t) :
    ∃ B, A.Redriven (fun f g => g = f) B ∧ B.Linked ∧ ∀ j, ∀ q ∈ Places A.bundles, B.wave dt j q = A.wave dt (j + P) q := by
  obtain ⟨B, h1, h2, h3⟩ := hA.ahead hl P
  exact ⟨B, h1.imp_sources (fun f g hf hg => by rw [hg]; funext t; exact hf t) hper, h2, h3⟩

end

end Mtln
