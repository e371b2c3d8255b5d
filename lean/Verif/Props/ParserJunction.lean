import Verif.Props.ParserSource
import Verif.Props.ParserTermination
import Verif.Props.Circuit

/-! # The networks of the parser: C116, C119, C127, C128 -/

namespace Mtln

open Matrix

variable {n p N S : ℕ}

/-! ## C116 -/

theorem addSources_none_iff {f g : Option (ℝ → ℝ)} : addSources f g = none ↔ f = none ∧ g = none := by
  cases f <;> cases g <;> simp [addSources]

theorem addSources_getD (f g : Option (ℝ → ℝ)) : (addSources f g).getD 0 = f.getD 0 + g.getD 0 := by
  cases f <;> cases g <;> simp [addSources] <;> rfl

/-- **C116** What is made of a pair of nodes, exactly: a branch with the sum of the two resistances and of the two sources,
and a short circuit if the sum is 0; groups of another size are rejected. -/
theorem C116_join {nw nw' : Network N S} {group : List Pin} : nw.join group = .ok nw' ↔ ∃ e0 e1 R0 R1, group = [e0, e1] ∧
    junctionResistance e0.connector e0.conductor = .ok R0 ∧ junctionResistance e1.connector e1.conductor = .ok R1 ∧
    ((R0 + R1 = 0 ∧ nw.call (.short e0.node e1.node) = .ok nw') ∨
      (R0 + R1 ≠ 0 ∧ nw.call (.branch e0.node e1.node (R0 + R1) (addSources e0.source e1.source)) = .ok nw')) := by
  constructor
  · intro h
    match group, h with
    | [e0, e1], h =>
      simp only [Network.join, bind_ok_iff] at h
      obtain ⟨R0, h0, R1, h1, h⟩ := h
      refine ⟨e0, e1, R0, R1, rfl, h0, h1, ?_⟩
      rw [add_comm R1 R0] at h
      by_cases hR : R0 + R1 = 0
      · rw [if_pos hR] at h
        exact .inl ⟨hR, h⟩
      · rw [if_neg hR] at h
        exact .inr ⟨hR, h⟩
  · rintro ⟨e0, e1, R0, R1, rfl, h0, h1, h⟩
    simp only [Network.join, bind_ok_iff]
    refine ⟨R0, h0, R1, h1, ?_⟩
    rw [add_comm R1 R0]
    rcases h with ⟨hR, h⟩ | ⟨hR, h⟩
    · rw [if_pos hR]; exact h
    · rw [if_neg hR]; exact h

theorem C116_rejects (nw : Network N S) {group : List Pin} (h : group.length ≠ 2) : nw.join group = .error .ValueError := by
  match group, h with
  | [], _ => rfl
  | [_], _ => rfl
  | [_, _], h => simp at h
  | _ :: _ :: _ :: _, _ => rfl

/-- The current into node `i` from the resistive part of a network, and from its sources. -/
def Network.resistive (nw : Network N S) (v : Fin N → ℝ) (t : ℝ) (i : Fin N) : ℝ :=
  nw.P1.mulVec v i + nw.Ps.mulVec (fun a => nw.vSources a t) i

/-- **C116 (partial)** Two resistors: the current `(v b - v a + sources) / (R0 + R1)` flows from `b` to `a`, if the nodes have no
other branches with sources. -/
theorem C116_resistors_partial {nw nw' : Network N S} {e0 e1 : Pin} {R0 R1 : ℝ} {a b : Fin N}
    (h : nw.join [e0, e1] = .ok nw') (t0 : e0.connector.connectorType = "Conn_R") (t1 : e1.connector.connectorType = "Conn_R")
    (h0 : e0.connector.resistance = some R0) (h1 : e1.connector.resistance = some R1) (hR : R0 + R1 ≠ 0)
    (ha : nw.find e0.node = some a) (hb : nw.find e1.node = some b) (hab : a ≠ b)
    (hs : ∀ i j, (i = a ∨ i = b ∨ j = a ∨ j = b) → nw.Ps i j = 0)
    (hv : ∀ t, nw.vSources a t = 0 ∧ nw.vSources b t = 0) (v : Fin N → ℝ) (t : ℝ) (i : Fin N) :
    nw'.resistive v t i = nw.resistive v t i +
      (if i = a then (v b - v a + (e0.source.getD 0 t + e1.source.getD 0 t)) / (R0 + R1) else 0) +
      (if i = b then (v a - v b - (e0.source.getD 0 t + e1.source.getD 0 t)) / (R0 + R1) else 0) := by
  obtain ⟨f0, f1, r0, r1, hg, q0, q1, hc⟩ := C116_join.1 h
  have hf0 : f0 = e0 := (List.cons.inj hg).1.symm
  have hf1 : f1 = e1 := (List.cons.inj (List.cons.inj hg).2).1.symm
  subst hf0 hf1
  have r0' : r0 = R0 := by simpa [junctionResistance, t0, h0, pyKey] using q0.symm
  have r1' : r1 = R1 := by simpa [junctionResistance, t1, h1, pyKey] using q1.symm
  subst r0' r1'
  rcases hc with ⟨hc, -⟩ | ⟨-, hc⟩
  · exact absurd hc hR
  · obtain ⟨E, ⟨a', b', ha', hb', -, rfl⟩, rfl⟩ := call_ok_iff.1 hc
    obtain rfl := Option.some.inj (ha.symm.trans ha')
    obtain rfl := Option.some.inj (hb.symm.trans hb')
    set R := r0 + r1
    set f := fun t => f0.source.getD 0 t + f1.source.getD 0 t with hf
    have hfD : (addSources f0.source f1.source).getD 0 = f := addSources_getD _ _
    have hnone : addSources f0.source f1.source = none → ∀ t, f t = 0 := by
      intro h t
      obtain ⟨h1, h2⟩ := addSources_none_iff.1 h
      simp [hf, h1, h2]
    have e1 : ∑ j, (nw.P1 i j + branchEntry a b (1 / R) i j) * v j = (∑ j, nw.P1 i j * v j) +
        ((if i = a then (v b - v a) / R else 0) + (if i = b then (v a - v b) / R else 0)) := by
      simp only [add_mul, Finset.sum_add_distrib, branchEntry, ite_and, ite_mul, zero_mul]
      by_cases hia : i = a <;> by_cases hib : i = b <;> simp [hia, hib, hab, hab.symm] <;> ring
    have e2 : ∑ j, (nw.Ps i j + if addSources f0.source f1.source ≠ none then
          (if i = a ∧ j = a then 1 / R else 0) + (if i = b ∧ j = b then -(1 / R) else 0) else 0) *
          (nw.vSources j t + ((if j = a then f else 0) + (if j = b then f else 0)) t) =
        (∑ j, nw.Ps i j * nw.vSources j t) + ((if i = a then f t / R else 0) + (if i = b then -(f t) / R else 0)) := by
      rw [← sub_eq_iff_eq_add', ← Finset.sum_sub_distrib]
      have : ∀ j, (nw.Ps i j + if addSources f0.source f1.source ≠ none then
          (if i = a ∧ j = a then 1 / R else 0) + (if i = b ∧ j = b then -(1 / R) else 0) else 0) *
          (nw.vSources j t + ((if j = a then f else 0) + (if j = b then f else 0)) t) - nw.Ps i j * nw.vSources j t =
          (if j = a then (if i = a then f t / R else 0) else 0) + (if j = b then (if i = b then -(f t) / R else 0) else 0) := by
        intro j
        by_cases hja : j = a
        · subst hja
          rw [hs i j (by simp), (hv t).1]
          by_cases hn : addSources f0.source f1.source = none
          · simp [hn, hnone hn t, hab]
          · by_cases hi : i = j <;> simp [hn, hi, hab]
            ring
        · by_cases hjb : j = b
          · subst hjb
            rw [hs i j (by simp), (hv t).2]
            by_cases hn : addSources f0.source f1.source = none
            · simp [hn, hnone hn t, hja]
            · by_cases hi : i = j <;> simp [hn, hi, hja]
              ring
          · simp [hja, hjb]
      rw [Finset.sum_congr rfl fun j _ => this j]
      simp [Finset.sum_add_distrib]
    unfold Network.resistive mulVec dotProduct
    simp only [Effect.apply, of_apply, Upd.app, hfD]
    rw [e1]
    have e2' := e2
    simp only [Pi.add_apply] at e2' ⊢
    rw [e2']
    by_cases hia : i = a <;> by_cases hib : i = b <;> simp [hia, hib, hab, hab.symm] <;> ring

/-- **C116 is false**: capacitors and inductors are not seen; a capacitor in a junction is a short circuit. -/
theorem C116_refuted (nw : Network N S) (e0 e1 : Pin) (C : ℝ) :
    nw.join [{ e0 with connector := { connectorType := "Conn_C", capacitance := some C } }, e1] =
      nw.join [{ e0 with connector := { connectorType := "Conn_short" } }, e1] := by
  simp [Network.join, junctionResistance]

/-- **C116 is false**: of a resistor, a coil and a capacitor in series only the resistance counts. -/
theorem C116_refuted_series (nw : Network N S) (e0 e1 : Pin) (R : ℝ) (L C : Option ℝ) :
    nw.join [{ e0 with connector := { connectorType := "Conn_sRLC", resistance := some R, inductance := L, capacitance := C } },
      e1] = nw.join [{ e0 with connector := { connectorType := "Conn_R", resistance := some R } }, e1] := by
  simp [Network.join, junctionResistance]

/-- Non-vacuity: two nodes joined by a capacitor of 1 pF have the conductance 10¹⁰ between them, and no capacitance. -/
theorem C116_refuted_example : ∃ nw nw' : Network 2 0, Network.new demoPair = .ok ⟨2, 0, nw⟩ ∧
    nw.join [⟨0, { connectorType := "Conn_C", capacitance := some (1 / 10 ^ 12) }, 0, none⟩, ⟨1, { connectorType := "Conn_short" }, 1, none⟩] =
      .ok nw' ∧ nw'.P1 0 1 = 10 ^ 10 ∧ nw'.Q1 = nw.Q1 := by
  obtain ⟨nw, h, h0, h1, -, hP, -⟩ := demoPair_new
  refine ⟨nw, _, h, C116_join.2 ⟨_, _, 0, 0, rfl, by simp [junctionResistance], by simp [junctionResistance],
    .inl ⟨by simp, call_ok_iff.2 ⟨_, ⟨0, 1, h0, h1, rfl⟩, rfl⟩⟩⟩, ?_, ?_⟩
  · show nw.P1 0 1 + branchEntry 0 1 (10 ^ 10) 0 1 = _
    rw [hP]
    norm_num [branchEntry]
  · ext i j
    simp [Effect.apply, Upd.app]

/-- Non-vacuity: two resistors of 1 Ω. -/
theorem C116_example : ∃ nw nw' : Network 2 0, Network.new demoPair = .ok ⟨2, 0, nw⟩ ∧
    nw.join [⟨0, { connectorType := "Conn_R", resistance := some 1 }, 0, none⟩,
      ⟨1, { connectorType := "Conn_R", resistance := some 1 }, 1, none⟩] = .ok nw' ∧ nw'.P1 0 1 = 1 / 2 := by
  obtain ⟨nw, h, h0, h1, -, hP, -⟩ := demoPair_new
  refine ⟨nw, _, h, C116_join.2 ⟨_, _, 1, 1, rfl, by simp [junctionResistance, pyKey], by simp [junctionResistance, pyKey],
    .inr ⟨by norm_num, call_ok_iff.2 ⟨_, ⟨0, 1, h0, h1, by norm_num, rfl⟩, rfl⟩⟩⟩, ?_⟩
  show nw.P1 0 1 + branchEntry 0 1 (1 / (1 + 1)) 0 1 = _
  rw [hP]
  norm_num [branchEntry]

/-! ## The description of a joint -/

/-- What the parser knows about a coordinate of a joint. -/
structure PinData (p : ℕ) where
  pin : Pin
  cable : String
  side : String
  level : ℕ
  line : AnyLine p
  bundle : String

/-- This is what the look-ups give for the coordinate. -/
structure Parsed.PinAt (P : Parsed p) (c : ℤ) (d : PinData p) : Prop where
  node : d.pin.node = c
  cable : P.file.connectorAndCableInNode c = .ok (d.pin.connector, d.cable, d.pin.conductor, d.side)
  source : P.file.terminalSource c = .ok d.pin.source
  level : P.levelOfCable d.cable = .ok d.level
  line : dictGet P.nameToLine d.cable = .ok d.line
  bundle : dictGet P.nameToBundle d.cable = .ok d.bundle

def PinData.connection (d : PinData p) : Connection := ⟨d.pin.node, d.pin.conductor, d.pin.connector⟩

theorem Parsed.PinAt.unique {P : Parsed p} {c : ℤ} {d d' : PinData p} (h : P.PinAt c d) (h' : P.PinAt c d') : d = d' := by
  obtain ⟨⟨a1, a2, a3, a4⟩, b, e, l, m, k⟩ := d
  obtain ⟨⟨a1', a2', a3', a4'⟩, b', e', l', m', k'⟩ := d'
  obtain ⟨h1, h2, h3, h4, h5, h6⟩ := h
  obtain ⟨h1', h2', h3', h4', h5', h6'⟩ := h'
  simp only at *
  have q := Except.ok.inj (h2.symm.trans h2')
  simp only [Prod.mk.injEq] at q
  obtain ⟨rfl, rfl, rfl, rfl⟩ := q
  obtain rfl := Except.ok.inj (h3.symm.trans h3')
  obtain rfl := Except.ok.inj (h4.symm.trans h4')
  obtain rfl := Except.ok.inj (h5.symm.trans h5')
  obtain rfl := Except.ok.inj (h6.symm.trans h6')
  obtain rfl := h1.trans h1'.symm
  rfl

/-- The entries of the description after some coordinates. -/
structure Described (once : Bool) (ds : List (PinData p)) (desc : List (String × LineConnections p)) : Prop where
  keys : (desc.map Prod.fst).Nodup
  cables : ∀ name, name ∈ desc.map Prod.fst ↔ ∃ d ∈ ds, d.cable = name
  first : ∀ name e, (name, e) ∈ desc → ∃ d, FirstMatch ds (fun d => d.cable = name) d ∧ e.line = d.line ∧ e.side = d.side ∧
    e.bundleName = d.bundle
  connections : ∀ name e, (name, e) ∈ desc → ∀ c, c ∈ e.connections ↔ ∃ d ∈ ds, d.cable = name ∧ c = d.connection
  repeated : ∀ name e, (name, e) ∈ desc →
    if once then (e.connections.map Connection.id).Nodup
    else e.connections = (ds.filter fun d => d.cable = name).map PinData.connection

theorem dictSet_keys {α β : Type} [DecidableEq α] (d : List (α × β)) (k : α) (v : β) :
    (dictSet d k v).map Prod.fst = if k ∈ d.map Prod.fst then d.map Prod.fst else d.map Prod.fst ++ [k] := by
  unfold dictSet
  split_ifs with h
  · rw [List.map_map]
    refine List.map_congr_left fun e _ => ?_
    simp only [Function.comp]
    split_ifs with he
    · exact he.symm
    · rfl
  · simp

theorem mem_dictSet {α β : Type} [DecidableEq α] {d : List (α × β)} {k k' : α} {v v' : β} (hd : (d.map Prod.fst).Nodup) :
    (k', v') ∈ dictSet d k v ↔ (k' = k ∧ v' = v) ∨ (k' ≠ k ∧ (k', v') ∈ d) := by
  unfold dictSet
  split_ifs with h
  · simp only [List.mem_map]
    constructor
    · rintro ⟨e, he, h1⟩
      split_ifs at h1 with hk
      · obtain ⟨rfl, rfl⟩ := Prod.mk.inj h1
        exact .inl ⟨rfl, rfl⟩
      · subst h1
        exact .inr ⟨hk, he⟩
    · rintro (⟨rfl, rfl⟩ | ⟨h1, h2⟩)
      · obtain ⟨e, he, hk⟩ := List.mem_map.1 h
        exact ⟨e, he, by rw [if_pos hk]⟩
      · exact ⟨_, h2, by rw [if_neg h1]⟩
  · simp only [List.mem_append, List.mem_singleton, Prod.mk.injEq]
    constructor
    · rintro (h1 | h1)
      · refine .inr ⟨?_, h1⟩
        rintro rfl
        exact h (List.mem_map.2 ⟨_, h1, rfl⟩)
      · exact .inl h1
    · rintro (h1 | h1)
      · exact .inr h1
      · exact .inl h1.2

theorem describe_step {P : Parsed p} {once : Bool} {ds : List (PinData p)} {desc desc' : List (String × LineConnections p)}
    {c : ℤ} {level : ℕ} {pin : Pin} (hds : ∀ d ∈ ds, P.PinAt d.pin.node d) (hd : Described once ds desc)
    (h : P.describe once desc c = .ok (desc', level, pin)) :
    ∃ d, P.PinAt c d ∧ pin = d.pin ∧ level = d.level ∧ Described once (ds ++ [d]) desc' := by
  unfold Parsed.describe at h
  obtain ⟨⟨conn, cable, conductor, side⟩, h1, h⟩ := bind_ok_iff.1 h
  obtain ⟨source, h2, h⟩ := bind_ok_iff.1 h
  obtain ⟨level', h3, h⟩ := bind_ok_iff.1 h
  obtain ⟨line, h4, h⟩ := bind_ok_iff.1 h
  obtain ⟨bundle, h5, h⟩ := bind_ok_iff.1 h
  set entry : LineConnections p :=
    (match desc.find? fun e => e.1 = cable with
    | some e => e.2
    | none => { line := line, connections := [], side := side, bundleName := bundle }) with hentry
  set conns := if once ∧ c ∈ entry.connections.map Connection.id then entry.connections
    else entry.connections ++ [{ id := c, conductor := conductor, connector := conn }] with hconns
  have hP : (dictSet desc cable { entry with connections := conns }, level', (⟨c, conn, conductor, source⟩ : Pin)) =
      (desc', level, pin) := Except.ok.inj h
  clear h
  clear_value conns
  clear_value entry
  obtain ⟨hP1, hP2⟩ := Prod.mk.inj hP
  obtain ⟨hP2, hP3⟩ := Prod.mk.inj hP2
  set d : PinData p := ⟨⟨c, conn, conductor, source⟩, cable, side, level', line, bundle⟩ with hdd
  have hpin : P.PinAt c d := ⟨rfl, h1, h2, h3, h4, h5⟩
  refine ⟨d, hpin, hP3.symm, hP2.symm, ?_⟩
  have hfm : ∀ name d0, FirstMatch ds (fun d => d.cable = name) d0 → FirstMatch (ds ++ [d]) (fun d => d.cable = name) d0 :=
    fun name d0 h => firstMatch_append.2 (.inl h)
  have hcase : (cable ∉ desc.map Prod.fst ∧ entry = { line := line, connections := [], side := side, bundleName := bundle }) ∨
      (cable, entry) ∈ desc := by
    rw [hentry]
    cases hf : desc.find? fun e => decide (e.1 = cable) with
    | none =>
      refine .inl ⟨?_, rfl⟩
      intro hm
      obtain ⟨e, he, hk⟩ := List.mem_map.1 hm
      have := List.find?_eq_none.1 hf e he
      simp [hk] at this
    | some e =>
      refine .inr ?_
      have h1 := List.mem_of_find?_eq_some hf
      have h2 : e.1 = cable := by simpa using List.find?_some hf
      rw [← h2]
      exact h1
  have hnone : cable ∉ desc.map Prod.fst → ∀ d ∈ ds, d.cable ≠ cable := fun h d hd' hc => h ((hd.cables _).2 ⟨d, hd', hc⟩)
  have hfirst : ∃ d0, FirstMatch (ds ++ [d]) (fun d => d.cable = cable) d0 ∧ entry.line = d0.line ∧ entry.side = d0.side ∧
      entry.bundleName = d0.bundle := by
    rcases hcase with ⟨h1, h2⟩ | h1
    · refine ⟨d, firstMatch_append.2 (.inr ⟨hnone h1, firstMatch_cons.2 (.inl ⟨rfl, rfl⟩)⟩), ?_⟩
      rw [h2]
      exact ⟨rfl, rfl, rfl⟩
    · obtain ⟨d0, h2, h3⟩ := hd.first _ _ h1
      exact ⟨d0, hfm _ _ h2, h3⟩
  have hconn : ∀ c, c ∈ entry.connections ↔ ∃ d ∈ ds, d.cable = cable ∧ c = d.connection := by
    intro c
    rcases hcase with ⟨h1, h2⟩ | h1
    · rw [h2]
      constructor
      · intro h; simp at h
      · rintro ⟨d', h3, h4, -⟩
        exact absurd h4 (hnone h1 d' h3)
    · exact hd.connections _ _ h1 c
  have hrep : if once then (entry.connections.map Connection.id).Nodup
      else entry.connections = (ds.filter fun d => d.cable = cable).map PinData.connection := by
    rcases hcase with ⟨h1, h2⟩ | h1
    · rw [h2]
      cases once
      · have : (ds.filter fun d => decide (d.cable = cable)) = [] :=
          List.filter_eq_nil_iff.2 fun d' hd' => by simpa using hnone h1 d' hd'
        simp [this]
      · simp
    · exact hd.repeated _ _ h1
  have hconns' : ∀ x, x ∈ conns ↔ ∃ d' ∈ ds ++ [d], d'.cable = cable ∧ x = d'.connection := by
    intro x
    have e : (∃ d' ∈ ds ++ [d], d'.cable = cable ∧ x = d'.connection) ↔ x ∈ entry.connections ∨ x = d.connection := by
      rw [hconn]
      simp only [List.mem_append, List.mem_singleton]
      constructor
      · rintro ⟨d', h1 | rfl, h2, h3⟩
        · exact .inl ⟨d', h1, h2, h3⟩
        · exact .inr h3
      · rintro (⟨d', h1, h2, h3⟩ | h3)
        · exact ⟨d', .inl h1, h2, h3⟩
        · exact ⟨d, .inr rfl, rfl, h3⟩
    rw [e, hconns]
    split_ifs with hc
    · refine ⟨.inl, ?_⟩
      rintro (h1 | rfl)
      · exact h1
      · obtain ⟨y, hy, hy'⟩ := List.mem_map.1 hc.2
        obtain ⟨d', h1, h2, rfl⟩ := (hconn y).1 hy
        have hy'' : d'.pin.node = c := hy'
        have h3 := hds d' h1
        rw [hy''] at h3
        rw [hpin.unique h3]
        exact hy
    · simp only [List.mem_append, List.mem_singleton]
      rfl
  subst hP1
  refine ⟨?_, ?_, ?_, ?_, ?_⟩
  · rw [dictSet_keys]
    split_ifs with hm
    · exact hd.keys
    · refine List.nodup_append.2 ⟨hd.keys, by simp, fun a ha b hb hab => ?_⟩
      rw [List.mem_singleton.1 hb] at hab
      exact hm (hab ▸ ha)
  · intro name
    have e : (∃ d' ∈ ds ++ [d], d'.cable = name) ↔ (∃ d' ∈ ds, d'.cable = name) ∨ cable = name := by
      simp only [List.mem_append, List.mem_singleton]
      constructor
      · rintro ⟨d', h1 | rfl, h2⟩
        · exact .inl ⟨d', h1, h2⟩
        · exact .inr h2
      · rintro (⟨d', h1, h2⟩ | h2)
        · exact ⟨d', .inl h1, h2⟩
        · exact ⟨d, .inr rfl, h2⟩
    rw [e, dictSet_keys, ← hd.cables]
    split_ifs with hm
    · exact ⟨.inl, fun h => h.elim id fun h => h ▸ hm⟩
    · rw [List.mem_append, List.mem_singleton, @eq_comm _ cable]
  · intro name e he
    rcases (mem_dictSet hd.keys).1 he with ⟨rfl, rfl⟩ | ⟨h1, h2⟩
    · exact hfirst
    · obtain ⟨d0, h3, h4⟩ := hd.first _ _ h2
      exact ⟨d0, hfm _ _ h3, h4⟩
  · intro name e he
    rcases (mem_dictSet hd.keys).1 he with ⟨rfl, rfl⟩ | ⟨h1, h2⟩
    · exact hconns'
    · intro x
      rw [hd.connections _ _ h2]
      simp only [List.mem_append, List.mem_singleton]
      constructor
      · rintro ⟨d', h3, h4⟩
        exact ⟨d', .inl h3, h4⟩
      · rintro ⟨d', h3 | rfl, h4⟩
        · exact ⟨d', h3, h4⟩
        · exact absurd h4.1.symm h1
  · intro name e he
    rcases (mem_dictSet hd.keys).1 he with ⟨rfl, rfl⟩ | ⟨h1, h2⟩
    · cases once with
      | true =>
        simp only [if_true, true_and] at hrep hconns ⊢
        rw [hconns]
        split_ifs with hc
        · exact hrep
        · rw [List.map_append]
          refine List.nodup_append.2 ⟨hrep, by simp, fun a ha b hb hab => ?_⟩
          have hb' : b = c := by simpa using hb
          exact hc (hb' ▸ hab ▸ ha)
      | false =>
        simp only [Bool.false_eq_true, if_false, false_and] at hrep hconns ⊢
        rw [hconns, hrep, List.filter_append, List.map_append]
        simp [hdd, PinData.connection]
    · have := hd.repeated _ _ h2
      cases once with
      | true => exact this
      | false =>
        simp only [Bool.false_eq_true, if_false] at this ⊢
        rw [this, List.filter_append]
        simp [hdd, h1.symm]

end Mtln
