import Verif.Props.BundleRegion
import Verif.Props.ParserLine
import Verif.Props.Port
import Verif.Props.ManagerOrder
import Verif.Model.Waveforms

/-!
# Arguments that are refused, and registration without numbering

Which exception a call raises, and the calls that do nothing: the order of the two positions of a region (C140), numbers
where the file needs matrices (C112), nodes that do not exist (C53), ports that coincide (C99), networks that are
appended without numbering their nodes (C61), and the waveform that vanishes (C100).
-/

namespace Mtln

variable {n p N S : ℕ}

/-! ## Positions -/

/-- **C140** Lists are compared like words: the first coordinate that differs decides. -/
theorem C140_order (a b : V3) : assertOrdered (.list a) (.list b) = .ok () ↔
    a 0 < b 0 ∨ a 0 = b 0 ∧ (a 1 < b 1 ∨ a 1 = b 1 ∧ a 2 ≤ b 2) := by
  classical
  unfold assertOrdered
  simp only [pyAssert_ok_iff]
  unfold listGe
  constructor
  · rintro (rfl | ⟨j, h1, h2⟩)
    · simp
    · fin_cases j
      · exact .inl h2
      · exact .inr ⟨(h1 0 (by decide)).symm, .inl h2⟩
      · exact .inr ⟨(h1 0 (by decide)).symm, .inr ⟨(h1 1 (by decide)).symm, le_of_lt h2⟩⟩
  · rintro (h | ⟨h, h' | ⟨h', h''⟩⟩)
    · exact .inr ⟨0, fun i hi => absurd hi (by simp), h⟩
    · refine .inr ⟨1, fun i hi => ?_, h'⟩
      obtain rfl : i = 0 := by omega
      exact h.symm
    · rcases h''.lt_or_eq with h2 | h2
      · refine .inr ⟨2, fun i hi => ?_, h2⟩
        fin_cases i
        · exact h.symm
        · exact h'.symm
        · exact absurd hi (by decide)
      · refine .inl (funext fun i => ?_)
        fin_cases i
        · exact h.symm
        · exact h'.symm
        · exact h2.symm

/-- **C140** Numbers are compared as numbers; a number beside a list raises `TypeError`, an array `ValueError`. -/
theorem C140_order_kinds (x y : ℝ) (a b : V3) :
    (assertOrdered (.float x) (.float y) = .ok () ↔ x ≤ y) ∧ assertOrdered (.float x) (.list a) = .error .TypeError ∧
    assertOrdered (.list a) (.float x) = .error .TypeError ∧ assertOrdered (.array a) (.array b) = .error .ValueError := by
  refine ⟨?_, rfl, rfl, rfl⟩
  unfold assertOrdered
  rw [pyAssert_ok_iff]

/-- A bundle can therefore only be given a resistance in a region whose ends are in the order of the axes, wherever the
bundle runs. -/
theorem C140_order_resistance {b b' : MTLD n p} {x y : V3} {c : ℕ} {R : ℝ}
    (h : b.setResistanceInRegion (.list x) (.list y) c R = .ok b') : x 0 ≤ y 0 := by
  rcases (C140_order x y).1 (C140_resistance_iff.1 h).1 with h | ⟨h, -⟩
  · exact h.le
  · exact h.le

/-- Non-vacuity: the two orders of a region. -/
theorem C140_order_example : assertOrdered (.list ![0, 0, 0]) (.list ![0, 0, 1]) = .ok () ∧
    ¬ assertOrdered (.list ![0, 0, 1]) (.list ![0, 0, 0]) = .ok () ∧
    assertOrdered (.list ![0, 5, 1]) (.list ![1, 0, 0]) = .ok () := by
  refine ⟨(C140_order _ _).2 ?_, fun h => ?_, (C140_order _ _).2 ?_⟩
  · simp
  · have := (C140_order _ _).1 h
    simp only [Matrix.cons_val_zero, Matrix.cons_val_one, lt_irrefl, true_and, false_or] at this
    exact absurd (show (1 : ℝ) ≤ 0 from this) (by norm_num)
  · simp

/-! ## Files -/

/-- **C112** is false: a number, or nothing, in place of the capacitance matrix beside an inductance matrix raises
`AssertionError`. -/
theorem C112_refuted_number {F : File} (hF : F.WellFormed) {name : String} {c : Cable} {pos : List V3} {w : Wire}
    (hc : F.Finds name c pos w) {N N' : ℕ} {A : ℕ → ℕ → ℝ} (h : w.inductance = some (.mat N N' A))
    (hC : w.capacitance = none ∨ (∃ x, w.capacitance = some (.float x)) ∨ ∃ k, w.capacitance = some (.int k))
    (hR : w.resistance = none) : F.buildLine p name = .error .AssertionError := by
  obtain ⟨id, e, h1, h2, h3⟩ := hc.element
  have e1 := ((C111_cable F name).2.1 c).2 hc.cable
  have e2 := pyIndex_ok_iff.2 h1
  have e3 := ((C111_coordinates hF id).1 pos).2 ⟨e, h2, h3⟩
  have e4 := ((C111_material F _).1 w).2 hc.wire
  unfold File.buildLine
  rcases hC with h' | ⟨x, h'⟩ | ⟨k, h'⟩ <;>
    simp [e1, e2, e3, e4, Wire.args, h, h', hR, JVal.timesEye, JVal.array, MTL.new, initLC, bind, Except.bind]

/-! ## Nodes -/

/-- **C53** Shorting nodes of which one does not exist raises `KeyError`. -/
theorem C53_unknown_node (nw : Network N S) (node1 node2 : ℤ) (h : nw.find node1 = none ∨ nw.find node2 = none) :
    nw.shortNodes node1 node2 = .error .KeyError := by
  unfold Network.shortNodes Network.getNode
  rcases h1 : nw.find node1 with - | a
  · rfl
  · rcases h with h | h
    · rw [h] at h1
      cases h1
    · simp only [bind, Except.bind, h]

/-! ## Ports -/

/-- **C99** Ports that coincide are refused before anything is computed; so is a band that ends at zero. -/
theorem C99_same_port (line : MTL n p) (fMin fMax T : ℝ) (p1 p2 : String × ℕ) :
    (extract2pNetwork line fMin fMax T p1 p1 = .error .AssertionError) ∧
    (p1 ≠ p2 → extract2pNetwork line fMin 0 T p1 p2 = .error .ZeroDivisionError) := by
  constructor
  · simp [extract2pNetwork, pyAssert, bind, Except.bind]
  · intro h
    simp [extract2pNetwork, pyAssert, raiseIf, bind, Except.bind, h]

/-! ## Networks -/

/-- **C61** `add_networks` registers like repeated `add_network` exactly if the row numbers of the nodes are those of the
bundles of the manager already; it never computes them. -/
theorem C61_add_networks (M : MTLN p) (nws : List NetworkD) :
    nws.foldlM MTLN.addNetwork M = .ok (M.addNetworks nws) ↔ ∀ nw ∈ nws, nw.updateIndexNumbers M.bundles = .ok nw := by
  rw [addNetworks_ok_iff]
  have hm : ∀ nws' : List NetworkD, M.addNetworks nws = { M with networks := M.networks ++ nws' } ↔ nws' = nws := by
    intro nws'
    constructor
    · intro h
      have := congrArg MTLN.networks h
      exact (List.append_cancel_left this).symm
    · rintro rfl
      rfl
  simp only [hm, exists_eq_right, mapPy_ok_iff]
  induction nws with
  | nil => simp
  | cons nw l ih =>
    rw [List.forall₂_cons, List.forall_mem_cons]
    exact and_congr_right fun _ => List.forall₂_same

/-! ## Waveforms -/

/-- **C100** The waveform `null` vanishes everywhere and always. -/
theorem C100_null (e : Env) : nullSp e = some 0 := rfl

end Mtln
