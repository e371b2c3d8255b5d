import Verif.Spec.PlainFile
import Verif.Props.BundleStep
import Verif.Props.ParserCoupling

/-!
# The lines of physical cables are proper
-/

namespace Mtln

open scoped Matrix

variable {p : ℕ}

theorem dissipative_diag {n : ℕ} (f : ℕ → ℕ → ℝ) (hf : ∀ i, 0 ≤ f i i) :
    Dissipative (.of fun i j : Fin n => if (i : ℕ) = j then f i j else 0) ∧
      (Matrix.of fun i j : Fin n => if (i : ℕ) = j then f i j else 0)ᵀ =
        Matrix.of fun i j : Fin n => if (i : ℕ) = j then f i j else 0 := by
  have e : (Matrix.of fun i j : Fin n => if (i : ℕ) = j then f i j else 0) = Matrix.diagonal fun i : Fin n => f i i := by
    ext i j
    simp only [Matrix.of_apply, Matrix.diagonal_apply, Fin.ext_iff]
    split_ifs with h
    · rw [h]
    · rfl
  rw [e]
  refine ⟨fun x => ?_, Matrix.diagonal_transpose _⟩
  unfold dotProduct
  refine Finset.sum_nonneg fun i _ => ?_
  rw [Matrix.mulVec_diagonal]
  have := mul_nonneg (hf i) (mul_self_nonneg (x i))
  nlinarith

theorem dissipative_single {x : ℝ} (hx : 0 ≤ x) :
    Dissipative (.of fun _ _ : Fin 1 => x) ∧ (Matrix.of fun _ _ : Fin 1 => x)ᵀ = Matrix.of fun _ _ : Fin 1 => x := by
  refine ⟨fun v => ?_, rfl⟩
  simp only [dotProduct, Matrix.mulVec, Fin.sum_univ_one, Matrix.of_apply]
  have := mul_nonneg hx (mul_self_nonneg (v 0))
  nlinarith

theorem timesEye_diag {R : JVal} (hR : R.NonNeg) {n : ℕ} {r : Arg} (h : R.timesEye n = .ok r) :
    ∃ f : ℕ → ℕ → ℝ, (∀ i, 0 ≤ f i i) ∧ r = .mat n n fun i j => if i = j then f i j else 0 := by
  cases R with
  | float x => exact ⟨fun _ _ => x, fun _ => hR, (Except.ok.inj h).symm⟩
  | int k => exact ⟨fun _ _ => k, fun _ => by have : (0 : ℤ) ≤ k := hR; show (0 : ℝ) ≤ (k : ℝ); exact_mod_cast this, (Except.ok.inj h).symm⟩
  | vec a =>
    have hR : ∀ x ∈ a, 0 ≤ x := hR
    have ha : ∀ i, 0 ≤ a.getD i 0 := fun i => by
      rw [List.getD_eq_getElem?_getD]
      cases e : a[i]? with
      | none => exact le_rfl
      | some x => exact hR x (List.mem_of_getElem? e)
    unfold JVal.timesEye at h
    simp only at h
    split_ifs at h
    · exact ⟨fun _ j => a.getD j 0, fun i => ha i, (Except.ok.inj h).symm⟩
    · exact ⟨fun _ _ => a.getD 0 0, fun _ => ha 0, (Except.ok.inj h).symm⟩
  | mat r' c' a =>
    unfold JVal.timesEye at h
    simp only at h
    split_ifs at h
    exact ⟨a, hR, (Except.ok.inj h).symm⟩

/-- The arguments of the line of a physical wire. -/
theorem physical_args {w : Wire} (hw : w.IsPhysical) {l c r : Arg} (h : w.args = .ok (l, c, r)) {n : ℕ} (h1 : GoodLC n l c)
    (h2 : GoodRG n r) : SPD (l.matrix n) ∧ SPD (c.matrix n) ∧ Dissipative (r.matrix n) ∧ (r.matrix n)ᵀ = r.matrix n ∧
      ((∃ x, w.inductance = some (.float x)) → n = 1) := by
  have hR : (w.resistance.getD (.float 0)).NonNeg := by
    cases e : w.resistance with
    | none => exact le_rfl
    | some R => exact hw.r R e
  rcases hw.lc with ⟨x, y, e1, e2, hx, hy⟩ | ⟨m, A, B, e1, e2, hA, hB⟩
  · simp only [Wire.args, e1, e2, Option.getD_some, JVal.plain, Except.ok.injEq, Prod.mk.injEq] at h
    obtain ⟨rfl, rfl, rfl⟩ := h
    cases h1
    generalize w.resistance.getD (.float 0) = R at hR h2
    refine ⟨spd_one hx, spd_one hy, ?_⟩
    cases R with
    | float z => exact ⟨(dissipative_single hR).1, (dissipative_single hR).2, fun _ => rfl⟩
    | int _ => cases h2
    | vec _ => cases h2
    | mat _ _ _ => cases h2
  · simp only [Wire.args, e1, e2, Option.getD_some, JVal.array, bind_ok_iff, Except.ok.injEq, Prod.mk.injEq] at h
    obtain ⟨r', hr, rfl, rfl, rfl⟩ := h
    cases h1
    obtain ⟨f, hf, rfl⟩ := timesEye_diag hR hr
    refine ⟨hA, hB, (dissipative_diag f hf).1, (dissipative_diag f hf).2, ?_⟩
    rintro ⟨x, e3⟩
    rw [e1] at e3
    simp at e3

theorem segment_of {ndiv : List ℕ} {d k : ℕ} (hd : 0 < d) (hds : ∀ x ∈ ndiv, x = d) (hk : k < ndiv.sum) :
    ∃ i, ∃ hi : i < ndiv.length, ∃ j < ndiv[i], k = (ndiv.take i).sum + j := by
  have e : ndiv = List.replicate ndiv.length d := List.eq_replicate_iff.2 ⟨rfl, hds⟩
  have hs : ndiv.sum = ndiv.length * d := by
    conv_lhs => rw [e]
    simp
  rw [hs] at hk
  have hi : k / d < ndiv.length := (Nat.div_lt_iff_lt_mul hd).2 hk
  refine ⟨k / d, hi, k % d, ?_, ?_⟩
  · rw [hds _ (List.getElem_mem hi)]
    exact Nat.mod_lt _ hd
  · have : (ndiv.take (k / d)).sum = k / d * d := by
      conv_lhs => rw [e]
      rw [List.take_replicate, List.sum_replicate, min_eq_left hi.le, smul_eq_mul]
    rw [this, Nat.div_add_mod']

/-- The mesh of a line has no empty cell if its positions have no empty segment. -/
theorem new_du {l c r g : Arg} {positions : List V3} {ndiv : List ℕ} {Zs Zl : ZArg} {name : String} {n : ℕ} {s : MTL n p} {d : ℕ}
    (hd : 0 < d) (hds : ∀ x ∈ ndiv, x = d) (h : MTL.new p l c r g 1 positions ndiv Zs Zl name = .ok ⟨n, s⟩)
    (hp : positions.IsChain (· ≠ ·)) : ∀ k < s.m, s.du k ≠ 0 := by
  obtain ⟨-, -, -, -, -, -, -, -, -, -, -, -, ⟨mem, h1, -⟩, -⟩ := new_ok_contents h
  have hS := C24_mesh_partial hd hds h
  have hlen : (if positions = [] then [![0, 0, 0], ![0, 0, 1]] else positions).length = ndiv.length + 1 := by
    unfold buildMesh at h1
    obtain ⟨_, e, -⟩ := bind_ok_iff.1 h1
    exact pyAssert_ok_iff.1 e
  have hp' : (if positions = [] then [![0, 0, 0], ![0, 0, 1]] else positions).IsChain (· ≠ ·) := by
    split_ifs
    · refine List.isChain_pair.2 fun e => ?_
      simpa using congrFun e 2
    · exact hp
  obtain ⟨ps, eps⟩ : ∃ ps, ps = if positions = [] then [![0, 0, 0], ![0, 0, (1 : ℝ)]] else positions := ⟨_, rfl⟩
  rw [← eps] at hlen hp' hS
  intro k hk
  rw [hS.cells] at hk
  obtain ⟨i, hi, j, hj, rfl⟩ := segment_of hd hds hk
  intro e
  have hi1 : i + 1 < ps.length := by omega
  refine List.isChain_iff_getElem.1 hp' i hi1 ?_
  funext a
  have := hS.equal i hi j hj a
  rw [e] at this
  have hne : ((ndiv[i] : ℕ) : ℝ) ≠ 0 := by
    rw [hds _ (List.getElem_mem hi)]
    exact_mod_cast hd.ne'
  rw [eq_div_iff hne] at this
  simp only [List.getD_eq_getElem?_getD, List.getElem?_eq_getElem hi1, List.getElem?_eq_getElem (by omega : i < ps.length),
    Option.getD_some] at this
  simp only [Pi.zero_apply, zero_mul] at this
  linarith

/-- Resistances at points of a line of one conductor keep it proper. -/
theorem proper_resistance {s s' : MTL 1 p} {x : V3} {c : ℕ} {R : ℝ} (hs : s.Proper) (hd : ∀ k, s.conn.d k = 0) (hR : 0 ≤ R)
    (h : s.setResistanceInRegion (.list x) (.list x) c R = .ok s') : s'.Proper ∧ ∀ k, s'.conn.d k = 0 := by
  obtain ⟨-, -, -, h4, h5⟩ := setResistance_point hs.cells h
  have hr : ∀ k < s.m, Dissipative (s'.r k + s'.conn.d k) ∧ (s'.r k + s'.conn.d k)ᵀ = s'.r k + s'.conn.d k := by
    intro k hk
    have e : s'.conn = s.conn := (congrArg MTL.conn h5 :)
    rw [e, hd, add_zero]
    by_cases hkx : k = s.cellAt x
    · have : s'.r k = .of fun _ _ : Fin 1 => R / norm3 (s.du (s.cellAt x)) := by
        ext a b
        rw [h4 k a b, if_pos ⟨hkx, by omega⟩]
        rfl
      rw [this]
      exact dissipative_single (div_nonneg hR (norm3_nonneg _))
    · have : s'.r k = s.r k := by
        ext a b
        rw [h4 k a b, if_neg (by simp [hkx])]
      have h0 := hs.r k hk
      rw [hd, add_zero] at h0
      rw [this]
      exact h0
  rw [← h5] at hs hd hr
  exact ⟨⟨hs.cells, hs.mesh, hs.dun, hs.l, hs.c, hs.c_spd, hr, hs.g, hs.e, hs.q1, hs.q2, hs.q3, hs.dt⟩, hd⟩

theorem proper_end {F : File} {c : Cable} {L L' : AnyLine p} {e : CableEnd} (hL : L.1 = 1) (hs : L.2.Proper)
    (hd : ∀ k, L.2.conn.d k = 0) (hR : ∀ m ∈ F.connectors, ∀ R, m.connector.resistance = some R → 0 ≤ R)
    (h : F.addEndResistance c L e = .ok L') : L'.1 = 1 ∧ L'.2.Proper ∧ ∀ k, L'.2.conn.d k = 0 := by
  obtain ⟨n, s⟩ := L
  have hn : n = 1 := hL
  subst hn
  unfold File.addEndResistance at h
  simp only [bind_ok_iff] at h
  obtain ⟨node, -, ⟨el, side⟩, -, h⟩ := h
  by_cases hel : el ∈ c.elemIds
  · simp only [if_pos hel, bind_ok_iff] at h
    obtain ⟨x, -, conn, h1, R, h2, s', h3, h⟩ := h
    cases h
    have hm : conn ∈ F.connectors := by
      unfold File.connectorWithId at h1
      exact (List.mem_filter.1 (List.mem_of_getElem? (pyIndex_ok_iff.1 h1))).1
    exact ⟨rfl, proper_resistance hs hd (hR conn hm R (pyKey_ok_iff.1 h2)) h3⟩
  · simp only [if_neg hel, Except.ok.injEq] at h
    subst h
    exact ⟨rfl, hs, hd⟩

theorem foldl_inv {α β : Type} {f : α → β → Py α} (I : α → Prop) {l : List β} (hf : ∀ a b a', b ∈ l → I a → f a b = .ok a' → I a')
    {a a' : α} (ha : I a) (h : l.foldlM f a = .ok a') : I a' := by
  induction l generalizing a with
  | nil =>
    simp only [List.foldlM_nil, pure, Except.pure, Except.ok.injEq] at h
    exact h ▸ ha
  | cons b l ih =>
    rw [List.foldlM_cons] at h
    obtain ⟨a1, h1, h2⟩ := bind_ok_iff.1 h
    exact ih (fun a b a' hb => hf a b a' (List.mem_cons_of_mem _ hb)) (hf a b a1 List.mem_cons_self ha h1) h2

/-- The finished lines of physical cables are proper. -/
theorem physical_lines {F : File} (hF : F.PhysicalCables) {name : String} {L : AnyLine p} (h : F.finishedLine p name = .ok L) :
    L.2.Proper ∧ ((∀ w ∈ F.wires, ∃ x, w.inductance = some (.float x)) → L.1 = 1) := by
  unfold File.finishedLine at h
  simp only [bind_ok_iff] at h
  obtain ⟨L0, h0, L1, h1, h2⟩ := h
  have e2 : L1 = L := by
    unfold File.addLumped at h2
    rw [if_pos hF.lumped] at h2
    exact Except.ok.inj h2
  subst e2
  unfold File.buildLine at h0
  simp only [bind_ok_iff] at h0
  obtain ⟨c, hc, el, hel, ps, hps, w, hw, ⟨l, c', r⟩, hargs, h0⟩ := h0
  cases ps with
  | none => cases h0
  | some ps =>
    obtain ⟨n, s⟩ := L0
    have hcm : c ∈ F.cables := by
      unfold File.cableFromLineName at hc
      split at hc
      · cases hc
      · rename_i _ c0 hf
        cases hc
        exact List.mem_of_find?_eq_some hf
    have hwm : w ∈ F.wires := by
      unfold File.wireWithMaterialId at hw
      split at hw
      · cases hw
      · rename_i _ c0 hf
        cases hw
        exact List.mem_of_find?_eq_some hf
    obtain ⟨d, hd, hds⟩ := hF.cells c hcm
    have h0 : MTL.new p l c' r (.scalar 0) 1 ps c.ndiv (.scalar 0) (.scalar 0) c.name = .ok ⟨n, s⟩ := h0
    obtain ⟨g1, g2, g3, -, -, -, -, -, -, -, -, -, -, -, g4⟩ := new_ok_contents h0
    obtain ⟨k1, k2, k3, k4, k5⟩ := physical_args (hF.wires w hwm) hargs g1 g2
    have hz : Dissipative ((Arg.scalar 0).matrix n) ∧ ((Arg.scalar 0).matrix n)ᵀ = (Arg.scalar 0).matrix n := by
      refine ⟨fun x => ?_, by ext; rfl⟩
      have : (Arg.scalar 0).matrix n = 0 := by ext; rfl
      rw [this]
      simp
    have hp := C158_line hd hds h0 k1 k2 ⟨k3, k4⟩ hz
      (new_du hd hds h0 (hF.segments c hcm el ps (pyIndex_ok_iff.1 hel) hps))
    unfold File.addEndResistances at h1
    rcases hF.ends with he | ⟨he, hR⟩
    · have := foldl_inv (I := fun A : AnyLine p => A = ⟨n, s⟩) (fun a b a' _ ha hab => by
        rw [he] at hab
        rw [← ha]
        exact (Except.ok.inj hab).symm) rfl h1
      rw [this]
      exact ⟨hp, fun h => k5 (h w hwm)⟩
    · have := foldl_inv (I := fun A : AnyLine p => A.1 = 1 ∧ A.2.Proper ∧ ∀ k, A.2.conn.d k = 0)
        (fun a b a' _ ha hab => foldl_inv (I := fun A : AnyLine p => A.1 = 1 ∧ A.2.Proper ∧ ∀ k, A.2.conn.d k = 0)
          (fun a b a' _ ha hab => proper_end ha.1 ha.2.1 ha.2.2 hR hab) ha hab) ⟨k5 (he w hwm), hp, fun k => by
            show s.conn.d k = 0
            rw [g4]
            rfl⟩ h1
      exact ⟨this.2.1, fun _ => this.1⟩

end Mtln
