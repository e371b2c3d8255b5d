import Verif.Props.Tank
import Verif.Props.Bundle

/-! # Registering networks in a manager: C54, C55 -/

namespace Mtln

variable {p N S : ℕ}

/-- A node after `update_index_numbers` of a network at a level. -/
noncomputable def Node.registered (bs : List (AnyBundle p)) (level : ℕ) (d : Node) : Node :=
  { d with lineIndex := d.lineIndex + (match findBundle bs d.bundleName with
      | some b => conductorsBefore b.2.inLevel level
      | none => 0) }

/-- A network after `update_index_numbers`. -/
noncomputable def Network.registered (bs : List (AnyBundle p)) (level : ℕ) (nw : Network N S) : Network N S :=
  { nw with nodes := fun a => (nw.nodes a).registered bs level }

theorem shiftIndex_ok_iff {bs : List (AnyBundle p)} {level : ℕ} {nw nw' : Network N S} {a : Fin N} :
    nw.shiftIndex bs level a = .ok nw' ↔ findBundle bs (nw.nodes a).bundleName ≠ none ∧
      nw' = { nw with nodes := Function.update nw.nodes a ((nw.nodes a).registered bs level) } := by
  unfold Network.shiftIndex Node.registered
  cases h : findBundle bs (nw.nodes a).bundleName with
  | none => simp
  | some b => simp [eq_comm]

theorem shiftAll_ok_iff {bs : List (AnyBundle p)} {level : ℕ} : ∀ {l : List (Fin N)}, l.Nodup →
    ∀ {nw nw' : Network N S}, l.foldlM (Network.shiftIndex bs level) nw = .ok nw' ↔
      (∀ a ∈ l, findBundle bs (nw.nodes a).bundleName ≠ none) ∧
      nw' = { nw with nodes := fun a => if a ∈ l then (nw.nodes a).registered bs level else nw.nodes a }
  | [], _, nw, nw' => by
    simp only [List.foldlM_nil, pure, Except.pure, Except.ok.injEq, List.not_mem_nil, if_false]
    simp only [false_imp_iff, implies_true, true_and]
    exact eq_comm
  | a :: l, hn, nw, nw' => by
    obtain ⟨ha, hl⟩ := List.nodup_cons.1 hn
    simp only [List.foldlM_cons, bind_ok_iff, shiftIndex_ok_iff, shiftAll_ok_iff hl]
    have hne : ∀ b ∈ l, b ≠ a := fun b hb e => ha (e ▸ hb)
    constructor
    · rintro ⟨nw1, ⟨h1, rfl⟩, h2, rfl⟩
      refine ⟨?_, ?_⟩
      · intro b hb
        rcases List.mem_cons.1 hb with rfl | hb
        · exact h1
        · have := h2 b hb
          simpa [hne b hb] using this
      · congr 1
        funext b
        by_cases hba : b = a
        · subst hba; simp [ha]
        · simp [hba]
    · rintro ⟨h1, rfl⟩
      refine ⟨_, ⟨h1 a List.mem_cons_self, rfl⟩, ?_, ?_⟩
      · intro b hb
        have := h1 b (List.mem_cons_of_mem _ hb)
        simpa [hne b hb] using this
      · congr 1
        funext b
        by_cases hba : b = a
        · subst hba; simp [ha]
        · simp [hba]

/-- What registering a network does. -/
theorem updateIndexNumbers_ok_iff {bs : List (AnyBundle p)} {nwd nwd' : NetworkD} :
    nwd.updateIndexNumbers bs = .ok nwd' ↔
      (∀ e ∈ nwd, ∀ a, findBundle bs (e.2.2.2.nodes a).bundleName ≠ none) ∧
      nwd' = nwd.map fun e => (e.1, ⟨_, _, e.2.2.2.registered bs e.1⟩) := by
  have hfun : ∀ e : ℕ × AnyNetwork, (fun a => if a ∈ List.finRange e.2.1 then (e.2.2.2.nodes a).registered bs e.1 else
      e.2.2.2.nodes a) = fun a => (e.2.2.2.nodes a).registered bs e.1 := fun e => funext fun a => by simp
  unfold NetworkD.updateIndexNumbers
  induction nwd generalizing nwd' with
  | nil => simp [mapPy, eq_comm]
  | cons e nwd ih =>
    simp only [mapPy, bind_ok_iff, shiftAll_ok_iff (List.nodup_finRange _), Except.ok.injEq, ih]
    constructor
    · rintro ⟨e', ⟨nw', ⟨h1, rfl⟩, rfl⟩, nwd'', ⟨h2, rfl⟩, rfl⟩
      refine ⟨?_, ?_⟩
      · intro e' he a
        rcases List.mem_cons.1 he with rfl | he
        · exact h1 a (List.mem_finRange a)
        · exact h2 e' he a
      · simp only [List.map_cons, hfun]; rfl
    · rintro ⟨h1, rfl⟩
      refine ⟨_, ⟨_, ⟨fun a _ => h1 e List.mem_cons_self a, rfl⟩, rfl⟩, _,
        ⟨fun e' he => h1 e' (List.mem_cons_of_mem _ he), rfl⟩, ?_⟩
      simp only [List.map_cons, hfun]; rfl

/-! ## C54 -/

/-- The row of conductor `j` of line number `s` of level `level` in the matrices of a bundle. -/
def bundleRow (levels : List (List (AnyLine p))) (level s j : ℕ) : ℕ :=
  totalConductors (levels.take level).flatten + totalConductors ((levels.getD level []).take s) + j

theorem totalConductors_append (l l' : List (AnyLine p)) :
    totalConductors (l ++ l') = totalConductors l + totalConductors l' := by
  simp [totalConductors]

theorem before_eq (levels : List (List (AnyLine p))) (level : ℕ) :
    conductorsBefore (levels.map fun lines => (lines.map Sigma.fst).sum) level =
      totalConductors (levels.take level).flatten := by
  unfold conductorsBefore
  rw [← List.map_take]
  induction levels.take level with
  | nil => rfl
  | cons a l ih =>
    rw [List.map_cons, List.sum_cons, ih, List.flatten_cons, totalConductors_append]
    rfl

theorem new_inLevel {levels : List (List (AnyLine p))} {name : String} {b : AnyBundle p}
    (h : MTLD.new levels name = .ok b) : b.2.inLevel = levels.map (fun lines => (lines.map Sigma.fst).sum) ∧
      b.2.name = name ∧ b.1 = totalConductors levels.flatten := by
  unfold MTLD.new at h
  split at h
  · exact absurd h (by simp)
  · split at h
    · obtain rfl := (Except.ok.inj h).symm
      exact ⟨rfl, rfl, rfl⟩
    · exact absurd h (by simp)
  · exact absurd h (by simp)

/-- **C54 (partial)** A node of the first line of its level is connected to the row of its conductor. -/
theorem C54_first_line_partial {M M' : MTLN p} {levels : List (List (AnyLine p))} {name : String} {b : AnyBundle p}
    (hb : MTLD.new levels name = .ok b) (hf : findBundle M.bundles name = some b) {nwd : NetworkD}
    (h : M.addNetwork nwd = .ok M') {e : ℕ × AnyNetwork} (he : e ∈ nwd) {a : Fin e.2.1}
    (hn : (e.2.2.2.nodes a).bundleName = name) :
    ∃ nwd', M'.networks = M.networks ++ [nwd'] ∧ ∃ e' ∈ nwd', ∃ nw' : Network e.2.1 e.2.2.1, e' = (e.1, ⟨_, _, nw'⟩) ∧
      (nw'.nodes a).lineIndex = bundleRow levels e.1 0 (e.2.2.2.nodes a).lineIndex ∧
      { nw'.nodes a with lineIndex := (e.2.2.2.nodes a).lineIndex } = e.2.2.2.nodes a := by
  simp only [MTLN.addNetwork, bind_ok_iff, updateIndexNumbers_ok_iff, Except.ok.injEq] at h
  obtain ⟨nwd', ⟨-, rfl⟩, rfl⟩ := h
  refine ⟨_, rfl, _, List.mem_map.2 ⟨e, he, rfl⟩, e.2.2.2.registered M.bundles e.1, rfl, ?_, rfl⟩
  show (e.2.2.2.nodes a).lineIndex + _ = _
  rw [hn, hf]
  simp only [(new_inLevel hb).1, before_eq, bundleRow, List.take_zero]
  simp [totalConductors]
  omega

/-- Rows of conductors of first lines are different for different conductors. -/
theorem bundleRow_injective {levels : List (List (AnyLine p))} {x y j k : ℕ}
    (hj : j < totalConductors ((levels.getD x []).take 1)) (hk : k < totalConductors ((levels.getD y []).take 1))
    (h : bundleRow levels x 0 j = bundleRow levels y 0 k) : x = y ∧ j = k := by
  have key : ∀ {x y j : ℕ}, x < y → j < totalConductors ((levels.getD x []).take 1) →
      totalConductors (levels.take x).flatten + j < totalConductors (levels.take y).flatten := by
    intro x y j hxy hj
    have hx : x < levels.length := by
      by_contra hx
      rw [List.getD_eq_getElem?_getD, List.getElem?_eq_none (by omega)] at hj
      simp [totalConductors] at hj
    have h1 : levels.take y = levels.take x ++ levels[x] :: (levels.drop (x + 1)).take (y - x - 1) := by
      conv_lhs => rw [← List.take_append_drop x levels, List.take_append]
      rw [List.drop_eq_getElem_cons hx]
      simp only [List.length_take]
      rw [min_eq_left (by omega), List.take_of_length_le (by simp; omega)]
      congr 1
      rw [show y - x = (y - x - 1) + 1 by omega, List.take_succ_cons]
      simp
    rw [h1, List.flatten_append, totalConductors_append, List.flatten_cons, totalConductors_append]
    rw [List.getD_eq_getElem?_getD, List.getElem?_eq_getElem hx] at hj
    simp only [Option.getD_some] at hj
    have h2 : totalConductors (levels[x].take 1) ≤ totalConductors levels[x] := by
      conv_rhs => rw [← List.take_append_drop 1 levels[x], totalConductors_append]
      omega
    omega
  simp only [bundleRow, List.take_zero] at h
  have e0 : totalConductors ([] : List (AnyLine p)) = 0 := rfl
  rw [e0] at h
  rcases lt_trichotomy x y with hxy | hxy | hxy
  · have := key hxy hj; omega
  · subst hxy; exact ⟨rfl, by omega⟩
  · have := key hxy hk; omega

/-- **C54 (partial)** In a bundle with one line per level, nodes of different conductors are connected to different
rows. -/
theorem C54_different_rows_partial {M M' : MTLN p} {levels : List (List (AnyLine p))} {name : String} {b : AnyBundle p}
    (hb : MTLD.new levels name = .ok b) (hf : findBundle M.bundles name = some b) (h1 : ∀ l ∈ levels, l.length = 1)
    {nwd : NetworkD} (h : M.addNetwork nwd = .ok M') {e f : ℕ × AnyNetwork}
    {a : Fin e.2.1} {c : Fin f.2.1} (hn : (e.2.2.2.nodes a).bundleName = name)
    (hn' : (f.2.2.2.nodes c).bundleName = name)
    (hj : (e.2.2.2.nodes a).lineIndex < totalConductors (levels.getD e.1 []))
    (hk : (f.2.2.2.nodes c).lineIndex < totalConductors (levels.getD f.1 []))
    (hne : (e.1, (e.2.2.2.nodes a).lineIndex) ≠ (f.1, (f.2.2.2.nodes c).lineIndex)) :
    (((e.2.2.2.nodes a).registered M.bundles e.1).lineIndex ≠ ((f.2.2.2.nodes c).registered M.bundles f.1).lineIndex) ∧
      M'.networks = M.networks ++ [nwd.map fun e => (e.1, ⟨_, _, e.2.2.2.registered M.bundles e.1⟩)] := by
  have htake : ∀ x, (levels.getD x []).take 1 = levels.getD x [] := by
    intro x
    rw [List.getD_eq_getElem?_getD]
    cases hx : levels[x]? with
    | none => rfl
    | some l => exact List.take_of_length_le (by rw [Option.getD_some, h1 l (List.mem_of_getElem? hx)])
  have hrow : ∀ (x : ℕ) (d : Node), d.bundleName = name →
      (d.registered M.bundles x).lineIndex = bundleRow levels x 0 d.lineIndex := by
    intro x d hd
    show d.lineIndex + _ = _
    rw [hd, hf]
    simp only [(new_inLevel hb).1, before_eq, bundleRow, List.take_zero]
    simp [totalConductors]
    omega
  refine ⟨?_, ?_⟩
  · intro heq
    rw [hrow _ _ hn, hrow _ _ hn'] at heq
    obtain ⟨h2, h3⟩ := bundleRow_injective (by rw [htake]; exact hj) (by rw [htake]; exact hk) heq
    exact hne (by rw [h2, h3])
  · simp only [MTLN.addNetwork, bind_ok_iff, updateIndexNumbers_ok_iff, Except.ok.injEq] at h
    obtain ⟨nwd', ⟨-, rfl⟩, rfl⟩ := h
    rfl

theorem addNetwork_exists {M : MTLN p} {nwd : NetworkD}
    (h : ∀ e ∈ nwd, ∀ a, findBundle M.bundles (e.2.2.2.nodes a).bundleName ≠ none) : ∃ M', M.addNetwork nwd = .ok M' ∧
      M'.networks = M.networks ++ [nwd.map fun e => (e.1, ⟨_, _, e.2.2.2.registered M.bundles e.1⟩)] := by
  simp only [MTLN.addNetwork, bind_ok_iff, updateIndexNumbers_ok_iff]
  exact ⟨_, ⟨_, ⟨h, rfl⟩, rfl⟩, rfl⟩

theorem addBundle_exists {M : MTLN p} {b : AnyBundle p} (h : b.2.name ∉ M.bundles.map fun b => b.2.name) :
    ∃ M', M.addBundle b = .ok M' ∧ M'.bundles = M.bundles ++ [b] ∧ M'.networks = M.networks := by
  simp only [MTLN.addBundle, bind_ok_iff, pyAssert_ok_iff]
  exact ⟨_, ⟨(), h, rfl⟩, rfl, rfl⟩

/-- A second line for the demo. -/
noncomputable def demoOther (p : ℕ) : MTL 1 p := { demoBare p with name := "other" }

/-- A bundle with two lines in its inner level. -/
noncomputable def demoTwinLevels (p : ℕ) : List (List (AnyLine p)) :=
  [[⟨1, demoBare p⟩], [⟨1, demoBare p⟩, ⟨1, demoOther p⟩]]

theorem demoTwin_new (p : ℕ) : MTLD.new (demoTwinLevels p) "b" =
    .ok ⟨_, MTLD.assemble ⟨1, demoBare p⟩ (demoTwinLevels p) "b"⟩ := by
  unfold MTLD.new demoTwinLevels
  simp only
  rw [if_pos]
  intro L hL
  simp only [List.flatten_cons, List.flatten_nil, List.append_nil, List.singleton_append, List.mem_cons,
    List.not_mem_nil, or_false] at hL
  rcases hL with rfl | rfl | rfl <;> exact ⟨rfl, fun _ _ => rfl⟩

/-- The bundle. -/
noncomputable def demoTwinBundle : AnyBundle 0 := ⟨_, MTLD.assemble ⟨1, demoBare 0⟩ (demoTwinLevels 0) "b"⟩

/-- Two nodes, one for each inner line. -/
noncomputable def demoTwinEnds : List (LineConnections 0) :=
  [{ line := ⟨1, demoBare 0⟩, side := "S", bundleName := "b", connections :=
      [{ id := 0, conductor := 0, connector := { connectorType := "Conn_R" } }] },
   { line := ⟨1, demoOther 0⟩, side := "S", bundleName := "b", connections :=
      [{ id := 1, conductor := 0, connector := { connectorType := "Conn_R" } }] }]

/-- The network of the two nodes. -/
noncomputable def demoTwinNet : Network 2 0 :=
  NetBuild.finish ⟨[⟨0, "demo", 0, .S, "b", [], 1, fun _ => 0⟩, ⟨1, "other", 0, .S, "b", [], 1, fun _ => 0⟩], 0,
    [⟨1, (demoBare 0).c 0⟩, ⟨1, (demoOther 0).c 0⟩]⟩

theorem demoTwinEnds_new : Network.new demoTwinEnds = .ok ⟨2, 0, demoTwinNet⟩ := by
  refine networkNew_ok_iff.2 ⟨⟨[⟨0, "demo", 0, .S, "b", [], 1, fun _ => 0⟩, ⟨1, "other", 0, .S, "b", [], 1, fun _ => 0⟩], 0,
    [⟨1, (demoBare 0).c 0⟩, ⟨1, (demoOther 0).c 0⟩]⟩, ?_, rfl⟩
  simp [demoTwinEnds, NetBuild.addLine, NetBuild.addNode, bind, Except.bind, pyAssert, raiseIf, stateVarsIn,
    List.insertionSort, List.orderedInsert, demoBare, demoOther, pure, Except.pure]

/-- **C54** is false: in a bundle with two lines in one level, nodes of the two lines are connected to the same row. -/
theorem C54_refuted : ∃ (b : AnyBundle 0) (M M' : MTLN 0) (nw : Network 2 0),
    MTLD.new (demoTwinLevels 0) "b" = .ok b ∧ MTLN.addBundle {} b = .ok M ∧
    M.addNetwork [(1, ⟨2, 0, demoTwinNet⟩)] = .ok M' ∧ M'.networks = [[(1, ⟨2, 0, nw⟩)]] ∧
    (nw.nodes 0).lineName ≠ (nw.nodes 1).lineName ∧ (nw.nodes 0).side = (nw.nodes 1).side ∧
    (nw.nodes 0).bundleName = (nw.nodes 1).bundleName ∧ (nw.nodes 0).lineIndex = (nw.nodes 1).lineIndex := by
  obtain ⟨M, hM, hMb, hMn⟩ := addBundle_exists (M := {}) (b := demoTwinBundle) (by simp)
  obtain ⟨M', hM', hn⟩ := addNetwork_exists (M := M) (nwd := [(1, ⟨2, 0, demoTwinNet⟩)]) (by
    rw [hMb]
    intro e he a
    obtain rfl := List.mem_singleton.1 he
    fin_cases a <;> simp [findBundle, demoTwinBundle, demoTwinNet, NetBuild.finish, MTLD.assemble])
  rw [hMn] at hn
  exact ⟨_, M, M', _, demoTwin_new 0, hM, hM', hn, (by decide : "demo" ≠ "other"), rfl, rfl, rfl⟩

/-- Non-vacuity of C54: one line per level. -/
example : ∃ b : AnyBundle 0, MTLD.new (demoLevels 0) "b" = .ok b ∧ ∀ l ∈ demoLevels 0, l.length = 1 :=
  ⟨_, demoBundle_new 0, by simp [demoLevels]⟩

/-! ## C55 -/

/-- **C55 (partial)** A network of level 0 only can be registered any number of times: its nodes keep their rows. -/
theorem C55_level_zero_partial {M M' : MTLN p} {nwd : NetworkD} (h0 : ∀ e ∈ nwd, e.1 = 0)
    (h : M.addNetwork nwd = .ok M') : M'.networks = M.networks ++ [nwd] := by
  simp only [MTLN.addNetwork, bind_ok_iff, updateIndexNumbers_ok_iff, Except.ok.injEq] at h
  obtain ⟨nwd', ⟨-, rfl⟩, rfl⟩ := h
  show M.networks ++ [_] = M.networks ++ [nwd]
  congr 2
  refine (List.map_congr_left fun e he => ?_).trans (List.map_id nwd)
  have e1 : e.2.2.2.registered M.bundles e.1 = e.2.2.2 := by
    unfold Network.registered
    have : (fun a => (e.2.2.2.nodes a).registered M.bundles e.1) = e.2.2.2.nodes := by
      funext a
      unfold Node.registered
      rw [h0 e he]
      have : (match findBundle M.bundles (e.2.2.2.nodes a).bundleName with
        | some b => conductorsBefore b.2.inLevel 0
        | none => 0) = 0 := by split <;> rfl
      rw [this, add_zero]
    rw [this]
  rw [e1]
  rfl

/-- **C55** Every registration adds the number of conductors of the outer levels again. -/
theorem C55_shift {M M' : MTLN p} {nwd : NetworkD} (h : M.addNetwork nwd = .ok M') :
    M'.networks = M.networks ++ [nwd.map fun e => (e.1, ⟨_, _, e.2.2.2.registered M.bundles e.1⟩)] := by
  simp only [MTLN.addNetwork, bind_ok_iff, updateIndexNumbers_ok_iff, Except.ok.injEq] at h
  obtain ⟨nwd', ⟨-, rfl⟩, rfl⟩ := h
  rfl

/-- **C55** is false: registering the same network in a second manager with the same bundle moves its nodes to other
rows. -/
theorem C55_refuted : ∃ (b : AnyBundle 0) (M M' M'' : MTLN 0) (nw nw' : Network 2 0),
    MTLD.new (demoTwinLevels 0) "b" = .ok b ∧ MTLN.addBundle {} b = .ok M ∧
    M.addNetwork [(1, ⟨2, 0, demoTwinNet⟩)] = .ok M' ∧ M'.networks = [[(1, ⟨2, 0, nw⟩)]] ∧
    M.addNetwork [(1, ⟨2, 0, nw⟩)] = .ok M'' ∧ M''.networks = [[(1, ⟨2, 0, nw'⟩)]] ∧
    (nw.nodes 0).lineIndex = 1 ∧ (nw'.nodes 0).lineIndex = 2 := by
  obtain ⟨M, hM, hMb, hMn⟩ := addBundle_exists (M := {}) (b := demoTwinBundle) (by simp)
  obtain ⟨M', hM', hn⟩ := addNetwork_exists (M := M) (nwd := [(1, ⟨2, 0, demoTwinNet⟩)]) (by
    rw [hMb]
    intro e he a
    obtain rfl := List.mem_singleton.1 he
    fin_cases a <;> simp [findBundle, demoTwinBundle, demoTwinNet, NetBuild.finish, MTLD.assemble])
  obtain ⟨M'', hM'', hn'⟩ := addNetwork_exists (M := M) (nwd := [(1, ⟨2, 0, demoTwinNet.registered M.bundles 1⟩)]) (by
    rw [hMb]
    intro e he a
    obtain rfl := List.mem_singleton.1 he
    fin_cases a <;> simp [findBundle, demoTwinBundle, demoTwinNet, NetBuild.finish, MTLD.assemble, Network.registered,
      Node.registered])
  rw [hMn] at hn hn'
  refine ⟨_, M, M', M'', _, _, demoTwin_new 0, hM, hM', hn, hM'', hn', ?_, ?_⟩
  · simp [hMb, Network.registered, Node.registered, findBundle, demoTwinNet, NetBuild.finish, MTLD.assemble,
      demoTwinLevels, conductorsBefore, demoTwinBundle]
  · simp [hMb, Network.registered, Node.registered, findBundle, demoTwinNet, NetBuild.finish, MTLD.assemble,
      demoTwinLevels, conductorsBefore, demoTwinBundle]

end Mtln
