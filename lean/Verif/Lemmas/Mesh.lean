import Verif.Lemmas.Construct

/-! # The mesh loop -/

namespace Mtln

/-- Node `k` of the subdivision of the segment from `a` to `b` in `d` cells. -/
noncomputable def segNode (a b : V3) (d k : ℕ) : V3 := fun j => a j + k * ((b j - a j) / d)

/-- One cell of that subdivision. -/
noncomputable def segCell (a b : V3) (d : ℕ) : V3 := fun j => (b j - a j) / d

theorem meshInner_ok (M i d : ℕ) (a b : V3) (fuel : ℕ) : ∀ (k : ℕ) (mem : MeshMem), i * d + k + fuel ≤ M →
    ∃ mem', meshInner M i d a b k fuel mem = .ok mem' ∧
      (∀ x, mem'.u x = if i * d + k ≤ x ∧ x < i * d + k + fuel then some (segNode a b d (x - i * d))
        else mem.u x) ∧
      (∀ x, mem'.du x = if i * d + k ≤ x ∧ x < i * d + k + fuel then some (segCell a b d)
        else mem.du x) := by
  induction fuel with
  | zero =>
    intro k mem _
    refine ⟨mem, rfl, fun x => ?_, fun x => ?_⟩ <;> rw [if_neg (by omega)]
  | succ fuel ih =>
    intro k mem h
    obtain ⟨mem', h1, h2, h3⟩ := ih (k + 1)
      ⟨Function.update mem.u (i * d + k) (some (segNode a b d k)),
        Function.update mem.du (i * d + k) (some (segCell a b d))⟩ (by omega)
    simp only at h2 h3
    refine ⟨mem', ?_, ?_, ?_⟩
    · unfold meshInner
      refine bind_ok_iff.2 ⟨_, ?_, h1⟩
      unfold MeshMem.write
      rw [if_pos (by omega)]
      rfl
    · intro x
      rw [h2]
      rcases Nat.lt_trichotomy x (i * d + k) with hx | hx | hx
      · rw [if_neg (by omega), if_neg (by omega), Function.update_of_ne (by omega)]
      · subst hx
        rw [if_neg (by omega), if_pos (by omega), Function.update_self]
        congr 2; omega
      · by_cases hlt : x < i * d + k + (fuel + 1)
        · rw [if_pos (by omega), if_pos (by omega)]
        · rw [if_neg (by omega), if_neg (by omega), Function.update_of_ne (by omega)]
    · intro x
      rw [h3]
      rcases Nat.lt_trichotomy x (i * d + k) with hx | hx | hx
      · rw [if_neg (by omega), if_neg (by omega), Function.update_of_ne (by omega)]
      · subst hx
        rw [if_neg (by omega), if_pos (by omega), Function.update_self]
      · by_cases hlt : x < i * d + k + (fuel + 1)
        · rw [if_pos (by omega), if_pos (by omega)]
        · rw [if_neg (by omega), if_neg (by omega), Function.update_of_ne (by omega)]

theorem meshOuter_equal (M d : ℕ) (hd : 0 < d) (pos : ℕ → V3) (ds : List ℕ) (hds : ∀ x ∈ ds, x = d) :
    ∀ (i : ℕ) (mem : MeshMem), (i + ds.length) * d ≤ M →
    ∃ mem', meshOuter M pos i ds mem = .ok mem' ∧
      (∀ x, mem'.u x = if i * d ≤ x ∧ x < (i + ds.length) * d then
        some (segNode (pos (x / d)) (pos (x / d + 1)) d (x % d)) else mem.u x) ∧
      (∀ x, mem'.du x = if i * d ≤ x ∧ x < (i + ds.length) * d then
        some (segCell (pos (x / d)) (pos (x / d + 1)) d) else mem.du x) := by
  induction ds with
  | nil =>
    intro i mem _
    refine ⟨mem, rfl, fun x => ?_, fun x => ?_⟩ <;> rw [if_neg (by simp)]
  | cons y ds ih =>
    intro i mem h
    obtain rfl : y = d := hds y (by simp)
    simp only [List.length_cons] at h
    have e1 : (i + (ds.length + 1)) * y = i * y + y + ds.length * y := by ring
    obtain ⟨m1, a1, a2, a3⟩ := meshInner_ok M i y (pos i) (pos (i + 1)) y 0 mem (by
      rw [e1] at h
      omega)
    obtain ⟨m2, b1, b2, b3⟩ := ih (fun x hx => hds x (by simp [hx])) (i + 1) m1 (by
      have : (i + 1 + ds.length) * y = (i + (ds.length + 1)) * y := by ring
      omega)
    have hdiv : ∀ x, i * y ≤ x → x < i * y + y → x / y = i ∧ x % y = x - i * y := by
      intro x h1 h2
      have hdiv : x / y = i := by
        rw [Nat.div_eq_iff hd]
        constructor
        · rw [mul_comm] at h1; linarith
        · have : y * i = i * y := mul_comm _ _
          omega
      refine ⟨hdiv, ?_⟩
      have := Nat.div_add_mod x y
      rw [hdiv, mul_comm] at this
      omega
    have e2 : (i + 1) * y = i * y + y := by ring
    have e3 : (i + 1 + ds.length) * y = i * y + y + ds.length * y := by ring
    refine ⟨m2, ?_, ?_, ?_⟩
    · unfold meshOuter
      exact bind_ok_iff.2 ⟨m1, a1, b1⟩
    · intro x
      rw [b2, a2]
      simp only [List.length_cons, e1, e2, e3]
      by_cases c1 : i * y + y ≤ x ∧ x < i * y + y + ds.length * y
      · rw [if_pos c1, if_pos (by omega)]
      · rw [if_neg c1]
        by_cases c2 : i * y ≤ x ∧ x < i * y + y
        · obtain ⟨q1, q2⟩ := hdiv x c2.1 c2.2
          rw [if_pos (by omega), if_pos (by omega), q1, q2]
        · rw [if_neg (by omega), if_neg (by omega)]
    · intro x
      rw [b3, a3]
      simp only [List.length_cons, e1, e2, e3]
      by_cases c1 : i * y + y ≤ x ∧ x < i * y + y + ds.length * y
      · rw [if_pos c1, if_pos (by omega)]
      · rw [if_neg c1]
        by_cases c2 : i * y ≤ x ∧ x < i * y + y
        · obtain ⟨q1, q2⟩ := hdiv x c2.1 c2.2
          rw [if_pos (by omega), if_pos (by omega), q1]
        · rw [if_neg (by omega), if_neg (by omega)]

/-- The mesh of equally divided segments. -/
theorem buildMesh_equal {pos : List V3} {ndiv : List ℕ} {d : ℕ} (hd : 0 < d) (hds : ∀ x ∈ ndiv, x = d)
    (hlen : pos.length = ndiv.length + 1) :
    ∃ mem, buildMesh pos ndiv = .ok mem ∧
      (∀ x < ndiv.sum, mem.u x = some (segNode (pos.getD (x / d) 0) (pos.getD (x / d + 1) 0) d (x % d))) ∧
      mem.u ndiv.sum = some (pos.getD ndiv.length 0) ∧
      (∀ x < ndiv.sum, mem.du x = some (segCell (pos.getD (x / d) 0) (pos.getD (x / d + 1) 0) d)) := by
  have hsum : ndiv.sum = ndiv.length * d := by
    rw [List.eq_replicate_of_mem hds, List.sum_replicate, List.length_replicate, smul_eq_mul]
  obtain ⟨mem, h1, h2, h3⟩ := meshOuter_equal ndiv.sum d hd (fun k => pos.getD k 0) ndiv hds 0 MeshMem.init
    (by rw [hsum]; simp)
  refine ⟨{ mem with u := Function.update mem.u ndiv.sum (some (pos.getD ndiv.length 0)) }, ?_, ?_, ?_, ?_⟩
  · unfold buildMesh
    exact bind_ok_iff.2 ⟨(), pyAssert_ok_iff.2 hlen, bind_ok_iff.2 ⟨mem, h1, rfl⟩⟩
  · intro x hx
    simp only
    rw [Function.update_of_ne (by omega), h2, if_pos]
    rw [hsum] at hx
    simpa using hx
  · simp
  · intro x hx
    simp only
    rw [h3, if_pos]
    rw [hsum] at hx
    simpa using hx

/-- Equally divided segments give a contiguous mesh. -/
theorem subdivides_of_equal {pos : List V3} {ndiv : List ℕ} {d : ℕ} (hd : 0 < d) (hds : ∀ x ∈ ndiv, x = d)
    {mem : MeshMem}
    (hu : ∀ x < ndiv.sum, mem.u x = some (segNode (pos.getD (x / d) 0) (pos.getD (x / d + 1) 0) d (x % d)))
    (hlast : mem.u ndiv.sum = some (pos.getD ndiv.length 0))
    (hdu : ∀ x < ndiv.sum, mem.du x = some (segCell (pos.getD (x / d) 0) (pos.getD (x / d + 1) 0) d)) :
    Subdivides (fun k => pos.getD k 0) ndiv ndiv.sum (fun k => (mem.u k).getD 0)
      (fun k => (mem.du k).getD 0) := by
  have hd0 : (d : ℝ) ≠ 0 := by exact_mod_cast hd.ne'
  have hrep : ndiv = List.replicate ndiv.length d := List.eq_replicate_of_mem hds
  have hsum : ndiv.sum = ndiv.length * d := by
    rw [List.eq_replicate_of_mem hds, List.sum_replicate, List.length_replicate, smul_eq_mul]
  have htake : ∀ i ≤ ndiv.length, (ndiv.take i).sum = i * d := by
    intro i hi
    rw [hrep, List.take_replicate, List.sum_replicate, smul_eq_mul, Nat.min_eq_left hi]
  -- node values, including the multiples of `d`
  have hnode : ∀ i ≤ ndiv.length, (mem.u (i * d)).getD 0 = pos.getD i 0 := by
    intro i hi
    rcases hi.lt_or_eq with h | h
    · have : i * d < ndiv.sum := by rw [hsum]; exact Nat.mul_lt_mul_of_pos_right h hd
      rw [hu _ this, Option.getD_some, Nat.mul_div_cancel _ hd, Nat.mul_mod_left]
      funext j
      simp [segNode]
    · subst h
      rw [← hsum, hlast, Option.getD_some]
  constructor
  · rfl
  · have := hnode 0 (Nat.zero_le _)
    simpa using this
  · simp only [hlast, Option.getD_some]
  · intro k hk
    have hq := Nat.div_add_mod k d
    have hr := Nat.mod_lt k hd
    have hqlt : k / d < ndiv.length := by
      rw [Nat.div_lt_iff_lt_mul hd, ← hsum]; exact hk
    simp only [hu k hk, hdu k hk, Option.getD_some]
    by_cases hc : k % d + 1 < d
    · have hk1 : k + 1 < ndiv.sum := by
        have : d * (k / d + 1) ≤ d * ndiv.length := Nat.mul_le_mul_left d hqlt
        rw [hsum, mul_comm ndiv.length]
        rw [Nat.mul_add] at this
        omega
      have e1 : (k + 1) / d = k / d := by
        rw [Nat.div_eq_iff hd]
        have : d * (k / d) = k / d * d := mul_comm _ _
        constructor <;> omega
      have e2 : (k + 1) % d = k % d + 1 := by
        have := Nat.div_add_mod (k + 1) d
        rw [e1] at this
        omega
      rw [hu _ hk1, Option.getD_some, e1, e2]
      funext j
      simp only [segNode, segCell, Pi.add_apply]
      push_cast
      ring
    · have e3 : k + 1 = (k / d + 1) * d := by
        have : (k / d + 1) * d = d * (k / d) + d := by ring
        omega
      rw [e3, hnode _ (by omega)]
      have e4 : k % d = d - 1 := by omega
      funext j
      simp only [segNode, segCell, Pi.add_apply, e4]
      rw [Nat.cast_sub hd]
      push_cast
      field_simp
      ring
  · intro i hi
    rw [htake i hi]
    exact hnode i hi
  · intro i hi k hk j
    have e : ndiv[i] = d := hds _ (List.getElem_mem hi)
    rw [e] at hk ⊢
    rw [htake i hi.le]
    have hlt : i * d + k < ndiv.sum := by
      have : (i + 1) * d ≤ ndiv.length * d := Nat.mul_le_mul_right d hi
      rw [hsum]
      have e2 : (i + 1) * d = i * d + d := by ring
      omega
    have e5 : (i * d + k) / d = i := by
      rw [Nat.div_eq_iff hd]
      constructor <;> omega
    simp only [hdu _ hlt, Option.getD_some, e5, segCell]

end Mtln
