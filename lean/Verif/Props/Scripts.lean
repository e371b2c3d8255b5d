import Verif.Model.Scripts
import Verif.Props.VectorFit
import Mathlib.Algebra.Polynomial.Roots

/-! # The scripts of the vector fits: C176, and the functions of the parser that nothing calls: C177 -/

namespace Mtln.VF

open Complex Polynomial

/-! ## C176: files -/

/-- The scattering matrix of `n` ports in a line of a touchstone file with real and imaginary parts: after the frequency come
the rows, one after the other. -/
def ofTouchstone (n : ℕ) (row : List ℝ) (i j : Fin n) : ℂ :=
  ⟨row.getD (1 + 2 * (n * i + j)) 0, row.getD (2 + 2 * (n * i + j)) 0⟩

/-- **C176** A line of the file of four ports has the frequency and sixteen complex numbers, which are the diagonal matrix of the
four impedances. -/
theorem C176_four (fq : ℝ) (a b c d : ℂ) : (fourPortRow fq a b c d).length = 1 + 2 * (4 * 4) ∧
    (fourPortRow fq a b c d).head? = some fq ∧
    ofTouchstone 4 (fourPortRow fq a b c d) = fun i j => if i = j then ![a, b, c, d] i else 0 := by
  refine ⟨rfl, rfl, ?_⟩
  funext i j
  fin_cases i <;> fin_cases j <;> rfl

/-- **C176** A line of the file of one port. -/
theorem C176_one (fq : ℝ) (e : ℂ) : (onePortRow e fq).length = 1 + 2 * (1 * 1) ∧ (onePortRow e fq).head? = some fq ∧
    ofTouchstone 1 (onePortRow e fq) = fun _ _ => e := by
  refine ⟨rfl, rfl, ?_⟩
  funext i j
  fin_cases i; fin_cases j; rfl

/-- **C176** The lines of the file, for four lists: line `k` has the `k`-th frequency and, on its diagonal, the `k`-th entries of the lists in
their order; there are as many lines as the shortest list has entries. -/
theorem C176_lines : ∀ (as bs cs ds : List ℂ) (fqs : List ℝ),
    (fourPortFile as bs cs ds fqs).length = min as.length (min bs.length (min cs.length (min ds.length fqs.length))) ∧
    ∀ (k : ℕ) (row : List ℝ), (fourPortFile as bs cs ds fqs)[k]? = some row ↔ ∃ a b c d f, as[k]? = some a ∧ bs[k]? = some b ∧
      cs[k]? = some c ∧ ds[k]? = some d ∧ fqs[k]? = some f ∧ row = fourPortRow f a b c d
  | [], _, _, _, _ => by simp [fourPortFile]
  | _ :: _, [], _, _, _ => by simp [fourPortFile]
  | _ :: _, _ :: _, [], _, _ => by simp [fourPortFile]
  | _ :: _, _ :: _, _ :: _, [], _ => by simp [fourPortFile]
  | _ :: _, _ :: _, _ :: _, _ :: _, [] => by simp [fourPortFile]
  | a :: as, b :: bs, c :: cs, d :: ds, f :: fqs => by
    obtain ⟨h1, h2⟩ := C176_lines as bs cs ds fqs
    rw [fourPortFile]
    refine ⟨?_, ?_⟩
    · simp only [List.length_cons, h1]
      omega
    · rintro (_ | k) row
      · simp [eq_comm]
      · simpa using h2 k row

theorem fourPortFile_same (g : ℝ → ℂ) : ∀ l : List ℝ, fourPortFile (l.map g) (l.map g) (l.map g) (l.map g) l =
    l.map fun f => fourPortRow f (g f) (g f) (g f) (g f)
  | [] => rfl
  | f :: l => by rw [List.map_cons, List.map_cons, fourPortFile, fourPortFile_same g l]

theorem logspace_pos (a b : ℝ) (n i : ℕ) : 0 < logspace a b n i := Real.rpow_pos_of_pos (by norm_num) _

theorem mapPy_all {α β : Type} {f : α → Py β} {g : α → β} {l : List α} (h : ∀ a ∈ l, f a = .ok (g a)) : mapPy f l = .ok (l.map g) := by
  induction l with
  | nil => rfl
  | cons a l ih =>
    rw [mapPy_ok_iff]
    rw [mapPy_ok_iff] at ih
    exact .cons (h a List.mem_cons_self) (ih fun b hb => h b (List.mem_cons_of_mem _ hb))

/-- **C176** The file of VF_z.py: 500 lines with frequencies from 100 kHz to 10 MHz, each with the admittance of 10 Ω and 10 nH in
series at that frequency on the diagonal. -/
theorem C176_z : ∃ l, zFile = .ok l ∧ l = (freqs 5 7 500).map (fun f =>
      fourPortRow f (1 / (10 + I * omega f * 10 ^ (-8 : ℤ))) (1 / (10 + I * omega f * 10 ^ (-8 : ℤ)))
        (1 / (10 + I * omega f * 10 ^ (-8 : ℤ))) (1 / (10 + I * omega f * 10 ^ (-8 : ℤ)))) ∧
    l.length = 500 ∧ (freqs 5 7 500).head? = some (10 ^ 5) ∧ (freqs 5 7 500).getLast? = some (10 ^ 7) := by
  have hz : mapPy (fun f => Y_RLseriesDisp f 10 (10 ^ (-8 : ℤ)) 1) (freqs 5 7 500) =
      .ok ((freqs 5 7 500).map fun f => 1 / (10 + I * omega f * 10 ^ (-8 : ℤ))) := by
    refine mapPy_all fun f hf => ?_
    obtain ⟨i, -, rfl⟩ := List.mem_map.1 hf
    have h := C105_RL_series (logspace 5 7 500 i) 10 (10 ^ (-8 : ℤ)) (logspace_pos _ _ _ _).le
    rw [C105_RL_admittance, h]
    have hne : (((10 : ℝ) : ℂ) + I * omega (logspace 5 7 500 i) * ((10 ^ (-8 : ℤ) : ℝ) : ℂ)) ≠ 0 := fun e => by
      have := congrArg Complex.re e
      rw [Complex.add_re, mul_assoc, Complex.I_mul_re, ← Complex.ofReal_mul, Complex.ofReal_im, Complex.ofReal_re] at this
      norm_num at this
    simp only [bind, Except.bind, div, if_neg hne]
    push_cast
    rfl
  refine ⟨_, ?_, rfl, ?_, ?_, ?_⟩
  · unfold zFile
    rw [hz]
    exact congrArg Except.ok (fourPortFile_same _ _)
  · simp [freqs]
  · rw [freqs, List.head?_map, List.head?_range, if_neg (by norm_num), Option.map_some, logspace]
    norm_num [← Real.rpow_natCast]
  · simp [freqs, logspace, List.getLast?_range]
    norm_num [← Real.rpow_natCast]

/-! ## C176: parameters from the fit -/

/-- A sum of partial fractions that vanishes at infinitely many points is zero. -/
theorem fractions_zero {S : Finset ℂ} {a : ℂ → ℂ} {c : ℂ} {T : Set ℂ} (hT : T.Infinite) (hd : ∀ s ∈ T, s ∉ S)
    (h : ∀ s ∈ T, c + ∑ x ∈ S, a x / (s - x) = 0) : c = 0 ∧ ∀ x ∈ S, a x = 0 := by
  classical
  obtain ⟨Q, hQ⟩ : ∃ Q : ℂ[X], Q = C c * ∏ x ∈ S, (X - C x) + ∑ x ∈ S, C (a x) * ∏ y ∈ S.erase x, (X - C y) := ⟨_, rfl⟩
  have hev : ∀ s, Q.eval s = c * ∏ x ∈ S, (s - x) + ∑ x ∈ S, a x * ∏ y ∈ S.erase x, (s - y) := by
    intro s
    rw [hQ]
    simp [eval_finsetSum, eval_prod]
  have hz : Q = 0 := by
    refine eq_zero_of_infinite_isRoot _ (hT.mono fun s hs => ?_)
    show Q.eval s = 0
    have hne : ∀ x ∈ S, s - x ≠ 0 := fun x hx e => hd s hs (by rw [sub_eq_zero.1 e]; exact hx)
    have : Q.eval s = (∏ x ∈ S, (s - x)) * (c + ∑ x ∈ S, a x / (s - x)) := by
      rw [hev, mul_add, Finset.mul_sum, mul_comm c]
      congr 1
      refine Finset.sum_congr rfl fun x hx => ?_
      rw [← Finset.mul_prod_erase S _ hx]
      have := hne x hx
      field_simp
    rw [this, h s hs, mul_zero]
  have ha : ∀ x ∈ S, a x = 0 := by
    intro x hx
    have h0 := hev x
    rw [hz, eval_zero, Finset.prod_eq_zero hx (sub_self x), mul_zero, zero_add, Finset.sum_eq_single x] at h0
    · rcases mul_eq_zero.1 h0.symm with h1 | h1
      · exact h1
      · obtain ⟨y, hy, e⟩ := Finset.prod_eq_zero_iff.1 h1
        exact absurd (sub_eq_zero.1 e).symm (Finset.ne_of_mem_erase hy)
    · intro y hy hyx
      rw [Finset.prod_eq_zero (Finset.mem_erase.2 ⟨Ne.symm hyx, hx⟩) (sub_self x), mul_zero]
    · exact fun h => absurd hx h
  refine ⟨?_, ha⟩
  have : Q = C c * ∏ x ∈ S, (X - C x) := by
    rw [hQ, Finset.sum_eq_zero fun x hx => by rw [ha x hx, C_0, zero_mul], add_zero]
  rw [hz] at this
  rcases mul_eq_zero.1 this.symm with h1 | h1
  · exact C_eq_zero.1 h1
  · exact absurd h1 (monic_prod_of_monic _ _ fun x _ => monic_X_sub_C x).ne_zero

/-- The coefficient of a pole. -/
noncomputable def coefficient (p r : List ℂ) (x : ℂ) : ℂ := open Classical in ((r.zip p).map fun rp => if rp.2 = x then rp.1 else 0).sum

theorem sum_fractions (S : Finset ℂ) (s : ℂ) : ∀ p r : List ℂ, (∀ x ∈ p, x ∈ S) →
    ((r.zip p).map fun rp => rp.1 / (s - rp.2)).sum = ∑ x ∈ S, coefficient p r x / (s - x)
  | [], r, _ => by simp [coefficient]
  | x :: p, [], _ => by simp [coefficient]
  | x :: p, a :: r, h => by
    classical
    have ih := sum_fractions S s p r fun y hy => h y (List.mem_cons_of_mem _ hy)
    simp only [coefficient, List.zip_cons_cons, List.map_cons, List.sum_cons] at ih ⊢
    rw [ih]
    simp only [add_div, Finset.sum_add_distrib, ite_div, zero_div]
    rw [Finset.sum_ite_eq, if_pos (h x List.mem_cons_self)]

theorem coefficient_other {p r : List ℂ} {x : ℂ} (h : x ∉ p) : coefficient p r x = 0 := by
  classical
  unfold coefficient
  rw [List.sum_eq_zero]
  intro y hy
  obtain ⟨rp, hrp, rfl⟩ := List.mem_map.1 hy
  rw [if_neg fun e => h (by rw [← e]; exact (List.of_mem_zip hrp).2)]

theorem coefficient_of : ∀ {p r : List ℂ} {a x : ℂ}, p.Nodup → (a, x) ∈ r.zip p → coefficient p r x = a
  | [], _, _, _, _, h => by simp at h
  | _ :: _, [], _, _, _, h => by simp at h
  | y :: p, b :: r, a, x, hn, h => by
    classical
    rw [List.nodup_cons] at hn
    simp only [List.zip_cons_cons, List.mem_cons, Prod.mk.injEq] at h
    have e : coefficient (y :: p) (b :: r) x = (if y = x then b else 0) + coefficient p r x := by
      simp [coefficient]
    rw [e]
    rcases h with ⟨rfl, rfl⟩ | h
    · rw [if_pos rfl, coefficient_other hn.1, add_zero]
    · have hx := (List.of_mem_zip h).2
      rw [if_neg fun e => hn.1 (by rw [e]; exact hx), zero_add, coefficient_of hn.2 h]

/-- The sum of `vf` as a sum over pairs. -/
theorem vf_pairs (f : ℝ) (p r : List ℂ) (h : Off f p) (hr : p.length = r.length) :
    vf f p r = .ok (((r.zip p).map fun rp => rp.1 / (2 * Real.pi * I * f - rp.2)).sum) := by
  rw [C109_sum f p r h hr.le, ← List.sum_ofFn]
  congr 2
  refine List.ext_getElem (by simp [hr]) fun i h1 h2 => ?_
  simp

theorem off_outside {p : List ℂ} (hp : ∀ x ∈ p, x.re ≠ 0) (f : ℝ) : Off f p := fun x hx e => by
  refine hp x hx ?_
  rw [← sub_eq_zero.1 e]
  simp

/-- **C176** If a fit with distinct poles outside of the imaginary axis has, at infinitely many frequencies, the values of a
Debye medium with distinct times, then its constant is 1, every pole with a residue is printed as one of the times, with its
strength, and all of these are printed. -/
theorem C176_recovered {k tau : List ℝ} {poles residues : List ℂ} {c : ℂ} {F : Set ℝ} (hF : F.Infinite) (hk : k.length = tau.length)
    (ht : ∀ t ∈ tau, t ≠ 0) (htn : tau.Nodup) (hk0 : ∀ x ∈ k, x ≠ 0) (hp : ∀ x ∈ poles, x.re ≠ 0) (hpn : poles.Nodup)
    (hl : residues.length = poles.length)
    (h : ∀ f ∈ F, ∃ y, vf f poles residues = .ok y ∧ epsDebye f k tau = .ok (c + y)) :
    c = 1 ∧ ∃ T K, printedTau poles = .ok T ∧ printedK poles residues = .ok K ∧
      (∀ x ∈ (T.zip K), x.2 ≠ 0 → ∃ y ∈ tau.zip k, x = ((y.1 : ℂ), (y.2 : ℂ))) ∧ ∀ y ∈ tau.zip k, ((y.1 : ℂ), (y.2 : ℂ)) ∈ T.zip K := by
  classical
  obtain ⟨p', hp'⟩ : ∃ p' : List ℂ, p' = tau.map fun t : ℝ => -1 / (t : ℂ) := ⟨_, rfl⟩
  obtain ⟨r', hr'⟩ : ∃ r' : List ℂ, r' = (k.zip tau).map fun kt => (kt.1 : ℂ) / kt.2 := ⟨_, rfl⟩
  have hlen : p'.length = r'.length := by rw [hp', hr']; simp [hk]
  have hp're : ∀ x ∈ p', x.re ≠ 0 := by
    intro x hx
    rw [hp'] at hx
    obtain ⟨t, ht', rfl⟩ := List.mem_map.1 hx
    have e : (-1 / (t : ℂ)) = ((-1 / t : ℝ) : ℂ) := by push_cast; rfl
    rw [e, Complex.ofReal_re]
    exact div_ne_zero (by norm_num) (ht t ht')
  have hp'n : p'.Nodup := by
    rw [hp']
    refine htn.map_on fun a ha b hb e => ?_
    have ha' : (a : ℂ) ≠ 0 := by exact_mod_cast ht a ha
    have hb' : (b : ℂ) ≠ 0 := by exact_mod_cast ht b hb
    rw [div_eq_div_iff ha' hb'] at e
    have : (a : ℂ) = b := by linear_combination e
    exact_mod_cast this
  have hpairs : r'.zip p' = (k.zip tau).map fun kt => ((kt.1 : ℂ) / kt.2, -1 / (kt.2 : ℂ)) := by
    rw [hr', hp']
    refine List.ext_getElem (by simp [hk]) fun i h1 h2 => ?_
    simp
  obtain ⟨S, hS⟩ : ∃ S : Finset ℂ, S = poles.toFinset ∪ p'.toFinset := ⟨_, rfl⟩
  have hSre : ∀ x ∈ S, x.re ≠ 0 := by
    intro x hx
    rw [hS, Finset.mem_union, List.mem_toFinset, List.mem_toFinset] at hx
    exact hx.elim (hp x) (hp're x)
  have hzero := fractions_zero (S := S) (a := fun x => coefficient poles residues x - coefficient p' r' x) (c := c - 1)
    (T := (fun f : ℝ => 2 * Real.pi * I * (f : ℂ)) '' F) (hF.image fun f _ g _ e => by
      have hne : (2 * Real.pi * I : ℂ) ≠ 0 := by simp [Real.pi_ne_zero]
      have := mul_left_cancel₀ hne e
      exact_mod_cast this) (by
      rintro _ ⟨f, -, rfl⟩ hx
      exact hSre _ hx (by simp)) (by
      rintro _ ⟨f, hf, rfl⟩
      obtain ⟨y, h1, h2⟩ := h f hf
      obtain ⟨y', h3, h4⟩ := C106_rational f k tau hk ht
      rw [← hp', ← hr', vf_pairs f p' r' (off_outside hp're f) hlen,
        sum_fractions S _ p' r' fun x hx => by rw [hS]; simp [hx]] at h3
      rw [vf_pairs f poles residues (off_outside hp f) hl.symm,
        sum_fractions S _ poles residues fun x hx => by rw [hS]; simp [hx]] at h1
      rw [h4] at h2
      have e1 := Except.ok.inj h1
      have e2 := Except.ok.inj h2
      have e3 := Except.ok.inj h3
      simp only [sub_div, Finset.sum_sub_distrib]
      rw [e1, e3]
      linear_combination -e2)
  have hco : ∀ x, coefficient poles residues x = coefficient p' r' x := by
    intro x
    by_cases hx : x ∈ S
    · exact sub_eq_zero.1 (hzero.2 x hx)
    · rw [hS, Finset.mem_union, List.mem_toFinset, List.mem_toFinset, not_or] at hx
      rw [coefficient_other hx.1, coefficient_other hx.2]
  have hp0 : ∀ x ∈ poles, x ≠ 0 := fun x hx e => hp x hx (by rw [e]; rfl)
  have hT : printedTau poles = .ok (poles.map fun x => -1 / x) := mapPy_all fun x hx => by
    unfold div
    rw [if_neg (hp0 x hx)]
  have hK : printedK poles residues = .ok ((residues.zip poles).map fun rp => -rp.1 / rp.2) := by
    unfold printedK
    rw [if_pos hl]
    refine mapPy_all fun rp hrp => ?_
    unfold div
    rw [if_neg (hp0 _ (List.of_mem_zip hrp).2)]
  have hTK : (poles.map fun x => -1 / x).zip ((residues.zip poles).map fun rp => -rp.1 / rp.2) =
      (residues.zip poles).map fun rp => (-1 / rp.2, -rp.1 / rp.2) := by
    refine List.ext_getElem (by simp) fun i h1 h2 => ?_
    simp
  have back : ∀ κ t : ℝ, t ≠ 0 → (-1 / (-1 / (t : ℂ)), -((κ : ℂ) / t) / (-1 / (t : ℂ))) = ((t : ℂ), (κ : ℂ)) := by
    intro κ t h0
    have h0 : (t : ℂ) ≠ 0 := by exact_mod_cast h0
    refine Prod.ext ?_ ?_
    · show -1 / (-1 / (t : ℂ)) = t
      field_simp
    · show -((κ : ℂ) / t) / (-1 / (t : ℂ)) = κ
      field_simp
  refine ⟨by linear_combination hzero.1, _, _, hT, hK, ?_, ?_⟩
  · rw [hTK]
    intro x hx hx2
    obtain ⟨⟨a, q⟩, haq, rfl⟩ := List.mem_map.1 hx
    have hq := coefficient_of hpn haq
    have ha : a ≠ 0 := fun e => hx2 (by simp [e])
    rw [hco] at hq
    have hqm : q ∈ p' := by
      by_contra hq'
      rw [coefficient_other hq'] at hq
      exact ha hq.symm
    have hr0 : ∃ a', (a', q) ∈ r'.zip p' := by
      obtain ⟨i, hi, e⟩ := List.getElem_of_mem hqm
      exact ⟨r'[i], by rw [← e]; exact List.mem_iff_getElem.2 ⟨i, by simp [hlen ▸ hi, hi], by simp⟩⟩
    obtain ⟨a', ha'⟩ := hr0
    have := coefficient_of hp'n ha'
    rw [hq] at this
    rw [← this, hpairs] at ha'
    obtain ⟨⟨κ, t⟩, hkt, e⟩ := List.mem_map.1 ha'
    simp only [Prod.mk.injEq] at e
    refine ⟨(t, κ), ?_, ?_⟩
    · obtain ⟨i, hi, e⟩ := List.getElem_of_mem hkt
      exact List.mem_iff_getElem.2 ⟨i, by simpa [and_comm] using hi, by simpa [and_comm] using e⟩
    · simp only [← e.1, ← e.2]
      exact back κ t (ht t (List.of_mem_zip hkt).2)
  · rintro ⟨t, κ⟩ hy
    have hkt : (κ, t) ∈ k.zip tau := by
      obtain ⟨i, hi, e⟩ := List.getElem_of_mem hy
      exact List.mem_iff_getElem.2 ⟨i, by simpa [and_comm] using hi, by simpa [and_comm] using e⟩
    have ht0 := ht t (List.of_mem_zip hkt).2
    have hκ0 := hk0 κ (List.of_mem_zip hkt).1
    have hmem : ((κ : ℂ) / t, -1 / (t : ℂ)) ∈ r'.zip p' := by rw [hpairs]; exact List.mem_map.2 ⟨_, hkt, rfl⟩
    have hc := coefficient_of hp'n hmem
    rw [← hco] at hc
    have hne : (κ : ℂ) / t ≠ 0 := div_ne_zero (by exact_mod_cast hκ0) (by exact_mod_cast ht0)
    have hq : -1 / (t : ℂ) ∈ poles := by
      by_contra hq'
      rw [coefficient_other hq'] at hc
      exact hne hc.symm
    obtain ⟨i, hi, e⟩ := List.getElem_of_mem hq
    have hm : (residues[i]'(by omega), -1 / (t : ℂ)) ∈ residues.zip poles := by
      rw [← e]; exact List.mem_iff_getElem.2 ⟨i, by simp [hl, hi], by simp⟩
    have := coefficient_of hpn hm
    rw [hc] at this
    rw [← this] at hm
    rw [hTK]
    exact List.mem_map.2 ⟨_, hm, back κ t ht0⟩

/-- **C176** The medium of VF_eps.py meets the conditions, and with its poles and residues the script prints its parameters. -/
theorem C176_eps : (∀ u, ∃ l, epsFile u = .ok l ∧ l.length = 400 ∧ ∀ i < 400, ∃ e, epsDebye (logspace 1 12 400 i) epsK epsTau = .ok e ∧
      l[i]? = some [logspace 1 12 400 i, e.re, e.im]) ∧
    epsK.length = epsTau.length ∧ (∀ t ∈ epsTau, t ≠ 0) ∧ epsTau.Nodup ∧ (∀ x ∈ epsK, x ≠ 0) := by
  refine ⟨fun u => ?_, rfl, ?_, ?_, ?_⟩
  · have hall : ∀ f, ∃ e, epsDebye f epsK epsTau = .ok e := fun f => ⟨_, epsDebyeFrom_eq f 1 1 epsK epsTau le_rfl⟩
    choose e he using hall
    have hm : mapPy (fun f => epsDebyeErr f epsK epsTau 0 (u f)) (freqs 1 12 400) = .ok ((freqs 1 12 400).map e) :=
      mapPy_all fun f _ => by rw [C106_exact, he]
    refine ⟨List.zipWith onePortRow ((freqs 1 12 400).map e) (freqs 1 12 400), ?_, ?_, fun i hi => ⟨_, he _, ?_⟩⟩
    · unfold epsFile
      rw [hm]
      rfl
    · simp [freqs]
    · rw [List.getElem?_eq_getElem (by simp [freqs, hi])]
      simp [freqs, onePortRow]
  · simp [epsTau]
  · norm_num [epsTau]
  · norm_num [epsK]

/-- Non-vacuity of C176_recovered: a medium with one time, and a fit with a second pole that has no residue. -/
theorem C176_example : printedTau [-1, -2] = .ok [1, 1 / 2] ∧ printedK [-1, -2] [10, 0] = .ok [10, 0] ∧
    ∀ f : ℝ, ∃ y, vf f [-1, -2] [10, 0] = .ok y ∧ epsDebye f [10] [1] = .ok (1 + y) := by
  refine ⟨?_, ?_, fun f => ?_⟩
  · norm_num [printedTau, mapPy, div, bind, Except.bind]
  · norm_num [printedK, mapPy, div, bind, Except.bind]
  · refine ⟨_, vf_pairs f _ _ (off_outside (by simp) f) rfl, ?_⟩
    rw [epsDebye, epsDebyeFrom_eq f 1 1 [10] [1] le_rfl]
    simp [add_comm]

end Mtln.VF

namespace Mtln

/-- **C177** `_f` never returns what it collects: nothing if all entries are dictionaries, and otherwise Python's function
`input`. -/
theorem C177_f (l : List FVal) : (getF l = .nothing ↔ ∀ x ∈ l, ∃ d, x = .dict d) ∧ (getF l = .nothing ∨ getF l = .input) := by
  induction l with
  | nil => simp [getF]
  | cons x l ih =>
    cases x with
    | dict d => exact ⟨by simpa [getF] using ih.1, ih.2⟩
    | other => simp [getF]

/-- **C177** `_getNodesInJunction` returns the coordinates of the first junction of that name; it raises `Exception` if there is
none, and `KeyError` if a junction before it has no name or it has no coordinates. -/
theorem C177_junction (name : String) (l : List NamedJunction) (c : List ℤ) : nodesInJunction name l = .ok c ↔
    ∃ l₁ j l₂, l = l₁ ++ j :: l₂ ∧ j.name = some name ∧ j.coords = some c ∧ ∀ x ∈ l₁, ∃ s, x.name = some s ∧ s ≠ name := by
  induction l with
  | nil => simp [nodesInJunction]
  | cons j l ih =>
    constructor
    · intro h
      unfold nodesInJunction at h
      split at h
      · exact absurd h (by simp)
      · rename_i s hs
        split at h
        · rename_i hn
          split at h
          · exact absurd h (by simp)
          · rename_i c' hc
            exact ⟨[], j, l, rfl, by rw [hs, hn], by rw [hc, Except.ok.inj h], by simp⟩
        · rename_i hn
          obtain ⟨l₁, j', l₂, rfl, h1, h2, h3⟩ := ih.1 h
          exact ⟨j :: l₁, j', l₂, rfl, h1, h2, by
            intro x hx
            rcases List.mem_cons.1 hx with rfl | hx
            · exact ⟨s, hs, hn⟩
            · exact h3 x hx⟩
    · rintro ⟨l₁, j', l₂, e, h1, h2, h3⟩
      cases l₁ with
      | nil =>
        obtain ⟨rfl, rfl⟩ := List.cons.inj e
        unfold nodesInJunction
        simp [h1, h2]
      | cons x l₁ =>
        obtain ⟨rfl, rfl⟩ := List.cons.inj e
        obtain ⟨s, hs, hn⟩ := h3 j List.mem_cons_self
        unfold nodesInJunction
        simp only [hs, if_neg hn]
        exact ih.2 ⟨l₁, j', l₂, rfl, h1, h2, fun x hx => h3 x (List.mem_cons_of_mem _ hx)⟩

@[inherit_doc C177_junction]
theorem C177_unknown (name : String) (l : List NamedJunction) : nodesInJunction name l = .error .Exception ↔
    ∀ x ∈ l, ∃ s, x.name = some s ∧ s ≠ name := by
  induction l with
  | nil => simp [nodesInJunction]
  | cons j l ih =>
    unfold nodesInJunction
    rcases hs : j.name with _ | s
    · simp [hs]
    · by_cases hn : s = name
      · rcases hc : j.coords with _ | c <;> simp [hs, hn]
      · simp [hs, hn, ih]

@[inherit_doc C177_junction]
theorem C177_error (name : String) (l : List NamedJunction) (e : PyErr) (h : nodesInJunction name l = .error e) :
    e = .Exception ∨ e = .KeyError := by
  induction l with
  | nil => exact .inl (Except.error.inj h).symm
  | cons j l ih =>
    unfold nodesInJunction at h
    split at h
    · exact .inr (Except.error.inj h).symm
    · split at h
      · split at h
        · exact .inr (Except.error.inj h).symm
        · exact absurd h (by simp)
      · exact ih h

/-- **C177** `_getFields` needs a model and returns its section, or nothing. -/
theorem C177_fields {α : Type} (m : Option (Option (List α))) (l : List α) :
    getFields m = .ok l ↔ ∃ s, m = some s ∧ l = s.getD [] := by
  rcases m with _ | _ | s <;> simp [getFields, eq_comm]

/-- Non-vacuity of C177. -/
theorem C177_example : getF [.dict [("a", .other)], .other] = .input ∧ getF [.dict []] = .nothing ∧
    nodesInJunction "j2" [⟨some "j1", some [1, 2]⟩, ⟨some "j2", some [3, 4]⟩] = .ok [3, 4] ∧
    nodesInJunction "j3" [⟨some "j1", some [1, 2]⟩] = .error .Exception := by
  refine ⟨rfl, rfl, rfl, rfl⟩

end Mtln
