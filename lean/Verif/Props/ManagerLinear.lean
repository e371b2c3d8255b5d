import Verif.Lemmas.ManagerComb
import Verif.Props.ManagerDemo

/-! # Superposition and rest of whole networks: C62 -/

namespace Mtln

variable {p : ℕ}

theorem MTLN.CombReady.iterate {a b : ℝ} : ∀ {k : ℕ} {M₁ M₂ M₃ M₁' M₂' M₃' : MTLN p}, MTLN.CombReady a b M₁ M₂ M₃ →
    iterPy MTLN.step k M₁ = .ok M₁' → iterPy MTLN.step k M₂ = .ok M₂' → iterPy MTLN.step k M₃ = .ok M₃' →
    MTLN.CombReady a b M₁' M₂' M₃'
  | 0, _, _, _, _, _, _, h, h₁, h₂, h₃ => by
    simp only [iterPy, Except.ok.injEq] at h₁ h₂ h₃
    subst h₁; subst h₂; subst h₃
    exact h
  | k + 1, _, _, _, _, _, _, h, h₁, h₂, h₃ => by
    simp only [iterPy, bind_ok_iff] at h₁ h₂ h₃
    obtain ⟨N₁, e₁, f₁⟩ := h₁
    obtain ⟨N₂, e₂, f₂⟩ := h₂
    obtain ⟨N₃, e₃, f₃⟩ := h₃
    exact (h.step e₁ e₂ e₃).iterate f₁ f₂ f₃

/-- **C62**, superposition: three managers of the same hardware and clock; state and all excitations (sources in
networks, external fields on bundles and nodes) of the third are `a` times those of the first plus `b` times those of the
second.  Then the same holds after a run of any length, for all bundles and networks. -/
theorem C62_superposition (a b T dt : ℝ) (M₁ M₂ M₃ M₁' M₂' M₃' : MTLN p) (h : MTLN.Comb a b M₁ M₂ M₃)
    (h₁ : M₁.runUntil T dt = .ok M₁') (h₂ : M₂.runUntil T dt = .ok M₂') (h₃ : M₃.runUntil T dt = .ok M₃') :
    MTLN.Comb a b M₁' M₂' M₃' := by
  simp only [MTLN.runUntil, bind_ok_iff] at h₁ h₂ h₃
  obtain ⟨⟨k₁, N₁⟩, e₁, f₁⟩ := h₁
  obtain ⟨⟨k₂, N₂⟩, e₂, f₂⟩ := h₂
  obtain ⟨⟨k₃, N₃⟩, e₃, f₃⟩ := h₃
  obtain ⟨rfl, rfl, hc⟩ := h.start e₁ e₂ e₃
  exact (hc.iterate f₁ f₂ f₃).comb

theorem comb_zero_iff {M : MTLN p} : MTLN.Comb 0 0 M M M ↔ M.AtRest ∧ M.Unexcited := by
  have diag : ∀ {α : Type} {R : α → α → α → Prop} {l : List α}, All3 R l l l → ∀ a ∈ l, R a a a := by
    intro α R l
    induction l with
    | nil => simp
    | cons a l ih =>
      intro h b hb
      cases h with
      | cons h1 h2 =>
        rcases List.mem_cons.1 hb with rfl | hb
        · exact h1
        · exact ih h2 b hb
  constructor
  · intro h
    have hb : ∀ b ∈ M.bundles, MTLD.Comb 0 0 b.2 b.2 b.2 := by
      intro b hb
      have := diag h.bundles b hb
      obtain ⟨n, b⟩ := b
      cases this with
      | mk h => exact h
    have hn : ∀ nwd ∈ M.networks, ∀ e ∈ nwd, Network.Comb 0 0 e.2.2.2 e.2.2.2 e.2.2.2 := by
      intro nwd hnwd e he
      have := diag (diag h.networks nwd hnwd) e he
      obtain ⟨l, N, S, nw⟩ := e
      cases this with
      | mk h => exact h
    refine ⟨⟨?_, ?_⟩, ⟨?_, ?_⟩⟩
    · intro b hb'
      have h := hb b hb'
      exact ⟨fun k x => by simpa using h.v k x, fun k x => by simpa using h.i k x, fun k x σ => by simpa using h.phi k x σ⟩
    · intro nwd h1 e h2
      have h := hn nwd h1 e h2
      exact ⟨fun x => by simpa using h.v x, fun x => by simpa using h.vPrev x, fun x => by simpa using h.i x,
        fun x => by simpa using h.X x⟩
    · intro b hb'
      have h := hb b hb'
      exact ⟨fun k x t => by simpa using h.eL k x t, fun k x t => by simpa using h.eT k x t⟩
    · intro nwd h1 e h2
      have h := hn nwd h1 e h2
      exact ⟨fun x t => by simpa using h.vS x t, fun x t => by simpa using h.eT x t⟩
  · rintro ⟨hr, hu⟩
    refine ⟨rfl, rfl, rfl, rfl, All3.diag ?_, All3.diag fun nwd h1 => All3.diag ?_⟩
    · rintro ⟨n, b⟩ hb
      obtain ⟨v, i, phi⟩ := hr.bundles _ hb
      obtain ⟨eL, eT⟩ := hu.bundles _ hb
      have hw : b.SameHardware b := ⟨rfl, rfl, rfl, rfl, rfl, rfl, rfl, rfl, rfl⟩
      exact .mk ⟨hw, hw, fun k x => by simpa using v k x, fun k x => by simpa using i k x,
        fun k x σ => by simpa using phi k x σ, fun k x t => by simpa using eL k x t, fun k x t => by simpa using eT k x t⟩
    · rintro ⟨l, N, S, nw⟩ h2
      obtain ⟨v, vp, i, X⟩ := hr.networks _ h1 _ h2
      obtain ⟨vS, eT⟩ := hu.networks _ h1 _ h2
      have hw : nw.SameHardware nw := ⟨fun _ => rfl, fun _ => rfl, fun _ => rfl, fun _ => rfl, rfl, rfl, rfl, rfl, rfl, rfl,
        rfl, rfl, rfl, rfl⟩
      exact .mk ⟨hw, hw, fun x => by simpa using v x, fun x => by simpa using vp x, fun x => by simpa using i x,
        fun x => by simpa using X x, fun x t => by simpa using vS x t, fun x t => by simpa using eT x t⟩

/-- **C62**, quiescence: a network at rest without sources and fields stays at rest. -/
theorem C62_rest (T dt : ℝ) (M M' : MTLN p) (hr : M.AtRest) (hu : M.Unexcited) (h : M.runUntil T dt = .ok M') :
    M'.AtRest ∧ M'.Unexcited :=
  comb_zero_iff.1 (C62_superposition 0 0 T dt M M M M' M' M' (comb_zero_iff.2 ⟨hr, hu⟩) h h h)

/-- The demo manager with another source and an initial voltage in the middle of the line. -/
noncomputable def demoExcited (s v0 : ℝ) : MTLN 0 :=
  { bundles := [⟨1, { demoOne with v := fun k _ => if k = 1 then v0 else 0 }⟩]
    networks := [[(0, ⟨1, 0, { demoTerm with vSources := fun _ _ => s }⟩)]]
    dt := 1 }

theorem demoExcited_startable (s v0 : ℝ) : (demoExcited s v0).Startable 0 := by
  have h := demoManager_startable
  have hdt : (demoExcited s v0).runDt 0 = 1 := by rw [MTLN.runDt_eq, if_neg (by simp)]; rfl
  have hdt' : demoManager.runDt 0 = 1 := by rw [MTLN.runDt_eq, if_neg (by simp)]; rfl
  refine ⟨by rw [hdt]; norm_num, ?_, ?_, ?_⟩
  · intro b hb
    have : b = ⟨1, { demoOne with v := fun k _ => if k = 1 then v0 else 0 }⟩ := by
      simpa [MTLN.overrideDt, demoExcited] using hb
    subst this
    exact h.bundles ⟨1, demoOne⟩ (by simp [MTLN.overrideDt, demoManager])
  · intro nwd hnwd e he
    obtain rfl := List.mem_singleton.1 hnwd
    obtain rfl := List.mem_singleton.1 he
    rw [hdt]
    exact ⟨rfl, demoTerm_det one_pos⟩
  · intro d hd
    have : d = demoNode [] := by
      simpa [allNodes, demoExcited, demoTerm, demoNet, NetBuild.finish, demoNode] using hd
    subst this
    exact ⟨⟨1, _⟩, by simp [findBundle, demoExcited, demoOne, MTLD.single, demoNode]; rfl, by simp [demoNode], by
      show (2 : ℕ) ≠ 0; norm_num⟩

/-- Non-vacuity of C62, superposition: `2·x + 3·y` with `x` excited by a source and `y` by an initial voltage. -/
example (T : ℝ) : MTLN.Comb 2 3 (demoExcited 1 0) (demoExcited 0 1) (demoExcited 2 3) ∧
    (∃ M, (demoExcited 1 0).runUntil T 0 = .ok M) ∧ (∃ M, (demoExcited 0 1).runUntil T 0 = .ok M) ∧
    ∃ M, (demoExcited 2 3).runUntil T 0 = .ok M := by
  refine ⟨⟨rfl, rfl, rfl, rfl, .cons (.mk ?_) .nil, .cons (.cons (.mk ?_) .nil) .nil⟩,
    (demoExcited_startable _ _).run T, (demoExcited_startable _ _).run T, (demoExcited_startable _ _).run T⟩
  · refine ⟨⟨rfl, rfl, rfl, rfl, rfl, rfl, rfl, rfl, rfl⟩, ⟨rfl, rfl, rfl, rfl, rfl, rfl, rfl, rfl, rfl⟩, ?_, ?_, ?_, ?_, ?_⟩
    · intro k x; dsimp only; split <;> norm_num
    · intros; simp [demoOne, MTLD.single]
    · intro _ _ σ; exact σ.elim0
    all_goals intros; simp [demoOne, MTLD.single]
  · refine ⟨⟨fun _ => rfl, fun _ => rfl, fun _ => rfl, fun _ => rfl, rfl, rfl, rfl, rfl, rfl, rfl, rfl, rfl, rfl, rfl⟩,
      ⟨fun _ => rfl, fun _ => rfl, fun _ => rfl, fun _ => rfl, rfl, rfl, rfl, rfl, rfl, rfl, rfl, rfl, rfl, rfl⟩,
      ?_, ?_, ?_, ?_, ?_, ?_⟩
    all_goals intros; simp [demoTerm, demoNet, NetBuild.finish, demoNode]

/-- Non-vacuity of C62, rest. -/
example (T : ℝ) : (demoExcited 0 0).AtRest ∧ (demoExcited 0 0).Unexcited ∧
    ∃ M, (demoExcited 0 0).runUntil T 0 = .ok M := by
  obtain ⟨h1, h2⟩ : (demoExcited 0 0).AtRest ∧ (demoExcited 0 0).Unexcited := by
    refine ⟨⟨?_, ?_⟩, ⟨?_, ?_⟩⟩
    · intro b hb; obtain rfl := List.mem_singleton.1 hb; simp [demoOne, MTLD.single]
    · intro nwd hnwd e he
      obtain rfl := List.mem_singleton.1 hnwd
      obtain rfl := List.mem_singleton.1 he
      simp [demoTerm, demoNet, NetBuild.finish]
    · intro b hb; obtain rfl := List.mem_singleton.1 hb; simp [demoOne, MTLD.single]
    · intro nwd hnwd e he
      obtain rfl := List.mem_singleton.1 hnwd
      obtain rfl := List.mem_singleton.1 he
      simp [demoTerm, demoNet, NetBuild.finish, demoNode]
  exact ⟨h1, h2, (demoExcited_startable _ _).run T⟩

end Mtln
