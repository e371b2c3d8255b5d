import Verif.Props.ManagerRelax
import Verif.Props.LightCone

/-! # Managers with other states and related sources, and their superposition -/

namespace Mtln

open Matrix

variable {n p N S : ℕ}

/-- Bundles that differ in state, and in fields that are related. -/
def RedrivenBundle (ρ : (ℝ → ℝ) → (ℝ → ℝ) → Prop) (b b' : AnyBundle p) : Prop := ∃ v i phi eL eT,
  (∀ k x, ρ (b.2.eL k x) (eL k x)) ∧ (∀ k x, ρ (b.2.eT k x) (eT k x)) ∧
  b' = ⟨b.1, { b.2 with v := v, i := i, phi := phi, eL := eL, eT := eT }⟩

/-- The same for networks and their sources. -/
def RedrivenLevel (ρ : (ℝ → ℝ) → (ℝ → ℝ) → Prop) (e e' : ℕ × AnyNetwork) : Prop := ∃ v vPrev i X vS,
  ∃ eT : Fin e.2.1 → ℝ → ℝ, (∀ x, ρ (e.2.2.2.vSources x) (vS x)) ∧ (∀ x, ρ (e.2.2.2.nodes x).eT (eT x)) ∧
  e' = (e.1, ⟨e.2.1, e.2.2.1, { e.2.2.2 with
    v := v, vPrev := vPrev, i := i, X := X, vSources := vS, nodes := fun a => { e.2.2.2.nodes a with eT := eT a } }⟩)

/-- Managers with the same hardware and clock: the second has other voltages, currents and memories, and each of its sources and
fields is related by `ρ` to that of the first. -/
structure MTLN.Redriven (ρ : (ℝ → ℝ) → (ℝ → ℝ) → Prop) (M M' : MTLN p) : Prop where
  dt : M'.dt = M.dt
  time : M'.time = M.time
  bundles : List.Forall₂ (RedrivenBundle ρ) M.bundles M'.bundles
  networks : List.Forall₂ (List.Forall₂ (RedrivenLevel ρ)) M.networks M'.networks

section

variable {ρ ρ₁ ρ₂ ρ₃ : (ℝ → ℝ) → (ℝ → ℝ) → Prop} {M A B C : MTLN p}

theorem MTLN.Redriven.remade (h : M.Redriven ρ A) : M.Remade A :=
  ⟨h.dt, h.time, h.bundles.imp fun _ _ ⟨v, i, phi, eL, eT, _, _, e⟩ => ⟨v, i, phi, eL, eT, e⟩,
    h.networks.imp fun _ _ hl => hl.imp fun _ _ ⟨v, vP, i, X, vS, eT, _, _, e⟩ => ⟨v, vP, i, X, vS, eT, e⟩⟩

theorem MTLN.Redriven.imp (hρ : ∀ f g, ρ₁ f g → ρ₂ f g) (h : M.Redriven ρ₁ A) : M.Redriven ρ₂ A :=
  ⟨h.dt, h.time, h.bundles.imp fun _ _ ⟨v, i, phi, eL, eT, h1, h2, e⟩ =>
      ⟨v, i, phi, eL, eT, fun k x => hρ _ _ (h1 k x), fun k x => hρ _ _ (h2 k x), e⟩,
    h.networks.imp fun _ _ hl => hl.imp fun _ _ ⟨v, vP, i, X, vS, eT, h1, h2, e⟩ =>
      ⟨v, vP, i, X, vS, eT, fun x => hρ _ _ (h1 x), fun x => hρ _ _ (h2 x), e⟩⟩

theorem MTLN.Redriven.refl (M : MTLN p) : M.Redriven (fun f g => g = f) M :=
  ⟨rfl, rfl, List.forall₂_same.2 fun b _ => ⟨_, _, _, _, _, fun _ _ => rfl, fun _ _ => rfl, rfl⟩,
    List.forall₂_same.2 fun _ _ => List.forall₂_same.2 fun _ _ => ⟨_, _, _, _, _, _, fun _ => rfl, fun _ => rfl, rfl⟩⟩

theorem forall₂_comp {α : Type} {R R' R'' : α → α → Prop} (hR : ∀ a b c, R a b → R' b c → R'' a c) {l l' l'' : List α}
    (h : List.Forall₂ R l l') (h' : List.Forall₂ R' l' l'') : List.Forall₂ R'' l l'' := by
  induction h generalizing l'' with
  | nil => cases h'; exact .nil
  | cons hr _ ih =>
    cases h' with
    | cons hr' ht => exact .cons (hR _ _ _ hr hr') (ih ht)

theorem MTLN.Redriven.trans (hρ : ∀ f g h, ρ₁ f g → ρ₂ g h → ρ₃ f h) (h : M.Redriven ρ₁ A) (h' : A.Redriven ρ₂ B) : M.Redriven ρ₃ B := by
  refine ⟨h'.dt.trans h.dt, h'.time.trans h.time, forall₂_comp ?_ h.bundles h'.bundles,
    forall₂_comp (R := List.Forall₂ (RedrivenLevel ρ₁)) (R' := List.Forall₂ (RedrivenLevel ρ₂))
      (R'' := List.Forall₂ (RedrivenLevel ρ₃)) (fun _ _ _ g g' => forall₂_comp ?_ g g') h.networks h'.networks⟩
  · rintro a _ _ ⟨v, i, phi, eL, eT, h1, h2, rfl⟩ ⟨v', i', phi', eL', eT', h1', h2', rfl⟩
    exact ⟨v', i', phi', eL', eT', fun k x => hρ _ _ _ (h1 k x) (h1' k x), fun k x => hρ _ _ _ (h2 k x) (h2' k x), rfl⟩
  · rintro a _ _ ⟨v, vP, i, X, vS, eT, h1, h2, rfl⟩ ⟨v', vP', i', X', vS', eT', h1', h2', rfl⟩
    exact ⟨v', vP', i', X', vS', eT', fun x => hρ _ _ _ (h1 x) (h1' x), fun x => hρ _ _ _ (h2 x) (h2' x), rfl⟩

/-- With sources and fields given by a function of the old ones. -/
def MTLN.redrive (φ : (ℝ → ℝ) → ℝ → ℝ) (M : MTLN p) : MTLN p :=
  { M with
    bundles := M.bundles.map fun b => ⟨b.1, { b.2 with eL := fun k x => φ (b.2.eL k x), eT := fun k x => φ (b.2.eT k x) }⟩
    networks := M.networks.map fun nwd => nwd.map fun e => (e.1, ⟨e.2.1, e.2.2.1, { e.2.2.2 with
      vSources := fun x => φ (e.2.2.2.vSources x), nodes := fun a => { e.2.2.2.nodes a with eT := φ (e.2.2.2.nodes a).eT } }⟩) }

theorem MTLN.redriven (φ : (ℝ → ℝ) → ℝ → ℝ) (M : MTLN p) : M.Redriven (fun f g => g = φ f) (M.redrive φ) :=
  ⟨rfl, rfl, forall₂_map_of (fun _ => ⟨_, _, _, _, _, fun _ _ => rfl, fun _ _ => rfl, rfl⟩) _,
    forall₂_map_of (fun _ => forall₂_map_of (fun _ => ⟨_, _, _, _, _, _, fun _ => rfl, fun _ => rfl, rfl⟩) _) _⟩

theorem MTLN.Redriven.silent {t₀ : ℝ} (h : M.Redriven (fun _ g => ∀ t ≥ t₀, g t = 0) A) : A.SilentFrom t₀ := by
  refine ⟨fun b hb t ht => ?_, fun nwd hn e he t ht => ?_⟩
  · obtain ⟨b0, -, v, i, phi, eL, eT, h1, h2, rfl⟩ := forall₂_right_mem h.bundles b hb
    exact ⟨fun k x => h1 k x t ht, fun k x => h2 k x t ht⟩
  · obtain ⟨nwd0, -, hl⟩ := forall₂_right_mem h.networks nwd hn
    obtain ⟨e0, -, v, vP, i, X, vS, eT, h1, h2, rfl⟩ := forall₂_right_mem hl e he
    exact ⟨fun x => h1 x t ht, fun x => h2 x t ht⟩

/-! ## Superposition -/

theorem exists_all3 {α : Type} {R₁ R₂ R₄ : α → α → Prop} {R₃ : α → α → α → Prop}
    (h : ∀ n a b, R₁ n a → R₂ n b → ∃ c, R₃ a b c ∧ R₄ n c) {l l₁ l₂ : List α} (h₁ : List.Forall₂ R₁ l l₁)
    (h₂ : List.Forall₂ R₂ l l₂) : ∃ l₃, All3 R₃ l₁ l₂ l₃ ∧ List.Forall₂ R₄ l l₃ := by
  induction h₁ generalizing l₂ with
  | nil => cases h₂; exact ⟨[], .nil, .nil⟩
  | cons hr _ ih =>
    cases h₂ with
    | cons hr' ht =>
      obtain ⟨c, c1, c2⟩ := h _ _ _ hr hr'
      obtain ⟨l₃, e1, e2⟩ := ih ht
      exact ⟨c :: l₃, .cons c1 e1, .cons c2 e2⟩

theorem bundle_superposed {a b : ℝ} (hρ : ∀ f g h, ρ₁ f g → ρ₂ f h → ρ₃ f fun t => a * g t + b * h t) (n b₁ b₂ : AnyBundle p)
    (h₁ : RedrivenBundle ρ₁ n b₁) (h₂ : RedrivenBundle ρ₂ n b₂) : ∃ b₃, BundleComb a b b₁ b₂ b₃ ∧ RedrivenBundle ρ₃ n b₃ := by
  obtain ⟨v, i, phi, eL, eT, h1, h2, rfl⟩ := h₁
  obtain ⟨v', i', phi', eL', eT', h1', h2', rfl⟩ := h₂
  refine ⟨⟨n.1, { n.2 with
    v := fun k x => a * v k x + b * v' k x
    i := fun k x => a * i k x + b * i' k x
    phi := fun k x r => a * phi k x r + b * phi' k x r
    eL := fun k x t => a * eL k x t + b * eL' k x t
    eT := fun k x t => a * eT k x t + b * eT' k x t }⟩, .mk ⟨⟨rfl, rfl, rfl, rfl, rfl, rfl, rfl, rfl, rfl⟩,
      ⟨rfl, rfl, rfl, rfl, rfl, rfl, rfl, rfl, rfl⟩, fun _ _ => rfl, fun _ _ => rfl, fun _ _ _ => rfl, fun _ _ _ => rfl, fun _ _ _ => rfl⟩,
      _, _, _, _, _, fun k x => hρ _ _ _ (h1 k x) (h1' k x), fun k x => hρ _ _ _ (h2 k x) (h2' k x), rfl⟩

theorem level_superposed {a b : ℝ} (hρ : ∀ f g h, ρ₁ f g → ρ₂ f h → ρ₃ f fun t => a * g t + b * h t) (n e₁ e₂ : ℕ × AnyNetwork)
    (h₁ : RedrivenLevel ρ₁ n e₁) (h₂ : RedrivenLevel ρ₂ n e₂) : ∃ e₃, LevelComb a b e₁ e₂ e₃ ∧ RedrivenLevel ρ₃ n e₃ := by
  obtain ⟨v, vP, i, X, vS, eT, h1, h2, rfl⟩ := h₁
  obtain ⟨v', vP', i', X', vS', eT', h1', h2', rfl⟩ := h₂
  refine ⟨(n.1, ⟨n.2.1, n.2.2.1, { n.2.2.2 with
    v := fun x => a * v x + b * v' x
    vPrev := fun x => a * vP x + b * vP' x
    i := fun x => a * i x + b * i' x
    X := fun x => a * X x + b * X' x
    vSources := fun x t => a * vS x t + b * vS' x t
    nodes := fun x => { n.2.2.2.nodes x with eT := fun t => a * eT x t + b * eT' x t } }⟩), .mk ?_,
    _, _, _, _, _, _, fun x => hρ _ _ _ (h1 x) (h1' x), fun x => hρ _ _ _ (h2 x) (h2' x), rfl⟩
  exact ⟨⟨fun _ => rfl, fun _ => rfl, fun _ => rfl, fun _ => rfl, rfl, rfl, rfl, rfl, rfl, rfl, rfl, rfl, rfl, rfl⟩,
    ⟨fun _ => rfl, fun _ => rfl, fun _ => rfl, fun _ => rfl, rfl, rfl, rfl, rfl, rfl, rfl, rfl, rfl, rfl, rfl⟩,
    fun _ => rfl, fun _ => rfl, fun _ => rfl, fun _ => rfl, fun _ _ => rfl, fun _ _ => rfl⟩

/-- Any two states of a manager can be superposed. -/
theorem MTLN.Redriven.superposed {a b : ℝ} (hρ : ∀ f g h, ρ₁ f g → ρ₂ f h → ρ₃ f fun t => a * g t + b * h t)
    (h₁ : M.Redriven ρ₁ A) (h₂ : M.Redriven ρ₂ B) : ∃ C, MTLN.Comb a b A B C ∧ M.Redriven ρ₃ C := by
  obtain ⟨bs, e1, e2⟩ := exists_all3 (bundle_superposed hρ) h₁.bundles h₂.bundles
  obtain ⟨nws, f1, f2⟩ := exists_all3 (R₃ := All3 (LevelComb a b)) (R₄ := List.Forall₂ (RedrivenLevel ρ₃))
    (fun _ _ _ g₁ g₂ => exists_all3 (level_superposed hρ) g₁ g₂) h₁.networks h₂.networks
  exact ⟨{ M with bundles := bs, networks := nws }, ⟨h₂.dt.trans h₁.dt.symm, h₁.dt.symm, h₂.time.trans h₁.time.symm, h₁.time.symm, e1, f1⟩,
    rfl, rfl, e2, f2⟩

theorem All3.pick {α : Type} {R : α → α → α → Prop} {l₁ l₂ l₃ : List α} (h : All3 R l₁ l₂ l₃) :
    ∀ c ∈ l₃, ∃ a ∈ l₁, ∃ b ∈ l₂, R a b c := by
  induction h with
  | nil => simp
  | cons hr _ ih =>
    intro c hc
    rcases List.mem_cons.1 hc with rfl | hc
    · exact ⟨_, List.mem_cons_self, _, List.mem_cons_self, hr⟩
    · obtain ⟨a, ha, b, hb, r⟩ := ih c hc
      exact ⟨a, List.mem_cons_of_mem _ ha, b, List.mem_cons_of_mem _ hb, r⟩

theorem find_superposed {a b : ℝ} {l₁ l₂ l₃ : List (AnyBundle p)} (h : All3 (BundleComb a b) l₁ l₂ l₃) (name : String) :
    (findBundle l₁ name = none ∧ findBundle l₂ name = none ∧ findBundle l₃ name = none) ∨
    ∃ b₁ b₂ b₃, findBundle l₁ name = some b₁ ∧ findBundle l₂ name = some b₂ ∧ findBundle l₃ name = some b₃ ∧
      BundleComb a b b₁ b₂ b₃ := by
  induction h with
  | nil => exact .inl ⟨rfl, rfl, rfl⟩
  | @cons b₁ b₂ b₃ l₁ l₂ l₃ hr _ ih =>
    obtain ⟨e2, e3⟩ : b₂.2.name = b₁.2.name ∧ b₃.2.name = b₁.2.name := by
      obtain ⟨hc⟩ := hr
      exact ⟨hc.hw₂.name, hc.hw₃.name⟩
    unfold findBundle at ih ⊢
    by_cases e : b₁.2.name = name
    · refine .inr ⟨b₁, b₂, b₃, ?_, ?_, ?_, hr⟩
      · simp [e]
      · simp [e2, e]
      · simp [e3, e]
    · rw [List.find?_cons_of_neg (by simpa using e), List.find?_cons_of_neg (by simpa [e2] using e),
        List.find?_cons_of_neg (by simpa [e3] using e)]
      exact ih

theorem ends_superposed {a b : ℝ} {l₁ l₂ l₃ : List (AnyBundle p)} (h : All3 (BundleComb a b) l₁ l₂ l₃) (x : End) :
    endV l₃ x = a * endV l₁ x + b * endV l₂ x ∧ endI l₃ x = a * endI l₁ x + b * endI l₂ x := by
  unfold endV endI
  rcases find_superposed h x.bundle with ⟨e1, e2, e3⟩ | ⟨b₁, b₂, b₃, e1, e2, e3, hr⟩
  · rw [e1, e2, e3]; simp
  · rw [e1, e2, e3]
    obtain ⟨hc⟩ := hr
    simp only [hc.hw₂.m, hc.hw₃.m]
    split
    · exact ⟨hc.v _ _, by rw [hc.i]; ring⟩
    · simp

theorem MTLN.Comb.linked {a b : ℝ} (h : MTLN.Comb a b A B C) (hA : M.Remade A) (hB : M.Remade B) (hC : M.Remade C) (lA : A.Linked)
    (lB : B.Linked) : C.Linked := by
  have hends := ends_superposed h.bundles
  have key : ∀ nwd ∈ C.networks, ∀ e ∈ nwd, ∃ nwd₁ ∈ A.networks, ∃ e₁ ∈ nwd₁, ∃ nwd₂ ∈ B.networks, ∃ e₂ ∈ nwd₂, LevelComb a b e₁ e₂ e := by
    intro nwd hn e he
    obtain ⟨nwd₁, h1, nwd₂, h2, hr⟩ := h.networks.pick nwd hn
    obtain ⟨e₁, g1, e₂, g2, hr'⟩ := hr.pick e he
    exact ⟨nwd₁, h1, e₁, g1, nwd₂, h2, e₂, g2, hr'⟩
  refine ⟨fun nwd hn e he x => ?_, fun nwd hn e he x => ?_, fun x hx => ?_⟩
  · obtain ⟨nwd₁, h1, e₁, g1, nwd₂, h2, e₂, g2, hr⟩ := key nwd hn e he
    obtain ⟨hc⟩ := hr
    have q1 := lA.v _ h1 _ g1 x
    have q2 := lB.v _ h2 _ g2 x
    rw [(hends _).1, hc.v, q1, q2]
    simp only [Node.end', hc.hw₂.bundleName, hc.hw₂.lineIndex, hc.hw₂.side, hc.hw₃.bundleName, hc.hw₃.lineIndex, hc.hw₃.side]
  · obtain ⟨nwd₁, h1, e₁, g1, nwd₂, h2, e₂, g2, hr⟩ := key nwd hn e he
    obtain ⟨hc⟩ := hr
    have q1 := lA.i _ h1 _ g1 x
    have q2 := lB.i _ h2 _ g2 x
    rw [(hends _).2, hc.i, q1, q2]
    simp only [Node.end', hc.hw₂.bundleName, hc.hw₂.lineIndex, hc.hw₂.side, hc.hw₃.bundleName, hc.hw₃.lineIndex, hc.hw₃.side]
  · rw [hC.ends] at hx
    rw [(hends x).1, lA.free x (by rw [hA.ends]; exact hx), lB.free x (by rw [hB.ends]; exact hx)]
    ring

end

end Mtln
