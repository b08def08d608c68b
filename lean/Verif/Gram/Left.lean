import Verif.Gram.Lemmas

/-!
# Nullability is exact, and there is no left recursion
-/

namespace Chomp

theorem cat_not_nullable : ∀ {Γ : List Ty} {τ : Ty} {l : List Gram} {σ : Ty}, HasTyCat Γ τ l σ →
    τ.nullable = false → σ.nullable = false
  | _, _, _, _, .nil _ _, h => h
  | _, _, _, _, .cons _ _ _ _ _ _ _ _ h3, h => cat_not_nullable h3 (by simp [Ty.cat, h])

theorem All2.mem_right {α β : Type} {R : α → β → Prop} : ∀ {l : List α} {l' : List β}, All2 R l l' →
    ∀ {b : β}, b ∈ l' → ∃ (i : Nat) (a : α), l[i]? = some a ∧ R a b
  | _, _, .nil, b, h => by simp at h
  | _, _, .cons (a := a) h1 h2, b, h => by
    rcases List.mem_cons.1 h with rfl | h
    · exact ⟨0, a, rfl, h1⟩
    · obtain ⟨i, a, h3, h4⟩ := h2.mem_right h
      exact ⟨i + 1, a, by simpa using h3, h4⟩

theorem EnvTy.length_eq {Γ : List Ty} {ρ : List Gram} (h : EnvTy Γ ρ) : Γ.length = ρ.length := by
  induction h <;> simp [*]

/-- An expression with a nullable type derives the empty string. -/
theorem null_exact : ∀ (m : Nat) (g : Gram) {Γ : List Ty} {k : Nat} {τ : Ty} {ρ : List Gram}, HasTy Γ k g τ →
    EnvTy Γ ρ → ρ.length - k ≤ m → τ.nullable = true → ∃ t, Der ρ g t ∧ t.text = [] := by
  intro m
  induction m using Nat.strongRecOn with
  | ind m ihm =>
    intro g
    induction g using Gram.ind with
    | eps => intro Γ k τ ρ hT hE hm hn; exact ⟨.eps, .eps ρ, rfl⟩
    | lit s =>
      intro Γ k τ ρ hT hE hm hn
      cases hT
      exact ⟨.lit s, .lit ρ s, by simpa [Tree.text] using hn⟩
    | cat l ih =>
      intro Γ k τ ρ hT hE hm hn
      cases hT with
      | cat _ _ g l τ' _ h1 h2 h3 => rw [cat_not_nullable h3 h2] at hn; cases hn
    | alt l ih =>
      intro Γ k τ ρ hT hE hm hn
      obtain ⟨τs, h1, _, h2, _⟩ := alt_inv' hT
      obtain ⟨τ', h3, h4⟩ := h2.1 hn
      obtain ⟨i, g, h5, h6⟩ := h1.mem_right h3
      obtain ⟨t, h7, h8⟩ := ih g (List.mem_of_getElem? h5) h6 hE hm h4
      exact ⟨.alt i t, .alt ρ l i g t h5 h7, by simpa [Tree.text] using h8⟩
    | fix b ih =>
      intro Γ k τ ρ hT hE hm hn
      cases hT with
      | fix _ _ _ _ hb =>
        obtain ⟨t, h1, h2⟩ := ih hb (.cons τ b k hE hb) (by simp; omega) hn
        exact ⟨t, .fix ρ b t h1, h2⟩
    | var i =>
      intro Γ k τ ρ hT hE hm hn
      cases hT with
      | var _ _ _ _ h1 h2 =>
        cases hd : ρ.drop i with
        | nil =>
          have hl := hE.length_eq
          have h3 := congrArg List.length hd
          have : i < Γ.length := by
            rcases Nat.lt_or_ge i Γ.length with h' | h'
            · exact h'
            · rw [List.getElem?_eq_none h'] at h1; cases h1
          simp at h3; omega
        | cons b ρ' =>
          obtain ⟨Γ', k', h3, h4⟩ := hE.get hd h1
          have h5 := congrArg List.length hd
          simp only [List.length_drop, List.length_cons] at h5
          obtain ⟨t, h6, h7⟩ := ihm (ρ.length - k - 1) (by omega) b h4 h3 (by simp only [List.length_cons]; omega) hn
          exact ⟨.box t, .var ρ i b ρ' t hd h6, by simpa [Tree.text] using h7⟩

/-- One step to the left: `LeftStep (ρ, g) (ρ', g')` if, to match `g`, `g'` may have to be matched
without any character having been consumed. -/
inductive LeftStep : List Gram × Gram → List Gram × Gram → Prop
  | cat (ρ : List Gram) (l : List Gram) (i : Nat) (g : Gram) : l[i]? = some g →
      (∀ j g', j < i → l[j]? = some g' → ∃ t, Der ρ g' t ∧ t.text = []) → LeftStep (ρ, .cat l) (ρ, g)
  | alt (ρ : List Gram) (l : List Gram) (g : Gram) : g ∈ l → LeftStep (ρ, .alt l) (ρ, g)
  | fix (ρ : List Gram) (b : Gram) : LeftStep (ρ, .fix b) (b :: ρ, b)
  | var (ρ : List Gram) (i : Nat) (b : Gram) (ρ' : List Gram) : ρ.drop i = b :: ρ' →
      LeftStep (ρ, .var i) (b :: ρ', b)

/-- Typed expressions have no infinite chains of left steps. -/
theorem left_acc : ∀ (m : Nat) (g : Gram) {Γ : List Ty} {k : Nat} {τ : Ty} {ρ : List Gram}, HasTy Γ k g τ →
    EnvTy Γ ρ → ρ.length - k ≤ m → Acc (fun x y => LeftStep y x) (ρ, g) := by
  intro m
  induction m using Nat.strongRecOn with
  | ind m ihm =>
    intro g
    induction g using Gram.ind with
    | eps => intro Γ k τ ρ hT hE hm; exact ⟨_, fun y h => by cases h⟩
    | lit s => intro Γ k τ ρ hT hE hm; exact ⟨_, fun y h => by cases h⟩
    | cat l ih =>
      intro Γ k τ ρ hT hE hm
      refine ⟨_, fun y h => ?_⟩
      cases h with
      | cat _ _ i g h1 h2 =>
        cases hT with
        | cat _ _ g0 l τ' _ h3 h4 h5 =>
          cases i with
          | zero =>
            simp at h1; subst h1
            exact ih _ (by simp) h3 hE hm
          | succ i =>
            obtain ⟨t, h6, h7⟩ := h2 0 g0 (by omega) rfl
            have := (der_desc h6 hE h3).1 h7
            simp [h4] at this
    | alt l ih =>
      intro Γ k τ ρ hT hE hm
      refine ⟨_, fun y h => ?_⟩
      cases h with
      | alt _ _ g hg =>
        obtain ⟨τs, h1, _⟩ := alt_inv' hT
        obtain ⟨i, hi⟩ := List.getElem?_of_mem hg
        obtain ⟨τ', _, h2⟩ := h1.get hi
        exact ih g hg h2 hE hm
    | fix b ih =>
      intro Γ k τ ρ hT hE hm
      refine ⟨_, fun y h => ?_⟩
      cases h
      cases hT with
      | fix _ _ _ _ hb => exact ih hb (.cons τ b k hE hb) (by simp; omega)
    | var i =>
      intro Γ k τ ρ hT hE hm
      refine ⟨_, fun y h => ?_⟩
      cases h with
      | var _ _ b ρ' hd =>
        cases hT with
        | var _ _ _ _ h1 h2 =>
          obtain ⟨Γ', k', h3, h4⟩ := hE.get hd h1
          have h5 := congrArg List.length hd
          simp only [List.length_drop, List.length_cons] at h5
          exact ihm (ρ.length - k - 1) (by omega) b h4 h3 (by simp only [List.length_cons]; omega)

theorem no_chain {α : Type} {r : α → α → Prop} {a : α} (h : Acc r a) :
    ¬ ∃ f : Nat → α, f 0 = a ∧ ∀ n, r (f (n + 1)) (f n) := by
  induction h with
  | intro a _ ih =>
    rintro ⟨f, h0, hs⟩
    exact ih (f 1) (h0 ▸ hs 0) ⟨fun n => f (n + 1), rfl, fun n => hs (n + 1)⟩

end Chomp
