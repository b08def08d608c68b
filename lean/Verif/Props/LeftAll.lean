import Verif.Props.Typed

/-!
# C27: left recursion anywhere in the program

`Inside x y` says that the expression `y`, with its fix points, occurs in the expression `x`, at any
depth and at any place: as a first or as a later part of a concatenation, as a branch, as the body of a
fix point.  No accepted program contains a left-recursive fix point at any of these places, not even
one that is only reached after input has been consumed.
-/

namespace Chomp

/-- Occurrence of an expression in another; the first component lists the bodies of the enclosing fix
points, innermost first. -/
inductive Inside : List Gram × Gram → List Gram × Gram → Prop
  | refl (x : List Gram × Gram) : Inside x x
  | cat {x : List Gram × Gram} {ρ : List Gram} {l : List Gram} {g : Gram} : Inside x (ρ, .cat l) → g ∈ l →
      Inside x (ρ, g)
  | alt {x : List Gram × Gram} {ρ : List Gram} {l : List Gram} {g : Gram} : Inside x (ρ, .alt l) → g ∈ l →
      Inside x (ρ, g)
  | fix {x : List Gram × Gram} {ρ : List Gram} {b : Gram} : Inside x (ρ, .fix b) → Inside x (b :: ρ, b)

theorem HasTyCat.mem_typed : ∀ {l : List Gram} {Γ : List Ty} {τ σ : Ty}, HasTyCat Γ τ l σ → ∀ g ∈ l,
    ∃ υ, HasTy Γ 0 g υ := by
  intro l
  induction l with
  | nil => intro Γ τ σ _ g hg; simp at hg
  | cons a l ih =>
    intro Γ τ σ h g hg
    cases h with
    | cons _ _ _ _ υ _ h1 h2 h3 =>
      rcases List.mem_cons.mp hg with rfl | hg
      · exact ⟨_, h1⟩
      · exact ih h3 g hg

theorem HasTyAlt.mem_typed : ∀ {l : List Gram} {Γ : List Ty} {k : Nat} {τ σ : Ty}, HasTyAlt Γ k τ l σ → ∀ g ∈ l,
    ∃ υ, HasTy Γ k g υ := by
  intro l
  induction l with
  | nil => intro Γ k τ σ _ g hg; simp at hg
  | cons a l ih =>
    intro Γ k τ σ h g hg
    cases h with
    | cons _ _ _ _ _ υ _ h1 h2 h3 h4 =>
      rcases List.mem_cons.mp hg with rfl | hg
      · exact ⟨_, h1⟩
      · exact ih h4 g hg

theorem Inside.typed {g : Gram} {τ : Ty} (hT : HasTy [] 0 g τ) {y : List Gram × Gram} (h : Inside ([], g) y) :
    ∃ Γ k σ, EnvTy Γ y.1 ∧ HasTy Γ k y.2 σ := by
  induction h with
  | refl => exact ⟨[], 0, τ, .nil, hT⟩
  | cat h hg ih =>
    obtain ⟨Γ, k, σ, hE, hT'⟩ := ih
    cases hT' with
    | cat _ _ a l υ _ h1 h2 h3 =>
      rcases List.mem_cons.mp hg with rfl | hg
      · exact ⟨_, _, _, hE, h1⟩
      · obtain ⟨υ', h4⟩ := h3.mem_typed _ hg
        exact ⟨_, _, _, hE, h4⟩
  | alt h hg ih =>
    obtain ⟨Γ, k, σ, hE, hT'⟩ := ih
    cases hT' with
    | alt _ _ a l υ _ h1 h2 =>
      rcases List.mem_cons.mp hg with rfl | hg
      · exact ⟨_, _, _, hE, h1⟩
      · obtain ⟨υ', h4⟩ := h2.mem_typed _ hg
        exact ⟨_, _, _, hE, h4⟩
  | fix h ih =>
    obtain ⟨Γ, k, σ, hE, hT'⟩ := ih
    cases hT' with
    | fix _ _ b _ h1 => exact ⟨σ :: Γ, k + 1, σ, .cons _ _ _ hE h1, h1⟩

/-- **C27** (every fix point). In an accepted program no fix point, wherever it occurs, has a body that
can reach its own variable before a character has been consumed. -/
theorem C27_no_left_recursive_fix (n : Nat) (e : NE) (te : TE) (h : (inferTop n e ⟨[], []⟩).1 = .ok te)
    (ρ : List Gram) (b : Gram) (ho : Inside ([], te.gram) (ρ, .fix b)) :
    ¬ LeftSteps (b :: ρ, b) (b :: ρ, .var 0) := by
  obtain ⟨Γ, k, σ, hE, hT⟩ := ho.typed (C23_inference_sound n e te h).2
  exact fun hl => C27_left_recursive_untypable Γ k σ ρ b hE hl hT

/-- **C27** (every part). From no part of an accepted program is there an endless chain of parts each of
which may have to be matched before the previous one has consumed a character. -/
theorem C27_no_left_chain (n : Nat) (e : NE) (te : TE) (h : (inferTop n e ⟨[], []⟩).1 = .ok te)
    (y : List Gram × Gram) (ho : Inside ([], te.gram) y) :
    ¬ ∃ f : Nat → List Gram × Gram, f 0 = y ∧ ∀ i, LeftStep (f i) (f (i + 1)) := by
  obtain ⟨ρ, g⟩ := y
  obtain ⟨Γ, k, σ, hE, hT⟩ := ho.typed (C23_inference_sound n e te h).2
  exact no_chain (left_acc _ _ hT hE (Nat.le_refl _))

/-- Equivalently, an expression with a left-recursive fix point anywhere is rejected. -/
theorem C27_left_recursion_rejected (n : Nat) (e : NE) (g : Gram) (hg : e.grammar = some g) (ρ : List Gram) (b : Gram)
    (ho : Inside ([], g) (ρ, .fix b)) (hl : LeftSteps (b :: ρ, b) (b :: ρ, .var 0)) :
    ¬ ∃ te, (inferTop n e ⟨[], []⟩).1 = .ok te := by
  rintro ⟨te, h⟩
  have : te.gram = g := by
    have h1 := (C23_inference_sound n e te h).1
    rw [hg] at h1; exact (Option.some.inj h1).symm
  exact C27_no_left_recursive_fix n e te h ρ b (this ▸ ho) hl

/-- Non-vacuity: in `"a" . !(/x/ x . "b" | "c")` the left-recursive fix point comes after a character. -/
example : Inside ([], .cat [.lit ['a'], .fix (.alt [.cat [.var 0, .lit ['b']], .lit ['c']])])
    ([], .fix (.alt [.cat [.var 0, .lit ['b']], .lit ['c']])) ∧
    LeftSteps ([.alt [.cat [.var 0, .lit ['b']], .lit ['c']]], .alt [.cat [.var 0, .lit ['b']], .lit ['c']])
      ([.alt [.cat [.var 0, .lit ['b']], .lit ['c']]], .var 0) :=
  ⟨.cat (.refl _) (by simp),
   .tail (.tail (.refl _) (.alt _ _ (.cat [.var 0, .lit ['b']]) (by simp))) (.cat _ _ 0 _ rfl (by intro j _ h; omega))⟩

end Chomp
