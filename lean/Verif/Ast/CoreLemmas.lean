import Verif.Ast.Core

/-! Substitution lemmas for `Core`. -/

namespace Chomp

@[simp] theorem Core.renL_map (f : Nat → Nat) (l : List Core) : Core.renL f l = l.map (Core.ren f) := by
  induction l <;> simp [Core.renL, *]

@[simp] theorem Core.subL_map (σ : Nat → Core) (l : List Core) : Core.subL σ l = l.map (Core.sub σ) := by
  induction l <;> simp [Core.subL, *]

@[simp] theorem Core.evalL_map {D : Type} (A : Alg D) (l : List Core) (ρ : Nat → D) :
    Core.evalL A l ρ = l.map (fun e => e.eval A ρ) := by
  induction l <;> simp [Core.evalL, *]

@[simp] theorem Core.closedL_iff (n : Nat) (l : List Core) :
    Core.closedL n l ↔ ∀ e ∈ l, e.closed n := by
  induction l <;> simp [Core.closedL, *]

@[simp] theorem Core.settledL_iff (l : List Core) : Core.settledL l ↔ ∀ e ∈ l, e.settled := by
  induction l <;> simp [Core.settledL, *]

theorem map_congr' {α β : Type} {f g : α → β} {l : List α} (h : ∀ a ∈ l, f a = g a) :
    l.map f = l.map g := List.map_congr_left h

theorem upr_comp (n : Nat) (f g : Nat → Nat) : upr n f ∘ upr n g = upr n (f ∘ g) := by
  funext i
  simp only [upr, Function.comp]
  split
  · simp [*]
  · rw [if_neg (by omega)]; simp

theorem Core.ren_ren (e : Core) : ∀ (f g : Nat → Nat), (e.ren g).ren f = e.ren (f ∘ g) := by
  induction e using Core.ind with
  | eps => intros; rfl
  | lit => intros; rfl
  | cat l ih => intro f g; simp only [ren, renL_map, List.map_map]; congr 1; exact map_congr' fun e he => ih e he f g
  | alt l ih => intro f g; simp only [ren, renL_map, List.map_map]; congr 1; exact map_congr' fun e he => ih e he f g
  | fix b ih => intro f g; simp [ren, ih]
  | var => intros; rfl
  | call o a ih1 ih2 =>
    intro f g; simp only [ren, renL_map, List.map_map, ih1]; congr 1; exact map_congr' fun e he => ih2 e he f g
  | lam n b ih => intro f g; simp [ren, ih, upr_comp]
  | letE b c ih1 ih2 => intro f g; simp [ren, ih1, ih2, upr_comp]

theorem up_upr (n : Nat) (σ : Nat → Core) (f : Nat → Nat) : up n σ ∘ upr n f = up n (σ ∘ f) := by
  funext i
  simp only [up, upr, Function.comp]
  by_cases h : i < n
  · simp [h]
  · simp only [h, if_false]
    rw [if_neg (by omega)]; simp

theorem Core.sub_ren (e : Core) : ∀ (σ : Nat → Core) (f : Nat → Nat), (e.ren f).sub σ = e.sub (σ ∘ f) := by
  induction e using Core.ind with
  | eps => intros; rfl
  | lit => intros; rfl
  | cat l ih => intro f g; simp only [ren, sub, renL_map, subL_map, List.map_map]; congr 1; exact map_congr' fun e he => ih e he f g
  | alt l ih => intro f g; simp only [ren, sub, renL_map, subL_map, List.map_map]; congr 1; exact map_congr' fun e he => ih e he f g
  | fix b ih => intro f g; simp [ren, sub, ih]
  | var => intros; rfl
  | call o a ih1 ih2 =>
    intro f g; simp only [ren, sub, renL_map, subL_map, List.map_map, ih1]; congr 1; exact map_congr' fun e he => ih2 e he f g
  | lam n b ih => intro f g; simp [ren, sub, ih, up_upr]
  | letE b c ih1 ih2 => intro f g; simp [ren, sub, ih1, ih2, up_upr]

theorem up_ren (n : Nat) (σ : Nat → Core) (f : Nat → Nat) :
    (fun i => (up n σ i).ren (upr n f)) = up n (fun i => (σ i).ren f) := by
  funext i
  simp only [up]
  split
  · simp [Core.ren, upr, *]
  · rw [Core.ren_ren, Core.ren_ren]
    congr 1
    funext j
    have : ¬ (j + n < n) := by omega
    simp [upr, this]

theorem Core.ren_sub (e : Core) : ∀ (σ : Nat → Core) (f : Nat → Nat),
    (e.sub σ).ren f = e.sub (fun i => (σ i).ren f) := by
  induction e using Core.ind with
  | eps => intros; rfl
  | lit => intros; rfl
  | cat l ih => intro f g; simp only [ren, sub, renL_map, subL_map, List.map_map]; congr 1; exact map_congr' fun e he => ih e he f g
  | alt l ih => intro f g; simp only [ren, sub, renL_map, subL_map, List.map_map]; congr 1; exact map_congr' fun e he => ih e he f g
  | fix b ih => intro f g; simp [ren, sub, ih]
  | var => intros; rfl
  | call o a ih1 ih2 =>
    intro f g; simp only [ren, sub, renL_map, subL_map, List.map_map, ih1]; congr 1; exact map_congr' fun e he => ih2 e he f g
  | lam n b ih => intro f g; simp [ren, sub, ih, up_ren]
  | letE b c ih1 ih2 => intro f g; simp [ren, sub, ih1, ih2, up_ren]

theorem up_sub (n : Nat) (σ τ : Nat → Core) :
    (fun i => (up n σ i).sub (up n τ)) = up n (fun i => (σ i).sub τ) := by
  funext i
  simp only [up]
  split
  · simp [Core.sub, up, *]
  · rw [Core.sub_ren, Core.ren_sub]
    congr 1
    funext j
    have : ¬ (j + n < n) := by omega
    simp [up, this]

theorem Core.sub_sub (e : Core) : ∀ (σ τ : Nat → Core),
    (e.sub σ).sub τ = e.sub (fun i => (σ i).sub τ) := by
  induction e using Core.ind with
  | eps => intros; rfl
  | lit => intros; rfl
  | cat l ih => intro f g; simp only [sub, subL_map, List.map_map]; congr 1; exact map_congr' fun e he => ih e he f g
  | alt l ih => intro f g; simp only [sub, subL_map, List.map_map]; congr 1; exact map_congr' fun e he => ih e he f g
  | fix b ih => intro f g; simp [sub, ih]
  | var => intros; rfl
  | call o a ih1 ih2 =>
    intro f g; simp only [sub, subL_map, List.map_map, ih1]; congr 1; exact map_congr' fun e he => ih2 e he f g
  | lam n b ih => intro f g; simp [sub, ih, up_sub]
  | letE b c ih1 ih2 => intro f g; simp [sub, ih1, ih2, up_sub]

theorem up_var (n : Nat) : up n Core.var = Core.var := by
  funext i; simp only [up]; split
  · rfl
  · simp [Core.ren]; omega

theorem Core.sub_var (e : Core) : e.sub Core.var = e := by
  induction e using Core.ind with
  | eps => rfl
  | lit => rfl
  | cat l ih => simp only [sub, subL_map]; congr 1; rw [List.map_congr_left ih]; simp
  | alt l ih => simp only [sub, subL_map]; congr 1; rw [List.map_congr_left ih]; simp
  | fix b ih => simp [sub, ih]
  | var => rfl
  | call o a ih1 ih2 => simp only [sub, subL_map, ih1]; congr 1; rw [List.map_congr_left ih2]; simp
  | lam n b ih => simp [sub, ih, up_var]
  | letE b c ih1 ih2 => simp [sub, ih1, ih2, up_var]

theorem bindArgs_upr {D : Type} (n : Nat) (ds : Fin n → D) (ρ : Nat → D) (f : Nat → Nat) :
    (fun i => bindArgs n ds ρ (upr n f i)) = bindArgs n ds (fun i => ρ (f i)) := by
  funext i
  simp only [bindArgs, upr]
  by_cases h : i < n
  · simp [h]
  · have : ¬ (f (i - n) + n < n) := by omega
    simp [h, this]

theorem Core.eval_ren {D : Type} (A : Alg D) (e : Core) : ∀ (f : Nat → Nat) (ρ : Nat → D),
    (e.ren f).eval A ρ = e.eval A (fun i => ρ (f i)) := by
  induction e using Core.ind with
  | eps => intros; rfl
  | lit => intros; rfl
  | cat l ih => intro f ρ; simp only [ren, eval, renL_map, evalL_map, List.map_map]; congr 1; exact map_congr' fun e he => ih e he f ρ
  | alt l ih => intro f ρ; simp only [ren, eval, renL_map, evalL_map, List.map_map]; congr 1; exact map_congr' fun e he => ih e he f ρ
  | fix b ih => intro f ρ; simp [ren, eval, ih]
  | var => intros; rfl
  | call o a ih1 ih2 =>
    intro f ρ; simp only [ren, eval, renL_map, evalL_map, List.map_map, ih1]; congr 1; exact map_congr' fun e he => ih2 e he f ρ
  | lam n b ih => intro f ρ; simp only [ren, eval, ih]; congr 1; funext ds; rw [bindArgs_upr]
  | letE b c ih1 ih2 => intro f ρ; simp only [ren, eval, ih1, ih2]; congr 1; funext ds; rw [bindArgs_upr]

theorem bindArgs_up {D : Type} (A : Alg D) (n : Nat) (ds : Fin n → D) (ρ : Nat → D) (σ : Nat → Core) :
    (fun i => (up n σ i).eval A (bindArgs n ds ρ)) = bindArgs n ds (fun i => (σ i).eval A ρ) := by
  funext i
  simp only [up]
  by_cases h : i < n
  · simp [h, Core.eval, bindArgs]
  · simp only [h, if_false, Core.eval_ren]
    have : ∀ j, ¬ (j + n < n) := by omega
    simp [bindArgs, h, this]

theorem Core.eval_sub {D : Type} (A : Alg D) (e : Core) : ∀ (σ : Nat → Core) (ρ : Nat → D),
    (e.sub σ).eval A ρ = e.eval A (fun i => (σ i).eval A ρ) := by
  induction e using Core.ind with
  | eps => intros; rfl
  | lit => intros; rfl
  | cat l ih => intro f ρ; simp only [sub, eval, subL_map, evalL_map, List.map_map]; congr 1; exact map_congr' fun e he => ih e he f ρ
  | alt l ih => intro f ρ; simp only [sub, eval, subL_map, evalL_map, List.map_map]; congr 1; exact map_congr' fun e he => ih e he f ρ
  | fix b ih => intro f ρ; simp [sub, eval, ih]
  | var => intros; rfl
  | call o a ih1 ih2 =>
    intro f ρ; simp only [sub, eval, subL_map, evalL_map, List.map_map, ih1]; congr 1; exact map_congr' fun e he => ih2 e he f ρ
  | lam n b ih => intro f ρ; simp only [sub, eval, ih]; congr 1; funext ds; rw [bindArgs_up]
  | letE b c ih1 ih2 => intro f ρ; simp only [sub, eval, ih1, ih2]; congr 1; funext ds; rw [bindArgs_up]

theorem Core.closed_ren (e : Core) : ∀ (n m : Nat) (f : Nat → Nat), (∀ i < n, f i < m) → e.closed n →
    (e.ren f).closed m := by
  have hu : ∀ (k n m : Nat) (f : Nat → Nat), (∀ i < n, f i < m) → ∀ i < n + k, upr k f i < m + k := by
    intro k n m f hf i hi
    simp only [upr]
    split
    · omega
    · have := hf (i - k) (by omega); omega
  induction e using Core.ind with
  | eps => intros; trivial
  | lit => intros; trivial
  | cat l ih => intro n m f hf; simp only [ren, closed, renL_map, closedL_iff]; intro h e he; obtain ⟨e', he', rfl⟩ := List.mem_map.1 he; exact ih e' he' n m f hf (h e' he')
  | alt l ih => intro n m f hf; simp only [ren, closed, renL_map, closedL_iff]; intro h e he; obtain ⟨e', he', rfl⟩ := List.mem_map.1 he; exact ih e' he' n m f hf (h e' he')
  | fix b ih => intro n m f hf h; exact ih n m f hf h
  | var k => intro n m f hf h; exact hf k h
  | call o a ih1 ih2 =>
    intro n m f hf; simp only [ren, closed, renL_map, closedL_iff]; rintro ⟨h1, h⟩
    refine ⟨ih1 n m f hf h1, ?_⟩
    intro e he; obtain ⟨e', he', rfl⟩ := List.mem_map.1 he; exact ih2 e' he' n m f hf (h e' he')
  | lam k b ih => intro n m f hf h; exact ih _ _ _ (hu k n m f hf) h
  | letE b c ih1 ih2 => intro n m f hf h; exact ⟨ih1 _ _ _ hf h.1, ih2 _ _ _ (hu 1 n m f hf) h.2⟩

theorem Core.closed_sub (e : Core) : ∀ (n m : Nat) (σ : Nat → Core), (∀ i < n, (σ i).closed m) → e.closed n →
    (e.sub σ).closed m := by
  have hu : ∀ (k n m : Nat) (σ : Nat → Core), (∀ i < n, (σ i).closed m) → ∀ i < n + k, (up k σ i).closed (m + k) := by
    intro k n m f hf i hi
    simp only [up]
    split
    · simp only [closed]; omega
    · exact Core.closed_ren _ m _ _ (by intros; omega) (hf (i - k) (by omega))
  induction e using Core.ind with
  | eps => intros; trivial
  | lit => intros; trivial
  | cat l ih => intro n m f hf; simp only [sub, closed, subL_map, closedL_iff]; intro h e he; obtain ⟨e', he', rfl⟩ := List.mem_map.1 he; exact ih e' he' n m f hf (h e' he')
  | alt l ih => intro n m f hf; simp only [sub, closed, subL_map, closedL_iff]; intro h e he; obtain ⟨e', he', rfl⟩ := List.mem_map.1 he; exact ih e' he' n m f hf (h e' he')
  | fix b ih => intro n m f hf h; exact ih n m f hf h
  | var k => intro n m f hf h; exact hf k h
  | call o a ih1 ih2 =>
    intro n m f hf; simp only [sub, closed, subL_map, closedL_iff]; rintro ⟨h1, h⟩
    refine ⟨ih1 n m f hf h1, ?_⟩
    intro e he; obtain ⟨e', he', rfl⟩ := List.mem_map.1 he; exact ih2 e' he' n m f hf (h e' he')
  | lam k b ih => intro n m f hf h; exact ih _ _ _ (hu k n m f hf) h
  | letE b c ih1 ih2 => intro n m f hf h; exact ⟨ih1 _ _ _ hf h.1, ih2 _ _ _ (hu 1 n m f hf) h.2⟩

/-- Two lists are related element by element. -/
inductive All2 {α β : Type} (R : α → β → Prop) : List α → List β → Prop
  | nil : All2 R [] []
  | cons {a : α} {b : β} {l : List α} {l' : List β} : R a b → All2 R l l' → All2 R (a :: l) (b :: l')

/-! ### Steps -/

theorem Core.Steps.single {a b : Core} (h : Core.Step a b) : Core.Steps a b := .tail (.refl a) h

theorem Core.Steps.trans {a b c : Core} (h1 : Core.Steps a b) (h2 : Core.Steps b c) : Core.Steps a c := by
  induction h2 with
  | refl => exact h1
  | tail _ h ih => exact .tail ih h

theorem Core.Steps.congr {F : Core → Core} (hF : ∀ a b, Core.Step a b → Core.Step (F a) (F b)) {a b : Core}
    (h : Core.Steps a b) : Core.Steps (F a) (F b) := by
  induction h with
  | refl => exact .refl _
  | tail _ h ih => exact .tail ih (hF _ _ h)

/-- Pointwise related lists give related list contexts. -/
theorem Core.Steps.list {F : List Core → Core}
    (hF : ∀ pre a b post, Core.Step a b → Core.Step (F (pre ++ a :: post)) (F (pre ++ b :: post)))
    {l l' : List Core} (h : All2 Core.Steps l l') (pre : List Core) :
    Core.Steps (F (pre ++ l)) (F (pre ++ l')) := by
  induction h generalizing pre with
  | nil => exact .refl _
  | @cons a b l l' hab _ ih =>
    have h1 : Core.Steps (F (pre ++ a :: l)) (F (pre ++ b :: l)) :=
      Core.Steps.congr (F := fun x => F (pre ++ x :: l)) (fun a b h => hF pre a b l h) hab
    have h2 := ih (pre ++ [b])
    simp only [List.append_assoc, List.singleton_append] at h2
    exact h1.trans h2

end Chomp
