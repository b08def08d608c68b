import Verif.Gram.Spec

/-!
# Specification layer: the meaning of expressions as languages

Here an expression denotes a function from the languages of arguments to a language (expressions that
are not lambdas ignore the arguments).  The fix point of a lambda is the least language closed under it
when passed as its first argument; a parameter without argument denotes the empty language.
-/

namespace Chomp

/-- Concatenation of a list of languages. -/
def Lang.catL : List Lang → Lang
  | [] => fun w => w = []
  | X :: l => fun w => ∃ u v, w = u ++ v ∧ X u ∧ Lang.catL l v

/-- Union of a list of languages. -/
def Lang.altL : List Lang → Lang
  | [] => fun _ => False
  | X :: l => fun w => X w ∨ Lang.altL l w

/-- The algebra of languages. -/
def langAlg : Alg (List Lang → Lang) where
  eps := fun _ w => w = []
  lit s := fun _ w => w = s
  cat ds := fun _ => Lang.catL (ds.map (· []))
  alt ds := fun _ => Lang.altL (ds.map (· []))
  fix d := fun _ w => ∀ X : Lang, (∀ v, d [X] v → X v) → X w
  call d as := fun _ => d (as.map (· []))
  lam _ f := fun xs => f (fun i _ => xs.getD i.val fun _ => False) []
  letE d f := f d

theorem bindArgs_one (d : List Lang → Lang) (X : Lang) (hd : d [] = X) (ρ : Nat → List Lang → Lang) :
    (fun i => bindArgs 1 (fun _ => d) ρ i []) = Lang.push X fun i => ρ i [] := by
  funext i
  cases i with
  | zero => simp [bindArgs, Lang.push, hd]
  | succ i => simp [bindArgs, Lang.push]

mutual
/-- For expressions whose fix points are all over lambdas with one parameter, the grammar has the
meaning of the expression. -/
theorem gram_meaning : ∀ (e : Core) (g : Gram), e.gram (fun n => n == 1) = some g →
    ∀ (ρ : Nat → List Lang → Lang) (w : List Char), e.eval langAlg ρ [] w ↔ g.lang (fun i => ρ i []) w
  | .eps, g, h, ρ, w => by simp only [Core.gram] at h; cases h; simp [Core.eval, langAlg, Gram.lang]
  | .lit s, g, h, ρ, w => by simp only [Core.gram] at h; cases h; simp [Core.eval, langAlg, Gram.lang]
  | .cat l, g, h, ρ, w => by
    simp only [Core.gram, Option.map_eq_some_iff] at h
    obtain ⟨gs, h, rfl⟩ := h
    simp only [Core.eval, langAlg, Gram.lang]
    exact gram_meaning_cat l gs h ρ w
  | .alt l, g, h, ρ, w => by
    simp only [Core.gram, Option.map_eq_some_iff] at h
    obtain ⟨gs, h, rfl⟩ := h
    simp only [Core.eval, langAlg, Gram.lang]
    exact gram_meaning_alt l gs h ρ w
  | .fix (.lam n b), g, h, ρ, w => by
    simp only [Core.gram] at h
    split at h
    · rename_i hn
      simp only [beq_iff_eq] at hn
      subst hn
      simp only [Option.map_eq_some_iff] at h
      obtain ⟨g', h, rfl⟩ := h
      have key : ∀ (X : Lang) (v : List Char),
          (Core.eval langAlg (.lam 1 b) ρ [X]) v ↔ g'.lang (Lang.push X fun i => ρ i []) v := by
        intro X v
        have := gram_meaning b g' h (bindArgs 1 (fun _ _ => X) ρ) v
        rw [bindArgs_one (fun _ => X) X rfl] at this
        rw [← this]
        simp only [Core.eval, langAlg]
        have hf : (fun (i : Fin 1) (_ : List Lang) => [X].getD i.val fun _ => False) = fun _ _ => X := by
          funext i
          have : i.val = 0 := by omega
          simp [this]
        rw [hf]
      simp only [Core.eval] at key ⊢
      simp only [Gram.lang]
      show (∀ X : Lang, _) ↔ _
      exact forall_congr' fun X => by
        constructor
        · intro h1 h2; exact h1 fun v hv => h2 v ((key X v).1 hv)
        · intro h1 h2; exact h1 fun v hv => h2 v ((key X v).2 hv)
    · cases h
  | .var k, g, h, ρ, w => by simp only [Core.gram] at h; cases h; simp [Core.eval, Gram.lang]
  | .call _ _, _, h, _, _ | .lam _ _, _, h, _, _ | .letE _ _, _, h, _, _ => by simp only [Core.gram] at h; cases h
  | .fix .eps, _, h, _, _ | .fix (.lit _), _, h, _, _ | .fix (.cat _), _, h, _, _ | .fix (.alt _), _, h, _, _
  | .fix (.fix _), _, h, _, _ | .fix (.var _), _, h, _, _ | .fix (.call _ _), _, h, _, _
  | .fix (.letE _ _), _, h, _, _ => by simp only [Core.gram] at h; cases h
theorem gram_meaning_cat : ∀ (l : List Core) (gs : List Gram), Core.gramL (fun n => n == 1) l = some gs →
    ∀ (ρ : Nat → List Lang → Lang) (w : List Char),
      Lang.catL ((Core.evalL langAlg l ρ).map (· [])) w ↔ Gram.langCat gs (fun i => ρ i []) w
  | [], gs, h, ρ, w => by simp only [Core.gramL] at h; cases h; simp [Core.evalL, Lang.catL, Gram.langCat]
  | e :: l, gs, h, ρ, w => by
    simp only [Core.gramL, Option.bind_eq_some_iff, Option.map_eq_some_iff] at h
    obtain ⟨g, h1, gs, h2, rfl⟩ := h
    simp only [Core.evalL, List.map_cons, Lang.catL, Gram.langCat]
    refine exists_congr fun u => exists_congr fun v => and_congr_right fun _ => and_congr ?_ ?_
    · exact gram_meaning e g h1 ρ u
    · exact gram_meaning_cat l gs h2 ρ v
theorem gram_meaning_alt : ∀ (l : List Core) (gs : List Gram), Core.gramL (fun n => n == 1) l = some gs →
    ∀ (ρ : Nat → List Lang → Lang) (w : List Char),
      Lang.altL ((Core.evalL langAlg l ρ).map (· [])) w ↔ Gram.langAlt gs (fun i => ρ i []) w
  | [], gs, h, ρ, w => by simp only [Core.gramL] at h; cases h; simp [Core.evalL, Lang.altL, Gram.langAlt]
  | e :: l, gs, h, ρ, w => by
    simp only [Core.gramL, Option.bind_eq_some_iff, Option.map_eq_some_iff] at h
    obtain ⟨g, h1, gs, h2, rfl⟩ := h
    simp only [Core.evalL, List.map_cons, Lang.altL, Gram.langAlt]
    exact or_congr (gram_meaning e g h1 ρ w) (gram_meaning_alt l gs h2 ρ w)
end

mutual
/-- Accepting fewer parameter counts does not change the grammar. -/
theorem gram_weaken {u v : Nat → Bool} (huv : ∀ n, u n = true → v n = true) : ∀ (e : Core) (g : Gram),
    e.gram u = some g → e.gram v = some g
  | .eps, g, h | .lit s, g, h | .var k, g, h => by simpa only [Core.gram] using h
  | .cat l, g, h => by
    simp only [Core.gram, Option.map_eq_some_iff] at h ⊢
    obtain ⟨gs, h, rfl⟩ := h
    exact ⟨gs, gramL_weaken huv l gs h, rfl⟩
  | .alt l, g, h => by
    simp only [Core.gram, Option.map_eq_some_iff] at h ⊢
    obtain ⟨gs, h, rfl⟩ := h
    exact ⟨gs, gramL_weaken huv l gs h, rfl⟩
  | .fix (.lam n b), g, h => by
    simp only [Core.gram] at h ⊢
    split at h
    · rename_i hn
      rw [if_pos (huv n hn)]
      simp only [Option.map_eq_some_iff] at h ⊢
      obtain ⟨g', h, rfl⟩ := h
      exact ⟨g', gram_weaken huv b g' h, rfl⟩
    · cases h
  | .call _ _, _, h | .lam _ _, _, h | .letE _ _, _, h => by simp only [Core.gram] at h; cases h
  | .fix .eps, _, h | .fix (.lit _), _, h | .fix (.cat _), _, h | .fix (.alt _), _, h
  | .fix (.fix _), _, h | .fix (.var _), _, h | .fix (.call _ _), _, h
  | .fix (.letE _ _), _, h => by simp only [Core.gram] at h; cases h
theorem gramL_weaken {u v : Nat → Bool} (huv : ∀ n, u n = true → v n = true) : ∀ (l : List Core) (gs : List Gram),
    Core.gramL u l = some gs → Core.gramL v l = some gs
  | [], gs, h => by simpa only [Core.gramL] using h
  | e :: l, gs, h => by
    simp only [Core.gramL, Option.bind_eq_some_iff, Option.map_eq_some_iff] at h ⊢
    obtain ⟨g, h1, gs, h2, rfl⟩ := h
    exact ⟨g, gram_weaken huv e g h1, gs, gramL_weaken huv l gs h2, rfl⟩
end

end Chomp
