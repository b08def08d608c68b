import Verif.Lower.Faithful

/-!
# Values of generated types are the syntax trees of the grammar
-/

namespace Chomp

theorem All2.comp {α β γ : Type} {R : α → β → Prop} {S : β → γ → Prop} : ∀ {l : List α} {m : List β} {n : List γ},
    All2 R l m → All2 S m n → All2 (fun a c => ∃ b, R a b ∧ S b c) l n
  | _, _, _, .nil, .nil => .nil
  | _, _, _, .cons h1 h2, .cons h3 h4 => .cons ⟨_, h1, h3⟩ (h2.comp h4)

theorem NodeF.Rel.comp {α β γ : Type} {R : α → β → Prop} {S : β → γ → Prop} {x : NodeF α} {y : NodeF β} {z : NodeF γ}
    (h1 : NodeF.Rel R x y) (h2 : NodeF.Rel S y z) : NodeF.Rel (fun a c => ∃ b, R a b ∧ S b c) x z := by
  cases h1 with
  | eps => cases h2; exact .eps
  | lit s => cases h2; exact .lit s
  | cat h => cases h2 with | cat h' => exact .cat (h.comp h')
  | alt tys h => cases h2 with | alt _ h' => exact .alt tys (h.comp h')
  | alias h => cases h2 with | alias h' => exact .alias ⟨_, h, h'⟩
  | box h => cases h2 with | box h' => exact .box ⟨_, h, h'⟩
  | bad => cases h2; exact .bad

theorem NodeF.Rel.mono {α β : Type} {R S : α → β → Prop} (hRS : ∀ a b, R a b → S a b) {x : NodeF α} {y : NodeF β}
    (h : NodeF.Rel R x y) : NodeF.Rel S x y := by
  cases h with
  | eps => exact .eps
  | lit s => exact .lit s
  | cat h => exact .cat (h.mono hRS)
  | alt tys h => exact .alt tys (h.mono hRS)
  | alias h => exact .alias (hRS _ _ h)
  | box h => exact .box (hRS _ _ h)
  | bad => exact .bad

/-- Any number of `SameFix` steps. -/
inductive SameStar : List TE × TE → List TE × TE → Prop
  | refl (c : List TE × TE) : SameStar c c
  | head {a b c : List TE × TE} : SameFix a.1 b.1 a.2 b.2 → SameStar b c → SameStar a c

theorem All2.refl {α : Type} {R : α → α → Prop} (h : ∀ a, R a a) : ∀ l : List α, All2 R l l
  | [] => .nil
  | a :: l => .cons (h a) (All2.refl h l)

theorem NodeF.Rel.refl {α : Type} {R : α → α → Prop} (h : ∀ a, R a a) (x : NodeF α) : NodeF.Rel R x x := by
  cases x with
  | eps => exact .eps
  | lit s => exact .lit s
  | cat l => exact .cat (.refl h l)
  | alt tys l => exact .alt tys (.refl h l)
  | alias a => exact .alias (h a)
  | box a => exact .box (h a)
  | bad => exact .bad

theorem SameStar.step {c d : List TE × TE} (h : SameStar c d) : NodeF.Rel SameStar (stepR c) (stepR d) := by
  induction h with
  | refl c => exact .refl .refl _
  | head h _ ih => exact ((SameFix.step h).comp ih).mono (fun _ _ ⟨_, h1, h2⟩ => .head h1 h2)

/-- The id implements an expression that is the same as the given one. -/
def Bis (root : TE) (D : List Entry) (R : Records) (id : Nat) (c : List TE × TE) : Prop :=
  ∃ ρ te, ((Occ root ρ te ∧ Impl D R ρ te id) ∨ ∃ b, te = .fix none b ∧ (id, ρ, b) ∈ R) ∧ SameStar (ρ, te) c

theorem ImplL.bis {root : TE} {D : List Entry} {R : Records} {ρ : List TE} : ∀ {l : List TE} {ids : List Nat},
    ImplL D R ρ l ids → (∀ t ∈ l, Occ root ρ t) → All2 (Bis root D R) ids (l.map fun t => (ρ, t))
  | [], ids, h, _ => by
    simp only [ImplL] at h
    subst h
    exact .nil
  | e :: l, ids, h, ho => by
    simp only [ImplL] at h
    obtain ⟨id, ids', rfl, h1, h2⟩ := h
    exact .cons ⟨ρ, e, .inl ⟨ho e (by simp), h1⟩, .refl _⟩ (ImplL.bis h2 (fun t ht => ho t (by simp [ht])))

/-- The generated table is bisimilar to the expression. -/
theorem Bis.step {root : TE} {D : List Entry} {R : Records} (hC : Complete root D R) (hns : NoSharingConflict root)
    {id : Nat} {c : List TE × TE} (h : Bis root D R id c) : NodeF.Rel (Bis root D R) (nodeAt D id) (stepR c) := by
  obtain ⟨ρ, te, h1, h2⟩ := h
  -- a recorded fix point
  have hrec : ∀ ρ b, (id, ρ, b) ∈ R → NodeF.Rel (Bis root D R) (nodeAt D id) (stepR (ρ, .fix none b)) := by
    intro ρ b hr
    obtain ⟨j, h3, h4⟩ := hC.impl id ρ b hr
    obtain ⟨nm, h5⟩ := hC.occ id ρ b hr
    rw [h3]
    exact .alias ⟨_, _, .inl ⟨h5.fix, h4⟩, .refl _⟩
  have lift : ∀ {c0}, NodeF.Rel (Bis root D R) (nodeAt D id) (stepR c0) → SameStar c0 c →
      NodeF.Rel (Bis root D R) (nodeAt D id) (stepR c) := by
    intro c0 h3 h4
    refine (h3.comp h4.step).mono ?_
    rintro a c' ⟨b, ⟨ρ, te, h5, h6⟩, h7⟩
    refine ⟨ρ, te, h5, ?_⟩
    clear h5 hrec
    generalize (ρ, te) = x at h6
    induction h6 with
    | refl _ => exact h7
    | head h _ ih => exact .head h (ih h7)
  rcases h1 with ⟨hO, hI⟩ | ⟨b, rfl, hr⟩
  · cases te with
    | eps nm => simp only [Impl] at hI; exact lift (by rw [hI]; exact .eps) h2
    | lit nm s => simp only [Impl] at hI; exact lift (by rw [hI]; exact .lit s) h2
    | cat nm ty l =>
      simp only [Impl] at hI
      obtain ⟨ids, h3, h4⟩ := hI
      exact lift (by rw [h3]; exact .cat (h4.bis (fun t ht => hO.cat ht))) h2
    | alt nm ty l =>
      simp only [Impl] at hI
      obtain ⟨ids, h3, h4⟩ := hI
      exact lift (by rw [h3]; exact .alt _ (h4.bis (fun t ht => hO.alt ht))) h2
    | fix nm b =>
      simp only [Impl] at hI
      obtain ⟨ρ0, b0, h3, h4⟩ := hI
      obtain ⟨nm0, h5⟩ := hC.occ id ρ0 b0 h3
      have h6 := hns ρ0 nm0 b0 ρ nm b h5 hO h4
      exact lift (hrec ρ0 b0 h3) (.head (b := (ρ, .fix nm b)) h6.fix_name h2)
    | var nm i ty =>
      simp only [Impl] at hI
      obtain ⟨f, b, ρ', h3, h4, h5⟩ := hI
      refine lift ?_ h2
      simp only [stepR, h3, h4]
      exact .box ⟨ρ', _, .inr ⟨b, rfl, h5⟩, .refl _⟩
  · exact lift (hrec ρ b hr) h2

/-- The generated root type is bisimilar to the expression. -/
theorem gen_bisim {cas : Casing} {te : TE} (hA : Ann [] 0 te) (hns : NoSharingConflict te) {id : Nat} {s : BState}
    (hg : gen cas te {} = .ok (id, s)) : ∃ B : Nat → List TE × TE → Prop, B id ([], te) ∧
      ∀ a c, B a c → NodeF.Rel B (s.step a) (stepR c) := by
  have h := gen_initial cas te hA
  rw [hg] at h
  obtain ⟨R, τ, h1, h2, h3⟩ := h
  refine ⟨Bis te s.data R, ⟨[], te, .inl ⟨.root, h2⟩, .refl _⟩, fun a c h => ?_⟩
  refine Bis.step ⟨fun id ρ b h => (h1.inv.recTy id ρ b h).2, ?_⟩ hns h
  intro id ρ b hm
  rcases h1.inv.done id ρ b hm with h | h
  · rw [h1.ctx] at h; simp at h
  · exact h

/-! ## Values -/

mutual
/-- Bisimilar types have the same values. -/
theorem value_bisim {α β : Type} {f : α → NodeF α} {g : β → NodeF β} {R : α → β → Prop}
    (h : ∀ a b, R a b → NodeF.Rel R (f a) (g b)) : ∀ {a : α} {b : β} {t : Tree}, Value f a t → R a b → Value g b t
  | a, b, _, .eps _ h1, hR => by
    have := h a b hR
    rw [h1] at this
    generalize hy : g b = y at this
    cases this
    exact .eps _ hy
  | a, b, _, .lit _ s h1, hR => by
    have := h a b hR
    rw [h1] at this
    generalize hy : g b = y at this
    cases this
    exact .lit _ s hy
  | a, b, _, .cat _ l ts h1 h2, hR => by
    have := h a b hR
    rw [h1] at this
    generalize hy : g b = y at this
    cases this with
    | cat hl => exact .cat _ _ _ hy (valueL_bisim h h2 hl)
  | a, b, _, .alt _ tys l k c t h1 h2 h3, hR => by
    have := h a b hR
    rw [h1] at this
    generalize hy : g b = y at this
    cases this with
    | alt _ hl =>
      rcases hl.getElem? k with ⟨h4, _⟩ | ⟨x, y, h4, h5, h6⟩
      · rw [h2] at h4; cases h4
      · rw [h2] at h4; cases h4
        exact .alt _ _ _ k y t hy h5 (value_bisim h h3 h6)
  | a, b, _, .alias _ c t h1 h2, hR => by
    have := h a b hR
    rw [h1] at this
    generalize hy : g b = y at this
    cases this with
    | alias h' => exact .alias _ _ _ hy (value_bisim h h2 h')
  | a, b, _, .box _ c t h1 h2, hR => by
    have := h a b hR
    rw [h1] at this
    generalize hy : g b = y at this
    cases this with
    | box h' => exact .box _ _ _ hy (value_bisim h h2 h')
theorem valueL_bisim {α β : Type} {f : α → NodeF α} {g : β → NodeF β} {R : α → β → Prop}
    (h : ∀ a b, R a b → NodeF.Rel R (f a) (g b)) : ∀ {l : List α} {l' : List β} {ts : List Tree}, ValueL f l ts →
      All2 R l l' → ValueL g l' ts
  | _, _, _, .nil, .nil => .nil
  | _, _, _, .cons a l t ts h1 h2, .cons h3 h4 => .cons _ _ _ _ (value_bisim h h1 h3) (valueL_bisim h h2 h4)
end

theorem All2.flip {α β : Type} {R : α → β → Prop} : ∀ {l : List α} {m : List β}, All2 R l m → All2 (fun b a => R a b) m l
  | _, _, .nil => .nil
  | _, _, .cons h1 h2 => .cons h1 h2.flip

theorem NodeF.Rel.flip {α β : Type} {R : α → β → Prop} {x : NodeF α} {y : NodeF β} (h : NodeF.Rel R x y) :
    NodeF.Rel (fun b a => R a b) y x := by
  cases h with
  | eps => exact .eps
  | lit s => exact .lit s
  | cat h => exact .cat h.flip
  | alt tys h => exact .alt tys h.flip
  | alias h => exact .alias h
  | box h => exact .box h
  | bad => exact .bad

mutual
theorem value_der : ∀ {c : List TE × TE} {t : Tree}, Value stepR c t → Der (c.1.map TE.gram) c.2.gram t
  | (ρ, te), _, .eps _ h => by
    cases te <;> simp only [stepR, reduceCtorEq] at h
    · exact .eps _
    · split at h <;> cases h
  | (ρ, te), _, .lit _ s h => by
    cases te <;> simp only [stepR, reduceCtorEq] at h
    · cases h; exact .lit _ _
    · split at h <;> cases h
  | (ρ, te), _, .cat _ l ts h h2 => by
    have ih := @valueL_der ρ _ _ h2
    cases te <;> simp only [stepR, reduceCtorEq] at h
    · cases h; exact .cat _ _ _ (ih rfl)
    · split at h <;> cases h
  | (ρ, te), _, .alt _ tys l k b t h h2 h3 => by
    have ih := value_der h3
    cases te <;> simp only [stepR, reduceCtorEq] at h
    · cases h
      simp only [List.getElem?_map, Option.map_eq_some_iff] at h2
      obtain ⟨t', h4, rfl⟩ := h2
      exact .alt _ _ k t'.gram _ (by simp [h4]) ih
    · split at h <;> cases h
  | (ρ, te), _, .alias _ b t h h2 => by
    have ih := value_der h2
    cases te <;> simp only [stepR, reduceCtorEq] at h
    · cases h; exact .fix _ _ _ ih
    · split at h <;> cases h
  | (ρ, te), _, .box _ b t h h2 => by
    have ih := value_der h2
    cases te <;> simp only [stepR, reduceCtorEq] at h
    split at h
    · rename_i b' ρ' hd
      cases h
      cases ih with
      | fix _ _ _ h3 =>
        refine .var _ _ b'.gram (ρ'.map TE.gram) _ ?_ h3
        rw [← List.map_drop, hd]; rfl
    · cases h
theorem valueL_der : ∀ (ρ : List TE) {l : List (List TE × TE)} {ts : List Tree}, ValueL stepR l ts → ∀ {tes : List TE},
    l = tes.map (fun t => (ρ, t)) → DerL (ρ.map TE.gram) (TE.gramL tes) ts
  | ρ, _, _, .nil, tes, h => by
    cases tes with
    | nil => exact .nil _
    | cons _ _ => cases h
  | ρ, _, _, .cons a l t ts h1 h2, tes, h => by
    cases tes with
    | nil => cases h
    | cons e tes =>
      have ih1 := value_der h1
      have ih2 := @valueL_der ρ _ _ h2 tes
      simp only [List.map_cons, List.cons.injEq] at h
      obtain ⟨rfl, rfl⟩ := h
      exact .cons _ _ _ _ _ ih1 (ih2 rfl)
end

mutual
theorem der_value : ∀ {Γ : List Gram} {g : Gram} {t : Tree}, Der Γ g t → ∀ {ρ : List TE} {te : TE},
    Γ = ρ.map TE.gram → g = te.gram → Value stepR (ρ, te) t
  | _, _, _, .eps _, ρ, te, h1, h2 => by
    cases te <;> simp only [TE.gram, reduceCtorEq] at h2
    exact .eps _ rfl
  | _, _, _, .lit _ s, ρ, te, h1, h2 => by
    cases te <;> simp only [TE.gram, reduceCtorEq] at h2
    cases h2
    exact .lit _ _ rfl
  | _, _, _, .cat _ l ts h, ρ, te, h1, h2 => by
    cases te with
    | cat nm ty tes =>
      simp only [TE.gram, Gram.cat.injEq] at h2
      exact .cat _ _ _ rfl (derL_value h h1 h2)
    | _ => simp [TE.gram] at h2
  | _, _, _, .alt _ l k g t h h', ρ, te, h1, h2 => by
    cases te with
    | alt nm ty tes =>
      simp only [TE.gram, Gram.alt.injEq, TE.gramL_map] at h2
      rw [h2] at h
      simp only [List.getElem?_map, Option.map_eq_some_iff] at h
      obtain ⟨te', h3, h4⟩ := h
      exact .alt _ _ _ k (ρ, te') _ rfl (by simp [h3]) (der_value h' h1 h4.symm)
    | _ => simp [TE.gram] at h2
  | _, _, _, .fix _ b t h, ρ, te, h1, h2 => by
    cases te with
    | fix nm b' =>
      simp only [TE.gram, Gram.fix.injEq] at h2
      exact .alias _ _ _ rfl (der_value h (by simp [h1, h2]) h2)
    | _ => simp [TE.gram] at h2
  | _, _, _, .var _ i b Γ' t h h', ρ, te, h1, h2 => by
    cases te with
    | var nm j ty =>
      simp only [TE.gram, Gram.var.injEq] at h2
      subst h2
      rw [h1, ← List.map_drop] at h
      cases hd : ρ.drop i with
      | nil => rw [hd] at h; simp at h
      | cons b' ρ' =>
        rw [hd] at h
        simp only [List.map_cons, List.cons.injEq] at h
        refine .box _ (ρ', .fix none b') _ (by simp only [stepR, hd]) (.alias _ _ _ rfl (der_value h' ?_ h.1.symm))
        rw [← h.1, ← h.2]; rfl
    | _ => simp [TE.gram] at h2
theorem derL_value : ∀ {Γ : List Gram} {l : List Gram} {ts : List Tree}, DerL Γ l ts → ∀ {ρ : List TE} {tes : List TE},
    Γ = ρ.map TE.gram → l = TE.gramL tes → ValueL stepR (tes.map fun t => (ρ, t)) ts
  | _, _, _, .nil _, ρ, tes, h1, h2 => by
    cases tes with
    | nil => exact .nil
    | cons _ _ => simp [TE.gramL] at h2
  | _, _, _, .cons _ g l t ts h h', ρ, tes, h1, h2 => by
    cases tes with
    | nil => simp [TE.gramL] at h2
    | cons e tes =>
      simp only [TE.gramL, List.cons.injEq] at h2
      exact .cons _ _ _ _ (der_value h h1 h2.1) (derL_value h' h1 h2.2)
end

/-- The values of the generated root type are the syntax trees. -/
theorem gen_values {cas : Casing} {te : TE} (hA : Ann [] 0 te) (hns : NoSharingConflict te) {id : Nat} {s : BState}
    (hg : gen cas te {} = .ok (id, s)) (t : Tree) : Value s.step id t ↔ Der [] te.gram t := by
  obtain ⟨B, h1, h2⟩ := gen_bisim hA hns hg
  constructor
  · intro h
    exact value_der (value_bisim h2 h h1)
  · intro h
    exact value_bisim (R := fun c a => B a c) (fun c a h => (h2 a c h).flip) (der_value h (ρ := []) rfl rfl) h1

mutual
theorem Tree.display_eq : ∀ t : Tree, t.display = t.text
  | .eps => rfl
  | .lit _ => rfl
  | .cat l => by simp only [Tree.display, Tree.text, Tree.displayL_eq l]
  | .alt _ t => by simp only [Tree.display, Tree.text, Tree.display_eq t]
  | .box t => by simp only [Tree.display, Tree.text, Tree.display_eq t]
theorem Tree.displayL_eq : ∀ l : List Tree, Tree.displayL l = Tree.textL l
  | [] => rfl
  | t :: l => by simp only [Tree.displayL, Tree.textL, Tree.display_eq t, Tree.displayL_eq l]
end

mutual
/-- A successful run of any set of generated types returns a value of the type. -/
theorem run_value {α : Type} {f : α → NodeF α} : ∀ (n : Nat) (a : α) (w w' : IW) (t : Tree),
    run f n a w = .ok t w' → Value f a t
  | 0, _, _, _, _, h => by cases h
  | n + 1, a, w, w', t, h => by
    simp only [run] at h
    cases hs : f a with
    | eps => rw [hs] at h; cases h; exact .eps _ hs
    | lit s => rw [hs] at h; obtain ⟨_, _, rfl⟩ := Res.map_ok h; exact .lit _ _ hs
    | cat l =>
      rw [hs] at h
      obtain ⟨ts, h1, rfl⟩ := Res.map_ok h
      exact .cat _ _ _ hs (seqTake_value n l w w' ts h1)
    | alt tys l =>
      rw [hs] at h
      obtain ⟨k, x, t', h1, h2, h3, rfl⟩ := altTake_sound h
      exact .alt _ _ _ _ _ _ hs h2 (run_value n x _ _ _ h3)
    | alias b => rw [hs] at h; exact .alias _ _ _ hs (run_value n b _ _ _ h)
    | box b =>
      rw [hs] at h
      obtain ⟨t', h1, rfl⟩ := Res.map_ok h
      exact .box _ _ _ hs (run_value n b _ _ _ h1)
    | bad => rw [hs] at h; cases h
theorem seqTake_value {α : Type} {f : α → NodeF α} : ∀ (n : Nat) (l : List α) (w w' : IW) (ts : List Tree),
    seqTake (run f n) l w = .ok ts w' → ValueL f l ts
  | n, [], w, w', ts, h => by simp only [seqTake] at h; cases h; exact .nil
  | n, x :: l, w, w', ts, h => by
    simp only [seqTake] at h
    obtain ⟨t, w1, h1, h⟩ := Res.bind_ok h
    obtain ⟨ts', w2, h2, h⟩ := Res.bind_ok h
    cases h
    exact .cons _ _ _ _ (run_value n x _ _ _ h1) (seqTake_value n l _ _ _ h2)
end

end Chomp
