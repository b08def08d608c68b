import Verif.Props.Name
import Verif.Props.Ast
import Verif.Gram.Lemmas

/-!
# C69: equality of expressions

`NE.eqv` is the operator `==` of `NamedExpression` (`src/chomp/ast/mod.rs`).
-/

namespace Chomp

/-! ## What `==` compares -/

mutual
/-- The parameters of functions and the names of lets, from left to right. -/
def NE.binders : NE → List Name
  | .eps _ => []
  | .lit _ _ => []
  | .cat _ f r => f.binders ++ NE.bindersP r
  | .alt _ f r => f.binders ++ NE.bindersP r
  | .fix _ b => b.binders
  | .var _ _ => []
  | .call _ o a => o.binders ++ NE.bindersL a
  | .lam _ ps b => ps ++ b.binders
  | .letE _ n b c => n :: (b.binders ++ c.binders)
def NE.bindersP : List (Nat × NE) → List Name
  | [] => []
  | (_, e) :: l => e.binders ++ NE.bindersP l
def NE.bindersL : List NE → List Name
  | [] => []
  | e :: l => e.binders ++ NE.bindersL l
end

/-- Two names are `==`. -/
def SameName (a b : Name) : Prop := a.eqv b = true

theorem all2_append_iff {α β : Type} {R : α → β → Prop} : ∀ {l : List α} {m : List β} {l' : List α} {m' : List β}, l.length = m.length →
    (All2 R (l ++ l') (m ++ m') ↔ All2 R l m ∧ All2 R l' m')
  | [], [], _, _, _ => ⟨fun h => ⟨.nil, h⟩, fun h => h.2⟩
  | a :: l, b :: m, l', m', h => by
    have ih := all2_append_iff (R := R) (l := l) (m := m) (l' := l') (m' := m') (by simpa using h)
    constructor
    · rintro (_ | ⟨h1, h2⟩)
      exact ⟨.cons h1 (ih.1 h2).1, (ih.1 h2).2⟩
    · rintro ⟨h1, h2⟩
      cases h1 with
      | cons h1 h3 => exact .cons h1 (ih.2 ⟨h3, h2⟩)

theorem zip_all_iff : ∀ {l m : List Name}, ((l.length == m.length && (l.zip m).all fun p => p.1.eqv p.2) = true) ↔ All2 SameName l m
  | [], [] => by simp [All2.nil]
  | a :: l, b :: m => by
    have := zip_all_iff (l := l) (m := m)
    simp only [Bool.and_eq_true, beq_iff_eq] at this
    simp only [List.length_cons, Bool.and_eq_true, beq_iff_eq, Nat.add_right_cancel_iff, List.zip_cons_cons, List.all_cons]
    constructor
    · rintro ⟨h1, h2, h3⟩
      exact .cons h2 (this.1 ⟨h1, h3⟩)
    · rintro (_ | ⟨h1, h2⟩)
      exact ⟨(this.2 h2).1, h1, (this.2 h2).2⟩
  | [], _ :: _ => by simp; intro h; cases h
  | _ :: _, [] => by simp; intro h; cases h

mutual
theorem binders_length : ∀ e e' : NE, e.erase = e'.erase → e.binders.length = e'.binders.length
  | .eps _, e', h => by cases e' <;> simp [NE.erase] at h; rfl
  | .lit _ _, e', h => by cases e' <;> simp [NE.erase] at h; rfl
  | .var _ _, e', h => by cases e' <;> simp [NE.erase] at h; rfl
  | .cat _ f r, e', h => by
    cases e' <;> simp only [NE.erase, reduceCtorEq, Core.cat.injEq, List.cons.injEq] at h
    simp only [NE.binders, List.length_append, binders_length _ _ h.1, bindersP_length _ _ h.2]
  | .alt _ f r, e', h => by
    cases e' <;> simp only [NE.erase, reduceCtorEq, Core.alt.injEq, List.cons.injEq] at h
    simp only [NE.binders, List.length_append, binders_length _ _ h.1, bindersP_length _ _ h.2]
  | .fix _ b, e', h => by
    cases e' <;> simp only [NE.erase, reduceCtorEq, Core.fix.injEq] at h
    simp only [NE.binders, binders_length _ _ h]
  | .call _ o a, e', h => by
    cases e' <;> simp only [NE.erase, reduceCtorEq, Core.call.injEq] at h
    simp only [NE.binders, List.length_append, binders_length _ _ h.1, bindersL_length _ _ h.2]
  | .lam _ ps b, e', h => by
    cases e' <;> simp only [NE.erase, reduceCtorEq, Core.lam.injEq] at h
    simp only [NE.binders, List.length_append, binders_length _ _ h.2, h.1]
  | .letE _ n b c, e', h => by
    cases e' <;> simp only [NE.erase, reduceCtorEq, Core.letE.injEq] at h
    simp only [NE.binders, List.length_append, List.length_cons, binders_length _ _ h.1, binders_length _ _ h.2]
theorem bindersP_length : ∀ l m : List (Nat × NE), NE.eraseP l = NE.eraseP m → (NE.bindersP l).length = (NE.bindersP m).length
  | [], [], _ => rfl
  | (_, e) :: l, (_, e') :: m, h => by
    simp only [NE.eraseP, List.cons.injEq] at h
    simp only [NE.bindersP, List.length_append, binders_length _ _ h.1, bindersP_length _ _ h.2]
  | [], _ :: _, h => by simp [NE.eraseP] at h
  | _ :: _, [], h => by simp [NE.eraseP] at h
theorem bindersL_length : ∀ l m : List NE, NE.eraseL l = NE.eraseL m → (NE.bindersL l).length = (NE.bindersL m).length
  | [], [], _ => rfl
  | e :: l, e' :: m, h => by
    simp only [NE.eraseL, List.cons.injEq] at h
    simp only [NE.bindersL, List.length_append, binders_length _ _ h.1, bindersL_length _ _ h.2]
  | [], _ :: _, h => by simp [NE.eraseL] at h
  | _ :: _, [], h => by simp [NE.eraseL] at h
end

theorem and_swap4 {a b c d : Prop} : (a ∧ b) ∧ c ∧ d ↔ (a ∧ c) ∧ b ∧ d := by grind

mutual
theorem eqv_iff : ∀ e e' : NE, e.eqv e' = true ↔ e.erase = e'.erase ∧ All2 SameName e.binders e'.binders
  | .eps _, e' => by cases e' <;> simp [NE.eqv, NE.erase, NE.binders, All2.nil]
  | .lit _ _, e' => by cases e' <;> simp [NE.eqv, NE.erase, NE.binders, All2.nil]
  | .var _ _, e' => by cases e' <;> simp [NE.eqv, NE.erase, NE.binders, All2.nil]
  | .cat _ f r, e' => by
    cases e' <;> simp only [NE.eqv, NE.erase, reduceCtorEq, false_and, Bool.false_eq_true, Bool.and_eq_true, Core.cat.injEq, List.cons.injEq]
    rename_i f' r'
    rw [eqv_iff f f', eqvP_iff r r']
    refine ⟨fun ⟨⟨h1, h2⟩, h3, h4⟩ => ⟨⟨h1, h3⟩, (all2_append_iff (binders_length _ _ h1)).2 ⟨h2, h4⟩⟩, fun ⟨⟨h1, h3⟩, h⟩ => ?_⟩
    have := (all2_append_iff (binders_length _ _ h1)).1 h
    exact ⟨⟨h1, this.1⟩, h3, this.2⟩
  | .alt _ f r, e' => by
    cases e' <;> simp only [NE.eqv, NE.erase, reduceCtorEq, false_and, Bool.false_eq_true, Bool.and_eq_true, Core.alt.injEq, List.cons.injEq]
    rename_i f' r'
    rw [eqv_iff f f', eqvP_iff r r']
    refine ⟨fun ⟨⟨h1, h2⟩, h3, h4⟩ => ⟨⟨h1, h3⟩, (all2_append_iff (binders_length _ _ h1)).2 ⟨h2, h4⟩⟩, fun ⟨⟨h1, h3⟩, h⟩ => ?_⟩
    have := (all2_append_iff (binders_length _ _ h1)).1 h
    exact ⟨⟨h1, this.1⟩, h3, this.2⟩
  | .fix _ b, e' => by
    cases e' <;> simp only [NE.eqv, NE.erase, reduceCtorEq, false_and, Bool.false_eq_true, Core.fix.injEq]
    rename_i b'
    exact eqv_iff b b'
  | .call _ o a, e' => by
    cases e' <;> simp only [NE.eqv, NE.erase, reduceCtorEq, false_and, Bool.false_eq_true, Bool.and_eq_true, Core.call.injEq]
    rename_i o' a'
    rw [eqv_iff o o', eqvL_iff a a']
    refine ⟨fun ⟨⟨h1, h2⟩, h3, h4⟩ => ⟨⟨h1, h3⟩, (all2_append_iff (binders_length _ _ h1)).2 ⟨h2, h4⟩⟩, fun ⟨⟨h1, h3⟩, h⟩ => ?_⟩
    have := (all2_append_iff (binders_length _ _ h1)).1 h
    exact ⟨⟨h1, this.1⟩, h3, this.2⟩
  | .lam _ ps b, e' => by
    cases e' with
    | lam _ ps' b' =>
      show ((ps.length == ps'.length && (ps.zip ps').all fun p => p.1.eqv p.2) && b.eqv b') = true ↔ _
      rw [Bool.and_eq_true, zip_all_iff, eqv_iff b b']
      simp only [NE.erase, Core.lam.injEq, NE.binders]
      refine ⟨fun ⟨h1, h2, h3⟩ => ⟨⟨h1.length_eq, h2⟩, (all2_append_iff h1.length_eq).2 ⟨h1, h3⟩⟩, fun ⟨⟨h1, h2⟩, h⟩ => ?_⟩
      have := (all2_append_iff h1).1 h
      exact ⟨this.1, h2, this.2⟩
    | _ => simp [NE.eqv, NE.erase]
  | .letE _ n b c, e' => by
    cases e' <;> simp only [NE.eqv, NE.erase, reduceCtorEq, false_and, Bool.false_eq_true, Bool.and_eq_true, Core.letE.injEq]
    rename_i n' b' c'
    rw [eqv_iff b b', eqv_iff c c']
    simp only [NE.binders]
    constructor
    · rintro ⟨⟨h0, h1, h2⟩, h3, h4⟩
      exact ⟨⟨h1, h3⟩, .cons h0 ((all2_append_iff (binders_length _ _ h1)).2 ⟨h2, h4⟩)⟩
    · rintro ⟨⟨h1, h3⟩, h⟩
      cases h with
      | cons h0 h =>
        have := (all2_append_iff (binders_length _ _ h1)).1 h
        exact ⟨⟨h0, h1, this.1⟩, h3, this.2⟩
theorem eqvP_iff : ∀ l m : List (Nat × NE), NE.eqvP l m = true ↔ NE.eraseP l = NE.eraseP m ∧ All2 SameName (NE.bindersP l) (NE.bindersP m)
  | [], [] => by simp [NE.eqvP, NE.eraseP, NE.bindersP, All2.nil]
  | (_, e) :: l, (_, e') :: m => by
    simp only [NE.eqvP, NE.eraseP, NE.bindersP, List.cons.injEq, Bool.and_eq_true, eqv_iff e e', eqvP_iff l m]
    refine ⟨fun ⟨⟨h1, h2⟩, h3, h4⟩ => ⟨⟨h1, h3⟩, (all2_append_iff (binders_length _ _ h1)).2 ⟨h2, h4⟩⟩, fun ⟨⟨h1, h3⟩, h⟩ => ?_⟩
    have := (all2_append_iff (binders_length _ _ h1)).1 h
    exact ⟨⟨h1, this.1⟩, h3, this.2⟩
  | [], _ :: _ => by simp [NE.eqvP, NE.eraseP]
  | _ :: _, [] => by simp [NE.eqvP, NE.eraseP]
theorem eqvL_iff : ∀ l m : List NE, NE.eqvL l m = true ↔ NE.eraseL l = NE.eraseL m ∧ All2 SameName (NE.bindersL l) (NE.bindersL m)
  | [], [] => by simp [NE.eqvL, NE.eraseL, NE.bindersL, All2.nil]
  | e :: l, e' :: m => by
    simp only [NE.eqvL, NE.eraseL, NE.bindersL, List.cons.injEq, Bool.and_eq_true, eqv_iff e e', eqvL_iff l m]
    refine ⟨fun ⟨⟨h1, h2⟩, h3, h4⟩ => ⟨⟨h1, h3⟩, (all2_append_iff (binders_length _ _ h1)).2 ⟨h2, h4⟩⟩, fun ⟨⟨h1, h3⟩, h⟩ => ?_⟩
    have := (all2_append_iff (binders_length _ _ h1)).1 h
    exact ⟨⟨h1, this.1⟩, h3, this.2⟩
  | [], _ :: _ => by simp [NE.eqvL, NE.eraseL]
  | _ :: _, [] => by simp [NE.eqvL, NE.eraseL]
end

/-- **C69.** Expressions are `==` exactly if they have the same structure and the parameters and let names at the same places are
`==`; the names and spans of the expressions themselves are not looked at. -/
theorem C69_equal_iff (e e' : NE) : e.eqv e' = true ↔ e.erase = e'.erase ∧ All2 SameName e.binders e'.binders := eqv_iff e e'

theorem all2_refl {α : Type} {R : α → α → Prop} (h : ∀ a, R a a) : ∀ l : List α, All2 R l l
  | [] => .nil
  | a :: l => .cons (h a) (all2_refl h l)

theorem all2_symm {α : Type} {R : α → α → Prop} (h : ∀ a b, R a b → R b a) : ∀ {l m : List α}, All2 R l m → All2 R m l
  | _, _, .nil => .nil
  | _, _, .cons h1 h2 => .cons (h _ _ h1) (all2_symm h h2)

theorem SameName.symm {a b : Name} (h : SameName a b) : SameName b a := by
  unfold SameName Name.eqv at *
  rw [Bool.and_eq_true, beq_iff_eq] at *
  exact ⟨by rw [C09_content_eq_partial.2.1]; exact h.1, h.2.symm⟩

/-- **C69.** `==` is reflexive and symmetric. -/
theorem C69_reflexive_symmetric (e e' : NE) : e.eqv e = true ∧ e.eqv e' = e'.eqv e := by
  refine ⟨(eqv_iff e e).2 ⟨rfl, all2_refl (fun a => by simp [SameName, Name.eqv, C09_content_eq_partial.1]) _⟩, ?_⟩
  rw [Bool.eq_iff_iff, eqv_iff, eqv_iff]
  exact ⟨fun ⟨h1, h2⟩ => ⟨h1.symm, all2_symm (fun _ _ h => h.symm) h2⟩, fun ⟨h1, h2⟩ => ⟨h1.symm, all2_symm (fun _ _ h => h.symm) h2⟩⟩

/-- **C69.** It is not transitive, since `==` on names is not (C09). -/
theorem C69_not_transitive : ∃ a b c : NE, a.eqv b = true ∧ b.eqv c = true ∧ a.eqv c = false :=
  ⟨.lam ⟨none, 0⟩ [.newVariable (.spanned true "x" 1)] (.eps ⟨none, 0⟩), .lam ⟨none, 0⟩ [.newVariable (.spanless "x")] (.eps ⟨none, 0⟩),
    .lam ⟨none, 0⟩ [.newVariable (.spanned false "x" 1)] (.eps ⟨none, 0⟩), by decide⟩

theorem all2_trans {α : Type} {R : α → α → Prop} {P : α → Prop} (h : ∀ a b c, P a → P b → P c → R a b → R b c → R a c) :
    ∀ {l m k : List α}, (∀ a ∈ l, P a) → (∀ a ∈ m, P a) → (∀ a ∈ k, P a) → All2 R l m → All2 R m k → All2 R l k
  | _, _, _, _, _, _, .nil, .nil => .nil
  | _, _, _, hl, hm, hk, .cons h1 h2, .cons h3 h4 =>
    .cons (h _ _ _ (hl _ (by simp)) (hm _ (by simp)) (hk _ (by simp)) h1 h3)
      (all2_trans h (fun a ha => hl a (by simp [ha])) (fun a ha => hm a (by simp [ha])) (fun a ha => hk a (by simp [ha])) h2 h4)

/-- **C69.** It is transitive among expressions whose binders all have a span (as those that nibble's own parser makes) and among
expressions whose binders all have none (as those of autonibble). -/
theorem C69_transitive (k : Content) (a b c : NE) (ha : ∀ n ∈ a.binders, k.sameSort n.content) (hb : ∀ n ∈ b.binders, k.sameSort n.content)
    (hc : ∀ n ∈ c.binders, k.sameSort n.content) (h1 : a.eqv b = true) (h2 : b.eqv c = true) : a.eqv c = true := by
  rw [eqv_iff] at *
  refine ⟨h1.1.trans h2.1, all2_trans (P := fun n => k.sameSort n.content) (fun x y z hx hy hz h3 h4 => ?_) ha hb hc h1.2 h2.2⟩
  unfold SameName Name.eqv at *
  rw [Bool.and_eq_true, beq_iff_eq] at *
  have sort : ∀ {c d : Content}, k.sameSort c → k.sameSort d → c.sameSort d := by
    intro c d; cases k <;> cases c <;> cases d <;> simp [Content.sameSort]
  exact ⟨C09_content_eq_partial.2.2.2 _ _ _ (sort hx hy) (sort hy hz) h3.1 h4.1, h3.2.trans h4.2⟩

end Chomp
