import Verif.Ast.Standard

/-!
# Specification layer: laws of the algebra of grammars

The laws a user of an *algebraic* parser generator expects to be able to apply to a program without
changing its meaning, and the relation "follows by applying laws anywhere in the program".  The lemmas
below say that applying laws commutes with evaluating calls and lets.
-/

namespace Chomp

/-- The laws.  Those that are only listed from left to right do not preserve acceptance from right to
left (for instance `cat [e]` is rejected if `e` matches the empty string). -/
inductive Core.Law : Core → Core → Prop
  /-- The order of the branches of an alternation is irrelevant. -/
  | altPerm (l l' : List Core) : l.Perm l' → Law (.alt l) (.alt l')
  /-- Alternation is associative. -/
  | altFlat (pre l post : List Core) : Law (.alt (pre ++ .alt l :: post)) (.alt (pre ++ l ++ post))
  | altNest (pre l post : List Core) : l ≠ [] → Law (.alt (pre ++ l ++ post)) (.alt (pre ++ .alt l :: post))
  | altOne (e : Core) : Law (.alt [e]) e
  /-- Concatenation is associative. -/
  | catFlat (pre l post : List Core) : Law (.cat (pre ++ .cat l :: post)) (.cat (pre ++ l ++ post))
  | catNest (l post : List Core) : l ≠ [] → Law (.cat (l ++ post)) (.cat (.cat l :: post))
  | catOne (e : Core) : Law (.cat [e]) e
  /-- A literal is the concatenation of its parts. -/
  | litSplit (s t : List Char) : s ≠ [] → Law (.lit (s ++ t)) (.cat [.lit s, .lit t])
  | litJoin (s t : List Char) : Law (.cat [.lit s, .lit t]) (.lit (s ++ t))
  /-- `_` is the empty literal, and neutral in concatenations. -/
  | epsLit : Law .eps (.lit [])
  | litEps : Law (.lit []) .eps
  | catEps (pre post : List Core) : pre ≠ [] → Law (.cat (pre ++ post)) (.cat (pre ++ .eps :: post))
  | catNoEps (pre post : List Core) : Law (.cat (pre ++ .eps :: post)) (.cat (pre ++ post))
  /-- A fix point may be unfolded. -/
  | unfold (b : Core) : Law (.fix (.lam 1 b)) (b.sub (inst 0 (.fix (.lam 1 b))))
  /-- Concatenation distributes over alternation from the right. -/
  | distrib (l post : List Core) : Law (.cat (.alt l :: post)) (.alt (l.map fun e => .cat (e :: post)))

mutual
/-- One law, or none, is applied at each of any number of places. -/
inductive Core.Refac : Core → Core → Prop
  | eps : Refac .eps .eps
  | lit (s : List Char) : Refac (.lit s) (.lit s)
  | cat (l l' : List Core) : RefacL l l' → Refac (.cat l) (.cat l')
  | alt (l l' : List Core) : RefacL l l' → Refac (.alt l) (.alt l')
  | fix (b b' : Core) : Refac b b' → Refac (.fix b) (.fix b')
  | var (k : Nat) : Refac (.var k) (.var k)
  | call (o o' : Core) (a a' : List Core) : Refac o o' → RefacL a a' → Refac (.call o a) (.call o' a')
  | lam (n : Nat) (b b' : Core) : Refac b b' → Refac (.lam n b) (.lam n b')
  | letE (b b' c c' : Core) : Refac b b' → Refac c c' → Refac (.letE b c) (.letE b' c')
  | law (a b c : Core) : Refac a b → Core.Law b c → Refac a c
inductive Core.RefacL : List Core → List Core → Prop
  | nil : RefacL [] []
  | cons (e e' : Core) (l l' : List Core) : Refac e e' → RefacL l l' → RefacL (e :: l) (e' :: l')
end

/-- The second expression is obtained from the first by applying laws. -/
inductive Core.Refacs : Core → Core → Prop
  | refl (e : Core) : Refacs e e
  | tail {a b c : Core} : Refacs a b → Core.Refac b c → Refacs a c

/-! ### Basic facts -/

theorem Core.RefacL.of_all2 {l l' : List Core} (h : All2 Core.Refac l l') : Core.RefacL l l' := by
  induction h with
  | nil => exact .nil
  | cons h _ ih => exact .cons _ _ _ _ h ih

theorem Core.RefacL.all2 : ∀ {l l' : List Core}, Core.RefacL l l' → All2 Core.Refac l l'
  | _, _, .nil => .nil
  | _, _, .cons _ _ _ _ h t => .cons h t.all2

theorem Core.refacL_iff {l l' : List Core} : Core.RefacL l l' ↔ All2 Core.Refac l l' := ⟨fun h => h.all2, .of_all2⟩

theorem All2.same {α : Type} {R : α → α → Prop} {l : List α} (h : ∀ a ∈ l, R a a) : All2 R l l := by
  induction l with
  | nil => exact .nil
  | cons a l ih => exact .cons (h a (by simp)) (ih fun b hb => h b (by simp [hb]))

theorem Core.Refac.refl (e : Core) : Core.Refac e e := by
  induction e using Core.ind with
  | eps => exact .eps
  | lit s => exact .lit s
  | cat l ih => exact .cat _ _ (.of_all2 (All2.same ih))
  | alt l ih => exact .alt _ _ (.of_all2 (All2.same ih))
  | fix b ih => exact .fix _ _ ih
  | var k => exact .var k
  | call o a ho ha => exact .call _ _ _ _ ho (.of_all2 (All2.same ha))
  | lam n b ih => exact .lam _ _ _ ih
  | letE b c hb hc => exact .letE _ _ _ _ hb hc

theorem Core.RefacL.refl (l : List Core) : Core.RefacL l l := .of_all2 (All2.same fun e _ => .refl e)

/-! ### Renaming and substitution -/

theorem Core.Law.ren {a b : Core} (h : Core.Law a b) (f : Nat → Nat) : Core.Law (a.ren f) (b.ren f) := by
  cases h with
  | altPerm l l' h => simp only [Core.ren, Core.renL_map]; exact .altPerm _ _ (h.map _)
  | altFlat pre l post =>
    simp only [Core.ren, Core.renL_map, List.map_append, List.map_cons]; exact .altFlat _ _ _
  | altNest pre l post hl =>
    simp only [Core.ren, Core.renL_map, List.map_append, List.map_cons]; exact .altNest _ _ _ (by simpa using hl)
  | altOne e => exact .altOne _
  | catFlat pre l post =>
    simp only [Core.ren, Core.renL_map, List.map_append, List.map_cons]; exact .catFlat _ _ _
  | catNest l post hl =>
    simp only [Core.ren, Core.renL_map, List.map_append, List.map_cons]; exact .catNest _ _ (by simpa using hl)
  | catOne e => exact .catOne _
  | litSplit s t hs => exact .litSplit _ _ hs
  | litJoin s t => exact .litJoin _ _
  | epsLit => exact .epsLit
  | litEps => exact .litEps
  | catEps pre post hp =>
    simp only [Core.ren, Core.renL_map, List.map_append, List.map_cons]; exact .catEps _ _ (by simpa using hp)
  | catNoEps pre post =>
    simp only [Core.ren, Core.renL_map, List.map_append, List.map_cons]; exact .catNoEps _ _
  | unfold b => rw [sub_inst_ren]; exact .unfold _
  | distrib l post =>
    simp only [Core.ren, Core.renL_map, List.map_cons]
    have := Core.Law.distrib (l.map (Core.ren f)) (post.map (Core.ren f))
    simpa [List.map_map, Function.comp_def, Core.ren, Core.sub] using this

theorem Core.Law.sub {a b : Core} (h : Core.Law a b) (σ : Nat → Core) : Core.Law (a.sub σ) (b.sub σ) := by
  cases h with
  | altPerm l l' h => simp only [Core.sub, Core.subL_map]; exact .altPerm _ _ (h.map _)
  | altFlat pre l post =>
    simp only [Core.sub, Core.subL_map, List.map_append, List.map_cons]; exact .altFlat _ _ _
  | altNest pre l post hl =>
    simp only [Core.sub, Core.subL_map, List.map_append, List.map_cons]; exact .altNest _ _ _ (by simpa using hl)
  | altOne e => exact .altOne _
  | catFlat pre l post =>
    simp only [Core.sub, Core.subL_map, List.map_append, List.map_cons]; exact .catFlat _ _ _
  | catNest l post hl =>
    simp only [Core.sub, Core.subL_map, List.map_append, List.map_cons]; exact .catNest _ _ (by simpa using hl)
  | catOne e => exact .catOne _
  | litSplit s t hs => exact .litSplit _ _ hs
  | litJoin s t => exact .litJoin _ _
  | epsLit => exact .epsLit
  | litEps => exact .litEps
  | catEps pre post hp =>
    simp only [Core.sub, Core.subL_map, List.map_append, List.map_cons]; exact .catEps _ _ (by simpa using hp)
  | catNoEps pre post =>
    simp only [Core.sub, Core.subL_map, List.map_append, List.map_cons]; exact .catNoEps _ _
  | unfold b => rw [sub_inst_sub]; exact .unfold _
  | distrib l post =>
    simp only [Core.sub, Core.subL_map, List.map_cons]
    have := Core.Law.distrib (l.map (Core.sub σ)) (post.map (Core.sub σ))
    simpa [List.map_map, Function.comp_def, Core.ren, Core.sub] using this

mutual
theorem Core.Refac.ren : ∀ {a b : Core}, Core.Refac a b → ∀ f : Nat → Nat, Core.Refac (a.ren f) (b.ren f)
  | _, _, .eps, _ => .eps
  | _, _, .lit s, _ => .lit s
  | _, _, .cat _ _ h, f => .cat _ _ (h.ren f)
  | _, _, .alt _ _ h, f => .alt _ _ (h.ren f)
  | _, _, .fix _ _ h, f => .fix _ _ (h.ren f)
  | _, _, .var _, _ => .var _
  | _, _, .call _ _ _ _ h h', f => .call _ _ _ _ (h.ren f) (h'.ren f)
  | _, _, .lam _ _ _ h, _ => .lam _ _ _ (h.ren _)
  | _, _, .letE _ _ _ _ h h', f => .letE _ _ _ _ (h.ren f) (h'.ren _)
  | _, _, .law _ _ _ h h', f => .law _ _ _ (h.ren f) (h'.ren f)
theorem Core.RefacL.ren : ∀ {a b : List Core}, Core.RefacL a b → ∀ f : Nat → Nat,
    Core.RefacL (Core.renL f a) (Core.renL f b)
  | _, _, .nil, _ => .nil
  | _, _, .cons _ _ _ _ h h', f => .cons _ _ _ _ (h.ren f) (h'.ren f)
end

theorem up_refac {σ τ : Nat → Core} (h : ∀ i, Core.Refac (σ i) (τ i)) (n : Nat) :
    ∀ i, Core.Refac (up n σ i) (up n τ i) := by
  intro i
  simp only [up]
  split
  · exact .var _
  · exact (h _).ren _

mutual
theorem Core.Refac.sub : ∀ {a b : Core}, Core.Refac a b → ∀ σ τ : Nat → Core, (∀ i, Core.Refac (σ i) (τ i)) →
    Core.Refac (a.sub σ) (b.sub τ)
  | _, _, .eps, _, _, _ => .eps
  | _, _, .lit s, _, _, _ => .lit s
  | _, _, .cat _ _ h, σ, τ, hs => .cat _ _ (h.sub σ τ hs)
  | _, _, .alt _ _ h, σ, τ, hs => .alt _ _ (h.sub σ τ hs)
  | _, _, .fix _ _ h, σ, τ, hs => .fix _ _ (h.sub σ τ hs)
  | _, _, .var k, _, _, hs => hs k
  | _, _, .call _ _ _ _ h h', σ, τ, hs => .call _ _ _ _ (h.sub σ τ hs) (h'.sub σ τ hs)
  | _, _, .lam n _ _ h, _, _, hs => .lam _ _ _ (h.sub _ _ (up_refac hs n))
  | _, _, .letE _ _ _ _ h h', σ, τ, hs => .letE _ _ _ _ (h.sub σ τ hs) (h'.sub _ _ (up_refac hs 1))
  | _, _, .law _ _ _ h h', σ, τ, hs => .law _ _ _ (h.sub σ τ hs) (h'.sub τ)
theorem Core.RefacL.sub : ∀ {a b : List Core}, Core.RefacL a b → ∀ σ τ : Nat → Core, (∀ i, Core.Refac (σ i) (τ i)) →
    Core.RefacL (Core.subL σ a) (Core.subL τ b)
  | _, _, .nil, _, _, _ => .nil
  | _, _, .cons _ _ _ _ h h', σ, τ, hs => .cons _ _ _ _ (h.sub σ τ hs) (h'.sub σ τ hs)
end

theorem All2.getElem {α β : Type} {R : α → β → Prop} {l : List α} {l' : List β} (h : All2 R l l') (d : α) (d' : β)
    (hd : R d d') (i : Nat) : R (l.getD i d) (l'.getD i d') := by
  induction h generalizing i with
  | nil => simpa using hd
  | cons h _ ih =>
    cases i with
    | zero => simpa using h
    | succ i => simpa using ih i

theorem All2.len {α β : Type} {R : α → β → Prop} {l : List α} {l' : List β} (h : All2 R l l') :
    l.length = l'.length := by
  induction h <;> simp [*]

theorem instArgs_refac {l l' : List Core} (h : Core.RefacL l l') : ∀ i, Core.Refac (instArgs l i) (instArgs l' i) := by
  intro i
  have h := h.all2
  have hl := h.len
  simp only [instArgs, ← hl]
  split
  · exact h.getElem _ _ .eps _
  · exact .var _

theorem inst_refac {b b' : Core} (h : Core.Refac b b') : ∀ i, Core.Refac (inst 0 b i) (inst 0 b' i) := by
  intro i
  simp only [inst]
  split
  · exact .var _
  · split
    · exact h
    · exact .var _

/-! ### Steps -/

theorem Core.Step.sub {a b : Core} (h : Core.Step a b) : ∀ σ : Nat → Core, Core.Step (a.sub σ) (b.sub σ) := by
  induction h with
  | beta n b args hl =>
    intro σ
    subst hl
    rw [sub_instArgs_sub]
    simp only [Core.sub, Core.subL_map]
    exact .beta _ _ _ (by simp)
  | letE b c => intro σ; rw [sub_inst_sub]; exact .letE _ _
  | cat pre e e' post _ ih =>
    intro σ
    simp only [Core.sub, Core.subL_map, List.map_append, List.map_cons]
    exact .cat _ _ _ _ (ih σ)
  | alt pre e e' post _ ih =>
    intro σ
    simp only [Core.sub, Core.subL_map, List.map_append, List.map_cons]
    exact .alt _ _ _ _ (ih σ)
  | fix b b' _ ih => intro σ; exact .fix _ _ (ih σ)
  | callOn o o' args _ ih => intro σ; exact .callOn _ _ _ (ih σ)
  | callArg o pre e e' post _ ih =>
    intro σ
    simp only [Core.sub, Core.subL_map, List.map_append, List.map_cons]
    exact .callArg _ _ _ _ _ (ih σ)
  | lam n b b' _ ih => intro σ; exact .lam _ _ _ (ih _)
  | letBound b b' c _ ih => intro σ; exact .letBound _ _ _ (ih σ)
  | letBody b c c' _ ih => intro σ; exact .letBody _ _ _ (ih _)

theorem Core.Step.ren {a b : Core} (h : Core.Step a b) : ∀ f : Nat → Nat, Core.Step (a.ren f) (b.ren f) := by
  induction h with
  | beta n b args hl =>
    intro σ
    subst hl
    rw [sub_instArgs_ren]
    simp only [Core.ren, Core.renL_map]
    exact .beta _ _ _ (by simp)
  | letE b c => intro σ; rw [sub_inst_ren]; exact .letE _ _
  | cat pre e e' post _ ih =>
    intro σ
    simp only [Core.ren, Core.renL_map, List.map_append, List.map_cons]
    exact .cat _ _ _ _ (ih σ)
  | alt pre e e' post _ ih =>
    intro σ
    simp only [Core.ren, Core.renL_map, List.map_append, List.map_cons]
    exact .alt _ _ _ _ (ih σ)
  | fix b b' _ ih => intro σ; exact .fix _ _ (ih σ)
  | callOn o o' args _ ih => intro σ; exact .callOn _ _ _ (ih σ)
  | callArg o pre e e' post _ ih =>
    intro σ
    simp only [Core.ren, Core.renL_map, List.map_append, List.map_cons]
    exact .callArg _ _ _ _ _ (ih σ)
  | lam n b b' _ ih => intro σ; exact .lam _ _ _ (ih _)
  | letBound b b' c _ ih => intro σ; exact .letBound _ _ _ (ih σ)
  | letBody b c c' _ ih => intro σ; exact .letBody _ _ _ (ih _)

theorem Core.Steps.ren {a b : Core} (h : Core.Steps a b) (f : Nat → Nat) : Core.Steps (a.ren f) (b.ren f) := by
  induction h with
  | refl => exact .refl _
  | tail _ h ih => exact .tail ih (h.ren f)

theorem Core.Steps.catL {l l' : List Core} (h : All2 Core.Steps l l') : Core.Steps (.cat l) (.cat l') :=
  Core.Steps.list (F := .cat) (fun pre a b post h => .cat pre a b post h) h []

theorem Core.Steps.altL {l l' : List Core} (h : All2 Core.Steps l l') : Core.Steps (.alt l) (.alt l') :=
  Core.Steps.list (F := .alt) (fun pre a b post h => .alt pre a b post h) h []

theorem Core.Steps.fix {a b : Core} (h : Core.Steps a b) : Core.Steps (.fix a) (.fix b) :=
  Core.Steps.congr (F := .fix) (fun _ _ h => .fix _ _ h) h

theorem Core.Steps.lam {n : Nat} {a b : Core} (h : Core.Steps a b) : Core.Steps (.lam n a) (.lam n b) :=
  Core.Steps.congr (F := .lam n) (fun _ _ h => .lam _ _ _ h) h

theorem Core.Steps.call {o o' : Core} {l l' : List Core} (h : Core.Steps o o') (hl : All2 Core.Steps l l') :
    Core.Steps (.call o l) (.call o' l') :=
  (Core.Steps.congr (F := fun x => .call x l) (fun _ _ h => .callOn _ _ _ h) h).trans
    (Core.Steps.list (F := .call o') (fun pre a b post h => .callArg _ pre a b post h) hl [])

theorem Core.Steps.letE {b b' c c' : Core} (h : Core.Steps b b') (h' : Core.Steps c c') :
    Core.Steps (.letE b c) (.letE b' c') :=
  (Core.Steps.congr (F := fun x => .letE x c) (fun _ _ h => .letBound _ _ _ h) h).trans
    (Core.Steps.congr (F := .letE b') (fun _ _ h => .letBody _ _ _ h) h')

/-- Steps in what is substituted. -/
theorem Core.Steps.sub_env (e : Core) : ∀ {σ τ : Nat → Core}, (∀ i, Core.Steps (σ i) (τ i)) →
    Core.Steps (e.sub σ) (e.sub τ) := by
  induction e using Core.ind with
  | eps => intro σ τ h; exact .refl _
  | lit s => intro σ τ h; exact .refl _
  | cat l ih =>
    intro σ τ h
    simp only [Core.sub, Core.subL_map]
    refine .catL ?_
    induction l with
    | nil => exact .nil
    | cons a l ihl => exact .cons (ih a (by simp) h) (ihl fun e he => ih e (by simp [he]))
  | alt l ih =>
    intro σ τ h
    simp only [Core.sub, Core.subL_map]
    refine .altL ?_
    induction l with
    | nil => exact .nil
    | cons a l ihl => exact .cons (ih a (by simp) h) (ihl fun e he => ih e (by simp [he]))
  | fix b ih => intro σ τ h; exact .fix (ih h)
  | var k => intro σ τ h; exact h k
  | call o a ho ha =>
    intro σ τ h
    simp only [Core.sub, Core.subL_map]
    refine .call (ho h) ?_
    induction a with
    | nil => exact .nil
    | cons a l ihl => exact .cons (ha a (by simp) h) (ihl fun e he => ha e (by simp [he]))
  | lam n b ih =>
    intro σ τ h
    refine .lam (ih fun i => ?_)
    simp only [up]
    split
    · exact .refl _
    · exact (h _).ren _
  | letE b c hb hc =>
    intro σ τ h
    refine .letE (hb h) (hc fun i => ?_)
    simp only [up]
    split
    · exact .refl _
    · exact (h _).ren _

theorem All2.steps_refl (l : List Core) : All2 Core.Steps l l := All2.same fun e _ => .refl e

/-- A step inside an alternation. -/
theorem Core.Step.alt_inv {l : List Core} {x : Core} (h : Core.Step (.alt l) x) :
    ∃ pre e e' post, l = pre ++ e :: post ∧ x = .alt (pre ++ e' :: post) ∧ Core.Step e e' := by
  cases h with
  | alt pre e e' post h => exact ⟨pre, e, e', post, rfl, rfl, h⟩

theorem Core.Step.cat_inv {l : List Core} {x : Core} (h : Core.Step (.cat l) x) :
    ∃ pre e e' post, l = pre ++ e :: post ∧ x = .cat (pre ++ e' :: post) ∧ Core.Step e e' := by
  cases h with
  | cat pre e e' post h => exact ⟨pre, e, e', post, rfl, rfl, h⟩

theorem Core.Step.call_inv {o x : Core} {l : List Core} (h : Core.Step (.call o l) x) :
    (∃ n b, o = .lam n b ∧ l.length = n ∧ x = b.sub (instArgs l)) ∨ (∃ o', x = .call o' l ∧ Core.Step o o') ∨
      ∃ pre e e' post, l = pre ++ e :: post ∧ x = .call o (pre ++ e' :: post) ∧ Core.Step e e' := by
  cases h with
  | beta n b args hl => exact .inl ⟨n, b, rfl, hl, rfl⟩
  | callOn _ o' _ h => exact .inr (.inl ⟨o', rfl, h⟩)
  | callArg _ pre e e' post h => exact .inr (.inr ⟨pre, e, e', post, rfl, rfl, h⟩)

/-- Where a given element of a list is, relative to a splitting of the list. -/
theorem split_mid {α : Type} {pre post p q : List α} {m e : α} (h : pre ++ m :: post = p ++ e :: q) :
    (∃ r, pre = p ++ e :: r ∧ q = r ++ m :: post) ∨ (p = pre ∧ e = m ∧ q = post) ∨
      ∃ r, post = r ++ e :: q ∧ p = pre ++ m :: r := by
  rw [List.append_eq_append_iff] at h
  rcases h with ⟨a, h1, h2⟩ | ⟨a, h1, h2⟩
  · cases a with
    | nil =>
      simp only [List.nil_append, List.cons.injEq] at h2
      exact .inr (.inl ⟨by simpa using h1, h2.1.symm, h2.2.symm⟩)
    | cons x a =>
      simp only [List.cons_append, List.cons.injEq] at h2
      obtain ⟨rfl, rfl⟩ := h2
      exact .inr (.inr ⟨a, rfl, h1⟩)
  · cases a with
    | nil =>
      simp only [List.nil_append, List.cons.injEq] at h2
      exact .inr (.inl ⟨by simpa using h1.symm, h2.1, h2.2⟩)
    | cons x a =>
      simp only [List.cons_append, List.cons.injEq] at h2
      obtain ⟨rfl, rfl⟩ := h2
      exact .inl ⟨a, h1, rfl⟩

theorem split_app {α : Type} {a b p q : List α} {e : α} (h : a ++ b = p ++ e :: q) :
    (∃ r, a = p ++ e :: r ∧ q = r ++ b) ∨ ∃ r, b = r ++ e :: q ∧ p = a ++ r := by
  rw [List.append_eq_append_iff] at h
  rcases h with ⟨r, h1, h2⟩ | ⟨r, h1, h2⟩
  · exact .inr ⟨r, h2, h1⟩
  · cases r with
    | nil => exact .inr ⟨[], by simpa using h2.symm, by simpa using h1.symm⟩
    | cons x r =>
      simp only [List.cons_append, List.cons.injEq] at h2
      obtain ⟨rfl, rfl⟩ := h2
      exact .inl ⟨r, h1, rfl⟩

theorem All2.mid {R : Core → Core → Prop} (hR : ∀ e, R e e) (p q : List Core) {e e' : Core} (h : R e e') :
    All2 R (p ++ e :: q) (p ++ e' :: q) := by
  induction p with
  | nil => exact .cons h (All2.same fun a _ => hR a)
  | cons a p ih => exact .cons (hR a) ih

theorem Core.Steps.alt_mid (p q : List Core) {e e' : Core} (h : Core.Step e e') :
    Core.Steps (.alt (p ++ e :: q)) (.alt (p ++ e' :: q)) := .single (.alt _ _ _ _ h)

theorem Core.Steps.cat_mid (p q : List Core) {e e' : Core} (h : Core.Step e e') :
    Core.Steps (.cat (p ++ e :: q)) (.cat (p ++ e' :: q)) := .single (.cat _ _ _ _ h)

/-- Laws and steps commute: a step inside the left-hand side of a law is matched by steps inside the
right-hand side. -/
theorem Core.Law.step {a b a' : Core} (h : Core.Law a b) (hs0 : Core.Step a a') :
    ∃ b', Core.Steps b b' ∧ Core.Law a' b' := by
  cases h with
  | altPerm l l' h =>
    obtain ⟨p, e, e', q, rfl, rfl, hs⟩ := hs0.alt_inv
    obtain ⟨p', q', rfl⟩ := List.append_of_mem (h.subset (by simp : e ∈ p ++ e :: q))
    refine ⟨_, .alt_mid p' q' hs, .altPerm _ _ ?_⟩
    have h1 : (e :: (p ++ q)).Perm (e :: (p' ++ q')) :=
      (List.perm_middle.symm.trans h).trans List.perm_middle
    exact (List.perm_middle.trans ((List.perm_cons e').2 ((List.perm_cons e).1 h1))).trans List.perm_middle.symm
  | altFlat pre l post =>
    obtain ⟨p, e, e', q, h0, rfl, hs⟩ := hs0.alt_inv
    rcases split_mid h0 with ⟨r, rfl, rfl⟩ | ⟨rfl, rfl, rfl⟩ | ⟨r, rfl, rfl⟩
    · refine ⟨.alt (p ++ e' :: (r ++ l ++ post)), ?_, ?_⟩
      · simpa [List.append_assoc] using Core.Steps.alt_mid p (r ++ l ++ post) hs
      · simpa [List.append_assoc] using Core.Law.altFlat (p ++ e' :: r) l post
    · obtain ⟨p', x, x', q', rfl, rfl, hs'⟩ := hs.alt_inv
      refine ⟨.alt (p ++ p' ++ x' :: (q' ++ q)), ?_, ?_⟩
      · simpa [List.append_assoc] using Core.Steps.alt_mid (p ++ p') (q' ++ q) hs'
      · simpa [List.append_assoc] using Core.Law.altFlat p (p' ++ x' :: q') q
    · refine ⟨.alt (pre ++ l ++ r ++ e' :: q), ?_, ?_⟩
      · simpa [List.append_assoc] using Core.Steps.alt_mid (pre ++ l ++ r) q hs
      · simpa [List.append_assoc] using Core.Law.altFlat pre l (r ++ e' :: q)
  | altNest pre l post hl =>
    obtain ⟨p, e, e', q, h0, rfl, hs⟩ := hs0.alt_inv
    rcases split_app h0 with ⟨r, h1, rfl⟩ | ⟨r, rfl, rfl⟩
    · rcases split_app h1 with ⟨r', rfl, rfl⟩ | ⟨r', rfl, rfl⟩
      · refine ⟨.alt (p ++ e' :: (r' ++ .alt l :: post)), ?_, ?_⟩
        · simpa [List.append_assoc] using Core.Steps.alt_mid p (r' ++ .alt l :: post) hs
        · simpa [List.append_assoc] using Core.Law.altNest (p ++ e' :: r') l post hl
      · refine ⟨.alt (pre ++ .alt (r' ++ e' :: r) :: post), ?_, ?_⟩
        · exact .alt_mid _ _ (.alt _ _ _ _ hs)
        · simpa [List.append_assoc] using Core.Law.altNest pre (r' ++ e' :: r) post (by simp)
    · refine ⟨.alt (pre ++ .alt l :: (r ++ e' :: q)), ?_, ?_⟩
      · simpa [List.append_assoc] using Core.Steps.alt_mid (pre ++ .alt l :: r) q hs
      · simpa [List.append_assoc] using Core.Law.altNest pre l (r ++ e' :: q) hl
  | altOne =>
    obtain ⟨p, e, e', q, h0, rfl, hs⟩ := hs0.alt_inv
    rcases split_mid (pre := []) h0 with ⟨r, h, _⟩ | ⟨rfl, rfl, rfl⟩ | ⟨r, h, _⟩
    · simp at h
    · exact ⟨e', .single hs, .altOne _⟩
    · simp at h
  | catFlat pre l post =>
    obtain ⟨p, e, e', q, h0, rfl, hs⟩ := hs0.cat_inv
    rcases split_mid h0 with ⟨r, rfl, rfl⟩ | ⟨rfl, rfl, rfl⟩ | ⟨r, rfl, rfl⟩
    · refine ⟨.cat (p ++ e' :: (r ++ l ++ post)), ?_, ?_⟩
      · simpa [List.append_assoc] using Core.Steps.cat_mid p (r ++ l ++ post) hs
      · simpa [List.append_assoc] using Core.Law.catFlat (p ++ e' :: r) l post
    · obtain ⟨p', x, x', q', rfl, rfl, hs'⟩ := hs.cat_inv
      refine ⟨.cat (p ++ p' ++ x' :: (q' ++ q)), ?_, ?_⟩
      · simpa [List.append_assoc] using Core.Steps.cat_mid (p ++ p') (q' ++ q) hs'
      · simpa [List.append_assoc] using Core.Law.catFlat p (p' ++ x' :: q') q
    · refine ⟨.cat (pre ++ l ++ r ++ e' :: q), ?_, ?_⟩
      · simpa [List.append_assoc] using Core.Steps.cat_mid (pre ++ l ++ r) q hs
      · simpa [List.append_assoc] using Core.Law.catFlat pre l (r ++ e' :: q)
  | catNest l post hl =>
    obtain ⟨p, e, e', q, h0, rfl, hs⟩ := hs0.cat_inv
    rcases split_app h0 with ⟨r, rfl, rfl⟩ | ⟨r, rfl, rfl⟩
    · refine ⟨.cat (.cat (p ++ e' :: r) :: post), ?_, ?_⟩
      · exact .cat_mid [] _ (.cat _ _ _ _ hs)
      · simpa [List.append_assoc] using Core.Law.catNest (p ++ e' :: r) post (by simp)
    · refine ⟨.cat (.cat l :: (r ++ e' :: q)), ?_, ?_⟩
      · exact .cat_mid (.cat l :: r) q hs
      · simpa [List.append_assoc] using Core.Law.catNest l (r ++ e' :: q) hl
  | catOne =>
    obtain ⟨p, e, e', q, h0, rfl, hs⟩ := hs0.cat_inv
    rcases split_mid (pre := []) h0 with ⟨r, h, _⟩ | ⟨rfl, rfl, rfl⟩ | ⟨r, h, _⟩
    · simp at h
    · exact ⟨e', .single hs, .catOne _⟩
    · simp at h
  | litSplit s t _ => cases hs0
  | litJoin s t =>
    obtain ⟨p, e, e', q, h0, rfl, hs⟩ := hs0.cat_inv
    rcases split_mid (pre := []) h0 with ⟨r, h, _⟩ | ⟨rfl, rfl, rfl⟩ | ⟨r, h, _⟩
    · simp at h
    · cases hs
    · rcases split_mid (pre := []) h with ⟨r, h, _⟩ | ⟨rfl, rfl, rfl⟩ | ⟨r, h, _⟩
      · simp at h
      · cases hs
      · simp at h
  | epsLit => cases hs0
  | litEps => cases hs0
  | catEps pre post hp =>
    obtain ⟨p, e, e', q, h0, rfl, hs⟩ := hs0.cat_inv
    rcases split_app h0 with ⟨r, rfl, rfl⟩ | ⟨r, rfl, rfl⟩
    · refine ⟨.cat (p ++ e' :: (r ++ .eps :: post)), ?_, ?_⟩
      · simpa [List.append_assoc] using Core.Steps.cat_mid p (r ++ .eps :: post) hs
      · simpa [List.append_assoc] using Core.Law.catEps (p ++ e' :: r) post (by simp)
    · refine ⟨.cat (pre ++ .eps :: (r ++ e' :: q)), ?_, ?_⟩
      · simpa [List.append_assoc] using Core.Steps.cat_mid (pre ++ .eps :: r) q hs
      · simpa [List.append_assoc] using Core.Law.catEps pre (r ++ e' :: q) hp
  | catNoEps pre post =>
    obtain ⟨p, e, e', q, h0, rfl, hs⟩ := hs0.cat_inv
    rcases split_mid h0 with ⟨r, rfl, rfl⟩ | ⟨rfl, rfl, rfl⟩ | ⟨r, rfl, rfl⟩
    · refine ⟨.cat (p ++ e' :: (r ++ post)), ?_, ?_⟩
      · simpa [List.append_assoc] using Core.Steps.cat_mid p (r ++ post) hs
      · simpa [List.append_assoc] using Core.Law.catNoEps (p ++ e' :: r) post
    · cases hs
    · refine ⟨.cat (pre ++ r ++ e' :: q), ?_, ?_⟩
      · simpa [List.append_assoc] using Core.Steps.cat_mid (pre ++ r) q hs
      · simpa [List.append_assoc] using Core.Law.catNoEps pre (r ++ e' :: q)
  | unfold b =>
    cases hs0 with
    | fix _ _ hs =>
      cases hs with
      | lam _ _ b' hs =>
        refine ⟨b'.sub (inst 0 (.fix (.lam 1 b'))), ?_, .unfold _⟩
        refine (Core.Steps.single (hs.sub _)).trans (Core.Steps.sub_env _ fun i => ?_)
        simp only [inst]
        split
        · exact .refl _
        · split
          · exact .single (.fix _ _ (.lam _ _ _ hs))
          · exact .refl _
  | distrib l post =>
    obtain ⟨p, e, e', q, h0, rfl, hs⟩ := hs0.cat_inv
    rcases split_mid (pre := []) h0 with ⟨r, h, _⟩ | ⟨rfl, rfl, rfl⟩ | ⟨r, rfl, rfl⟩
    · simp at h
    · obtain ⟨p', x, x', q', rfl, rfl, hs'⟩ := hs.alt_inv
      refine ⟨_, ?_, .distrib _ _⟩
      simp only [List.map_append, List.map_cons]
      exact .alt_mid _ _ (.cat [] _ _ _ hs')
    · refine ⟨_, ?_, .distrib _ _⟩
      refine .altL ?_
      clear h0 hs0
      induction l with
      | nil => exact .nil
      | cons x l ih => exact .cons (.cat_mid (x :: r) q hs) ih

theorem Core.Law.steps {a b a' : Core} (h : Core.Law a b) (hs : Core.Steps a a') :
    ∃ b', Core.Steps b b' ∧ Core.Law a' b' := by
  induction hs with
  | refl => exact ⟨b, .refl _, h⟩
  | tail _ hs ih =>
    obtain ⟨b1, h1, h2⟩ := ih
    obtain ⟨b2, h3, h4⟩ := h2.step hs
    exact ⟨b2, h1.trans h3, h4⟩

/-- Nothing but a lambda is obtained from a lambda. -/
theorem Core.Refac.lam_inv {n : Nat} {c x : Core} (h : Core.Refac (.lam n c) x) : ∃ c', x = .lam n c' ∧ Core.Refac c c' := by
  suffices ∀ {a x : Core}, Core.Refac a x → ∀ n c, a = .lam n c → ∃ c', x = .lam n c' ∧ Core.Refac c c' from
    this h n c rfl
  exact fun h => lam_inv' h
where
  lam_inv' : ∀ {a x : Core}, Core.Refac a x → ∀ n c, a = .lam n c → ∃ c', x = .lam n c' ∧ Core.Refac c c'
    | _, _, .lam n b b' h, _, _, hc => by cases hc; exact ⟨b', rfl, h⟩
    | _, _, .law a b c h hl, n, c', hc => by
      obtain ⟨c'', rfl, _⟩ := lam_inv' h n c' hc
      cases hl

mutual
/-- Applying laws commutes with steps. -/
theorem Core.Refac.step : ∀ {a b : Core}, Core.Refac a b → ∀ {a' : Core}, Core.Step a a' →
    ∃ b', Core.Steps b b' ∧ Core.Refac a' b'
  | _, _, .eps, _, hs => nomatch hs
  | _, _, .lit s, _, hs => nomatch hs
  | _, _, .var _, _, hs => nomatch hs
  | _, _, .cat _ _ h, _, hs => by
    obtain ⟨p, e, e', q, hl, rfl, hs'⟩ := hs.cat_inv
    obtain ⟨l', h1, h2⟩ := h.step hs' hl
    exact ⟨.cat l', .catL h1, .cat _ _ h2⟩
  | _, _, .alt _ _ h, _, hs => by
    obtain ⟨p, e, e', q, hl, rfl, hs'⟩ := hs.alt_inv
    obtain ⟨l', h1, h2⟩ := h.step hs' hl
    exact ⟨.alt l', .altL h1, .alt _ _ h2⟩
  | _, _, .fix _ _ h, _, hs => by
    cases hs with
    | fix _ _ hs =>
      obtain ⟨b', h1, h2⟩ := h.step hs
      exact ⟨_, h1.fix, .fix _ _ h2⟩
  | _, _, .call _ o' _ a' h h', _, hs => by
    rcases hs.call_inv with ⟨n, b, hn, hl, rfl⟩ | ⟨o1, rfl, hs'⟩ | ⟨p, e, e', q, hl, rfl, hs'⟩
    · rw [hn] at h
      obtain ⟨b', rfl, hb⟩ := h.lam_inv
      exact ⟨_, .single (.beta _ _ _ (by rw [← h'.all2.len, hl])), hb.sub _ _ (instArgs_refac h')⟩
    · obtain ⟨b', h1, h2⟩ := h.step hs'
      exact ⟨_, .call h1 (All2.steps_refl _), .call _ _ _ _ h2 h'⟩
    · obtain ⟨l', h1, h2⟩ := h'.step hs' hl
      exact ⟨_, .call (.refl _) h1, .call _ _ _ _ h h2⟩
  | _, _, .lam _ _ _ h, _, hs => by
    cases hs with
    | lam _ _ _ hs =>
      obtain ⟨b', h1, h2⟩ := h.step hs
      exact ⟨_, h1.lam, .lam _ _ _ h2⟩
  | _, _, .letE _ _ _ _ h h', _, hs => by
    cases hs with
    | letE => exact ⟨_, .single (.letE _ _), h'.sub _ _ (inst_refac h)⟩
    | letBound _ _ _ hs =>
      obtain ⟨b', h1, h2⟩ := h.step hs
      exact ⟨_, .letE h1 (.refl _), .letE _ _ _ _ h2 h'⟩
    | letBody _ _ _ hs =>
      obtain ⟨b', h1, h2⟩ := h'.step hs
      exact ⟨_, .letE (.refl _) h1, .letE _ _ _ _ h h2⟩
  | _, _, .law _ _ _ h hl, _, hs => by
    obtain ⟨b', h1, h2⟩ := h.step hs
    obtain ⟨c', h3, h4⟩ := hl.steps h1
    exact ⟨c', h3, .law _ _ _ h2 h4⟩
theorem Core.RefacL.step : ∀ {l l' : List Core}, Core.RefacL l l' → ∀ {p q : List Core} {e e' : Core},
    Core.Step e e' → l = p ++ e :: q → ∃ l'', All2 Core.Steps l' l'' ∧ Core.RefacL (p ++ e' :: q) l''
  | _, _, .nil, p, q, e, e', _, h => by simp at h
  | _, _, .cons a a' l l' h1 h2, p, q, e, e', hs, h => by
    cases p with
    | nil =>
      simp only [List.nil_append, List.cons.injEq] at h
      obtain ⟨rfl, rfl⟩ := h
      obtain ⟨b', h3, h4⟩ := h1.step hs
      exact ⟨b' :: l', .cons h3 (All2.steps_refl _), .cons _ _ _ _ h4 h2⟩
    | cons x p =>
      simp only [List.cons_append, List.cons.injEq] at h
      obtain ⟨rfl, h⟩ := h
      obtain ⟨l'', h3, h4⟩ := h2.step hs h
      exact ⟨a' :: l'', .cons (.refl _) h3, .cons _ _ _ _ h1 h4⟩
end

theorem Core.Refac.steps {a b a' : Core} (h : Core.Refac a b) (hs : Core.Steps a a') :
    ∃ b', Core.Steps b b' ∧ Core.Refac a' b' := by
  induction hs with
  | refl => exact ⟨b, .refl _, h⟩
  | tail _ hs ih =>
    obtain ⟨b1, h1, h2⟩ := ih
    obtain ⟨b2, h3, h4⟩ := h2.step hs
    exact ⟨b2, h1.trans h3, h4⟩

end Chomp
