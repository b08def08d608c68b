import Verif.Ast.Name

/-! # C08, C09: names -/

namespace Chomp

/-- Specification: how strongly a kind of name is preferred. -/
def Kind.priority : Kind → Nat
  | .variable => 0
  | .letK => 1
  | .label => 2

theorem Kind.ge_iff (a b : Kind) : a.ge b = true ↔ b.priority ≤ a.priority := by
  cases a <;> cases b <;> decide

theorem merge_none_left (a : Option Name) : Name.merge none a = a := rfl
theorem merge_none_right (a : Option Name) : Name.merge a none = a := by cases a <;> rfl

theorem merge_assoc (a b c : Option Name) :
    Name.merge (Name.merge a b) c = Name.merge a (Name.merge b c) := by
  rcases a with _ | a
  · rfl
  rcases b with _ | b
  · rfl
  rcases c with _ | c
  · rw [merge_none_right, merge_none_right]
  obtain ⟨a, ka⟩ := a
  obtain ⟨b, kb⟩ := b
  obtain ⟨c, kc⟩ := c
  cases ka <;> cases kb <;> cases kc <;> rfl

theorem foldl_merge (a : Option Name) (l : List (Option Name)) :
    l.foldl Name.merge a = Name.merge a (l.foldl Name.merge none) := by
  induction l generalizing a with
  | nil => simp [merge_none_right]
  | cons b l ih =>
    simp only [List.foldl_cons]
    rw [ih, ih (Name.merge none b), merge_none_left, merge_assoc]

theorem mergeAll_cons (a : Option Name) (l : List (Option Name)) :
    Name.mergeAll (a :: l) = Name.merge a (Name.mergeAll l) := by
  rw [Name.mergeAll, List.foldl_cons, foldl_merge, merge_none_left]; rfl

/-- **C08.** `merge_all` gives `None` iff every element is `None`; otherwise it gives an element of
the sequence whose kind no element of the sequence exceeds, and every earlier element has strictly
lower priority: the leftmost name of the highest kind. -/
theorem C08_merge_all (l : List (Option Name)) :
    (Name.mergeAll l = none ↔ ∀ x ∈ l, x = none) ∧
    (∀ n, Name.mergeAll l = some n ↔
      ∃ pre post, l = pre ++ some n :: post ∧
        (∀ m, some m ∈ pre → m.kind.priority < n.kind.priority) ∧
        (∀ m, some m ∈ post → m.kind.priority ≤ n.kind.priority)) := by
  induction l with
  | nil => simp [Name.mergeAll]
  | cons a l ih =>
    rw [mergeAll_cons]
    obtain ⟨ih1, ih2⟩ := ih
    rcases a with _ | a
    · rw [merge_none_left]
      refine ⟨by simpa using ih1, fun n => ?_⟩
      rw [ih2]
      constructor
      · rintro ⟨pre, post, rfl, h1, h2⟩
        exact ⟨none :: pre, post, rfl, by simpa using h1, h2⟩
      · rintro ⟨pre, post, h, h1, h2⟩
        rcases pre with _ | ⟨p, pre⟩
        · simp at h
        · simp only [List.cons_append, List.cons.injEq] at h
          obtain ⟨rfl, rfl⟩ := h
          exact ⟨pre, post, rfl, fun m hm => h1 m (by simp [hm]), h2⟩
    · constructor
      · constructor
        · intro h
          cases hl : Name.mergeAll l with
          | none => rw [hl] at h; cases h
          | some b => rw [hl] at h; simp only [Name.merge] at h; split at h <;> cases h
        · intro h; have := h (some a) (by simp); cases this
      · intro n
        cases hl : Name.mergeAll l with
        | none =>
          have hn := ih1.1 hl
          simp only [Name.merge, Option.some.injEq]
          constructor
          · rintro rfl
            refine ⟨[], l, rfl, by simp, ?_⟩
            intro m hm; have := hn _ hm; cases this
          · rintro ⟨pre, post, h, h1, h2⟩
            rcases pre with _ | ⟨p, pre⟩
            · simp at h; exact h.1
            · simp only [List.cons_append, List.cons.injEq] at h
              obtain ⟨rfl, rfl⟩ := h
              have := hn (some n) (by simp); cases this
        | some b =>
          obtain ⟨pre, post, hb, h1, h2⟩ := (ih2 b).1 hl
          have hle : ∀ m, some m ∈ l → m.kind.priority ≤ b.kind.priority := by
            intro m hm
            rw [hb] at hm
            simp only [List.mem_append, List.mem_cons, Option.some.injEq] at hm
            rcases hm with hm | rfl | hm
            · exact Nat.le_of_lt (h1 m hm)
            · exact Nat.le_refl _
            · exact h2 m hm
          simp only [Name.merge, Kind.ge_iff]
          split
          · rename_i hab
            simp only [Option.some.injEq]
            constructor
            · rintro rfl
              exact ⟨[], l, rfl, by simp, fun m hm => Nat.le_trans (hle m hm) hab⟩
            · rintro ⟨pre', post', h, h1', h2'⟩
              rcases pre' with _ | ⟨p, pre'⟩
              · simp at h; exact h.1
              · simp only [List.cons_append, List.cons.injEq] at h
                obtain ⟨rfl, rfl⟩ := h
                have e1 := h1' a (by simp)
                have e2 := hle n (by simp)
                omega
          · rename_i hab
            rw [← hl, ih2]
            constructor
            · rintro ⟨pre', post', rfl, h1', h2'⟩
              have e2 : b.kind.priority ≤ n.kind.priority := by
                have hm : some b ∈ pre' ++ some n :: post' := by rw [hb]; simp
                simp only [List.mem_append, List.mem_cons, Option.some.injEq] at hm
                rcases hm with hm | rfl | hm
                · exact Nat.le_of_lt (h1' b hm)
                · exact Nat.le_refl _
                · exact h2' b hm
              refine ⟨some a :: pre', post', rfl, ?_, h2'⟩
              intro m hm
              simp only [List.mem_cons, Option.some.injEq] at hm
              rcases hm with rfl | hm
              · omega
              · exact h1' m hm
            · rintro ⟨pre', post', h, h1', h2'⟩
              rcases pre' with _ | ⟨p, pre'⟩
              · simp only [List.nil_append, List.cons.injEq, Option.some.injEq] at h
                obtain ⟨rfl, rfl⟩ := h
                have := h2' b (by rw [hb]; simp)
                omega
              · simp only [List.cons_append, List.cons.injEq] at h
                obtain ⟨rfl, rfl⟩ := h
                exact ⟨pre', post', rfl, fun m hm => h1' m (by simp [hm]), h2'⟩

/-- **C08** (algebra). Merging is associative, `None` is its unit, and merging two sequences can be
done piecewise. -/
theorem C08_merge_monoid :
    (∀ a b c, Name.merge (Name.merge a b) c = Name.merge a (Name.merge b c)) ∧
    (∀ a, Name.merge none a = a ∧ Name.merge a none = a) ∧
    (∀ l l', Name.mergeAll (l ++ l') = Name.merge (Name.mergeAll l) (Name.mergeAll l')) := by
  refine ⟨merge_assoc, fun a => ⟨rfl, merge_none_right a⟩, fun l l' => ?_⟩
  rw [Name.mergeAll, List.foldl_append, foldl_merge]; rfl

/-- **C08** (constructors). A name made by `new_label` beats every name made by `new_let` or `new_variable`, and one made by `new_let`
every one made by `new_variable`, on whichever side it stands; of two made by the same constructor the left one is kept; and all keep
their content. -/
theorem C08_constructors (x y : Content) :
    (∀ mk ∈ [Name.newVariable, Name.newLet, Name.newLabel], (mk x).content = x ∧
      Name.merge (some (mk x)) (some (mk y)) = some (mk x)) ∧
    Name.merge (some (.newLabel x)) (some (.newLet y)) = some (.newLabel x) ∧
    Name.merge (some (.newLet y)) (some (.newLabel x)) = some (.newLabel x) ∧
    Name.merge (some (.newLabel x)) (some (.newVariable y)) = some (.newLabel x) ∧
    Name.merge (some (.newVariable y)) (some (.newLabel x)) = some (.newLabel x) ∧
    Name.merge (some (.newLet x)) (some (.newVariable y)) = some (.newLet x) ∧
    Name.merge (some (.newVariable y)) (some (.newLet x)) = some (.newLet x) := by
  refine ⟨?_, rfl, rfl, rfl, rfl, rfl, rfl⟩
  intro mk hmk
  simp only [List.mem_cons, List.not_mem_nil, or_false] at hmk
  rcases hmk with rfl | rfl | rfl <;> exact ⟨rfl, rfl⟩

example : Name.mergeAll [none, some (.newVariable (.spanless "x")), some (.newLabel (.spanless "A")),
    some (.newLet (.spanless "y")), some (.newLabel (.spanless "B"))]
    = some (.newLabel (.spanless "A")) := by decide

/-- Contents that come from one front end: all from Rust tokens (`spanned`) or all plain strings. -/
def Content.sameSort : Content → Content → Prop
  | .spanned .., .spanned .. => True
  | .spanless _, .spanless _ => True
  | _, _ => False

/-- **C09** (the part that holds). Equality of contents is reflexive and symmetric, equal contents
hash equally, and equality is transitive among contents of one sort (all with a span, or all
without).  Missing: transitivity across sorts, refuted by `C09_not_transitive`. -/
theorem C09_content_eq_partial :
    (∀ a : Content, a.eqv a = true) ∧
    (∀ a b : Content, a.eqv b = b.eqv a) ∧
    (∀ a b : Content, a.eqv b = true → a.hashed = b.hashed) ∧
    (∀ a b c : Content, a.sameSort b → b.sameSort c → a.eqv b = true → b.eqv c = true →
      a.eqv c = true) := by
  refine ⟨?_, ?_, ?_, ?_⟩
  · intro a; cases a <;> simp [Content.eqv]
  · intro a b
    cases a <;> cases b <;> simp [Content.eqv] <;> grind
  · intro a b
    cases a <;> cases b <;> simp [Content.eqv, Content.hashed] <;> grind
  · intro a b c
    cases a <;> cases b <;> cases c <;> simp [Content.eqv, Content.sameSort] <;> grind

/-- **C09** (exact characterisation). Contents are equal iff their unescaped text agrees and, if both
carry a span, so does their rawness. -/
theorem C09_content_eq_iff (a b : Content) : a.eqv b = true ↔
    a.hashed = b.hashed ∧
      (∀ r s p r' s' p', a = .spanned r s p → b = .spanned r' s' p' → r = r') := by
  rcases a with ⟨r, s, p⟩ | s <;> rcases b with ⟨r', s', p'⟩ | s'
  · simp only [Content.eqv, Content.hashed, Bool.and_eq_true, beq_iff_eq]
    constructor
    · rintro ⟨rfl, rfl⟩
      refine ⟨rfl, ?_⟩
      intro _ _ _ _ _ _ h1 h2
      cases h1; cases h2; rfl
    · rintro ⟨h1, h2⟩
      exact ⟨h2 _ _ _ _ _ _ rfl rfl, h1⟩
  all_goals simp [Content.eqv, Content.hashed]
  all_goals grind

/-- **C09** is false in general: equality of contents is not transitive. -/
theorem C09_not_transitive : ∃ a b c : Content,
    a.eqv b = true ∧ b.eqv c = true ∧ a.eqv c = false :=
  ⟨.spanned true "foo" 1, .spanless "foo", .spanned false "foo" 2, by decide⟩

example : (Content.spanned true "x" 1).sameSort (.spanned true "x" 2) ∧
    (Content.spanned true "x" 1).eqv (.spanned true "x" 2) = true := by
  refine ⟨trivial, by decide⟩

end Chomp
