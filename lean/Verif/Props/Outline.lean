import Verif.Props.Spans

/-!
# C60: the positions of a converted program

Conversion attaches every span of the program to the right part of the expression; in particular the span
of each `.` and `|` to the element behind it.
-/

namespace Chomp

/-! ## Specification -/

/-- The kinds of expressions. -/
inductive Sort' where
  | eps | lit | cat | alt | fix | var | call | lam | letE
deriving DecidableEq, Repr

/-- An expression without its contents: only the kind of each part, its span, and the spans of the
operators between the elements. -/
inductive Outline where
  | node (kind : Sort') (span : Nat) (ops : List Nat) (parts : List Outline)

/-- The same, at another place. -/
def Outline.at : Outline → Nat → Outline
  | .node k _ ops l, s => .node k s ops l

mutual
/-- The outline of an expression. -/
def NE.outline : NE → Outline
  | .eps i => .node .eps i.span [] []
  | .lit i _ => .node .lit i.span [] []
  | .cat i f r => .node .cat i.span (r.map (·.1)) (f.outline :: NE.outlineP r)
  | .alt i f r => .node .alt i.span (r.map (·.1)) (f.outline :: NE.outlineP r)
  | .fix i b => .node .fix i.span [] [b.outline]
  | .var i _ => .node .var i.span [] []
  | .call i o a => .node .call i.span [] (o.outline :: NE.outlineL a)
  | .lam i _ b => .node .lam i.span [] [b.outline]
  | .letE i _ b c => .node .letE i.span [] [b.outline, c.outline]
def NE.outlineP : List (Nat × NE) → List Outline
  | [] => []
  | (_, e) :: l => e.outline :: NE.outlineP l
def NE.outlineL : List NE → List Outline
  | [] => []
  | e :: l => e.outline :: NE.outlineL l
end

/-- A list of elements with the operators between them; a single element stands for itself. -/
def Outline.list (kind : Sort') (span : Nat) (ops : List Nat) : List Outline → Outline
  | [x] => x
  | l => .node kind span ops l

mutual
/-- The outline of a program: that of the nested constructs, where parentheses do not count, a list of one
element stands for the element, and a labelled concatenation lies where the label and the concatenation
lie. -/
def Term.outline : Term → Outline
  | .eps s => .node .eps s [] []
  | .ident i => .node .var i.span [] []
  | .lit s _ => .node .lit s [] []
  | .fix s t => .node .fix s [] [t.outline]
  | .parens e => e.outline
def Call.outline : Call → Outline
  | .mk s l => .list .call s [] (Term.outlineL l)
def Term.outlineL : List Term → List Outline
  | [] => []
  | t :: l => t.outline :: Term.outlineL l
def Cat.outline : Cat → Outline
  | .mk s l => .list .cat s (l.map (·.2)).dropLast (Call.outlineL l)
def Call.outlineL : List (Call × Nat) → List Outline
  | [] => []
  | (x, _) :: l => x.outline :: Call.outlineL l
def Labelled.outline : Labelled → Outline
  | .mk s cat _ => cat.outline.at s
def Alt.outline : Alt → Outline
  | .mk s l => .list .alt s (l.map (·.2)).dropLast (Labelled.outlineL l)
def Labelled.outlineL : List (Labelled × Nat) → List Outline
  | [] => []
  | (x, _) :: l => x.outline :: Labelled.outlineL l
def Expr.outline : Expr → Outline
  | .alt a => a.outline
  | .lam s _ body => .node .lam s [] [body.outline]
end

/-- The outline of a program.  A goal lies where its statement lies; a `let` with parameters binds a
lambda. -/
def Stmt.outline : Stmt → Outline
  | .goal s e => e.outline.at s
  | .letS s _ [] e next => .node .letE s [] [e.outline, next.outline]
  | .letS s _ (_ :: _) e next => .node .letE s [] [.node .lam s [] [e.outline], next.outline]

/-! ## Proof -/

theorem NE.outline_setInfo (e : NE) (i : Info) : (e.setInfo i).outline = e.outline.at i.span := by
  cases e <;> rfl

theorem NE.outline_setName (e : NE) (n : Option Name) : (e.setName n).outline = e.outline := by
  cases e <;> rfl

theorem NE.outlineP_length : ∀ (l : List (Nat × NE)), (NE.outlineP l).length = l.length
  | [] => rfl
  | (_, _) :: l => by simp [NE.outlineP, NE.outlineP_length l]

mutual
theorem convTerm_outline : ∀ (t : Term) (c : Ctx) (e : NE) (c' : Ctx), convTerm t c = some (.ok e, c') → e.outline = t.outline
  | .eps _, c, e, c', h => by cases h; rfl
  | .lit _ _, c, e, c', h => by cases h; rfl
  | .ident i, c, e, c', h => by
    simp only [convTerm, convIdent] at h
    split at h <;> cases h
    rfl
  | .fix sp t, c, e, c', h => by
    simp only [convTerm] at h
    obtain ⟨a, c1, ha, h⟩ := Conv.bind_ok h
    cases h
    simp only [NE.outline, Term.outline, convTerm_outline t _ _ _ ha]
  | .parens e, c, e', c', h => convExpr_outline e c e' c' h
theorem convCall_outline : ∀ (t : Call) (c : Ctx) (e : NE) (c' : Ctx), convCall t c = some (.ok e, c') → e.outline = t.outline
  | .mk sp [], c, e, c', h => by cases h
  | .mk sp (t :: ts), c, e, c', h => by
    simp only [convCall] at h
    obtain ⟨a, c1, ha, h⟩ := Conv.bind_ok h
    obtain ⟨l, c2, hl, h⟩ := Conv.bind_ok h
    have h1 := convTerm_outline t _ _ _ ha
    have h2 := convTerms_outline ts _ _ _ hl
    cases l with
    | nil =>
      cases h
      simp only [Call.outline, Term.outlineL, ← h1, ← h2, NE.outlineL, Outline.list]
    | cons x l =>
      cases h
      simp only [Call.outline, Term.outlineL, ← h1, ← h2, NE.outlineL, NE.outline, Outline.list]
theorem convTerms_outline : ∀ (t : List Term) (c : Ctx) (e : List NE) (c' : Ctx), convTerms t c = some (.ok e, c') →
    NE.outlineL e = Term.outlineL t
  | [], c, e, c', h => by cases h; rfl
  | t :: ts, c, e, c', h => by
    simp only [convTerms] at h
    obtain ⟨a, c1, ha, h⟩ := Conv.bind_ok h
    obtain ⟨l, c2, hl, h⟩ := Conv.bind_ok h
    cases h
    simp only [Term.outlineL, NE.outlineL, convTerm_outline t _ _ _ ha, convTerms_outline ts _ _ _ hl]
theorem convCat_outline : ∀ (t : Cat) (c : Ctx) (e : NE) (c' : Ctx), convCat t c = some (.ok e, c') → e.outline = t.outline
  | .mk sp [], c, e, c', h => by cases h
  | .mk sp ((t, p) :: ts), c, e, c', h => by
    simp only [convCat] at h
    obtain ⟨a, c1, ha, h⟩ := Conv.bind_ok h
    obtain ⟨l, c2, hl, h⟩ := Conv.bind_ok h
    have h1 := convCall_outline t _ _ _ ha
    have h2 := convCalls_outline ts p _ _ _ hl
    cases l with
    | nil =>
      cases h
      simp only [Cat.outline, Call.outlineL, ← h1, ← h2.2, NE.outlineP, Outline.list]
    | cons x l =>
      cases h
      obtain ⟨q, x⟩ := x
      simp only [Cat.outline, Call.outlineL, List.map_cons, ← h1, ← h2.1, ← h2.2, NE.outlineP, NE.outline, Outline.list]
theorem convCalls_outline : ∀ (t : List (Call × Nat)) (p : Nat) (c : Ctx) (e : List (Nat × NE)) (c' : Ctx),
    convCalls p t c = some (.ok e, c') → e.map (·.1) = (p :: t.map (·.2)).dropLast ∧ NE.outlineP e = Call.outlineL t
  | [], p, c, e, c', h => by cases h; exact ⟨rfl, rfl⟩
  | (t, q) :: ts, p, c, e, c', h => by
    simp only [convCalls] at h
    obtain ⟨a, c1, ha, h⟩ := Conv.bind_ok h
    obtain ⟨l, c2, hl, h⟩ := Conv.bind_ok h
    cases h
    have h1 := convCall_outline t _ _ _ ha
    have h2 := convCalls_outline ts q _ _ _ hl
    simp only [List.map_cons, List.dropLast_cons_cons, Call.outlineL, NE.outlineP, h1, h2.1, h2.2, and_self]
theorem convLabelled_outline : ∀ (t : Labelled) (c : Ctx) (e : NE) (c' : Ctx), convLabelled t c = some (.ok e, c') →
    e.outline = t.outline
  | .mk sp cat label, c, e, c', h => by
    simp only [convLabelled] at h
    obtain ⟨a, c1, ha, h⟩ := Conv.bind_ok h
    cases h
    rw [NE.outline_setInfo, convCat_outline cat _ _ _ ha]
    rfl
theorem convAlt_outline : ∀ (t : Alt) (c : Ctx) (e : NE) (c' : Ctx), convAlt t c = some (.ok e, c') → e.outline = t.outline
  | .mk sp [], c, e, c', h => by cases h
  | .mk sp ((t, p) :: ts), c, e, c', h => by
    simp only [convAlt] at h
    obtain ⟨a, c1, ha, h⟩ := Conv.bind_ok h
    obtain ⟨l, c2, hl, h⟩ := Conv.bind_ok h
    have h1 := convLabelled_outline t _ _ _ ha
    have h2 := convLabelleds_outline ts p _ _ _ hl
    cases l with
    | nil =>
      cases h
      simp only [Alt.outline, Labelled.outlineL, ← h1, ← h2.2, NE.outlineP, Outline.list]
    | cons x l =>
      cases h
      obtain ⟨q, x⟩ := x
      simp only [Alt.outline, Labelled.outlineL, List.map_cons, ← h1, ← h2.1, ← h2.2, NE.outlineP, NE.outline, Outline.list]
theorem convLabelleds_outline : ∀ (t : List (Labelled × Nat)) (p : Nat) (c : Ctx) (e : List (Nat × NE)) (c' : Ctx),
    convLabelleds p t c = some (.ok e, c') →
    e.map (·.1) = (p :: t.map (·.2)).dropLast ∧ NE.outlineP e = Labelled.outlineL t
  | [], p, c, e, c', h => by cases h; exact ⟨rfl, rfl⟩
  | (t, q) :: ts, p, c, e, c', h => by
    simp only [convLabelleds] at h
    obtain ⟨a, c1, ha, h⟩ := Conv.bind_ok h
    obtain ⟨l, c2, hl, h⟩ := Conv.bind_ok h
    cases h
    have h1 := convLabelled_outline t _ _ _ ha
    have h2 := convLabelleds_outline ts q _ _ _ hl
    simp only [List.map_cons, List.dropLast_cons_cons, Labelled.outlineL, NE.outlineP, h1, h2.1, h2.2, and_self]
theorem convExpr_outline : ∀ (t : Expr) (c : Ctx) (e : NE) (c' : Ctx), convExpr t c = some (.ok e, c') → e.outline = t.outline
  | .alt a, c, e, c', h => convAlt_outline a c e c' h
  | .lam sp args body, c, e, c', h => by
    simp only [convExpr] at h
    obtain ⟨a, c1, ha, h⟩ := Conv.bind_ok h
    cases h
    obtain ⟨d, d', hd⟩ := withVariables_ok ha
    simp only [NE.outline, Expr.outline, convAlt_outline body _ _ _ hd]
end

/-- **C60** (positions are kept). The converted expression has the outline of the program: every part lies
where the construct it comes from lies, and in a concatenation or alternation the operator in front of an
element is the one written in front of it. -/
theorem C60_positions_kept : ∀ (s : Stmt) (c : Ctx) (e : NE) (c' : Ctx), convStmt s c = some (.ok e, c') → e.outline = s.outline
  | .goal sp x, c, e, c', h => by
    simp only [convStmt] at h
    obtain ⟨a, c1, ha, h⟩ := Conv.bind_ok h
    cases h
    rw [NE.outline_setInfo, convExpr_outline x _ _ _ ha]
    rfl
  | .letS sp name args x next, c, e, c', h => by
    simp only [convStmt] at h
    obtain ⟨a, c1, ha, h⟩ := Conv.bind_ok h
    obtain ⟨b, c2, hb, h⟩ := Conv.bind_ok h
    cases h
    have h2 := C60_positions_kept next _ _ _ hb
    unfold convBound at ha
    split at ha
    · simp only [NE.outline, NE.outline_setName, Stmt.outline, h2, convExpr_outline x _ _ _ ha]
    · rename_i hne
      obtain ⟨y, d1, hy, ha⟩ := Conv.bind_ok ha
      cases ha
      obtain ⟨d2, d3, h4⟩ := withVariables_ok hy
      cases args with
      | nil => exact absurd rfl hne
      | cons i l =>
        simp only [NE.outline, NE.outline_setName, Stmt.outline, h2, convExpr_outline x _ _ _ h4]

/-- The second dot of `exDot` stands in front of its third element. -/
example : ∃ e c, convStmt exDot [] = some (.ok e, c) ∧
    ∃ x y z, e.outline = .node .cat 1 [7, 19] [x, y, z] ∧ z = .node .lit 21 [] [] := ⟨_, _, rfl, _, _, _, rfl, rfl⟩

end Chomp
