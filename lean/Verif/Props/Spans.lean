import Verif.Ast.Spans
import Verif.Props.Errors

/-!
# C60: where error messages point

Every error of the compiler is shown at a span.  It must be the span of something in the program.
-/

namespace Chomp

/-! ## Specification -/

mutual
/-- The spans of an expression and of all its parts. -/
def NE.nodeSpans : NE → List Nat
  | .eps i => [i.span]
  | .lit i _ => [i.span]
  | .cat i f r => i.span :: (f.nodeSpans ++ NE.nodeSpansP r)
  | .alt i f r => i.span :: (f.nodeSpans ++ NE.nodeSpansP r)
  | .fix i b => i.span :: b.nodeSpans
  | .var i _ => [i.span]
  | .call i o a => i.span :: (o.nodeSpans ++ NE.nodeSpansL a)
  | .lam i _ b => i.span :: b.nodeSpans
  | .letE i _ b c => i.span :: (b.nodeSpans ++ c.nodeSpans)
def NE.nodeSpansP : List (Nat × NE) → List Nat
  | [] => []
  | (_, e) :: l => e.nodeSpans ++ NE.nodeSpansP l
def NE.nodeSpansL : List NE → List Nat
  | [] => []
  | e :: l => e.nodeSpans ++ NE.nodeSpansL l
end

mutual
/-- The spans of the calls in an expression. -/
def NE.callSpans : NE → List Nat
  | .eps _ => []
  | .lit _ _ => []
  | .cat _ f r => f.callSpans ++ NE.callSpansP r
  | .alt _ f r => f.callSpans ++ NE.callSpansP r
  | .fix _ b => b.callSpans
  | .var _ _ => []
  | .call i o a => i.span :: (o.callSpans ++ NE.callSpansL a)
  | .lam _ _ b => b.callSpans
  | .letE _ _ b c => b.callSpans ++ c.callSpans
def NE.callSpansP : List (Nat × NE) → List Nat
  | [] => []
  | (_, e) :: l => e.callSpans ++ NE.callSpansP l
def NE.callSpansL : List NE → List Nat
  | [] => []
  | e :: l => e.callSpans ++ NE.callSpansL l
end

mutual
/-- The spans of the operators `.` in an expression. -/
def NE.dotSpans : NE → List Nat
  | .eps _ => []
  | .lit _ _ => []
  | .cat _ f r => r.map (·.1) ++ (f.dotSpans ++ NE.dotSpansP r)
  | .alt _ f r => f.dotSpans ++ NE.dotSpansP r
  | .fix _ b => b.dotSpans
  | .var _ _ => []
  | .call _ o a => o.dotSpans ++ NE.dotSpansL a
  | .lam _ _ b => b.dotSpans
  | .letE _ _ b c => b.dotSpans ++ c.dotSpans
def NE.dotSpansP : List (Nat × NE) → List Nat
  | [] => []
  | (_, e) :: l => e.dotSpans ++ NE.dotSpansP l
def NE.dotSpansL : List NE → List Nat
  | [] => []
  | e :: l => e.dotSpans ++ NE.dotSpansL l
end

mutual
/-- The spans of the operators `|` in an expression. -/
def NE.barSpans : NE → List Nat
  | .eps _ => []
  | .lit _ _ => []
  | .cat _ f r => f.barSpans ++ NE.barSpansP r
  | .alt _ f r => r.map (·.1) ++ (f.barSpans ++ NE.barSpansP r)
  | .fix _ b => b.barSpans
  | .var _ _ => []
  | .call _ o a => o.barSpans ++ NE.barSpansL a
  | .lam _ _ b => b.barSpans
  | .letE _ _ b c => b.barSpans ++ c.barSpans
def NE.barSpansP : List (Nat × NE) → List Nat
  | [] => []
  | (_, e) :: l => e.barSpans ++ NE.barSpansP l
def NE.barSpansL : List NE → List Nat
  | [] => []
  | e :: l => e.barSpans ++ NE.barSpansL l
end

mutual
/-- Every concatenation and alternation has at least two elements. -/
def NE.twoParts : NE → Prop
  | .eps _ => True
  | .lit _ _ => True
  | .cat _ f r => r ≠ [] ∧ f.twoParts ∧ NE.twoPartsP r
  | .alt _ f r => r ≠ [] ∧ f.twoParts ∧ NE.twoPartsP r
  | .fix _ b => b.twoParts
  | .var _ _ => True
  | .call _ o a => o.twoParts ∧ NE.twoPartsL a
  | .lam _ _ b => b.twoParts
  | .letE _ _ b c => b.twoParts ∧ c.twoParts
def NE.twoPartsP : List (Nat × NE) → Prop
  | [] => True
  | (_, e) :: l => e.twoParts ∧ NE.twoPartsP l
def NE.twoPartsL : List NE → Prop
  | [] => True
  | e :: l => e.twoParts ∧ NE.twoPartsL l
end

mutual
/-- The spans of the constructs of a program, the dots of its concatenations and the bars of its
alternations.  In a list of elements, each with the punctuation after it, the punctuation after the last
one does not exist. -/
def Term.spans : Term → List Nat
  | .eps s => [s]
  | .ident i => [i.span]
  | .lit s _ => [s]
  | .fix s t => s :: t.spans
  | .parens e => e.spans
def Call.spans : Call → List Nat
  | .mk s l => s :: Term.spansL l
def Term.spansL : List Term → List Nat
  | [] => []
  | t :: l => t.spans ++ Term.spansL l
def Cat.spans : Cat → List Nat
  | .mk s l => s :: Call.spansL l
def Call.spansL : List (Call × Nat) → List Nat
  | [] => []
  | (x, _) :: l => x.spans ++ Call.spansL l
def Labelled.spans : Labelled → List Nat
  | .mk s cat _ => s :: cat.spans
def Alt.spans : Alt → List Nat
  | .mk s l => s :: Labelled.spansL l
def Labelled.spansL : List (Labelled × Nat) → List Nat
  | [] => []
  | (x, _) :: l => x.spans ++ Labelled.spansL l
def Expr.spans : Expr → List Nat
  | .alt a => a.spans
  | .lam s _ body => s :: body.spans
end

/-- See `Term.spans`. -/
def Stmt.spans : Stmt → List Nat
  | .goal s e => s :: e.spans
  | .letS s _ _ e next => s :: (e.spans ++ next.spans)

mutual
/-- See `Term.spans`. -/
def Term.dots : Term → List Nat
  | .eps _ => []
  | .ident _ => []
  | .lit _ _ => []
  | .fix _ t => t.dots
  | .parens e => e.dots
def Call.dots : Call → List Nat
  | .mk _ l => Term.dotsL l
def Term.dotsL : List Term → List Nat
  | [] => []
  | t :: l => t.dots ++ Term.dotsL l
def Cat.dots : Cat → List Nat
  | .mk _ l => (l.map (·.2)).dropLast ++ Call.dotsL l
def Call.dotsL : List (Call × Nat) → List Nat
  | [] => []
  | (x, _) :: l => x.dots ++ Call.dotsL l
def Labelled.dots : Labelled → List Nat
  | .mk _ cat _ => cat.dots
def Alt.dots : Alt → List Nat
  | .mk _ l => Labelled.dotsL l
def Labelled.dotsL : List (Labelled × Nat) → List Nat
  | [] => []
  | (x, _) :: l => x.dots ++ Labelled.dotsL l
def Expr.dots : Expr → List Nat
  | .alt a => a.dots
  | .lam _ _ body => body.dots
end

/-- See `Term.spans`. -/
def Stmt.dots : Stmt → List Nat
  | .goal _ e => e.dots
  | .letS _ _ _ e next => e.dots ++ next.dots

mutual
/-- See `Term.spans`. -/
def Term.bars : Term → List Nat
  | .eps _ => []
  | .ident _ => []
  | .lit _ _ => []
  | .fix _ t => t.bars
  | .parens e => e.bars
def Call.bars : Call → List Nat
  | .mk _ l => Term.barsL l
def Term.barsL : List Term → List Nat
  | [] => []
  | t :: l => t.bars ++ Term.barsL l
def Cat.bars : Cat → List Nat
  | .mk _ l => Call.barsL l
def Call.barsL : List (Call × Nat) → List Nat
  | [] => []
  | (x, _) :: l => x.bars ++ Call.barsL l
def Labelled.bars : Labelled → List Nat
  | .mk _ cat _ => cat.bars
def Alt.bars : Alt → List Nat
  | .mk _ l => (l.map (·.2)).dropLast ++ Labelled.barsL l
def Labelled.barsL : List (Labelled × Nat) → List Nat
  | [] => []
  | (x, _) :: l => x.bars ++ Labelled.barsL l
def Expr.bars : Expr → List Nat
  | .alt a => a.bars
  | .lam _ _ body => body.bars
end

/-- See `Term.spans`. -/
def Stmt.bars : Stmt → List Nat
  | .goal _ e => e.bars
  | .letS _ _ _ e next => e.bars ++ next.bars

/-- `src/chomp/name.rs:17-24,183-187`, `src/nibble/convert.rs:69-80`: where a conversion error is shown; a name
without a span (`none`) is shown at the call site. -/
def ConvErr.span : ConvErr → Option Nat
  | .undeclaredName n => match n.content with
    | .spanned _ _ s => some s
    | .spanless _ => none
  | .emptyCat s => some s
  | .emptyAlt s => some s
  | .emptyCall s => some s

/-- `src/chomp/typed/error.rs:50-56,86-92,117-129`: where a type error is shown. -/
def TErr.span : TErr → Nat
  | .firstNullable _ s => s
  | .firstFlastOverlap _ s _ => s
  | .bothNullable _ s _ => s
  | .firstOverlap _ s _ => s
  | .variable _ _ s _ => s
  | .expectedLambda s => s
  | .unexpectedCall s => s
  | .unexpectedLambda s => s
  | .unexpectedLet s => s

/-- Where a type error must be shown: conflicts in concatenations at a dot, conflicts between
alternatives at a bar, all others at an expression. -/
def TErr.PointsAt (x : TErr) (nodes dots bars : List Nat) : Prop :=
  match x with
  | .firstNullable _ _ | .firstFlastOverlap _ _ _ => x.span ∈ dots
  | .bothNullable _ _ _ | .firstOverlap _ _ _ => x.span ∈ bars
  | _ => x.span ∈ nodes

/-! ## Expressions -/

/-- The claim "is a span of this kind in `e`". -/
def NE.spanP (e : NE) : SpanP := ⟨(· ∈ e.nodeSpans), (· ∈ e.callSpans), (· ∈ e.dotSpans), (· ∈ e.barSpans)⟩

variable {P : SpanP}

mutual
theorem NE.spans_of : ∀ (e : NE), e.twoParts → (∀ s ∈ e.nodeSpans, P.node s) → (∀ s ∈ e.callSpans, P.call s) →
    (∀ s ∈ e.dotSpans, P.dot s) → (∀ s ∈ e.barSpans, P.bar s) → e.Spans P
  | .eps i, _, h, _, _, _ => h _ (by simp [NE.nodeSpans])
  | .lit i _, _, h, _, _, _ => h _ (by simp [NE.nodeSpans])
  | .var i _, _, h, _, _, _ => h _ (by simp [NE.nodeSpans])
  | .cat i f r, t, h1, h2, h3, h4 => by
    simp only [NE.twoParts, NE.nodeSpans, NE.callSpans, NE.dotSpans, NE.barSpans, List.mem_cons, List.mem_append, or_imp, forall_and,
      forall_eq] at t h1 h2 h3 h4
    exact ⟨⟨h1.1, t.1⟩, f.spans_of t.2.1 h1.2.1 h2.1 h3.2.1 h4.1, NE.spans_ofP r t.2.2 h3.1 h1.2.2 h2.2 h3.2.2 h4.2⟩
  | .alt i f r, t, h1, h2, h3, h4 => by
    simp only [NE.twoParts, NE.nodeSpans, NE.callSpans, NE.dotSpans, NE.barSpans, List.mem_cons, List.mem_append, or_imp, forall_and,
      forall_eq] at t h1 h2 h3 h4
    exact ⟨⟨h1.1, t.1⟩, f.spans_of t.2.1 h1.2.1 h2.1 h3.1 h4.2.1, NE.spans_ofP r t.2.2 h4.1 h1.2.2 h2.2 h3.2 h4.2.2⟩
  | .fix i b, t, h1, h2, h3, h4 => by
    simp only [NE.twoParts, NE.nodeSpans, NE.callSpans, NE.dotSpans, NE.barSpans, List.mem_cons, or_imp, forall_and,
      forall_eq] at t h1 h2 h3 h4
    exact ⟨h1.1, b.spans_of t h1.2 h2 h3 h4⟩
  | .call i o a, t, h1, h2, h3, h4 => by
    simp only [NE.twoParts, NE.nodeSpans, NE.callSpans, NE.dotSpans, NE.barSpans, List.mem_cons, List.mem_append, or_imp, forall_and,
      forall_eq] at t h1 h2 h3 h4
    exact ⟨⟨h2.1, h1.1⟩, o.spans_of t.1 h1.2.1 h2.2.1 h3.1 h4.1, NE.spans_ofL a t.2 h1.2.2 h2.2.2 h3.2 h4.2⟩
  | .lam i _ b, t, h1, h2, h3, h4 => by
    simp only [NE.twoParts, NE.nodeSpans, NE.callSpans, NE.dotSpans, NE.barSpans, List.mem_cons, or_imp, forall_and,
      forall_eq] at t h1 h2 h3 h4
    exact ⟨h1.1, b.spans_of t h1.2 h2 h3 h4⟩
  | .letE i _ b c, t, h1, h2, h3, h4 => by
    simp only [NE.twoParts, NE.nodeSpans, NE.callSpans, NE.dotSpans, NE.barSpans, List.mem_cons, List.mem_append, or_imp, forall_and,
      forall_eq] at t h1 h2 h3 h4
    exact ⟨h1.1, b.spans_of t.1 h1.2.1 h2.1 h3.1 h4.1, c.spans_of t.2 h1.2.2 h2.2 h3.2 h4.2⟩
theorem NE.spans_ofP {O : Nat → Prop} : ∀ (l : List (Nat × NE)), NE.twoPartsP l → (∀ s ∈ l.map (·.1), O s) →
    (∀ s ∈ NE.nodeSpansP l, P.node s) → (∀ s ∈ NE.callSpansP l, P.call s) →
    (∀ s ∈ NE.dotSpansP l, P.dot s) → (∀ s ∈ NE.barSpansP l, P.bar s) → NE.SpansP P O l
  | [], _, _, _, _, _, _ => trivial
  | (s, e) :: l, t, h0, h1, h2, h3, h4 => by
    simp only [NE.twoPartsP, NE.nodeSpansP, NE.callSpansP, NE.dotSpansP, NE.barSpansP, List.map_cons, List.mem_cons, List.mem_append,
      or_imp, forall_and, forall_eq] at t h0 h1 h2 h3 h4
    exact ⟨h0.1, e.spans_of t.1 h1.1 h2.1 h3.1 h4.1, NE.spans_ofP l t.2 h0.2 h1.2 h2.2 h3.2 h4.2⟩
theorem NE.spans_ofL : ∀ (l : List NE), NE.twoPartsL l → (∀ s ∈ NE.nodeSpansL l, P.node s) → (∀ s ∈ NE.callSpansL l, P.call s) →
    (∀ s ∈ NE.dotSpansL l, P.dot s) → (∀ s ∈ NE.barSpansL l, P.bar s) → NE.SpansL P l
  | [], _, _, _, _, _ => trivial
  | e :: l, t, h1, h2, h3, h4 => by
    simp only [NE.twoPartsL, NE.nodeSpansL, NE.callSpansL, NE.dotSpansL, NE.barSpansL, List.mem_append,
      or_imp, forall_and] at t h1 h2 h3 h4
    exact ⟨e.spans_of t.1 h1.1 h2.1 h3.1 h4.1, NE.spans_ofL l t.2 h1.2 h2.2 h3.2 h4.2⟩
end

/-- The span of a type error is as claimed. -/
def TErr.Spans (P : SpanP) (x : TErr) : Prop :=
  match x with
  | .firstNullable _ _ | .firstFlastOverlap _ _ _ => P.dot x.span
  | .bothNullable _ _ _ | .firstOverlap _ _ _ => P.bar x.span
  | _ => P.node x.span

theorem Inf.bind_errE {α β : Type} {x : Inf α} {f : α → TCtx → Inf β} {e : TErr} (h : (x.bind f).1 = .err e) :
    x.1 = .err e ∨ ∃ a, x.1 = .ok a ∧ (f a x.2).1 = .err e := by
  obtain ⟨x, c⟩ := x
  cases x with
  | ok a => exact .inr ⟨a, rfl, h⟩
  | err y => cases h; exact .inl rfl
  | _ => cases h

theorem fixLoop_err {f : Ty → TCtx → Inf TE} {Q : TErr → Prop} (hf : ∀ t c x, (f t c).1 = .err x → Q x) :
    ∀ (n : Nat) (t : Ty) (c : TCtx) (x : TErr), (fixLoop f n t c).1 = .err x → Q x
  | 0, _, _, _, h => by cases h
  | n + 1, t, c, x, h => by
    rw [fixLoop] at h
    rcases Inf.bind_errE h with h | ⟨a, _, h⟩
    · exact hf _ _ _ h
    · split at h
      · cases h
      · exact fixLoop_err hf n _ _ x h

theorem withVar_fstE {α : Type} {c : TCtx} {ty : Ty} {f : TCtx → Inf α} : ∃ d, (c.withVar ty f).1 = (f d).1 :=
  ⟨_, rfl⟩

theorem withUnguard_fstE {α : Type} {c : TCtx} {f : TCtx → Inf α} : ∃ d, (c.withUnguard f).1 = (f d).1 :=
  ⟨_, rfl⟩

mutual
theorem infer_err_spans (n : Nat) : ∀ (e : NE) (nm : Option Name) (c : TCtx) (x : TErr), e.Spans P →
    (infer n nm e c).1 = .err x → x.Spans P
  | .eps i, nm, c, x, h, he => by simp only [infer] at he; cases he
  | .lit i s, nm, c, x, h, he => by simp only [infer] at he; cases he
  | .cat i f r, nm, c, x, h, he => by
    simp only [infer] at he
    rcases Inf.bind_errE he with he | ⟨a, _, he⟩
    · exact infer_err_spans n f _ _ _ h.2.1 he
    · split at he
      · cases he
        cases r with
        | nil => exact absurd rfl h.1.2
        | cons p r => exact h.2.2.1
      · rcases Inf.bind_errE he with he | ⟨_, _, he⟩
        · obtain ⟨d, hd⟩ := withUnguard_fstE (c := (infer n f.info.name f c).2) (f := inferCat n a.ty r)
          rw [hd] at he
          exact inferCat_err_spans n r _ _ _ h.2.2 he
        · cases he
  | .alt i f r, nm, c, x, h, he => by
    simp only [infer] at he
    rcases Inf.bind_errE he with he | ⟨a, _, he⟩
    · exact infer_err_spans n f _ _ _ h.2.1 he
    · rcases Inf.bind_errE he with he | ⟨_, _, he⟩
      · exact inferAlt_err_spans n r _ _ _ h.2.2 he
      · cases he
  | .fix i b, nm, c, x, h, he => by
    cases b with
    | lam j as b =>
      simp only [infer] at he
      rcases Inf.bind_errE he with he | ⟨_, _, he⟩
      · refine fixLoop_err (Q := fun x => x.Spans P) (fun t c x hx => ?_) _ _ _ _ he
        obtain ⟨d, hd⟩ := withVar_fstE (c := c) (ty := t) (f := infer n (Name.mergeAll [j.name, b.info.name, nm]) b)
        rw [hd] at hx
        exact infer_err_spans n b _ _ _ h.2.2 hx
      · cases he
    | _ => simp only [infer] at he; cases he; exact h.1
  | .var i k, nm, c, x, h, he => by
    simp only [infer] at he
    split at he
    · cases he
    · cases he; exact h
  | .call i _ _, nm, c, x, h, he => by simp only [infer] at he; cases he; exact h.1.2
  | .lam i _ _, nm, c, x, h, he => by simp only [infer] at he; cases he; exact h.1
  | .letE i _ _ _, nm, c, x, h, he => by simp only [infer] at he; cases he; exact h.1
theorem inferCat_err_spans (n : Nat) : ∀ (r : List (Nat × NE)) (ty : Ty) (c : TCtx) (x : TErr), NE.SpansP P P.dot r →
    (inferCat n ty r c).1 = .err x → x.Spans P
  | [], ty, c, x, h, he => by simp only [inferCat] at he; cases he
  | (p, e) :: r, ty, c, x, h, he => by
    simp only [inferCat] at he
    rcases Inf.bind_errE he with he | ⟨a, _, he⟩
    · exact infer_err_spans n e _ _ _ h.2.1 he
    · split at he
      · rcases Inf.bind_errE he with he | ⟨_, _, he⟩
        · exact inferCat_err_spans n r _ _ _ h.2.2 he
        · cases he
      · cases he; exact h.1
theorem inferAlt_err_spans (n : Nat) : ∀ (r : List (Nat × NE)) (ty : Ty) (c : TCtx) (x : TErr), NE.SpansP P P.bar r →
    (inferAlt n ty r c).1 = .err x → x.Spans P
  | [], ty, c, x, h, he => by simp only [inferAlt] at he; cases he
  | (p, e) :: r, ty, c, x, h, he => by
    simp only [inferAlt] at he
    rcases Inf.bind_errE he with he | ⟨a, _, he⟩
    · exact infer_err_spans n e _ _ _ h.2.1 he
    · split at he
      · cases he; exact h.1
      · split at he
        · rcases Inf.bind_errE he with he | ⟨_, _, he⟩
          · exact inferAlt_err_spans n r _ _ _ h.2.2 he
          · cases he
        · cases he; exact h.1
end

/-- **C60** (reduction). An error of the reducer is shown at a call of the expression. -/
theorem C60_reduction_error_at_call (n : Nat) (e : NE) (x : RErr) (ht : e.twoParts) (h : reduce n e = .err x) :
    x.span ∈ e.callSpans :=
  NE.Spans.reduce_err (P := e.spanP) n e x (e.spans_of ht (fun _ h => h) (fun _ h => h) (fun _ h => h) (fun _ h => h)) h

theorem TErr.pointsAt {x : TErr} {nodes dots bars : List Nat} (h : x.Spans ⟨(· ∈ nodes), fun _ => True, (· ∈ dots), (· ∈ bars)⟩) :
    x.PointsAt nodes dots bars := by
  cases x <;> exact h

/-- **C60** (type inference after reduction). A conflict in a concatenation is shown at a `.` of the
expression, a conflict between alternatives at a `|`, and all other errors at a part of the expression –
also when inference runs on the reduced expression. -/
theorem C60_type_error_in_expression (n m : Nat) (e e' : NE) (c : TCtx) (x : TErr) (ht : e.twoParts) (hr : reduce n e = .ok e')
    (h : (inferTop m e' c).1 = .err x) : x.PointsAt e.nodeSpans e.dotSpans e.barSpans := by
  have h1 := NE.Spans.reduce (P := ⟨(· ∈ e.nodeSpans), fun _ => True, (· ∈ e.dotSpans), (· ∈ e.barSpans)⟩) n e e'
    (e.spans_of ht (fun _ h => h) (fun _ _ => trivial) (fun _ h => h) (fun _ h => h)) hr
  exact TErr.pointsAt (infer_err_spans m e' _ _ x h1 h)

/-! ## Programs -/

theorem NE.Spans.setInfo' {N D B : Nat → Prop} {e : NE} (h : e.Spans ⟨N, N, D, B⟩) {i : Info} (hi : N i.span) :
    (e.setInfo i).Spans ⟨N, N, D, B⟩ := by
  cases e <;> simp only [NE.Spans, NE.setInfo] at h ⊢ <;>
    first | exact hi | exact ⟨hi, h.2⟩ | exact ⟨⟨hi, hi⟩, h.2⟩ | exact ⟨⟨hi, h.1.2⟩, h.2⟩

variable {N D B : Nat → Prop}

theorem Conv.bind_errE {α β : Type} {x : Conv α} {f : α → Ctx → Conv β} {e : ConvErr} {c : Ctx}
    (h : x.bind f = some (.error e, c)) : x = some (.error e, c) ∨ ∃ a c', x = some (.ok a, c') ∧ f a c' = some (.error e, c) := by
  unfold Conv.bind at h
  split at h
  · exact .inr ⟨_, _, rfl, h⟩
  · cases h; exact .inl rfl
  · cases h

theorem withVariables_err {α : Type} {c c' : Ctx} {names : List Name} {f : Ctx → Conv α} {x : ConvErr}
    (h : c.withVariables names f = some (.error x, c')) : ∃ d d', f d = some (.error x, d') := by
  unfold Ctx.withVariables at h
  split at h
  · cases h
  · rename_i r d' hf
    split at h
    · cases h
    · cases h
      exact ⟨_, _, hf⟩

theorem dropLast_cons_mem {α : Type} {p q : α} {l : List α} : p ∈ (p :: q :: l).dropLast := by simp

mutual
theorem convTerm_spans : ∀ (t : Term) (c : Ctx), (∀ s ∈ t.spans, N s) → (∀ s ∈ t.dots, D s) → (∀ s ∈ t.bars, B s) →
    (∀ e c', convTerm t c = some (.ok e, c') → e.Spans ⟨N, N, D, B⟩) ∧
    (∀ x c', convTerm t c = some (.error x, c') → ∃ s, x.span = some s ∧ N s)
  | .eps sp, c, h1, h2, h3 => by
    simp only [convTerm]
    exact ⟨by intro e c' h; cases h; exact h1 _ (by simp [Term.spans]), by intro x c' h; cases h⟩
  | .lit sp s, c, h1, h2, h3 => by
    simp only [convTerm]
    exact ⟨by intro e c' h; cases h; exact h1 _ (by simp [Term.spans]), by intro x c' h; cases h⟩
  | .ident i, c, h1, h2, h3 => by
    simp only [convTerm, convIdent]
    split
    · exact ⟨(by intro e c' h; cases h), by intro x c' h; cases h; exact ⟨i.span, rfl, h1 _ (by simp [Term.spans])⟩⟩
    · exact ⟨by intro e c' h; cases h; exact h1 _ (by simp [Term.spans]), by intro x c' h; cases h⟩
  | .fix sp t, c, h1, h2, h3 => by
    simp only [Term.spans, Term.dots, Term.bars, List.mem_cons, or_imp, forall_and, forall_eq] at h1 h2 h3
    have ih := convTerm_spans t c h1.2 h2 h3
    simp only [convTerm]
    constructor
    · intro e c' h
      obtain ⟨a, c1, ha, h⟩ := Conv.bind_ok h
      cases h
      exact ⟨h1.1, ih.1 _ _ ha⟩
    · intro x c' h
      rcases Conv.bind_errE h with h | ⟨_, _, _, h⟩
      · exact ih.2 _ _ h
      · cases h
  | .parens e, c, h1, h2, h3 => convExpr_spans e c h1 h2 h3
theorem convCall_spans : ∀ (t : Call) (c : Ctx), (∀ s ∈ t.spans, N s) → (∀ s ∈ t.dots, D s) → (∀ s ∈ t.bars, B s) →
    (∀ e c', convCall t c = some (.ok e, c') → e.Spans ⟨N, N, D, B⟩) ∧
    (∀ x c', convCall t c = some (.error x, c') → ∃ s, x.span = some s ∧ N s)
  | .mk sp [], c, h1, h2, h3 => by
    simp only [convCall]
    exact ⟨(by intro e c' h; cases h), by intro x c' h; cases h; exact ⟨sp, rfl, h1 _ (by simp [Call.spans])⟩⟩
  | .mk sp (t :: ts), c, h1, h2, h3 => by
    simp only [Call.spans, Call.dots, Call.bars, Term.spansL, Term.dotsL, Term.barsL, List.mem_cons, List.mem_append, or_imp,
      forall_and, forall_eq] at h1 h2 h3
    have ih := convTerm_spans t c h1.2.1 h2.1 h3.1
    have ihl := fun c => convTerms_spans ts c h1.2.2 h2.2 h3.2
    simp only [convCall]
    constructor
    · intro e c' h
      obtain ⟨a, c1, ha, h⟩ := Conv.bind_ok h
      obtain ⟨l, c2, hl, h⟩ := Conv.bind_ok h
      split at h
      · cases h; exact ih.1 _ _ ha
      · cases h; exact ⟨⟨h1.1, h1.1⟩, ih.1 _ _ ha, (ihl _).1 _ _ hl⟩
    · intro x c' h
      rcases Conv.bind_errE h with h | ⟨_, _, _, h⟩
      · exact ih.2 _ _ h
      · rcases Conv.bind_errE h with h | ⟨_, _, _, h⟩
        · exact (ihl _).2 _ _ h
        · split at h <;> cases h
theorem convTerms_spans : ∀ (t : List Term) (c : Ctx), (∀ s ∈ Term.spansL t, N s) → (∀ s ∈ Term.dotsL t, D s) →
    (∀ s ∈ Term.barsL t, B s) →
    (∀ e c', convTerms t c = some (.ok e, c') → NE.SpansL ⟨N, N, D, B⟩ e) ∧
    (∀ x c', convTerms t c = some (.error x, c') → ∃ s, x.span = some s ∧ N s)
  | [], c, h1, h2, h3 => by
    simp only [convTerms]
    exact ⟨by intro e c' h; cases h; trivial, by intro x c' h; cases h⟩
  | t :: ts, c, h1, h2, h3 => by
    simp only [Term.spansL, Term.dotsL, Term.barsL, List.mem_append, or_imp, forall_and] at h1 h2 h3
    have ih := convTerm_spans t c h1.1 h2.1 h3.1
    have ihl := fun c => convTerms_spans ts c h1.2 h2.2 h3.2
    simp only [convTerms]
    constructor
    · intro e c' h
      obtain ⟨a, c1, ha, h⟩ := Conv.bind_ok h
      obtain ⟨l, c2, hl, h⟩ := Conv.bind_ok h
      cases h
      exact ⟨ih.1 _ _ ha, (ihl _).1 _ _ hl⟩
    · intro x c' h
      rcases Conv.bind_errE h with h | ⟨_, _, _, h⟩
      · exact ih.2 _ _ h
      · rcases Conv.bind_errE h with h | ⟨_, _, _, h⟩
        · exact (ihl _).2 _ _ h
        · cases h
theorem convCat_spans : ∀ (t : Cat) (c : Ctx), (∀ s ∈ t.spans, N s) → (∀ s ∈ t.dots, D s) → (∀ s ∈ t.bars, B s) →
    (∀ e c', convCat t c = some (.ok e, c') → e.Spans ⟨N, N, D, B⟩) ∧
    (∀ x c', convCat t c = some (.error x, c') → ∃ s, x.span = some s ∧ N s)
  | .mk sp [], c, h1, h2, h3 => by
    simp only [convCat]
    exact ⟨(by intro e c' h; cases h), by intro x c' h; cases h; exact ⟨sp, rfl, h1 _ (by simp [Cat.spans])⟩⟩
  | .mk sp ((t, p) :: ts), c, h1, h2, h3 => by
    simp only [Cat.spans, Cat.dots, Cat.bars, Call.spansL, Call.dotsL, Call.barsL, List.mem_cons, List.mem_append, or_imp,
      forall_and, forall_eq] at h1 h2 h3
    have ih := convCall_spans t c h1.2.1 h2.2.1 h3.1
    have ihl := fun c => convCalls_spans ts p c h1.2.2 h2.1 h2.2.2 h3.2
    simp only [convCat]
    constructor
    · intro e c' h
      obtain ⟨a, c1, ha, h⟩ := Conv.bind_ok h
      obtain ⟨l, c2, hl, h⟩ := Conv.bind_ok h
      split at h
      · cases h; exact ih.1 _ _ ha
      · rename_i hne
        cases h; exact ⟨⟨h1.1, fun h => hne h⟩, ih.1 _ _ ha, (ihl _).1 _ _ hl⟩
    · intro x c' h
      rcases Conv.bind_errE h with h | ⟨_, _, _, h⟩
      · exact ih.2 _ _ h
      · rcases Conv.bind_errE h with h | ⟨_, _, _, h⟩
        · exact (ihl _).2 _ _ h
        · split at h <;> cases h
theorem convCalls_spans : ∀ (t : List (Call × Nat)) (p : Nat) (c : Ctx), (∀ s ∈ Call.spansL t, N s) →
    (∀ s ∈ (p :: t.map (·.2)).dropLast, D s) → (∀ s ∈ Call.dotsL t, D s) → (∀ s ∈ Call.barsL t, B s) →
    (∀ e c', convCalls p t c = some (.ok e, c') → NE.SpansP ⟨N, N, D, B⟩ D e) ∧
    (∀ x c', convCalls p t c = some (.error x, c') → ∃ s, x.span = some s ∧ N s)
  | [], p, c, h1, h0, h2, h3 => by
    simp only [convCalls]
    exact ⟨by intro e c' h; cases h; trivial, by intro x c' h; cases h⟩
  | (t, q) :: ts, p, c, h1, h0, h2, h3 => by
    simp only [Call.spansL, Call.dotsL, Call.barsL, List.mem_append, or_imp, forall_and] at h1 h2 h3
    simp only [List.map_cons, List.dropLast_cons_cons, List.mem_cons, or_imp, forall_and, forall_eq] at h0
    have ih := convCall_spans t c h1.1 h2.1 h3.1
    have ihl := fun c => convCalls_spans ts q c h1.2 h0.2 h2.2 h3.2
    simp only [convCalls]
    constructor
    · intro e c' h
      obtain ⟨a, c1, ha, h⟩ := Conv.bind_ok h
      obtain ⟨l, c2, hl, h⟩ := Conv.bind_ok h
      cases h
      exact ⟨h0.1, ih.1 _ _ ha, (ihl _).1 _ _ hl⟩
    · intro x c' h
      rcases Conv.bind_errE h with h | ⟨_, _, _, h⟩
      · exact ih.2 _ _ h
      · rcases Conv.bind_errE h with h | ⟨_, _, _, h⟩
        · exact (ihl _).2 _ _ h
        · cases h
theorem convLabelled_spans : ∀ (t : Labelled) (c : Ctx), (∀ s ∈ t.spans, N s) → (∀ s ∈ t.dots, D s) → (∀ s ∈ t.bars, B s) →
    (∀ e c', convLabelled t c = some (.ok e, c') → e.Spans ⟨N, N, D, B⟩) ∧
    (∀ x c', convLabelled t c = some (.error x, c') → ∃ s, x.span = some s ∧ N s)
  | .mk sp cat label, c, h1, h2, h3 => by
    simp only [Labelled.spans, Labelled.dots, Labelled.bars, List.mem_cons, or_imp, forall_and, forall_eq] at h1 h2 h3
    have ih := convCat_spans cat c h1.2 h2 h3
    simp only [convLabelled]
    constructor
    · intro e c' h
      obtain ⟨a, c1, ha, h⟩ := Conv.bind_ok h
      cases h
      exact (ih.1 _ _ ha).setInfo' h1.1
    · intro x c' h
      rcases Conv.bind_errE h with h | ⟨_, _, _, h⟩
      · exact ih.2 _ _ h
      · cases h
theorem convAlt_spans : ∀ (t : Alt) (c : Ctx), (∀ s ∈ t.spans, N s) → (∀ s ∈ t.dots, D s) → (∀ s ∈ t.bars, B s) →
    (∀ e c', convAlt t c = some (.ok e, c') → e.Spans ⟨N, N, D, B⟩) ∧
    (∀ x c', convAlt t c = some (.error x, c') → ∃ s, x.span = some s ∧ N s)
  | .mk sp [], c, h1, h2, h3 => by
    simp only [convAlt]
    exact ⟨(by intro e c' h; cases h), by intro x c' h; cases h; exact ⟨sp, rfl, h1 _ (by simp [Alt.spans])⟩⟩
  | .mk sp ((t, p) :: ts), c, h1, h2, h3 => by
    simp only [Alt.spans, Alt.dots, Alt.bars, Labelled.spansL, Labelled.dotsL, Labelled.barsL, List.mem_cons, List.mem_append,
      or_imp, forall_and, forall_eq] at h1 h2 h3
    have ih := convLabelled_spans t c h1.2.1 h2.1 h3.2.1
    have ihl := fun c => convLabelleds_spans ts p c h1.2.2 h2.2 h3.1 h3.2.2
    simp only [convAlt]
    constructor
    · intro e c' h
      obtain ⟨a, c1, ha, h⟩ := Conv.bind_ok h
      obtain ⟨l, c2, hl, h⟩ := Conv.bind_ok h
      split at h
      · cases h; exact ih.1 _ _ ha
      · rename_i hne
        cases h; exact ⟨⟨h1.1, fun h => hne h⟩, ih.1 _ _ ha, (ihl _).1 _ _ hl⟩
    · intro x c' h
      rcases Conv.bind_errE h with h | ⟨_, _, _, h⟩
      · exact ih.2 _ _ h
      · rcases Conv.bind_errE h with h | ⟨_, _, _, h⟩
        · exact (ihl _).2 _ _ h
        · split at h <;> cases h
theorem convLabelleds_spans : ∀ (t : List (Labelled × Nat)) (p : Nat) (c : Ctx), (∀ s ∈ Labelled.spansL t, N s) →
    (∀ s ∈ Labelled.dotsL t, D s) → (∀ s ∈ (p :: t.map (·.2)).dropLast, B s) → (∀ s ∈ Labelled.barsL t, B s) →
    (∀ e c', convLabelleds p t c = some (.ok e, c') → NE.SpansP ⟨N, N, D, B⟩ B e) ∧
    (∀ x c', convLabelleds p t c = some (.error x, c') → ∃ s, x.span = some s ∧ N s)
  | [], p, c, h1, h2, h0, h3 => by
    simp only [convLabelleds]
    exact ⟨by intro e c' h; cases h; trivial, by intro x c' h; cases h⟩
  | (t, q) :: ts, p, c, h1, h2, h0, h3 => by
    simp only [Labelled.spansL, Labelled.dotsL, Labelled.barsL, List.mem_append, or_imp, forall_and] at h1 h2 h3
    simp only [List.map_cons, List.dropLast_cons_cons, List.mem_cons, or_imp, forall_and, forall_eq] at h0
    have ih := convLabelled_spans t c h1.1 h2.1 h3.1
    have ihl := fun c => convLabelleds_spans ts q c h1.2 h2.2 h0.2 h3.2
    simp only [convLabelleds]
    constructor
    · intro e c' h
      obtain ⟨a, c1, ha, h⟩ := Conv.bind_ok h
      obtain ⟨l, c2, hl, h⟩ := Conv.bind_ok h
      cases h
      exact ⟨h0.1, ih.1 _ _ ha, (ihl _).1 _ _ hl⟩
    · intro x c' h
      rcases Conv.bind_errE h with h | ⟨_, _, _, h⟩
      · exact ih.2 _ _ h
      · rcases Conv.bind_errE h with h | ⟨_, _, _, h⟩
        · exact (ihl _).2 _ _ h
        · cases h
theorem convExpr_spans : ∀ (t : Expr) (c : Ctx), (∀ s ∈ t.spans, N s) → (∀ s ∈ t.dots, D s) → (∀ s ∈ t.bars, B s) →
    (∀ e c', convExpr t c = some (.ok e, c') → e.Spans ⟨N, N, D, B⟩) ∧
    (∀ x c', convExpr t c = some (.error x, c') → ∃ s, x.span = some s ∧ N s)
  | .alt a, c, h1, h2, h3 => convAlt_spans a c h1 h2 h3
  | .lam sp args body, c, h1, h2, h3 => by
    simp only [Expr.spans, Expr.dots, Expr.bars, List.mem_cons, or_imp, forall_and, forall_eq] at h1 h2 h3
    have ih := fun c => convAlt_spans body c h1.2 h2 h3
    simp only [convExpr]
    constructor
    · intro e c' h
      obtain ⟨a, c1, ha, h⟩ := Conv.bind_ok h
      cases h
      obtain ⟨d, d', hd⟩ := withVariables_ok ha
      exact ⟨h1.1, (ih _).1 _ _ hd⟩
    · intro x c' h
      rcases Conv.bind_errE h with h | ⟨_, _, _, h⟩
      · obtain ⟨d, d', hd⟩ := withVariables_err h
        exact (ih _).2 _ _ hd
      · cases h
end

theorem convStmt_spans : ∀ (t : Stmt) (c : Ctx), (∀ s ∈ t.spans, N s) → (∀ s ∈ t.dots, D s) → (∀ s ∈ t.bars, B s) →
    (∀ e c', convStmt t c = some (.ok e, c') → e.Spans ⟨N, N, D, B⟩) ∧
    (∀ x c', convStmt t c = some (.error x, c') → ∃ s, x.span = some s ∧ N s)
  | .goal sp x, c, h1, h2, h3 => by
    simp only [Stmt.spans, Stmt.dots, Stmt.bars, List.mem_cons, or_imp, forall_and, forall_eq] at h1 h2 h3
    have ih := convExpr_spans x c h1.2 h2 h3
    rw [convStmt]
    constructor
    · intro e c' h
      obtain ⟨a, c1, ha, h⟩ := Conv.bind_ok h
      cases h
      exact (ih.1 _ _ ha).setInfo' h1.1
    · intro x c' h
      rcases Conv.bind_errE h with h | ⟨_, _, _, h⟩
      · exact ih.2 _ _ h
      · cases h
  | .letS sp x args b next, c, h1, h2, h3 => by
    simp only [Stmt.spans, Stmt.dots, Stmt.bars, List.mem_cons, List.mem_append, or_imp, forall_and, forall_eq] at h1 h2 h3
    have ihb := fun c => convExpr_spans b c h1.2.1 h2.1 h3.1
    have ihn := fun c => convStmt_spans next c h1.2.2 h2.2 h3.2
    rw [convStmt]
    constructor
    · intro e c' h
      obtain ⟨a, c1, ha, h⟩ := Conv.bind_ok h
      obtain ⟨d, c2, hd, h⟩ := Conv.bind_ok h
      cases h
      have hb : a.Spans ⟨N, N, D, B⟩ := by
        unfold convBound at ha
        split at ha
        · exact (ihb _).1 _ _ ha
        · obtain ⟨y, d1, hy, ha⟩ := Conv.bind_ok ha
          cases ha
          obtain ⟨d2, d3, h4⟩ := withVariables_ok hy
          exact ⟨h1.1, (ihb _).1 _ _ h4⟩
      exact ⟨h1.1, hb.setName _, (ihn _).1 _ _ hd⟩
    · intro x c' h
      rcases Conv.bind_errE h with h | ⟨_, _, _, h⟩
      · unfold convBound at h
        split at h
        · exact (ihb _).2 _ _ h
        · rcases Conv.bind_errE h with h | ⟨_, _, _, h⟩
          · obtain ⟨d, d', hd⟩ := withVariables_err h
            exact (ihb _).2 _ _ hd
          · cases h
      · rcases Conv.bind_errE h with h | ⟨_, _, _, h⟩
        · exact (ihn _).2 _ _ h
        · cases h

theorem convStmt_twoParts_spans {s : Stmt} {c : Ctx} {e : NE} {c' : Ctx} (h : convStmt s c = some (.ok e, c')) :
    e.Spans ⟨(· ∈ s.spans), (· ∈ s.spans), (· ∈ s.dots), (· ∈ s.bars)⟩ :=
  (convStmt_spans s c (fun _ h => h) (fun _ h => h) (fun _ h => h)).1 e c' h

/-- **C60.** Every error of the compiler is shown at a place of the program: errors of conversion and of
reduction at one of its constructs, conflicts in concatenations at one of its dots, conflicts between
alternatives at one of its bars, and all other type errors at one of its constructs. -/
theorem C60_error_in_program (cas : Casing) (fuel : Nat) (s : Stmt) :
    (∀ x, compile cas fuel s = .convert x → ∃ p, x.span = some p ∧ p ∈ s.spans) ∧
    (∀ x, compile cas fuel s = .reduce x → x.span ∈ s.spans) ∧
    (∀ x, compile cas fuel s = .typing x → x.PointsAt s.spans s.dots s.bars) := by
  unfold compile
  cases hc : convStmt s [] with
  | none => exact ⟨(by intro x h; cases h), (by intro x h; cases h), (by intro x h; cases h)⟩
  | some p =>
    obtain ⟨r, c⟩ := p
    cases r with
    | error y =>
      refine ⟨?_, (by intro x h; cases h), (by intro x h; cases h)⟩
      intro x h
      cases h
      exact (convStmt_spans s [] (fun _ h => h) (D := fun _ => True) (B := fun _ => True) (by simp) (by simp)).2 _ _ hc
    | ok e =>
      have he := convStmt_twoParts_spans hc
      simp only
      cases hr : reduce fuel e with
      | err y =>
        refine ⟨(by intro x h; cases h), ?_, (by intro x h; cases h)⟩
        intro x h
        cases h
        exact NE.Spans.reduce_err fuel e _ he hr
      | panic => exact ⟨(by intro x h; cases h), (by intro x h; cases h), (by intro x h; cases h)⟩
      | oof => exact ⟨(by intro x h; cases h), (by intro x h; cases h), (by intro x h; cases h)⟩
      | ok e' =>
        have he' := NE.Spans.reduce fuel e e' he hr
        simp only
        cases hi : (inferTop fuel e' ⟨[], []⟩).1 with
        | err y =>
          refine ⟨(by intro x h; cases h), (by intro x h; cases h), ?_⟩
          intro x h
          cases h
          have := infer_err_spans fuel e' _ _ _ he' hi
          cases y <;> exact this
        | panic => exact ⟨(by intro x h; cases h), (by intro x h; cases h), (by intro x h; cases h)⟩
        | oof => exact ⟨(by intro x h; cases h), (by intro x h; cases h), (by intro x h; cases h)⟩
        | ok te =>
          have key : ∀ r : Compile, (∀ x, r ≠ .convert x) → (∀ x, r ≠ .reduce x) → (∀ x, r ≠ .typing x) →
              (∀ x, r = .convert x → ∃ p, x.span = some p ∧ p ∈ s.spans) ∧ (∀ x, r = .reduce x → x.span ∈ s.spans) ∧
              (∀ x, r = .typing x → x.PointsAt s.spans s.dots s.bars) :=
            fun r h1 h2 h3 => ⟨fun x h => absurd h (h1 x), fun x h => absurd h (h2 x), fun x h => absurd h (h3 x)⟩
          simp only
          cases gen cas te {} with
          | error _ => exact key _ (by simp) (by simp) (by simp)
          | ok p =>
            obtain ⟨id, st⟩ := p
            simp only
            cases st.emitIds fuel id with
            | none => exact key _ (by simp) (by simp) (by simp)
            | some r => cases r <;> exact key _ (by simp) (by simp) (by simp)

/-! ## Examples -/

/-- `let f = /x/ "a" . x; match f "b" "c";`: a call with one argument too many. -/
def exTooMany : Stmt :=
  .letS 1 ⟨false, "f", 2⟩ [] (.lam 3 [⟨false, "x", 4⟩] (.mk 5 [(.mk 6 (.mk 7 [(.mk 8 [.lit 9 ['a']], 10),
      (.mk 11 [.ident ⟨false, "x", 12⟩], 0)]) none, 0)]))
    (.goal 13 (.alt (.mk 14 [(.mk 15 (.mk 16 [(.mk 17 [.ident ⟨false, "f", 18⟩, .lit 19 ['b'], .lit 20 ['c']], 0)]) none, 0)])))

/-- The error is shown at the statement of the call, whose span the call has taken over. -/
example : ∃ x, compile ⟨some, some⟩ 30 exTooMany = .reduce x ∧ x.span = 13 ∧ 13 ∈ exTooMany.spans :=
  ⟨_, rfl, rfl, by decide +kernel⟩

/-- `match "a" . (_ | "b") . "b";`: the second dot is at fault. -/
def exDot : Stmt :=
  .goal 1 (.alt (.mk 2 [(.mk 3 (.mk 4 [(.mk 5 [.lit 6 ['a']], 7),
    (.mk 8 [.parens (.alt (.mk 9 [(.mk 10 (.mk 11 [(.mk 12 [.eps 13], 0)]) none, 14),
      (.mk 15 (.mk 16 [(.mk 17 [.lit 18 ['b']], 0)]) none, 0)]))], 19), (.mk 20 [.lit 21 ['b']], 0)]) none, 0)]))

example : exDot.dots = [7, 19] ∧ exDot.bars = [14] := by decide +kernel

example : ∃ x, compile ⟨some, some⟩ 30 exDot = .typing x ∧ x.span = 19 ∧ x.PointsAt exDot.spans exDot.dots exDot.bars := by
  have h : ∃ x, compile ⟨some, some⟩ 30 exDot = .typing x ∧ x.span = 19 := ⟨_, rfl, rfl⟩
  obtain ⟨x, h, hs⟩ := h
  exact ⟨x, h, hs, (C60_error_in_program _ _ _).2.2 x h⟩

/-- `match "a" | "b" | "a" . "c";`: the second bar is at fault. -/
def exBar : Stmt :=
  .goal 1 (.alt (.mk 2 [(.mk 3 (.mk 4 [(.mk 5 [.lit 6 ['a']], 0)]) none, 7), (.mk 8 (.mk 9 [(.mk 10 [.lit 11 ['b']], 0)]) none, 12),
    (.mk 13 (.mk 14 [(.mk 15 [.lit 16 ['a']], 17), (.mk 18 [.lit 19 ['c']], 0)]) none, 0)]))

example : ∃ x, compile ⟨some, some⟩ 30 exBar = .typing x ∧ x.span = 12 ∧ exBar.bars = [7, 12] := ⟨_, rfl, rfl, rfl⟩

end Chomp
