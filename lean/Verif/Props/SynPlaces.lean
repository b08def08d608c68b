import Verif.Props.SynErrors
import Verif.Props.Spans

/-!
# C84: the places of a parsed program

Which tokens each construct of a parsed program is made of, and where they are.
-/

namespace Chomp

/-! ## Specification -/

section
variable (sp : List STok → Nat)

mutual
/-- The construct is made of exactly these tokens, and so are its parts; `sp` gives the place of a construct of several tokens. -/
inductive PTerm : List STok → Term → Prop
  | eps (s : Nat) : PTerm [.ident false "_" s] (.eps s)
  | ident {raw : Bool} {sym : String} {s : Nat} : ¬ (raw = false ∧ sym = "_") → PTerm [.ident raw sym s] (.ident ⟨raw, sym, s⟩)
  | lit (v : List Char) (s : Nat) : PTerm [.str v s] (.lit s v)
  | fix {s : Nat} {m : List STok} {t : Term} : PTerm m t → PTerm (.punct '!' s :: m) (.fix (sp (.punct '!' s :: m)) t)
  | parens {o c : Nat} {m : List STok} {e : Expr} : PExpr m e → PTerm [.group true o m c] (.parens e)
inductive PTerms : List STok → List Term → Prop
  | nil : PTerms [] []
  | cons {m m' : List STok} {t : Term} {l : List Term} : PTerm m t → PTerms m' l → PTerms (m ++ m') (t :: l)
inductive PCall : List STok → Call → Prop
  | mk {m : List STok} {t : Term} {l : List Term} : PTerms m (t :: l) → PCall m (.mk (sp m) (t :: l))
inductive PCat : List STok → List (Call × Nat) → Prop
  | last {m : List STok} {x : Call} : PCall m x → PCat m [(x, 0)]
  | cons {m m' : List STok} {x : Call} {s : Nat} {l : List (Call × Nat)} : PCall m x → PCat m' l → PCat (m ++ .punct '.' s :: m') ((x, s) :: l)
inductive PLab : List STok → Labelled → Prop
  | plain {m : List STok} {l : List (Call × Nat)} : PCat m l → PLab m (.mk (sp m) (.mk (sp m) l) none)
  | label {m : List STok} {l : List (Call × Nat)} {s : Nat} {raw : Bool} {sym : String} {p : Nat} : PCat m l →
      PLab (m ++ [.punct ':' s, .ident raw sym p]) (.mk (sp (m ++ [.punct ':' s, .ident raw sym p])) (.mk (sp m) l) (some ⟨raw, sym, p⟩))
inductive PAlt : List STok → List (Labelled × Nat) → Prop
  | last {m : List STok} {x : Labelled} : PLab m x → PAlt m [(x, 0)]
  | cons {m m' : List STok} {x : Labelled} {s : Nat} {l : List (Labelled × Nat)} : PLab m x → PAlt m' l → PAlt (m ++ .punct '|' s :: m') ((x, s) :: l)
inductive PExpr : List STok → Expr → Prop
  | alt {m : List STok} {l : List (Labelled × Nat)} : PAlt m l → PExpr m (.alt (.mk (sp m) l))
  | lam {args : List Ident} {m : List STok} {l : List (Labelled × Nat)} {s s' : Nat} : PAlt m l →
      PExpr (.punct '/' s :: (args.map (fun i => .ident i.raw i.sym i.span) ++ .punct '/' s' :: m))
        (.lam (sp (.punct '/' s :: (args.map (fun i => .ident i.raw i.sym i.span) ++ .punct '/' s' :: m))) args (.mk (sp m) l))
end

/-- See `PTerm`. -/
inductive PStmt : List STok → Stmt → Prop
  | goal {s s' : Nat} {m : List STok} {e : Expr} : PExpr sp m e →
      PStmt (.ident false "match" s :: (m ++ [.punct ';' s'])) (.goal (sp (.ident false "match" s :: (m ++ [.punct ';' s']))) e)
  | letS {s s' s'' : Nat} {x : Ident} {args : List Ident} {m m' : List STok} {e : Expr} {next : Stmt} : PExpr sp m e → PStmt m' next →
      PStmt (.ident false "let" s :: .ident x.raw x.sym x.span :: (args.map (fun i => .ident i.raw i.sym i.span) ++ .punct '=' s' :: (m ++ .punct ';' s'' :: m')))
        (.letS (sp (.ident false "let" s :: .ident x.raw x.sym x.span ::
          (args.map (fun i => .ident i.raw i.sym i.span) ++ .punct '=' s' :: (m ++ .punct ';' s'' :: m')))) x args e next)

end

/-! ## Parsing -/

section
variable [Reserved] {sp : List STok → Nat}

/-- If nothing is left over in groups, the value is made of the tokens before the rest. -/
def Yields {α : Type} (ts : List STok) (A : List STok → α → Prop) : SR α → Prop
  | .ok (x, r, none) => ∃ m, ts = m ++ r ∧ A m x
  | _ => True

theorem Yields.bind {α β : Type} {ts : List STok} {A : List STok → α → Prop} {B : List STok → β → Prop} {x : SR α}
    {f : α × List STok × Option Nat → SR β} (h : Yields ts A x) (hk : KeepsLeft f)
    (hf : ∀ a r m, ts = m ++ r → A m a → Yields r (fun m' b => B (m ++ m') b) (f (a, r, none))) : Yields ts B (x.bind f) := by
  match x, h with
  | .err _, _ => trivial
  | .panic, _ => trivial
  | .oof, _ => trivial
  | .ok (a, r, some p), h =>
    show Yields ts B (f (a, r, some p))
    have h1 := hk a r p
    revert h1
    cases hx : f (a, r, some p) with
    | err => intro; trivial
    | panic => intro; trivial
    | oof => intro; trivial
    | ok z =>
      obtain ⟨b, r', u''⟩ := z
      intro h1
      cases h1
      trivial
  | .ok (a, r, none), h =>
    show Yields ts B (f (a, r, none))
    obtain ⟨m, h2, h3⟩ := h
    have h4 := hf a r m h2 h3
    revert h4
    cases hx : f (a, r, none) with
    | err => intro; trivial
    | panic => intro; trivial
    | oof => intro; trivial
    | ok z =>
      obtain ⟨b, r', u''⟩ := z
      cases u'' with
      | some => intro; trivial
      | none =>
        rintro ⟨m', h5, h6⟩
        exact ⟨m ++ m', by rw [h2, h5, List.append_assoc], h6⟩

theorem Yields.ret {α : Type} {r : List STok} {A : List STok → α → Prop} {v : α} (h : A [] v) : Yields r A (.ok (v, r, none)) := ⟨[], rfl, h⟩

theorem Yields.one {α : Type} {t : STok} {r : List STok} {A : List STok → α → Prop} {v : α} (h : A [t] v) : Yields (t :: r) A (.ok (v, r, none)) :=
  ⟨[t], rfl, h⟩

/-- The first token has been read. -/
theorem Yields.cons {α : Type} {t : STok} {r : List STok} {A : List STok → α → Prop} {x : SR α} (h : Yields r (fun m v => A (t :: m) v) x) :
    Yields (t :: r) A x := by
  match x, h with
  | .err _, _ => trivial
  | .panic, _ => trivial
  | .oof, _ => trivial
  | .ok (_, _, some _), _ => trivial
  | .ok (a, r', none), ⟨m, h1, h2⟩ => exact ⟨t :: m, by rw [h1]; rfl, h2⟩

theorem Yields.weaken {α : Type} {r : List STok} {A B : List STok → α → Prop} {x : SR α} (h : Yields r A x) (hab : ∀ m v, A m v → B m v) :
    Yields r B x := by
  match x, h with
  | .err _, _ => trivial
  | .panic, _ => trivial
  | .oof, _ => trivial
  | .ok (_, _, some _), _ => trivial
  | .ok (a, r', none), ⟨m, h1, h2⟩ => exact ⟨m, h1, hab _ _ h2⟩

theorem spanned_eq {ts m r : List STok} (h : ts = m ++ r) : spanned sp ts r = sp m := by
  subst h
  simp [spanned]

/-- The token of an identifier. -/
abbrev Ident.tok (i : Ident) : STok := .ident i.raw i.sym i.span

theorem identS_yields (sc : Option Nat) (ts : List STok) : Yields ts (fun m i => m = [Ident.tok i]) (identS sc ts none) := by
  unfold identS
  split
  · split
    · exact .one rfl
    · trivial
  · trivial

theorem anyIdentS_yields (sc : Option Nat) (ts : List STok) : Yields ts (fun m i => m = [Ident.tok i]) (anyIdentS sc ts none) := by
  unfold anyIdentS
  split
  · exact .one rfl
  · trivial

theorem punctS_yields (c : Char) (sc : Option Nat) (ts : List STok) : Yields ts (fun m s => m = [.punct c s]) (punctS c sc ts none) := by
  unfold punctS
  split
  · split
    · rename_i h
      simp at h
      subst h
      exact .one rfl
    · trivial
  · trivial

theorem lamArgsS_yields : ∀ (n : Nat) (sc : Option Nat) (ts : List STok), Yields ts (fun m l => m = l.map Ident.tok) (lamArgsS n sc ts none)
  | 0, _, _ => trivial
  | n + 1, sc, ts => by
    simp only [lamArgsS]
    refine (identS_yields sc ts).bind (.ite .ok (.ite (.bind .lamArgsS fun _ => .ok) .err)) ?_
    rintro i r m h1 rfl
    dsimp only
    split
    · exact .ret rfl
    · split
      · refine (lamArgsS_yields n sc r).bind .ok ?_
        rintro l r m h2 rfl
        exact .ret (by simp)
      · trivial

theorem letArgsS_yields : ∀ (n : Nat) (sc : Option Nat) (ts : List STok), Yields ts (fun m l => m = l.map Ident.tok) (letArgsS n sc ts none)
  | 0, _, _ => trivial
  | n + 1, sc, ts => by
    simp only [letArgsS]
    split
    · exact .ret rfl
    · split
      · refine (identS_yields sc ts).bind (.bind .letArgsS fun _ => .ok) ?_
        rintro i r m h1 rfl
        refine (letArgsS_yields n sc r).bind .ok ?_
        rintro l r m h2 rfl
        exact .ret (by simp)
      · trivial

structure ExprYields (sp : List STok → Nat) (n : Nat) : Prop where
  term : ∀ sc ts, Yields ts (PTerm sp) (termS sp n sc ts none)
  terms : ∀ sc ts, Yields ts (PTerms sp) (termsS sp n sc ts none)
  call : ∀ sc ts, Yields ts (PCall sp) (callS sp n sc ts none)
  cat : ∀ sc ts, Yields ts (PCat sp) (catItemsS sp n sc ts none)
  labelled : ∀ sc ts, Yields ts (PLab sp) (labelledS sp n sc ts none)
  alt : ∀ sc ts, Yields ts (PAlt sp) (altItemsS sp n sc ts none)
  expr : ∀ sc ts, Yields ts (PExpr sp) (exprS sp n sc ts none)

theorem expr_yields (sp : List STok → Nat) : ∀ n, ExprYields sp n
  | 0 => by
    constructor <;> (intros; simp only [termS, termsS, callS, catItemsS, labelledS, altItemsS, exprS]; trivial)
  | n + 1 => by
    have ih := expr_yields sp n
    constructor
    · intro sc ts
      simp only [termS]
      split
      · exact .one (.eps _)
      · exact .one (.lit _ _)
      · rename_i s r
        refine Yields.cons ((ih.term sc r).bind .ok ?_)
        rintro t r' m h1 h2
        refine .ret ?_
        rw [spanned_eq (m := .punct '!' s :: m) (by rw [h1]; rfl), List.append_nil]
        exact .fix h2
      · rename_i o l c r
        have h := ih.expr (some c) l
        revert h
        cases exprS sp n (some c) l none with
        | err => intro; trivial
        | panic => intro; trivial
        | oof => intro; trivial
        | ok y =>
          obtain ⟨e, l', u⟩ := y
          intro h
          simp only [Out.bind]
          cases u with
          | some => cases l' <;> trivial
          | none =>
            cases l' with
            | cons => trivial
            | nil =>
              obtain ⟨m, h1, h2⟩ := h
              rw [List.append_nil] at h1
              subst h1
              exact .one (.parens h2)
      · rename_i raw sym s r hne
        refine .one (.ident ?_)
        rintro ⟨rfl, rfl⟩
        exact hne rfl rfl
      · trivial
    · intro sc ts
      simp only [termsS]
      split
      · refine (ih.term sc ts).bind (.bind .termsS fun _ => .ok) ?_
        intro t r m _ h1
        refine (ih.terms sc r).bind .ok ?_
        intro l r m' _ h2
        exact .ret (by rw [List.append_nil]; exact .cons h1 h2)
      · exact .ret .nil
    · intro sc ts
      simp only [callS]
      refine (ih.term sc ts).bind (.bind .termsS fun _ => .ok) ?_
      intro t r m hm h1
      refine (ih.terms sc r).bind .ok ?_
      intro l r m' hm' h2
      refine .ret ?_
      rw [spanned_eq (m := m ++ m') (by rw [hm, hm', List.append_assoc]), List.append_nil]
      exact .mk (.cons h1 h2)
    · intro sc ts
      simp only [catItemsS]
      refine (ih.call sc ts).bind ?_ ?_
      · intro x r p
        dsimp only
        split
        · rename_i r'
          exact KeepsRes.bind (KeepsLeft.catItemsS (sp := sp) (n := n) (sc := sc) (g := fun y : Call × List STok × Option Nat => y.2.1) x r' p)
            fun _ _ => rfl
        · exact rfl
      · intro x r m hm h1
        dsimp only
        split
        · refine Yields.cons ((ih.cat sc _).bind .ok ?_)
          intro l r m' _ h2
          exact .ret (by rw [List.append_nil]; exact .cons h1 h2)
        · exact .ret (by rw [List.append_nil]; exact .last h1)
    · intro sc ts
      simp only [labelledS]
      refine (ih.cat sc ts).bind ?_ ?_
      · intro x r p
        dsimp only
        split
        · rename_i s r'
          exact KeepsRes.bind (KeepsLeft.anyIdentS (sc := sc) (g := fun y : List (Call × Nat) × List STok × Option Nat => y.2.1) x r' p)
            fun _ _ => rfl
        · exact rfl
      · intro l r m hm h1
        dsimp only
        split
        · rename_i s r'
          refine Yields.cons ((anyIdentS_yields sc _).bind .ok ?_)
          rintro ⟨raw, sym, p⟩ r m' hm' rfl
          refine .ret ?_
          rw [spanned_eq (m := m ++ [.punct ':' s, .ident raw sym p]) (by rw [hm, hm']; simp), spanned_eq (m := m) hm]
          exact .label h1
        · refine .ret ?_
          rw [List.append_nil, spanned_eq hm]
          exact .plain h1
    · intro sc ts
      simp only [altItemsS]
      refine (ih.labelled sc ts).bind ?_ ?_
      · intro x r p
        dsimp only
        split
        · rename_i r'
          exact KeepsRes.bind (KeepsLeft.altItemsS (sp := sp) (n := n) (sc := sc) (g := fun y : Labelled × List STok × Option Nat => y.2.1) x r' p)
            fun _ _ => rfl
        · exact rfl
      · intro x r m hm h1
        dsimp only
        split
        · refine Yields.cons ((ih.alt sc _).bind .ok ?_)
          intro l r m' _ h2
          exact .ret (by rw [List.append_nil]; exact .cons h1 h2)
        · exact .ret (by rw [List.append_nil]; exact .last h1)
    · intro sc ts
      simp only [exprS]
      split
      · rename_i s r
        refine Yields.cons ((lamArgsS_yields n sc r).bind (.bind .punctS fun _ => .bind .altItemsS fun _ => .ok) ?_)
        rintro args r1 m h1 rfl
        refine (punctS_yields '/' sc r1).bind (.bind .altItemsS fun _ => .ok) ?_
        rintro s' r2 m h2 rfl
        refine (ih.alt sc r2).bind .ok ?_
        intro l r3 m' h3 h4
        refine .ret ?_
        rw [spanned_eq (m := .punct '/' s :: (args.map Ident.tok ++ .punct '/' s' :: m')) (by rw [h1, h2, h3]; simp), spanned_eq h3]
        simpa using PExpr.lam h4
      · refine (ih.alt sc ts).bind .ok ?_
        intro l r m hm h1
        refine .ret ?_
        rw [spanned_eq hm, List.append_nil]
        exact .alt h1

theorem stmtS_yields (sp : List STok → Nat) : ∀ (n : Nat) (sc : Option Nat) (ts : List STok), Yields ts (PStmt sp) (stmtS sp n sc ts none)
  | 0, _, _ => trivial
  | n + 1, sc, ts => by
    simp only [stmtS]
    split
    · rename_i s r
      refine Yields.cons ((anyIdentS_yields sc r).bind (.bind .letArgsS fun _ => .bind .punctS fun _ => .bind .exprS fun _ => .bind .punctS fun _ =>
        .bind .stmtS fun _ => .ok) ?_)
      rintro x r1 m h1 rfl
      refine (letArgsS_yields n sc r1).bind (.bind .punctS fun _ => .bind .exprS fun _ => .bind .punctS fun _ => .bind .stmtS fun _ => .ok) ?_
      rintro args r2 m h2 rfl
      refine (punctS_yields '=' sc r2).bind (.bind .exprS fun _ => .bind .punctS fun _ => .bind .stmtS fun _ => .ok) ?_
      rintro s' r3 m h3 rfl
      refine ((expr_yields sp n).expr sc r3).bind (.bind .punctS fun _ => .bind .stmtS fun _ => .ok) ?_
      intro e r4 m h4 he
      refine (punctS_yields ';' sc r4).bind (.bind .stmtS fun _ => .ok) ?_
      rintro s'' r5 _ h5 rfl
      refine (stmtS_yields sp n sc r5).bind .ok ?_
      intro next r6 m' h6 hs
      refine .ret ?_
      rw [spanned_eq (m := .ident false "let" s :: .ident x.raw x.sym x.span ::
        (args.map (fun i => .ident i.raw i.sym i.span) ++ .punct '=' s' :: (m ++ .punct ';' s'' :: m'))) (by rw [h1, h2, h3, h4, h5, h6]; simp)]
      simpa using PStmt.letS he hs
    · rename_i s r
      refine Yields.cons (((expr_yields sp n).expr sc r).bind (.bind .punctS fun _ => .ok) ?_)
      intro e r1 m h1 he
      refine (punctS_yields ';' sc r1).bind .ok ?_
      rintro s' r2 _ h2 rfl
      refine .ret ?_
      rw [spanned_eq (m := .ident false "match" s :: (m ++ [.punct ';' s'])) (by rw [h1, h2]; simp)]
      simpa using PStmt.goal he
    · trivial

/-- **C84** A parsed program consists of exactly the tokens, each construct of its own, and its place is the place of these. -/
theorem C84_places (sp : List STok → Nat) (ts : List STok) (s : Stmt) (h : parseSpanned sp ts = .ok s) : PStmt sp ts s := by
  have hy := stmtS_yields sp (8 * STok.sizeL ts + 9) none ts
  unfold parseSpanned at h
  revert h hy
  cases stmtS sp (8 * STok.sizeL ts + 9) none ts none with
  | oof => intro h; cases h
  | panic => intro h; cases h
  | err => intro h; cases h
  | ok y =>
    obtain ⟨x, r, u⟩ := y
    cases u with
    | some => intro h; cases h
    | none =>
      cases r with
      | cons => intro h; cases h
      | nil =>
        intro h
        cases h
        rintro ⟨m, h1, h2⟩
        rw [List.append_nil] at h1
        rw [h1]; exact h2

end

/-! ## Places of errors of the compiler -/

/-- One or more tokens in a row, perhaps inside groups. -/
inductive Stretch : List STok → List STok → Prop
  | here (a m b : List STok) : m ≠ [] → Stretch (a ++ m ++ b) m
  | inside {a l b m : List STok} {p : Bool} {o c : Nat} : Stretch l m → Stretch (a ++ .group p o l c :: b) m

theorem Stretch.append {m l : List STok} (a b : List STok) (h : Stretch l m) : Stretch (a ++ l ++ b) m := by
  cases h with
  | here a' _ b' hm =>
    have := Stretch.here (a ++ a') m (b' ++ b) hm
    simpa [List.append_assoc] using this
  | @inside a' l b' _ p o c h =>
    have := Stretch.inside (a := a ++ a') (b := b' ++ b) (p := p) (o := o) (c := c) h
    simpa [List.append_assoc] using this

/-- The place of a token, or of tokens in a row. -/
def PlaceOf (sp : List STok → Nat) (ts : List STok) (p : Nat) : Prop := ∃ m, Stretch ts m ∧ (p = sp m ∨ ∃ t, m = [t] ∧ p = t.span)

section
variable {sp : List STok → Nat}

/-- The places, the dots and the bars are places of these tokens. -/
structure InToks (sp : List STok → Nat) (ts : List STok) (nodes dots bars : List Nat) : Prop where
  nodes : ∀ p ∈ nodes, PlaceOf sp ts p
  dots : ∀ p ∈ dots, Stretch ts [.punct '.' p]
  bars : ∀ p ∈ bars, Stretch ts [.punct '|' p]

theorem InToks.lift {ts ts' : List STok} {n d b : List Nat} (h : InToks sp ts n d b) (ht : ∀ m, Stretch ts m → Stretch ts' m) : InToks sp ts' n d b :=
  ⟨fun p hp => let ⟨m, h1, h2⟩ := h.nodes p hp; ⟨m, ht m h1, h2⟩, fun p hp => ht _ (h.dots p hp), fun p hp => ht _ (h.bars p hp)⟩

theorem InToks.append {ts : List STok} {n d b n' d' b' : List Nat} (h : InToks sp ts n d b) (h' : InToks sp ts n' d' b') :
    InToks sp ts (n ++ n') (d ++ d') (b ++ b') := by
  constructor <;> (intro p hp; rcases List.mem_append.1 hp with hp | hp)
  · exact h.nodes p hp
  · exact h'.nodes p hp
  · exact h.dots p hp
  · exact h'.dots p hp
  · exact h.bars p hp
  · exact h'.bars p hp

theorem InToks.nil {ts : List STok} : InToks sp ts [] [] [] := ⟨nofun, nofun, nofun⟩

theorem InToks.node {ts : List STok} {n d b : List Nat} (hne : ts ≠ []) (h : InToks sp ts n d b) : InToks sp ts (sp ts :: n) d b := by
  refine ⟨?_, h.dots, h.bars⟩
  intro p hp
  rcases List.mem_cons.1 hp with rfl | hp
  · exact ⟨ts, by simpa using Stretch.here [] ts [] hne, .inl rfl⟩
  · exact h.nodes p hp

theorem InToks.tok {t : STok} : InToks sp [t] [t.span] [] [] := by
  refine ⟨?_, nofun, nofun⟩
  intro p hp
  simp only [List.mem_singleton] at hp
  subst hp
  exact ⟨[t], Stretch.here [] [t] [] (by simp), .inr ⟨t, rfl, rfl⟩⟩

theorem InToks.left {m : List STok} {n d b : List Nat} (h : InToks sp m n d b) (m' : List STok) : InToks sp (m ++ m') n d b :=
  h.lift fun _ hs => by simpa using hs.append [] m'

theorem InToks.right {m : List STok} {n d b : List Nat} (h : InToks sp m n d b) (m' : List STok) : InToks sp (m' ++ m) n d b :=
  h.lift fun _ hs => by simpa using hs.append m' []

mutual
theorem PTerm.inToks : ∀ {m : List STok} {t : Term}, PTerm sp m t → m ≠ [] ∧ InToks sp m t.spans t.dots t.bars
  | _, _, .eps s => ⟨by simp, .tok⟩
  | _, _, .ident _ => ⟨by simp, .tok⟩
  | _, _, .lit _ _ => ⟨by simp, .tok⟩
  | _, _, .fix h => ⟨by simp, .node (by simp) ((PTerm.inToks h).2.right [_])⟩
  | _, _, .parens h => ⟨by simp, (PExpr.inToks h).2.lift fun _ hs => .inside (a := []) (b := []) hs⟩
theorem PTerms.inToks : ∀ {m : List STok} {l : List Term}, PTerms sp m l → (l ≠ [] → m ≠ []) ∧ InToks sp m (Term.spansL l) (Term.dotsL l) (Term.barsL l)
  | _, _, .nil => ⟨by simp, .nil⟩
  | _, _, .cons h h' => ⟨fun _ => by simp [(PTerm.inToks h).1], ((PTerm.inToks h).2.left _).append ((PTerms.inToks h').2.right _)⟩
theorem PCall.inToks : ∀ {m : List STok} {x : Call}, PCall sp m x → m ≠ [] ∧ InToks sp m x.spans x.dots x.bars
  | _, _, .mk h => ⟨(PTerms.inToks h).1 (by simp), .node ((PTerms.inToks h).1 (by simp)) (PTerms.inToks h).2⟩
theorem PCat.inToks : ∀ {m : List STok} {l : List (Call × Nat)}, PCat sp m l → m ≠ [] ∧ l ≠ [] ∧
    InToks sp m (Call.spansL l) ((l.map (·.2)).dropLast ++ Call.dotsL l) (Call.barsL l)
  | _, _, .last h => ⟨(PCall.inToks h).1, by simp, by simpa [Call.spansL, Call.dotsL, Call.barsL] using (PCall.inToks h).2⟩
  | _, _, .cons (m := m) (m' := m') (x := x) (s := s) (l := l) h h' => by
    obtain ⟨h1, h2⟩ := PCall.inToks h
    obtain ⟨h3, h4, h5⟩ := PCat.inToks h'
    refine ⟨by simp, by simp, ?_⟩
    have h6 := (h2.left (.punct '.' s :: m')).append ((h5.right [.punct '.' s]).right m)
    refine ⟨fun p hp => h6.nodes p hp, fun p hp => ?_, fun p hp => h6.bars p hp⟩
    rw [List.map_cons, List.dropLast_cons_of_ne_nil (by simpa using h4)] at hp
    simp only [Call.dotsL, List.cons_append, List.mem_cons, List.mem_append] at hp
    rcases hp with rfl | hp | hp | hp
    · simpa using Stretch.here m [.punct '.' p] m' (by simp)
    · exact h6.dots p (by simp [hp])
    · exact h6.dots p (by simp [hp])
    · exact h6.dots p (by simp [hp])
theorem PLab.inToks : ∀ {m : List STok} {x : Labelled}, PLab sp m x → m ≠ [] ∧ InToks sp m x.spans x.dots x.bars
  | _, _, .plain h => ⟨(PCat.inToks h).1, .node (PCat.inToks h).1 (.node (PCat.inToks h).1 (PCat.inToks h).2.2)⟩
  | _, _, .label h => ⟨by simp, .node (by simp) ((InToks.node (PCat.inToks h).1 (PCat.inToks h).2.2).left _)⟩
theorem PAlt.inToks : ∀ {m : List STok} {l : List (Labelled × Nat)}, PAlt sp m l → m ≠ [] ∧ l ≠ [] ∧
    InToks sp m (Labelled.spansL l) (Labelled.dotsL l) ((l.map (·.2)).dropLast ++ Labelled.barsL l)
  | _, _, .last h => ⟨(PLab.inToks h).1, by simp, by simpa [Labelled.spansL, Labelled.dotsL, Labelled.barsL] using (PLab.inToks h).2⟩
  | _, _, .cons (m := m) (m' := m') (x := x) (s := s) (l := l) h h' => by
    obtain ⟨h1, h2⟩ := PLab.inToks h
    obtain ⟨h3, h4, h5⟩ := PAlt.inToks h'
    refine ⟨by simp, by simp, ?_⟩
    have h6 := (h2.left (.punct '|' s :: m')).append ((h5.right [.punct '|' s]).right m)
    refine ⟨fun p hp => h6.nodes p hp, fun p hp => h6.dots p hp, fun p hp => ?_⟩
    rw [List.map_cons, List.dropLast_cons_of_ne_nil (by simpa using h4)] at hp
    simp only [Labelled.barsL, List.cons_append, List.mem_cons, List.mem_append] at hp
    rcases hp with rfl | hp | hp | hp
    · simpa using Stretch.here m [.punct '|' p] m' (by simp)
    · exact h6.bars p (by simp [hp])
    · exact h6.bars p (by simp [hp])
    · exact h6.bars p (by simp [hp])
theorem PExpr.inToks : ∀ {m : List STok} {e : Expr}, PExpr sp m e → m ≠ [] ∧ InToks sp m e.spans e.dots e.bars
  | _, _, .alt h => ⟨(PAlt.inToks h).1, .node (PAlt.inToks h).1 (PAlt.inToks h).2.2⟩
  | _, _, .lam (args := args) (s := s) (s' := s') h => by
    refine ⟨by simp, .node (by simp) ?_⟩
    have := (InToks.node (PAlt.inToks h).1 (PAlt.inToks h).2.2).right (.punct '/' s :: (args.map (fun i => .ident i.raw i.sym i.span) ++ [.punct '/' s']))
    simpa [Alt.spans, Alt.dots, Alt.bars, Expr.dots, Expr.bars] using this
end

theorem PStmt.inToks {m : List STok} {s : Stmt} (h : PStmt sp m s) : InToks sp m s.spans s.dots s.bars := by
  induction h with
  | @goal s s' m e h =>
    refine .node (by simp) ?_
    exact ((PExpr.inToks h).2.left [.punct ';' s']).right [.ident false "match" s]
  | @letS s s' s'' x args m m' e next h _ ih =>
    refine .node (by simp) ?_
    have h1 := (((PExpr.inToks h).2.left (.punct ';' s'' :: m')).append ((ih.right [.punct ';' s'']).right m)).right
      (.ident false "let" s :: .ident x.raw x.sym x.span :: (args.map (fun i => .ident i.raw i.sym i.span) ++ [.punct '=' s']))
    simpa [Stmt.dots, Stmt.bars] using h1

end

/-- **C84** Every error of the compiler proper is at tokens of the program text: one about a name, a call or a part of an expression at that
part, one about a concatenation at a `.`, one about alternatives at a `|`. -/
theorem C84_compile_errors [Reserved] (sp : List STok → Nat) (ts : List STok) (s : Stmt) (h : parseSpanned sp ts = .ok s) (cas : Casing) (fuel : Nat) :
    (∀ x, compile cas fuel s = .convert x → ∃ p, x.span = some p ∧ PlaceOf sp ts p) ∧
    (∀ x, compile cas fuel s = .reduce x → PlaceOf sp ts x.span) ∧
    (∀ x, compile cas fuel s = .typing x →
      match x with
      | .firstNullable _ _ | .firstFlastOverlap _ _ _ => Stretch ts [.punct '.' x.span]
      | .bothNullable _ _ _ | .firstOverlap _ _ _ => Stretch ts [.punct '|' x.span]
      | _ => PlaceOf sp ts x.span) := by
  have hi := (C84_places sp ts s h).inToks
  obtain ⟨h1, h2, h3⟩ := C60_error_in_program cas fuel s
  refine ⟨fun x hx => ?_, fun x hx => hi.nodes _ (h2 x hx), fun x hx => ?_⟩
  · obtain ⟨p, hp, hm⟩ := h1 x hx
    exact ⟨p, hp, hi.nodes p hm⟩
  · have := h3 x hx
    unfold TErr.PointsAt at this
    split
    · exact hi.dots _ this
    · exact hi.dots _ this
    · exact hi.bars _ this
    · exact hi.bars _ this
    · rename_i h4 h5 h6 h7
      refine hi.nodes _ ?_
      cases x <;> first | exact this | exact absurd rfl (h4 _ _) | exact absurd rfl (h5 _ _ _) | exact absurd rfl (h6 _ _ _) | exact absurd rfl (h7 _ _ _)

/-- `match x;`, with `x` undeclared: the error is at `x`. -/
example (sp : List STok → Nat) (cas : Casing) : ∃ s x, parseSpanned sp [.ident false "match" 1, .ident false "x" 2, .punct ';' 3] = .ok s ∧
    compile cas 10 s = .convert x ∧ x.span = some 2 := ⟨_, _, rfl, rfl, rfl⟩

end Chomp
