import Verif.Props.EqvLaws
import Verif.Props.Auto
import Verif.Props.Name
import Verif.Props.Driver

/-!
# C69: equality of expressions, and the test that compares the two front ends

`NE.eqv` is the operator `==` of `NamedExpression` (`src/chomp/ast/mod.rs`); `autonibble/tests/compare/main.rs` uses it to compare the
expressions that chomp and autonibble read from the same text.
-/

namespace Chomp

/-- **C69.** Expressions that are `==` fare alike: reduction gives results of the same structure, errors of the same kind, or neither
ends; type inference gives the same types, or errors of the same kind. -/
theorem C69_same_fate (n : Nat) (e e' : NE) (h : e.eqv e' = true) :
    (match reduce n e, reduce n e' with
    | .ok a, .ok b => a.erase = b.erase
    | .err (.callNotAFunction a _), .err (.callNotAFunction b _) => a.erase = b.erase
    | .err (.wrongArgCount a as _), .err (.wrongArgCount b bs _) =>
        a.erase = b.erase ∧ as.map NE.erase = bs.map NE.erase
    | .panic, .panic => True
    | .oof, .oof => True
    | _, _ => False) ∧
    (match (inferTop n e ⟨[], []⟩).1, (inferTop n e' ⟨[], []⟩).1 with
    | .ok a, .ok b => a.strip = b.strip
    | .err x, .err y => x.bare = y.bare
    | .panic, .panic => True
    | .oof, .oof => True
    | _, _ => False) :=
  ⟨C20_reduce_ignores_names n e e' ((eqv_iff e e').1 h).1, C20_inference_ignores_names n e e' ((eqv_iff e e').1 h).1⟩

/-! ## The comparison of the front ends -/

mutual
theorem NE.unspan_binders : ∀ e : NE, e.unspan.binders = e.binders.map Name.unspan
  | .eps _ | .lit _ _ | .var _ _ => rfl
  | .cat _ f r => by simp only [NE.unspan, NE.binders, NE.unspan_binders f, NE.unspanP_binders r, List.map_append]
  | .alt _ f r => by simp only [NE.unspan, NE.binders, NE.unspan_binders f, NE.unspanP_binders r, List.map_append]
  | .fix _ b => by simp only [NE.unspan, NE.binders, NE.unspan_binders b]
  | .call _ o a => by simp only [NE.unspan, NE.binders, NE.unspan_binders o, NE.unspanL_binders a, List.map_append]
  | .lam _ ps b => by simp only [NE.unspan, NE.binders, NE.unspan_binders b, List.map_append]
  | .letE _ n b c => by simp only [NE.unspan, NE.binders, NE.unspan_binders b, NE.unspan_binders c, List.map_append, List.map_cons]
theorem NE.unspanP_binders : ∀ l : List (Nat × NE), NE.bindersP (NE.unspanP l) = (NE.bindersP l).map Name.unspan
  | [] => rfl
  | (_, e) :: l => by simp only [NE.unspanP, NE.bindersP, NE.unspan_binders e, NE.unspanP_binders l, List.map_append]
theorem NE.unspanL_binders : ∀ l : List NE, NE.bindersL (NE.unspanL l) = (NE.bindersL l).map Name.unspan
  | [] => rfl
  | e :: l => by simp only [NE.unspanL, NE.bindersL, NE.unspan_binders e, NE.unspanL_binders l, List.map_append]
end

theorem NE.setInfo_binders (i : Info) (e : NE) : (e.setInfo i).binders = e.binders := by cases e <;> rfl

theorem NE.nameGoal_binders : ∀ e : NE, e.nameGoal.binders = e.binders
  | .letE i n b c => by simp only [NE.nameGoal, NE.binders, NE.nameGoal_binders c]
  | .eps i => NE.setInfo_binders _ _
  | .lit i s => NE.setInfo_binders _ _
  | .cat i f r => NE.setInfo_binders _ _
  | .alt i f r => NE.setInfo_binders _ _
  | .fix i b => NE.setInfo_binders _ _
  | .var i n => NE.setInfo_binders _ _
  | .call i o a => NE.setInfo_binders _ _
  | .lam i a b => NE.setInfo_binders _ _

theorem all2_map {α : Type} {R : α → α → Prop} {f : α → α} (h : ∀ a, R a (f a)) : ∀ l : List α, All2 R l (l.map f)
  | [] => .nil
  | a :: l => .cons (h a) (all2_map h l)

theorem SameName.unspan (n : Name) : SameName n n.unspan := by
  obtain ⟨c, k⟩ := n
  cases c <;> simp [SameName, Name.eqv, Name.unspan, Content.unspan, Content.eqv, Content.hashed]

/-- **C69** (the test `autonibble/tests/compare`, for all texts). If a text is accepted by the parser of autonibble and by nibble's own,
then either both conversions succeed, with expressions that are `==`, or both fail. -/
theorem C69_front_ends_equal {st : BState} (h : Generates autoToks st) {text : List Char} {t : Tree} (ht : Parses st 0 text (.ok t))
    {ts : List Tok} (hts : lex text = .ok ts) {s : Stmt} (hs : parseProgram ts = .ok s) :
    (∃ e c e' c', convStmt s [] = some (.ok e, c) ∧ autoAst t [] = some (.ok e', c') ∧ e.eqv e' = true) ∨
    (∃ x c x' c', convStmt s [] = some (.error x, c) ∧ autoAst t [] = some (.error x', c')) := by
  obtain ⟨p, rfl, rfl⟩ := (auto_parses h _ _).1 ht
  rw [lex_prog] at hts
  split at hts
  · rename_i hok
    cases hts
    have := parse_uprog hs
    subst this
    rcases agree_uprog p hok with ⟨a, b, c, h1, h2, h3, h4⟩ | ⟨e, c, h1, h2⟩
    · refine .inl ⟨a, c, b, _, h1, h2, (eqv_iff _ _).2 ⟨?_, ?_⟩⟩
      · rw [← NE.unspan_erase a, h3, NE.nameGoal_erase]
      · rw [← NE.nameGoal_binders b, ← h3, NE.unspan_binders]
        exact all2_map SameName.unspan _
    · exact .inr ⟨_, _, _, _, h1, h2⟩
  · cases hts

/-- `match /ig/ ig;` -/
def paramProg : UProg :=
  let i : UIdent := ⟨⟨8, by decide⟩, [.start ⟨6, by decide⟩]⟩
  ⟨[], .goal ⟨5, by decide⟩ [] (.lam [] (.one i) [⟨5, by decide⟩] (.one (.plain (.one (.one (.var i)))))) []⟩

/-- The text is accepted by both parsers, and the expressions read from it are `==`. -/
example {st : BState} (h : Generates autoToks st) : ∃ t ts s e c e' c', Parses st 0 "match /ig/ ig;".toList (.ok t) ∧
    lex "match /ig/ ig;".toList = .ok ts ∧ parseProgram ts = .ok s ∧ convStmt s [] = some (.ok e, c) ∧
    autoAst t [] = some (.ok e', c') ∧ e.eqv e' = true ∧ e.binders ≠ [] := by
  have ht : paramProg.text = "match /ig/ ig;".toList := by decide +kernel
  have hok : paramProg.stmt.ok = true := rfl
  have hl := lex_prog paramProg
  rw [hok, if_pos rfl, ht] at hl
  obtain ⟨s, hs⟩ := (parses_uprog paramProg.stmt).2 (by decide +kernel)
  have hp := (auto_parses h paramProg.text paramProg.tree).2 ⟨paramProg, rfl, rfl⟩
  have habs := parse_uprog hs
  rw [ht] at hp
  rcases C69_front_ends_equal h hp hl hs with ⟨e, c, e', c', h1, h2, h3⟩ | ⟨x, c, x', c', h1, h2⟩
  · refine ⟨_, _, s, e, c, e', c', hp, hl, hs, h1, h2, h3, ?_⟩
    subst habs
    cases h1
    exact List.cons_ne_nil _ _
  · subst habs
    cases h1

end Chomp
