import Verif.Props.RegExp
import Verif.Props.Syntax
import Verif.Props.Stepwise
import Verif.Props.AutoAll

/-!
# C99: every regular expression can be written as a program

Grammars as programs that chomp reads, and C98 for programs instead of expressions.
-/

namespace Chomp

/-! ## A grammar as an expression -/

mutual
/-- The grammar as an expression without names. -/
def Gram.core : Gram → Core
  | .eps => .eps
  | .lit s => .lit s
  | .cat l => .cat (Gram.coreL l)
  | .alt l => .alt (Gram.coreL l)
  | .fix b => .fix (.lam 1 b.core)
  | .var i => .var i
def Gram.coreL : List Gram → List Core
  | [] => []
  | g :: l => g.core :: Gram.coreL l
end

mutual
theorem Gram.core_gram : ∀ g : Gram, g.core.gram (fun _ => true) = some g
  | .eps => rfl
  | .lit _ => rfl
  | .cat l => by rw [Gram.core, Core.gram, Gram.coreL_gram l]; rfl
  | .alt l => by rw [Gram.core, Core.gram, Gram.coreL_gram l]; rfl
  | .fix b => by rw [Gram.core, Core.gram, Gram.core_gram b]; rfl
  | .var _ => rfl
theorem Gram.coreL_gram : ∀ l : List Gram, Core.gramL (fun _ => true) (Gram.coreL l) = some l
  | [] => rfl
  | g :: l => by rw [Gram.coreL, Core.gramL, Gram.core_gram g, Gram.coreL_gram l]; rfl
end

mutual
theorem Gram.core_settled : ∀ g : Gram, g.core.settled
  | .eps => trivial
  | .lit _ => trivial
  | .cat l => Gram.coreL_settled l
  | .alt l => Gram.coreL_settled l
  | .fix b => Gram.core_settled b
  | .var _ => trivial
theorem Gram.coreL_settled : ∀ l : List Gram, Core.settledL (Gram.coreL l)
  | [] => trivial
  | g :: l => ⟨Gram.core_settled g, Gram.coreL_settled l⟩
end

/-! ## A grammar as a program -/

/-- The identifier of the fix point at depth `k`: `x`, `xx`, `xxx`, … -/
def fixIdent (k : Nat) : Ident := ⟨false, String.ofList (List.replicate (k + 1) 'x'), 0⟩

theorem fixIdent_inj {j k : Nat} (h : (fixIdent j).sym = (fixIdent k).sym) : j = k := by
  have := congrArg String.toList h
  simp only [fixIdent, String.toList_ofList] at this
  have := congrArg List.length this
  simpa using this

theorem fixIdent_free (k : Nat) : (fixIdent k).sym ∉ keywords := by
  intro h
  have hk : ∀ s ∈ keywords, ∃ c ∈ s.toList, c ≠ 'x' := by decide +kernel
  obtain ⟨c, hc, hx⟩ := hk _ h
  simp only [fixIdent, String.toList_ofList] at hc
  exact hx (List.eq_of_mem_replicate hc)

/-- A term as a call, a concatenation and an alternative. -/
def Term.asCall (t : Term) : Call := .mk 0 [t]
def Term.asCat (t : Term) : Labelled := .mk 0 (.mk 0 [(t.asCall, 0)]) none
def Term.asAlt (t : Term) : Alt := .mk 0 [(t.asCat, 0)]

mutual
/-- The grammar as a term below `k` fix points. -/
def Gram.term (k : Nat) : Gram → Term
  | .eps => .eps 0
  | .lit s => .lit 0 s
  | .cat l => .parens (.alt (.mk 0 [(.mk 0 (.mk 0 (Gram.calls k l)) none, 0)]))
  | .alt l => .parens (.alt (.mk 0 (Gram.branches k l)))
  | .fix b => .fix 0 (.parens (.lam 0 [fixIdent k] (b.term (k + 1)).asAlt))
  | .var i => .ident (fixIdent (k - 1 - i))
def Gram.calls (k : Nat) : List Gram → List (Call × Nat)
  | [] => []
  | g :: l => ((g.term k).asCall, 0) :: Gram.calls k l
def Gram.branches (k : Nat) : List Gram → List (Labelled × Nat)
  | [] => []
  | g :: l => ((g.term k).asCat, 0) :: Gram.branches k l
end

mutual
/-- Concatenations and alternatives have two parts or more, and variables belong to one of `k` fix points. -/
def Gram.Shown (k : Nat) : Gram → Prop
  | .eps => True
  | .lit _ => True
  | .cat l => 2 ≤ l.length ∧ Gram.ShownL k l
  | .alt l => 2 ≤ l.length ∧ Gram.ShownL k l
  | .fix b => b.Shown (k + 1)
  | .var i => i < k
def Gram.ShownL (k : Nat) : List Gram → Prop
  | [] => True
  | g :: l => g.Shown k ∧ Gram.ShownL k l
end

theorem Term.asAlt_wf {t : Term} (h : t.wf) : t.asAlt.wf := by
  simp [Term.asAlt, Term.asCat, Term.asCall, Alt.wf, Labelled.wfL, Labelled.wf, Cat.wf, Call.wfL, Call.wf, Term.wfL, h]

mutual
theorem Gram.term_wf (k : Nat) : ∀ g : Gram, g.Shown k → (g.term k).wf
  | .eps, _ => by simp [Gram.term, Term.wf]
  | .lit _, _ => by simp [Gram.term, Term.wf]
  | .cat [], h => by simp [Gram.Shown] at h
  | .cat (g :: l), h => by
    rw [Gram.Shown] at h
    have := Gram.calls_wf k (g :: l) h.2
    simp only [Gram.term, Term.wf, Expr.wf, Alt.wf, Labelled.wfL, Labelled.wf, Cat.wf]
    simp [Gram.calls]
    simpa [Gram.calls] using this
  | .alt [], h => by simp [Gram.Shown] at h
  | .alt (g :: l), h => by
    rw [Gram.Shown] at h
    have := Gram.branches_wf k (g :: l) h.2
    simp only [Gram.term, Term.wf, Expr.wf, Alt.wf]
    exact ⟨trivial, by simp [Gram.branches], this⟩
  | .fix b, h => by
    rw [Gram.Shown] at h
    have := Gram.term_wf (k + 1) b h
    simp only [Gram.term, Term.wf, Expr.wf]
    exact ⟨trivial, trivial, by simp, by simpa [Ident.plain] using ⟨.inr (fixIdent_free k), rfl⟩, Term.asAlt_wf this⟩
  | .var i, _ => by
    simp only [Gram.term, Term.wf]
    exact ⟨.inr fun h => fixIdent_free (k - 1 - i) (h ▸ by decide), rfl⟩
theorem Gram.calls_wf (k : Nat) : ∀ l : List Gram, Gram.ShownL k l → Call.wfL (Gram.calls k l)
  | [], _ => trivial
  | g :: l, h => by
    rw [Gram.ShownL] at h
    have h1 := Gram.term_wf k g h.1
    have h2 := Gram.calls_wf k l h.2
    simp [Gram.calls, Call.wfL, Term.asCall, Call.wf, Term.wfL, h1, h2]
theorem Gram.branches_wf (k : Nat) : ∀ l : List Gram, Gram.ShownL k l → Labelled.wfL (Gram.branches k l)
  | [], _ => trivial
  | g :: l, h => by
    rw [Gram.ShownL] at h
    have h1 := Gram.term_wf k g h.1
    have h2 := Gram.branches_wf k l h.2
    simp [Gram.branches, Labelled.wfL, Term.asCat, Term.asCall, Labelled.wf, Cat.wf, Call.wfL, Call.wf, Term.wfL, h1, h2]
end

/-! ## As a text -/

theorem fixIdent_spelled (k : Nat) : (fixIdent k).Spelled := by
  refine ⟨rfl, 'x', List.replicate k 'x', by simp [fixIdent, List.replicate_succ], by decide, fun d hd => .inl ?_⟩
  rw [List.eq_of_mem_replicate hd]
  decide

mutual
/-- No literal is empty. -/
def Gram.Filled : Gram → Prop
  | .eps => True
  | .lit s => s ≠ []
  | .cat l => Gram.FilledL l
  | .alt l => Gram.FilledL l
  | .fix b => b.Filled
  | .var _ => True
def Gram.FilledL : List Gram → Prop
  | [] => True
  | g :: l => g.Filled ∧ Gram.FilledL l
end

mutual
theorem Gram.term_every (k : Nat) : ∀ g : Gram, g.Filled → (g.term k).Every Ident.Spelled (· ≠ [])
  | .eps, _ => trivial
  | .lit _, h => h
  | .cat l, h => ⟨⟨Gram.calls_every k l h, by simp⟩, trivial⟩
  | .alt l, h => Gram.branches_every k l h
  | .fix b, h => ⟨by simpa using fixIdent_spelled k, ⟨⟨⟨Gram.term_every (k + 1) b h, trivial⟩, trivial⟩, by simp⟩, trivial⟩
  | .var i, _ => fixIdent_spelled (k - 1 - i)
theorem Gram.calls_every (k : Nat) : ∀ l : List Gram, Gram.FilledL l → Call.EveryL Ident.Spelled (· ≠ []) (Gram.calls k l)
  | [], _ => trivial
  | g :: l, h => ⟨⟨Gram.term_every k g h.1, trivial⟩, Gram.calls_every k l h.2⟩
theorem Gram.branches_every (k : Nat) : ∀ l : List Gram, Gram.FilledL l → Labelled.EveryL Ident.Spelled (· ≠ []) (Gram.branches k l)
  | [], _ => trivial
  | g :: l, h => ⟨⟨⟨⟨Gram.term_every k g h.1, trivial⟩, trivial⟩, by simp⟩, Gram.branches_every k l h.2⟩
end

/-! ## Its conversion -/

/-- The bindings below `k` fix points. -/
def fixCtx : Nat → Ctx
  | 0 => []
  | k + 1 => fixCtx k ++ [(fixIdent k).content]

theorem fixCtx_length : ∀ k, (fixCtx k).length = k
  | 0 => rfl
  | k + 1 => by simp [fixCtx, fixCtx_length k]

theorem fixCtx_lookup (j : Nat) : ∀ k, j < k → (fixCtx k).lookup (.newVariable (fixIdent j).content) = some (k - 1 - j)
  | k + 1, h => by
    show findIdx (fun m => m.eqv (fixIdent j).content) (fixCtx k ++ [(fixIdent k).content]).reverse = _
    rw [List.reverse_append]
    show findIdx (fun m => m.eqv (fixIdent j).content) ((fixIdent k).content :: (fixCtx k).reverse) = _
    rw [findIdx]
    by_cases e : j = k
    · subst e
      have : (fixIdent j).content.eqv (fixIdent j).content = true := by simp [Ident.content, Content.eqv]
      rw [if_pos this]
      congr 1; omega
    · have : ¬ (fixIdent k).content.eqv (fixIdent j).content = true := by
        simp only [Ident.content, Content.eqv, Bool.and_eq_true, beq_iff_eq, not_and]
        exact fun _ h => e (fixIdent_inj h).symm
      rw [if_neg this]
      have ih := fixCtx_lookup j k (by omega)
      have ih' : findIdx (fun m => m.eqv (fixIdent j).content) (fixCtx k).reverse = some (k - 1 - j) := ih
      rw [ih']
      show some (k - 1 - j + 1) = _
      congr 1; omega

theorem Term.asCall_conv {t : Term} {c : Ctx} {e : NE} (h : convTerm t c = some (.ok e, c)) :
    convCall t.asCall c = some (.ok e, c) := by
  simp [Term.asCall, convCall, h, convTerms, Conv.bind]

theorem Term.asCat_conv {t : Term} {c : Ctx} {e : NE} (h : convTerm t c = some (.ok e, c)) :
    ∃ e', convLabelled t.asCat c = some (.ok e', c) ∧ e'.erase = e.erase := by
  refine ⟨_, by simp only [Term.asCat, convLabelled, convCat, Term.asCall_conv h, convCalls, Conv.bind]; rfl, by simp⟩

theorem Term.asAlt_conv {t : Term} {c : Ctx} {e : NE} (h : convTerm t c = some (.ok e, c)) :
    ∃ e', convAlt t.asAlt c = some (.ok e', c) ∧ e'.erase = e.erase := by
  obtain ⟨e', h1, h2⟩ := Term.asCat_conv h
  exact ⟨e', by simp [Term.asAlt, convAlt, h1, convLabelleds, Conv.bind], h2⟩

mutual
theorem Gram.term_conv (k : Nat) : ∀ g : Gram, g.Shown k →
    ∃ e, convTerm (g.term k) (fixCtx k) = some (.ok e, fixCtx k) ∧ e.erase = g.core
  | .eps, _ => ⟨_, rfl, rfl⟩
  | .lit _, _ => ⟨_, rfl, rfl⟩
  | .cat [], h => by simp [Gram.Shown] at h
  | .cat [_], h => by simp [Gram.Shown] at h
  | .cat (g :: g' :: l), h => by
    rw [Gram.Shown, Gram.ShownL] at h
    obtain ⟨e, h1, h2⟩ := Gram.term_conv k g h.2.1
    obtain ⟨r, h3, h4, h5⟩ := Gram.calls_conv k (g' :: l) h.2.2 0
    cases r with
    | nil => simp at h5
    | cons x r =>
      refine ⟨_, by
        simp only [Gram.term, Gram.calls, convTerm, convExpr, convAlt, convLabelled, convCat, Term.asCall_conv h1, Conv.bind,
          show convCalls 0 (((g'.term k).asCall, 0) :: Gram.calls k l) (fixCtx k) = some (.ok (x :: r), fixCtx k) from h3, convLabelleds]
        rfl, ?_⟩
      rw [NE.erase_setInfo, NE.erase, h2, h4]
      rfl
  | .alt [], h => by simp [Gram.Shown] at h
  | .alt [_], h => by simp [Gram.Shown] at h
  | .alt (g :: g' :: l), h => by
    rw [Gram.Shown, Gram.ShownL] at h
    obtain ⟨e0, h0, h2⟩ := Gram.term_conv k g h.2.1
    obtain ⟨e, h1, h2'⟩ := Term.asCat_conv h0
    obtain ⟨r, h3, h4, h5⟩ := Gram.branches_conv k (g' :: l) h.2.2 0
    cases r with
    | nil => simp at h5
    | cons x r =>
      refine ⟨_, by
        simp only [Gram.term, Gram.branches, convTerm, convExpr, convAlt, h1, Conv.bind,
          show convLabelleds 0 (((g'.term k).asCat, 0) :: Gram.branches k l) (fixCtx k) = some (.ok (x :: r), fixCtx k) from h3]
        rfl, ?_⟩
      rw [NE.erase, h2', h2, h4]
      rfl
  | .fix b, h => by
    rw [Gram.Shown] at h
    obtain ⟨e, h1, h2⟩ := Gram.term_conv (k + 1) b h
    obtain ⟨e', h3, h4⟩ := Term.asAlt_conv h1
    have hw : (fixCtx k).withVariables [.newVariable (fixIdent k).content] (convAlt (b.term (k + 1)).asAlt) = some (.ok e', fixCtx k) := by
      rw [Ctx.withVariables]
      rw [show fixCtx k ++ [Name.newVariable (fixIdent k).content].map (·.content) = fixCtx (k + 1) from rfl, h3]
      simp only [fixCtx_length, show ¬ k + 1 < k by omega, if_false]
      rw [fixCtx, List.take_left' (fixCtx_length k)]
    refine ⟨_, by
      simp only [Gram.term, convTerm, convExpr, List.map_cons, List.map_nil, hw, Conv.bind]
      rfl, ?_⟩
    rw [NE.erase, NE.erase, h4, h2]
    rfl
  | .var i, h => by
    rw [Gram.Shown] at h
    refine ⟨_, by
      simp only [Gram.term, convTerm, convIdent, fixCtx_lookup (k - 1 - i) k (by omega)]
      rfl, ?_⟩
    rw [NE.erase, Gram.core]
    congr 1; omega
theorem Gram.calls_conv (k : Nat) : ∀ l : List Gram, Gram.ShownL k l → ∀ p,
    ∃ r, convCalls p (Gram.calls k l) (fixCtx k) = some (.ok r, fixCtx k) ∧ NE.eraseP r = Gram.coreL l ∧ r.length = l.length
  | [], _, _ => ⟨[], by simp [Gram.calls, convCalls], rfl, rfl⟩
  | g :: l, h, p => by
    rw [Gram.ShownL] at h
    obtain ⟨e, h1, h2⟩ := Gram.term_conv k g h.1
    obtain ⟨r, h3, h4, h5⟩ := Gram.calls_conv k l h.2 0
    refine ⟨(p, e) :: r, by simp only [Gram.calls, convCalls, Term.asCall_conv h1, Conv.bind, h3], ?_, by simp [h5]⟩
    rw [NE.eraseP, h2, h4]
    rfl
theorem Gram.branches_conv (k : Nat) : ∀ l : List Gram, Gram.ShownL k l → ∀ p,
    ∃ r, convLabelleds p (Gram.branches k l) (fixCtx k) = some (.ok r, fixCtx k) ∧ NE.eraseP r = Gram.coreL l ∧ r.length = l.length
  | [], _, _ => ⟨[], by simp [Gram.branches, convLabelleds], rfl, rfl⟩
  | g :: l, h, p => by
    rw [Gram.ShownL] at h
    obtain ⟨e0, h0, h2⟩ := Gram.term_conv k g h.1
    obtain ⟨e, h1, h2'⟩ := Term.asCat_conv h0
    obtain ⟨r, h3, h4, h5⟩ := Gram.branches_conv k l h.2 0
    refine ⟨(p, e) :: r, by simp only [Gram.branches, convLabelleds, h1, Conv.bind, h3], ?_, by simp [h5]⟩
    rw [NE.eraseP, h2', h2, h4]
    rfl
end

/-- **C99** (programs of grammars). Every grammar in which concatenations and alternatives have at least two parts and no
variable is free is the grammar of a program: its tokens are parsed, and conversion and reduction end with an expression that
has this grammar. If no literal is empty, there is a text with these tokens, which autonibble accepts too. -/
theorem C99_program_of_grammar (g : Gram) (h : g.Shown 0) :
    ∃ ts p e c n e', parseProgram ts = .ok p ∧ convStmt p [] = some (.ok e, c) ∧ reduce n e = .ok e' ∧ e'.grammar = some g ∧
      (g.Filled → ∃ text, lex text = .ok ts ∧ ∃ st t, Generates autoToks st ∧ Parses st 0 text (.ok t)) := by
  obtain ⟨e0, h0, h1⟩ := g.term_conv 0 h
  obtain ⟨e, h2, h3⟩ := Term.asAlt_conv h0
  have hp : (Stmt.goal 0 (.alt (g.term 0).asAlt)).wf := by
    simp only [Stmt.wf, Expr.wf]
    exact ⟨trivial, Term.asAlt_wf (g.term_wf 0 h)⟩
  obtain ⟨n, e', h4, h5⟩ := (C21_result_iff (e.setInfo
        ⟨Name.merge e.info.name (some (.newVariable (.spanless "Ast"))), 0⟩) g.core).2
    ⟨by rw [NE.erase_setInfo, h3, h1]; exact .refl _, g.core_settled⟩
  have hparse := C14_parse_print _ hp
  refine ⟨_, _, _, [], n, e', hparse, by
    simp only [convStmt, convExpr, show convAlt (g.term 0).asAlt [] = some (.ok e, []) from h2, Conv.bind], h4, ?_, fun hf => ?_⟩
  · rw [NE.grammar, h5, g.core_gram]
  · obtain ⟨st, hst⟩ := auto_generates
    obtain ⟨text, t, ht, hl⟩ := (C90_layout hst hparse).2
      (show Alt.Every Ident.Spelled (· ≠ []) (g.term 0).asAlt from ⟨⟨⟨⟨g.term_every 0 hf, trivial⟩, trivial⟩, by simp⟩, trivial⟩)
    exact ⟨text, hl, st, t, hst, ht⟩

/-! ## Regular expressions -/

theorem ShownL_iff (k : Nat) : ∀ l : List Gram, Gram.ShownL k l ↔ ∀ g ∈ l, g.Shown k
  | [] => by simp [Gram.ShownL]
  | g :: l => by rw [Gram.ShownL, ShownL_iff k l]; simp

theorem posOf_lt {Q : Type} [DecidableEq Q] {q : Q} : ∀ {l : List Q}, q ∈ l → posOf q l < l.length := by
  intro l h
  have := posOf_get q h
  exact (List.getElem?_eq_some_iff.1 this).1

theorem Dfa.shown {Q : Type} [DecidableEq Q] (M : Dfa Q) (h2 : 2 ≤ M.sigma.length) : ∀ (n : Nat) (V : List Q) (q : Q) (p : List Char),
    (M.gram n V q p).Shown V.length
  | 0, _, _, _ => by simp [Dfa.gram, Gram.Shown]
  | n + 1, V, q, p => by
    rw [M.gram_succ, Gram.Shown, Dfa.body, Gram.Shown, ShownL_iff]
    refine ⟨by rw [List.length_append, List.length_map]; omega, fun g hg => ?_⟩
    rcases List.mem_append.1 hg with hg | hg
    · split at hg
      · simp only [List.mem_singleton] at hg
        subst hg
        simp [Gram.Shown]
      · simp at hg
    · obtain ⟨c, _, rfl⟩ := List.mem_map.1 hg
      rw [Gram.Shown, ShownL_iff]
      refine ⟨by simp, fun g hg => ?_⟩
      rcases List.mem_cons.1 hg with rfl | hg
      · simp [Gram.Shown]
      · rcases List.mem_append.1 hg with hg | hg
        · rw [markOf_mem hg]; simp [Gram.Shown]
        · simp only [List.mem_singleton] at hg
          subst hg
          unfold Dfa.sub
          split
          · rename_i hm
            exact posOf_lt hm
          · exact M.shown h2 n (q :: V) _ _

theorem FilledL_iff : ∀ l : List Gram, Gram.FilledL l ↔ ∀ g ∈ l, g.Filled
  | [] => by simp [Gram.FilledL]
  | g :: l => by rw [Gram.FilledL, FilledL_iff l]; simp

theorem Dfa.filled {Q : Type} [DecidableEq Q] (M : Dfa Q) : ∀ (n : Nat) (V : List Q) (q : Q) (p : List Char), (M.gram n V q p).Filled
  | 0, _, _, _ => by simp [Dfa.gram, Gram.Filled]
  | n + 1, V, q, p => by
    rw [M.gram_succ, Gram.Filled, Dfa.body, Gram.Filled, FilledL_iff]
    intro g hg
    rcases List.mem_append.1 hg with hg | hg
    · split at hg
      · simp only [List.mem_singleton] at hg
        subst hg
        simp [Gram.Filled]
      · simp at hg
    · obtain ⟨c, _, rfl⟩ := List.mem_map.1 hg
      rw [Gram.Filled, FilledL_iff]
      intro g hg
      rcases List.mem_cons.1 hg with rfl | hg
      · simp [Gram.Filled]
      · rcases List.mem_append.1 hg with hg | hg
        · rw [markOf_mem hg]; simp [Gram.Filled]
        · simp only [List.mem_singleton] at hg
          subst hg
          unfold Dfa.sub
          split
          · simp [Gram.Filled]
          · exact M.filled n (q :: V) _ _

/-- **C99.** Every regular expression can be written as a program: there is a text, which autonibble accepts too, whose tokens chomp
parses, converts and reduces without an error, and whose result type inference accepts and code generation turns into a parser that
accepts exactly the words that the regular expression matches. -/
theorem C99_regular_programs (r : Re) :
    ∃ text ts p e c n e' te s id, lex text = .ok ts ∧ (∃ st t, Generates autoToks st ∧ Parses st 0 text (.ok t)) ∧
      parseProgram ts = .ok p ∧ convStmt p [] = some (.ok e, c) ∧ reduce n e = .ok e' ∧ Compiled e' te s id ∧
      ∀ text, (∃ t, Parses s id text (.ok t)) ↔ r.Matches text := by
  obtain ⟨ts, p, e, c, n, e', h1, h2, h3, h4, h5⟩ := C99_program_of_grammar _ (r.dfa.shown r.dfa_sigma (r.dfa.left []) [] r.dfa.start [])
  obtain ⟨te, s, id, hc, h⟩ := r.dfa.parser_of (fun q => List.mem_attach _ q) (noDups_nodup _) (fun h => by
    have := r.dfa_sigma
    simp [h] at this) h4
  obtain ⟨text, hl, ht⟩ := h5 (r.dfa.filled _ _ _ _)
  exact ⟨text, ts, p, e, c, n, e', te, s, id, hl, ht, h1, h2, h3, hc, fun w => by rw [h w, Re.dfa_start]⟩

/-- Non-vacuity: a nested grammar with two variables. -/
example : (Gram.fix (.alt [.eps, .cat [.lit ['a'], .fix (.alt [.var 1, .cat [.lit ['b'], .var 0]])]])).Shown 0 ∧
    (Gram.fix (.alt [.eps, .cat [.lit ['a'], .fix (.alt [.var 1, .cat [.lit ['b'], .var 0]])]])).Filled := by
  simp [Gram.Shown, Gram.ShownL, Gram.Filled, Gram.FilledL]

end Chomp
