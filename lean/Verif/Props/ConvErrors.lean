import Verif.Props.Spans

/-! # C10: which error a conversion reports -/

namespace Chomp

mutual
/-- What can be wrong with a term: an identifier may be undeclared, a call, concatenation or alternation
may have no elements (this cannot be written down, but a `Statement` can be built that way). -/
def Term.faults : Term → List ConvErr
  | .eps _ => []
  | .ident i => [.undeclaredName (.newVariable i.content)]
  | .lit _ _ => []
  | .fix _ t => t.faults
  | .parens e => e.faults
def Call.faults : Call → List ConvErr
  | .mk sp l => (if l.isEmpty then [.emptyCall sp] else []) ++ Term.faultsL l
def Term.faultsL : List Term → List ConvErr
  | [] => []
  | t :: l => t.faults ++ Term.faultsL l
def Cat.faults : Cat → List ConvErr
  | .mk sp l => (if l.isEmpty then [.emptyCat sp] else []) ++ Call.faultsL l
def Call.faultsL : List (Call × Nat) → List ConvErr
  | [] => []
  | (x, _) :: l => x.faults ++ Call.faultsL l
def Labelled.faults : Labelled → List ConvErr
  | .mk _ cat _ => cat.faults
def Alt.faults : Alt → List ConvErr
  | .mk sp l => (if l.isEmpty then [.emptyAlt sp] else []) ++ Labelled.faultsL l
def Labelled.faultsL : List (Labelled × Nat) → List ConvErr
  | [] => []
  | (x, _) :: l => x.faults ++ Labelled.faultsL l
def Expr.faults : Expr → List ConvErr
  | .alt a => a.faults
  | .lam _ _ body => body.faults
end

def Stmt.faults : Stmt → List ConvErr
  | .goal _ e => e.faults
  | .letS _ _ _ e next => e.faults ++ next.faults

mutual
theorem convTerm_faults : ∀ (t : Term) (c c' : Ctx) (x : ConvErr), convTerm t c = some (.error x, c') → x ∈ t.faults
  | .eps sp, c, c', x, h => by simp only [convTerm] at h; cases h
  | .lit sp s, c, c', x, h => by simp only [convTerm] at h; cases h
  | .ident i, c, c', x, h => by
    simp only [convTerm, convIdent] at h
    split at h
    · cases h; simp [Term.faults]
    · cases h
  | .fix sp t, c, c', x, h => by
    simp only [convTerm] at h
    rcases Conv.bind_errE h with h | ⟨_, _, _, h⟩
    · exact convTerm_faults t _ _ _ h
    · cases h
  | .parens e, c, c', x, h => convExpr_faults e c c' x h
theorem convCall_faults : ∀ (t : Call) (c c' : Ctx) (x : ConvErr), convCall t c = some (.error x, c') → x ∈ t.faults
  | .mk sp [], c, c', x, h => by simp only [convCall] at h; cases h; simp [Call.faults]
  | .mk sp (t :: ts), c, c', x, h => by
    simp only [convCall] at h
    refine List.mem_append_right _ ?_
    rcases Conv.bind_errE h with h | ⟨_, _, _, h⟩
    · exact List.mem_append_left _ (convTerm_faults t _ _ _ h)
    · rcases Conv.bind_errE h with h | ⟨_, _, _, h⟩
      · exact List.mem_append_right _ (convTerms_faults ts _ _ _ h)
      · split at h <;> cases h
theorem convTerms_faults : ∀ (t : List Term) (c c' : Ctx) (x : ConvErr), convTerms t c = some (.error x, c') → x ∈ Term.faultsL t
  | [], c, c', x, h => by simp only [convTerms] at h; cases h
  | t :: ts, c, c', x, h => by
    simp only [convTerms] at h
    rcases Conv.bind_errE h with h | ⟨_, _, _, h⟩
    · exact List.mem_append_left _ (convTerm_faults t _ _ _ h)
    · rcases Conv.bind_errE h with h | ⟨_, _, _, h⟩
      · exact List.mem_append_right _ (convTerms_faults ts _ _ _ h)
      · cases h
theorem convCat_faults : ∀ (t : Cat) (c c' : Ctx) (x : ConvErr), convCat t c = some (.error x, c') → x ∈ t.faults
  | .mk sp [], c, c', x, h => by simp only [convCat] at h; cases h; simp [Cat.faults]
  | .mk sp ((t, p) :: ts), c, c', x, h => by
    simp only [convCat] at h
    refine List.mem_append_right _ ?_
    rcases Conv.bind_errE h with h | ⟨_, _, _, h⟩
    · exact List.mem_append_left _ (convCall_faults t _ _ _ h)
    · rcases Conv.bind_errE h with h | ⟨_, _, _, h⟩
      · exact List.mem_append_right _ (convCalls_faults ts _ _ _ _ h)
      · split at h <;> cases h
theorem convCalls_faults : ∀ (t : List (Call × Nat)) (p : Nat) (c c' : Ctx) (x : ConvErr),
    convCalls p t c = some (.error x, c') → x ∈ Call.faultsL t
  | [], p, c, c', x, h => by simp only [convCalls] at h; cases h
  | (t, q) :: ts, p, c, c', x, h => by
    simp only [convCalls] at h
    rcases Conv.bind_errE h with h | ⟨_, _, _, h⟩
    · exact List.mem_append_left _ (convCall_faults t _ _ _ h)
    · rcases Conv.bind_errE h with h | ⟨_, _, _, h⟩
      · exact List.mem_append_right _ (convCalls_faults ts _ _ _ _ h)
      · cases h
theorem convLabelled_faults : ∀ (t : Labelled) (c c' : Ctx) (x : ConvErr), convLabelled t c = some (.error x, c') → x ∈ t.faults
  | .mk sp cat label, c, c', x, h => by
    simp only [convLabelled] at h
    rcases Conv.bind_errE h with h | ⟨_, _, _, h⟩
    · exact convCat_faults cat _ _ _ h
    · cases h
theorem convAlt_faults : ∀ (t : Alt) (c c' : Ctx) (x : ConvErr), convAlt t c = some (.error x, c') → x ∈ t.faults
  | .mk sp [], c, c', x, h => by simp only [convAlt] at h; cases h; simp [Alt.faults]
  | .mk sp ((t, p) :: ts), c, c', x, h => by
    simp only [convAlt] at h
    refine List.mem_append_right _ ?_
    rcases Conv.bind_errE h with h | ⟨_, _, _, h⟩
    · exact List.mem_append_left _ (convLabelled_faults t _ _ _ h)
    · rcases Conv.bind_errE h with h | ⟨_, _, _, h⟩
      · exact List.mem_append_right _ (convLabelleds_faults ts _ _ _ _ h)
      · split at h <;> cases h
theorem convLabelleds_faults : ∀ (t : List (Labelled × Nat)) (p : Nat) (c c' : Ctx) (x : ConvErr),
    convLabelleds p t c = some (.error x, c') → x ∈ Labelled.faultsL t
  | [], p, c, c', x, h => by simp only [convLabelleds] at h; cases h
  | (t, q) :: ts, p, c, c', x, h => by
    simp only [convLabelleds] at h
    rcases Conv.bind_errE h with h | ⟨_, _, _, h⟩
    · exact List.mem_append_left _ (convLabelled_faults t _ _ _ h)
    · rcases Conv.bind_errE h with h | ⟨_, _, _, h⟩
      · exact List.mem_append_right _ (convLabelleds_faults ts _ _ _ _ h)
      · cases h
theorem convExpr_faults : ∀ (t : Expr) (c c' : Ctx) (x : ConvErr), convExpr t c = some (.error x, c') → x ∈ t.faults
  | .alt a, c, c', x, h => convAlt_faults a c c' x h
  | .lam sp args body, c, c', x, h => by
    simp only [convExpr] at h
    rcases Conv.bind_errE h with h | ⟨_, _, _, h⟩
    · obtain ⟨d, d', h⟩ := withVariables_err h
      exact convAlt_faults body _ _ _ h
    · cases h
end

/-- **C10** (kind of error). A conversion error is one that applies to the program: it names an identifier
used in it, or gives the span of a call, concatenation or alternation without elements. -/
theorem C10_error_applies (s : Stmt) (c c' : Ctx) (x : ConvErr) (h : convStmt s c = some (.error x, c')) : x ∈ s.faults := by
  induction s generalizing c c' with
  | goal sp e =>
    simp only [convStmt] at h
    rcases Conv.bind_errE h with h | ⟨_, _, _, h⟩
    · exact convExpr_faults e _ _ _ h
    · cases h
  | letS sp name args e next ih =>
    simp only [convStmt] at h
    rcases Conv.bind_errE h with h | ⟨_, _, _, h⟩
    · refine List.mem_append_left _ ?_
      unfold convBound at h
      split at h
      · exact convExpr_faults e _ _ _ h
      · rcases Conv.bind_errE h with h | ⟨_, _, _, h⟩
        · obtain ⟨d, d', h⟩ := withVariables_err h
          exact convExpr_faults e _ _ _ h
        · cases h
    · rcases Conv.bind_errE h with h | ⟨_, _, _, h⟩
      · exact List.mem_append_right _ (ih _ _ h)
      · cases h

/-- Non-vacuity: `match x . ()` where `()` stands for a concatenation without elements and `x` is declared. -/
example : ∃ s x, convStmt s [.spanless "x"] = some (.error x, [.spanless "x"]) ∧ x = .emptyCat 7 ∧ s.faults.length = 2 :=
  ⟨.goal 0 (.alt (.mk 1 [(.mk 2 (.mk 3 [(.mk 4 [.ident ⟨false, "x", 5⟩], 6)]) none, 8), (.mk 9 (.mk 7 []) none, 10)])), _,
    rfl, rfl, rfl⟩

end Chomp
