import Verif.Ast.Provenance
import Verif.Props.EndToEnd
import Verif.Props.Syntax

/-!
# C43, C52: panics and names of the whole compiler
-/

namespace Chomp

mutual
/-- The names written in a program: identifiers used as variables or parameters, names of lets, and labels. -/
def Term.names : Term → List Name
  | .eps _ => []
  | .ident i => [.newVariable i.content]
  | .lit _ _ => []
  | .fix _ t => t.names
  | .parens e => e.names
def Call.names : Call → List Name
  | .mk _ l => Term.namesL l
def Term.namesL : List Term → List Name
  | [] => []
  | t :: l => t.names ++ Term.namesL l
def Cat.names : Cat → List Name
  | .mk _ l => Call.namesL l
def Call.namesL : List (Call × Nat) → List Name
  | [] => []
  | (x, _) :: l => x.names ++ Call.namesL l
def Labelled.names : Labelled → List Name
  | .mk _ cat label => (label.map fun i => Name.newLabel i.content).toList ++ cat.names
def Alt.names : Alt → List Name
  | .mk _ l => Labelled.namesL l
def Labelled.namesL : List (Labelled × Nat) → List Name
  | [] => []
  | (x, _) :: l => x.names ++ Labelled.namesL l
def Expr.names : Expr → List Name
  | .alt a => a.names
  | .lam _ args body => args.map (fun i => .newVariable i.content) ++ body.names
end

def Stmt.names : Stmt → List Name
  | .goal _ e => e.names
  | .letS _ x args e next => .newLet x.content :: (args.map (fun i => .newVariable i.content) ++ (e.names ++ next.names))

variable {P : Name → Prop}

theorem withVariables_ok {α : Type} {c c' : Ctx} {names : List Name} {f : Ctx → Conv α} {a : α}
    (h : c.withVariables names f = some (.ok a, c')) : ∃ d d', f d = some (.ok a, d') := by
  unfold Ctx.withVariables at h
  split at h
  · cases h
  · rename_i r d' hf
    split at h
    · cases h
    · cases h
      exact ⟨_, _, hf⟩

mutual
theorem convTerm_names : ∀ (t : Term) (c c' : Ctx) (e : NE), (∀ n ∈ t.names, P n) → convTerm t c = some (.ok e, c') → e.AllNames P
  | .eps sp, c, c', e, h, he => by simp only [convTerm] at he; cases he; simp [NE.AllNames]
  | .ident i, c, c', e, h, he => by
    simp only [convTerm, convIdent] at he
    split at he
    · cases he
    · cases he
      simp only [NE.AllNames, Option.mem_def, Option.some.injEq, forall_eq']
      exact h _ (by simp [Term.names])
  | .lit sp s, c, c', e, h, he => by simp only [convTerm] at he; cases he; simp [NE.AllNames]
  | .fix sp t, c, c', e, h, he => by
    simp only [convTerm] at he
    obtain ⟨a, c1, h1, he⟩ := Conv.bind_ok he
    cases he
    exact ⟨by simp, convTerm_names t _ _ _ h h1⟩
  | .parens x, c, c', e, h, he => convExpr_names x c c' e h he
theorem convCall_names : ∀ (t : Call) (c c' : Ctx) (e : NE), (∀ n ∈ t.names, P n) → convCall t c = some (.ok e, c') → e.AllNames P
  | .mk sp [], c, c', e, h, he => by simp only [convCall] at he; cases he
  | .mk sp (t :: ts), c, c', e, h, he => by
    simp only [convCall] at he
    obtain ⟨a, c1, h1, he⟩ := Conv.bind_ok he
    obtain ⟨l, c2, h2, he⟩ := Conv.bind_ok he
    have ha := convTerm_names t _ _ _ (fun n hn => h n (by simp [Call.names, Term.namesL, hn])) h1
    have hl := convTerms_names ts _ _ _ (fun n hn => h n (by simp [Call.names, Term.namesL, hn])) h2
    split at he
    · cases he; exact ha
    · cases he; exact ⟨by simp, ha, hl⟩
theorem convTerms_names : ∀ (t : List Term) (c c' : Ctx) (e : List NE), (∀ n ∈ Term.namesL t, P n) →
    convTerms t c = some (.ok e, c') → NE.AllNamesL P e
  | [], c, c', e, h, he => by simp only [convTerms] at he; cases he; trivial
  | t :: ts, c, c', e, h, he => by
    simp only [convTerms] at he
    obtain ⟨a, c1, h1, he⟩ := Conv.bind_ok he
    obtain ⟨l, c2, h2, he⟩ := Conv.bind_ok he
    cases he
    exact ⟨convTerm_names t _ _ _ (fun n hn => h n (by simp [Term.namesL, hn])) h1,
      convTerms_names ts _ _ _ (fun n hn => h n (by simp [Term.namesL, hn])) h2⟩
theorem convCat_names : ∀ (t : Cat) (c c' : Ctx) (e : NE), (∀ n ∈ t.names, P n) → convCat t c = some (.ok e, c') → e.AllNames P
  | .mk sp [], c, c', e, h, he => by simp only [convCat] at he; cases he
  | .mk sp ((t, p) :: ts), c, c', e, h, he => by
    simp only [convCat] at he
    obtain ⟨a, c1, h1, he⟩ := Conv.bind_ok he
    obtain ⟨l, c2, h2, he⟩ := Conv.bind_ok he
    have ha := convCall_names t _ _ _ (fun n hn => h n (by simp [Cat.names, Call.namesL, hn])) h1
    have hl := convCalls_names ts _ _ _ _ (fun n hn => h n (by simp [Cat.names, Call.namesL, hn])) h2
    split at he
    · cases he; exact ha
    · cases he; exact ⟨by simp, ha, hl⟩
theorem convCalls_names : ∀ (t : List (Call × Nat)) (p : Nat) (c c' : Ctx) (e : List (Nat × NE)), (∀ n ∈ Call.namesL t, P n) →
    convCalls p t c = some (.ok e, c') → NE.AllNamesP P e
  | [], p, c, c', e, h, he => by simp only [convCalls] at he; cases he; trivial
  | (t, q) :: ts, p, c, c', e, h, he => by
    simp only [convCalls] at he
    obtain ⟨a, c1, h1, he⟩ := Conv.bind_ok he
    obtain ⟨l, c2, h2, he⟩ := Conv.bind_ok he
    cases he
    exact ⟨convCall_names t _ _ _ (fun n hn => h n (by simp [Call.namesL, hn])) h1,
      convCalls_names ts _ _ _ _ (fun n hn => h n (by simp [Call.namesL, hn])) h2⟩
theorem convLabelled_names : ∀ (t : Labelled) (c c' : Ctx) (e : NE), (∀ n ∈ t.names, P n) →
    convLabelled t c = some (.ok e, c') → e.AllNames P
  | .mk sp cat label, c, c', e, h, he => by
    simp only [convLabelled] at he
    obtain ⟨a, c1, h1, he⟩ := Conv.bind_ok he
    cases he
    have ha := convCat_names cat _ _ _ (fun n hn => h n (by simp [Labelled.names, hn])) h1
    refine ha.setInfo (merge_mem ?_ ha.info)
    intro n hn
    exact h n (List.mem_append_left _ (Option.mem_toList.2 hn))
theorem convAlt_names : ∀ (t : Alt) (c c' : Ctx) (e : NE), (∀ n ∈ t.names, P n) → convAlt t c = some (.ok e, c') → e.AllNames P
  | .mk sp [], c, c', e, h, he => by simp only [convAlt] at he; cases he
  | .mk sp ((t, p) :: ts), c, c', e, h, he => by
    simp only [convAlt] at he
    obtain ⟨a, c1, h1, he⟩ := Conv.bind_ok he
    obtain ⟨l, c2, h2, he⟩ := Conv.bind_ok he
    have ha := convLabelled_names t _ _ _ (fun n hn => h n (by simp [Alt.names, Labelled.namesL, hn])) h1
    have hl := convLabelleds_names ts _ _ _ _ (fun n hn => h n (by simp [Alt.names, Labelled.namesL, hn])) h2
    split at he
    · cases he; exact ha
    · cases he; exact ⟨by simp, ha, hl⟩
theorem convLabelleds_names : ∀ (t : List (Labelled × Nat)) (p : Nat) (c c' : Ctx) (e : List (Nat × NE)),
    (∀ n ∈ Labelled.namesL t, P n) → convLabelleds p t c = some (.ok e, c') → NE.AllNamesP P e
  | [], p, c, c', e, h, he => by simp only [convLabelleds] at he; cases he; trivial
  | (t, q) :: ts, p, c, c', e, h, he => by
    simp only [convLabelleds] at he
    obtain ⟨a, c1, h1, he⟩ := Conv.bind_ok he
    obtain ⟨l, c2, h2, he⟩ := Conv.bind_ok he
    cases he
    exact ⟨convLabelled_names t _ _ _ (fun n hn => h n (by simp [Labelled.namesL, hn])) h1,
      convLabelleds_names ts _ _ _ _ (fun n hn => h n (by simp [Labelled.namesL, hn])) h2⟩
theorem convExpr_names : ∀ (t : Expr) (c c' : Ctx) (e : NE), (∀ n ∈ t.names, P n) → convExpr t c = some (.ok e, c') → e.AllNames P
  | .alt a, c, c', e, h, he => convAlt_names a c c' e h he
  | .lam sp args body, c, c', e, h, he => by
    simp only [convExpr] at he
    obtain ⟨a, c1, h1, he⟩ := Conv.bind_ok he
    cases he
    obtain ⟨d, d', h2⟩ := withVariables_ok h1
    exact ⟨by simp, fun n hn => h n (List.mem_append_left _ hn),
      convAlt_names body _ _ _ (fun n hn => h n (List.mem_append_right _ hn)) h2⟩
end

/-- The name the goal gets if it has none. -/
def astName : Name := .newVariable (.spanless "Ast")

theorem convStmt_names : ∀ (s : Stmt) (c c' : Ctx) (e : NE), (∀ n ∈ s.names, P n) → P astName →
    convStmt s c = some (.ok e, c') → e.AllNames P
  | .goal sp x, c, c', e, h, hast, he => by
    rw [convStmt] at he
    obtain ⟨a, c1, h1, he⟩ := Conv.bind_ok he
    cases he
    have ha := convExpr_names x _ _ _ h h1
    refine ha.setInfo (merge_mem ha.info ?_)
    simp only [Option.mem_def, Option.some.injEq, forall_eq']
    exact hast
  | .letS sp x args b next, c, c', e, h, hast, he => by
    rw [convStmt] at he
    obtain ⟨a, c1, h1, he⟩ := Conv.bind_ok he
    obtain ⟨d, c2, h2, he⟩ := Conv.bind_ok he
    cases he
    have hx : P (.newLet x.content) := h _ (by simp [Stmt.names])
    have hb : a.AllNames P := by
      unfold convBound at h1
      split at h1
      · exact convExpr_names b _ _ _ (fun n hn => h n (by simp [Stmt.names, hn])) h1
      · obtain ⟨y, d1, h3, h1⟩ := Conv.bind_ok h1
        cases h1
        obtain ⟨d2, d3, h4⟩ := withVariables_ok h3
        refine ⟨by simp, fun n hn => h n ?_, convExpr_names b _ _ _ (fun n hn => h n (by simp [Stmt.names, hn])) h4⟩
        rw [Stmt.names, List.mem_cons, List.mem_append]
        exact .inr (.inl hn)
    refine ⟨by simp, hx, hb.setName ?_, convStmt_names next _ _ _ (fun n hn => h n (by simp [Stmt.names, hn])) hast h2⟩
    simpa using hx

/-- **C52.** All names in a compiled program — and so all names of generated types, fields and variants before their case
conversion — are names written in the source, or the default name `Ast` of the goal. -/
theorem C52_names_from_source {cas : Casing} {fuel : Nat} {s : Stmt} {te : TE} {id : Nat} {st : BState} {out : List Nat}
    (h : compile cas fuel s = .ok te id st out) : ∀ n ∈ te.names, n ∈ s.names ∨ n = astName := by
  obtain ⟨e, c, e', h1, h2, h3, _⟩ := compile_ok h
  obtain ⟨⟨k, hk⟩, _⟩ := h3
  have he : e.AllNames fun n => n ∈ s.names ∨ n = astName :=
    convStmt_names s [] c e (fun n hn => .inl hn) (.inr rfl) h1
  have he' := NE.AllNames.reduce fuel e e' he h2
  exact infer_src k e' _ _ te he' he'.info hk

/-- **C43.** The only panic of the compiler is `Ident::new` on a case conversion of a name: if the conversions of all names
in the source and of `Ast` are identifiers, compiling any program ends in a parser or an error, or does not end at all
(`C21`). -/
theorem C43_no_panic (cas : Casing) (fuel : Nat) (s : Stmt) (hs : ∀ n ∈ s.names, cas.Ok n) (hast : cas.Ok astName) :
    compile cas fuel s ≠ .panic := by
  intro h
  unfold compile at h
  obtain ⟨⟨r, c, hr⟩, _⟩ := C10_convert_succeeds_iff s
  rw [hr] at h
  cases r with
  | error e => cases h
  | ok e =>
    have he : e.AllNames cas.Ok := convStmt_names s [] c e hs hast hr
    simp only at h
    cases hred : reduce fuel e with
    | err x => rw [hred] at h; cases h
    | oof => rw [hred] at h; cases h
    | panic => exact C16_reduce_no_panic fuel e hred
    | ok e' =>
      rw [hred] at h
      have he' := NE.AllNames.reduce fuel e e' he hred
      simp only at h
      cases hinf : (inferTop fuel e' ⟨[], []⟩).1 with
      | err x => rw [hinf] at h; cases h
      | oof => rw [hinf] at h; cases h
      | panic => exact infer_no_panic fuel e' _ _ hinf
      | ok te =>
        rw [hinf] at h
        simp only at h
        have hte := infer_src fuel e' _ _ te he' he'.info hinf
        cases hg : gen cas te {} with
        | error x =>
          cases x with
          | badName => exact gen_no_bad cas te {} hte hg
          | index => exact C37_no_index_panic cas fuel e' te hinf hg
        | ok r =>
          obtain ⟨id, st⟩ := r
          rw [hg] at h
          simp only at h
          cases hem : st.emitIds fuel id with
          | none => rw [hem] at h; cases h
          | some r =>
            cases r with
            | ok out => rw [hem] at h; cases h
            | error x =>
              cases x with
              | badName => exact emitLoop_no_bad _ _ _ _ _ hem
              | index => exact C37_emission_no_index_panic hg fuel hem

/-- The condition holds for every program if the case conversions are total. -/
example (s : Stmt) (fuel : Nat) : compile ⟨some, some⟩ fuel s ≠ .panic :=
  C43_no_panic _ _ _ (fun _ _ => ⟨by simp, by simp⟩) ⟨by simp, by simp⟩

/-- `match "a" . "b" : n;` -/
def exNamed (n : String) : Stmt :=
  .goal 0 (.alt (.mk 0 [(.mk 0 (.mk 0 [(.mk 0 [.lit 0 ['a']], 0), (.mk 0 [.lit 0 ['b']], 0)]) (some ⟨false, n, 0⟩), 0)]))

/-- **C43** (counterexample in the code). That condition is needed: if some name has no case conversion that is an
identifier, as is the case for `__` with the crate `heck`, then compiling the well-formed and typable program
`match "a" . "b" : n;` panics instead of reporting an error. -/
theorem C43_panics_counterexample (cas : Casing) (n : String) (h : cas.camel n = none) (fuel : Nat) (hf : 8 ≤ fuel) :
    compile cas fuel (exNamed n) = .panic := by
  obtain ⟨k, rfl⟩ : ∃ k, fuel = k + 8 := ⟨fuel - 8, by omega⟩
  let nm : Name := .newLabel (.spanned false n 0)
  let e : NE := .cat ⟨some nm, 0⟩ (.lit ⟨none, 0⟩ ['a']) [(0, .lit ⟨none, 0⟩ ['b'])]
  have h1 : convStmt (exNamed n) [] = some (.ok e, []) := rfl
  have h2 : reduce (k + 8) e = .ok e := rfl
  have h3 : ∃ ty, (inferTop (k + 8) e ⟨[], []⟩).1 = .ok (.cat (some nm) ty [.lit none ['a'], .lit none ['b']]) := ⟨_, rfl⟩
  obtain ⟨ty, h3⟩ := h3
  have h4 : ∃ x, gen cas (.cat (some nm) ty [.lit none ['a'], .lit none ['b']]) {} = .error x := by
    have h5 : ∃ ids s, genL cas [.lit none ['a'], .lit none ['b']] {} = .ok (ids, s) ∧ s.catMap.lookup ids = none :=
      ⟨_, _, rfl, rfl⟩
    obtain ⟨ids, s, h5, h6⟩ := h5
    refine ⟨.badName, ?_⟩
    simp only [gen, h5, Except.bind, genCat, h6]
    have h7 : nm.content.hashed = n := rfl
    simp only [BState.newTypeName, h7, h]
  obtain ⟨x, h4⟩ := h4
  unfold compile
  rw [h1]
  simp only
  rw [h2]
  simp only
  rw [h3]
  simp only
  rw [h4]

/-- Non-vacuity: a casing without a conversion of `__`. -/
example : compile ⟨fun s => if s = "__" then none else some s, some⟩ 8 (exNamed "__") = .panic :=
  C43_panics_counterexample _ "__" rfl 8 (Nat.le_refl _)

/-- **C43.** A program with an undeclared name is rejected with that error, naming the first undeclared identifier; nothing
is compiled. -/
theorem C43_undeclared (cas : Casing) (fuel : Nat) (s : Stmt) (n : NCore) (i : Ident) (l : List Ident)
    (h1 : flatStmt s = some n) (h2 : n.free [] = i :: l) :
    compile cas fuel s = .convert (.undeclaredName (.newVariable i.content)) := by
  obtain ⟨c, h⟩ := C10_convert_error s n i l h1 h2
  unfold compile
  rw [h]

/-- `let x = "a"; match x . y . z;` -/
def exUndeclared2 : Stmt :=
  .letS 0 ⟨false, "x", 1⟩ [] (.alt (.mk 0 [(.mk 0 (.mk 0 [(.mk 0 [.lit 0 ['a']], 0)]) none, 0)]))
    (.goal 0 (.alt (.mk 0 [(.mk 0 (.mk 0 [(.mk 0 [.ident ⟨false, "x", 2⟩], 0), (.mk 0 [.ident ⟨false, "y", 3⟩], 0),
      (.mk 0 [.ident ⟨false, "z", 4⟩], 0)]) none, 0)])))

example : compile ⟨some, some⟩ 5 exUndeclared2 = .convert (.undeclaredName (.newVariable (.spanned false "y" 3))) := by
  refine C43_undeclared _ _ _ _ ⟨false, "y", 3⟩ [⟨false, "z", 4⟩] rfl ?_
  decide +kernel

/-- **C43.** Conversely the only conversion error of a parsed program is that of its first undeclared name; the `Empty…`
errors are not reachable from the parser. -/
theorem C43_parsed_errors (cas : Casing) (fuel : Nat) (ts : List Tok) (s : Stmt) (h : parseProgram ts = .ok s) (e : ConvErr)
    (he : compile cas fuel s = .convert e) :
    ∃ n i l, flatStmt s = some n ∧ n.free [] = i :: l ∧ e = .undeclaredName (.newVariable i.content) := by
  obtain ⟨n, hn, hc⟩ := C10_parsed_program ts s h
  rcases hc with ⟨_, x, c, hc⟩ | ⟨i, l, c, hf, hc⟩
  · unfold compile at he
    rw [hc] at he
    simp only at he
    split at he
    · cases he
    · cases he
    · cases he
    · split at he
      · cases he
      · cases he
      · cases he
      · split at he
        · cases he
        · split at he <;> cases he
  · unfold compile at he
    rw [hc] at he
    cases he
    exact ⟨n, i, l, hn, hf, rfl⟩

end Chomp
