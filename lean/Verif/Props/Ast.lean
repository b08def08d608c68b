import Verif.Ast.Simple

/-! # C15–C21: substitution and reduction -/

namespace Chomp

/-- Specification: the meaning of an expression in an arbitrary higher-order algebra `A` (a value for
every construct; binders are functions on values), given values `ρ` for its free variables. -/
def NE.meaning {D : Type} (A : Alg D) (e : NE) (ρ : Nat → D) : D := e.erase.eval A ρ

/-- **C15.** Substituting `s` for index `k` in `e` always succeeds, and in every interpretation the
result means `e` with the value of `s` (computed outside all binders of `e`) for variable `k`, the
value of variable `i` for `i < k`, and the value of the variable formerly called `i` under its new
index `i - 1` for `i > k`.  Since the interpretation is arbitrary (in particular free) this says that
exactly the occurrences of `k` are replaced, no other variable changes what it denotes, and no free
variable of `s` is captured. -/
theorem C15_substitute_meaning (e : NE) (k : Nat) (s : NE) :
    ∃ e', e.substitute k s = some e' ∧
      ∀ (D : Type) (A : Alg D) (ρ : Nat → D),
        e'.meaning A ρ =
          e.meaning A (fun i => if i < k then ρ i else if i = k then s.meaning A ρ else ρ (i - 1)) := by
  obtain ⟨e', h1, h2⟩ := e.substitute_spec k s
  refine ⟨e', h1, fun D A ρ => ?_⟩
  unfold NE.meaning
  rw [h2, Core.eval_sub]
  congr 1
  funext i
  simp only [inst]
  split
  · rfl
  · split <;> rfl

/-- **C15** (syntactic form). On nameless expressions the result is textbook parallel substitution. -/
theorem C15_substitute_core (e : NE) (k : Nat) (s : NE) :
    ∃ e', e.substitute k s = some e' ∧ e'.erase = e.erase.sub (inst k s.erase) :=
  e.substitute_spec k s

/-- **C15** (renaming). `RenameVars` in the `Deepen` direction makes room for `n` new innermost
binders: it never panics and every free variable keeps denoting the same binder. -/
theorem C15_deepen_meaning (e : NE) (n : Nat) :
    ∃ e', e.rename .deepen n 0 = some e' ∧
      ∀ (D : Type) (A : Alg D) (ρ : Nat → D), e'.meaning A ρ = e.meaning A (fun i => ρ (i + n)) := by
  obtain ⟨e', h1, h2, _⟩ := e.rename_zero n
  refine ⟨e', h1, fun D A ρ => ?_⟩
  unfold NE.meaning
  rw [h2, Core.eval_ren]

/-- Non-vacuity: substituting the free variable 0 below a binder: `(/x/ x . '1)['0 := '5]` is
`/x/ x . '6`: the index is adjusted, not captured. -/
example :
    ((NE.lam ⟨none, 0⟩ [.newVariable (.spanless "x")]
        (.cat ⟨none, 0⟩ (.var ⟨none, 0⟩ 0) [(0, .var ⟨none, 0⟩ 1)])).substitute 0 (.var ⟨none, 0⟩ 5)).map NE.erase
      = some (.lam 1 (.cat [.var 0, .var 6])) := rfl

/-- **C16.** Folding with a `Substitute` never panics and gives the `Substitute` back exactly as it
was (its index and its expression, including names and spans). -/
theorem C16_substitute_restores (e : NE) (st : Sub) : ∃ e', e.substS st = some (e', st) := by
  obtain ⟨k, s⟩ := st
  obtain ⟨e', h, _⟩ := e.substS_spec k s
  exact ⟨e', h⟩

/-- **C16** (whole reduction). No step of `Reduce` panics: no index underflows. -/
theorem C16_reduce_no_panic (n : Nat) (e : NE) : reduce n e ≠ .panic := by
  intro h
  have := erase_reduce n e
  rw [h] at this
  exact reduceC_no_panic n _ this.symm

/-- **C16** (renaming is undone exactly). -/
theorem C16_rename_roundtrip (e : NE) (n : Nat) :
    (e.rename .deepen n 0).bind (fun e' => e'.rename .shallow n 0) = some e := by
  obtain ⟨e', h1, _, h3⟩ := e.rename_zero n
  simp [h1, h3]

/-- **C17.** If `Reduce` succeeds, its result is obtained from the input by β and let contractions
only. -/
theorem C17_reduce_steps (n : Nat) (e e' : NE) (h : reduce n e = .ok e') :
    Core.Steps e.erase e'.erase :=
  reduceC_steps n _ _ (reduce_ok_erase h)

/-- **C17** (argument passing). The argument loop of a call binds each argument to the parameter in
the same position: in every interpretation the result means the body with parameter `j` (counted from
the left) given the value of argument `j`, evaluated outside the lambda. -/
theorem C17_arguments_by_position (body : NE) (params : List Name) (args : List NE)
    (h : params.length = args.length) :
    ∃ e', applyArgs body params args = some e' ∧
      ∀ (D : Type) (A : Alg D) (ρ : Nat → D),
        e'.meaning A ρ =
          body.meaning A (bindArgs args.length (fun j => (args[j]).meaning A ρ) ρ) := by
  obtain ⟨e', h1, h2⟩ := applyArgs_spec args.length body params args rfl h
  refine ⟨e', h1, fun D A ρ => ?_⟩
  unfold NE.meaning
  rw [h2, Core.eval_sub]
  congr 1
  funext i
  simp only [instArgs, bindArgs, List.length_map]
  by_cases hi : i < args.length
  · simp only [hi, if_true, dif_pos]
    rw [List.getD_eq_getElem?_getD, List.getElem?_map,
      List.getElem?_eq_getElem (by omega : args.length - 1 - i < args.length)]
    rfl
  · simp [hi, Core.eval]

/-- **C17** (failures). `Reduce` fails only on a call whose function part reduces to something that is
not a lambda, or to a lambda with a different number of parameters. -/
theorem C17_reduce_errors (n : Nat) (e : NE) (err : RErr) (h : reduce n e = .err err) :
    (∃ on span, err = .callNotAFunction on span ∧ ∀ i a b, on ≠ .lam i a b) ∨
    (∃ i params body args span, err = .wrongArgCount (.lam i params body) args span ∧
      params.length ≠ args.length) := by
  induction n generalizing e with
  | zero => cases h
  | succ n ih =>
    have hP : ∀ (l : List (Nat × NE)) err, mapP (reduce n) l = .err err → ∃ e, reduce n e = .err err := by
      intro l
      induction l with
      | nil => intro err h; cases h
      | cons p l ihl =>
        obtain ⟨s, e⟩ := p
        intro err h
        rw [mapP] at h
        cases he : reduce n e with
        | ok e' =>
          rw [he] at h
          simp only [Out.bind] at h
          cases hl : mapP (reduce n) l with
          | err x => rw [hl] at h; cases h; exact ihl _ hl
          | _ => rw [hl] at h; cases h
        | err x => rw [he] at h; cases h; exact ⟨e, he⟩
        | panic => rw [he] at h; cases h
        | oof => rw [he] at h; cases h
    cases e with
    | eps i => cases h
    | lit i s => cases h
    | cat i f r =>
      rw [reduce] at h
      cases hf : reduce n f with
      | ok f' =>
        rw [hf] at h
        simp only [Out.bind] at h
        cases hl : mapP (reduce n) r with
        | err x => rw [hl] at h; cases h; obtain ⟨e, he⟩ := hP _ _ hl; exact ih _ he
        | _ => rw [hl] at h; cases h
      | err x => rw [hf] at h; cases h; exact ih _ hf
      | panic => rw [hf] at h; cases h
      | oof => rw [hf] at h; cases h
    | alt i f r =>
      rw [reduce] at h
      cases hf : reduce n f with
      | ok f' =>
        rw [hf] at h
        simp only [Out.bind] at h
        cases hl : mapP (reduce n) r with
        | err x => rw [hl] at h; cases h; obtain ⟨e, he⟩ := hP _ _ hl; exact ih _ he
        | _ => rw [hl] at h; cases h
      | err x => rw [hf] at h; cases h; exact ih _ hf
      | panic => rw [hf] at h; cases h
      | oof => rw [hf] at h; cases h
    | fix i b =>
      rw [reduce] at h
      cases hb : reduce n b with
      | ok b' =>
        rw [hb] at h
        simp only [Out.bind] at h
        cases b' with
        | lam j a c =>
          simp only at h
          cases hc : reduce n c with
          | err x => rw [hc] at h; cases h; exact ih _ hc
          | _ => rw [hc] at h; cases h
        | _ => cases h
      | err x => rw [hb] at h; cases h; exact ih _ hb
      | panic => rw [hb] at h; cases h
      | oof => rw [hb] at h; cases h
    | var i k => cases h
    | call i on args =>
      rw [reduce] at h
      cases ho : reduce n on with
      | ok on' =>
        rw [ho] at h
        simp only [Out.bind] at h
        cases on' with
        | lam j params body =>
          simp only at h
          split at h
          · rename_i hl
            cases h
            exact .inr ⟨_, _, _, _, _, rfl, hl⟩
          · cases ha : applyArgs body params args with
            | none => rw [ha] at h; cases h
            | some out =>
              rw [ha] at h
              simp only [Out.ofOption] at h
              cases hr : reduce n out with
              | err x => rw [hr] at h; cases h; exact ih _ hr
              | _ => rw [hr] at h; cases h
        | _ => cases h; exact .inl ⟨_, _, rfl, by simp⟩
      | err x => rw [ho] at h; cases h; exact ih _ ho
      | panic => rw [ho] at h; cases h
      | oof => rw [ho] at h; cases h
    | lam i a b => cases h
    | letE i x b c =>
      rw [reduce] at h
      cases ha : c.substitute 0 b with
      | none => rw [ha] at h; cases h
      | some out =>
        rw [ha] at h
        simp only [Out.ofOption, Out.bind] at h
        cases hr : reduce n out with
        | err x => rw [hr] at h; cases h; exact ih _ hr
        | _ => rw [hr] at h; cases h

/-- A program used as a witness: `(/x y/ x . y) "a" "b"`. -/
def exCall : NE :=
  .call ⟨none, 0⟩
    (.lam ⟨none, 0⟩ [.newVariable (.spanless "x"), .newVariable (.spanless "y")]
      (.cat ⟨none, 0⟩ (.var ⟨some (.newVariable (.spanless "x")), 0⟩ 1)
        [(0, .var ⟨some (.newVariable (.spanless "y")), 0⟩ 0)]))
    [.lit ⟨none, 0⟩ ['a'], .lit ⟨none, 0⟩ ['b']]

/-- Non-vacuity for C17–C20: the call reduces, and `x` gets the first argument. -/
example : ∃ e', reduce 5 exCall = .ok e' ∧ e'.erase = .cat [.lit ['a'], .lit ['b']] :=
  ⟨_, rfl, rfl⟩

/-- **C18.** A successfully reduced expression has no call and no let outside bodies of lambdas (where
the body of a lambda directly below a fix point counts as outside). -/
theorem C18_reduced_settled (n : Nat) (e e' : NE) (h : reduce n e = .ok e') : e'.erase.settled :=
  reduceC_settled n _ _ (reduce_ok_erase h)

/-- **C18** (idempotence). Reducing a reduced expression again gives exactly the same expression,
including names and spans. -/
theorem C18_reduce_idempotent (n : Nat) (e e' : NE) (h : reduce n e = .ok e') :
    ∃ m, ∀ k ≥ m, reduce k e' = .ok e' :=
  reduce_settled_self e' (C18_reduced_settled n e e' h)

/-- **C19.** Reduction introduces no free variables. -/
theorem C19_reduce_closed (n m : Nat) (e e' : NE) (h : reduce n e = .ok e') (hc : e.erase.closed m) :
    e'.erase.closed m :=
  reduceC_closed n _ _ m (reduce_ok_erase h) hc

example : exCall.erase.closed 0 := by
  simp [exCall, NE.erase, NE.eraseP, NE.eraseL, Core.closed, Core.closedL]

/-- **C20.** Expressions that differ only in names and spans reduce to results, errors or divergence
that differ only in names and spans. -/
theorem C20_reduce_ignores_names (n : Nat) (e1 e2 : NE) (h : e1.erase = e2.erase) :
    match reduce n e1, reduce n e2 with
    | .ok a, .ok b => a.erase = b.erase
    | .err (.callNotAFunction a _), .err (.callNotAFunction b _) => a.erase = b.erase
    | .err (.wrongArgCount a as _), .err (.wrongArgCount b bs _) =>
        a.erase = b.erase ∧ as.map NE.erase = bs.map NE.erase
    | .panic, .panic => True
    | .oof, .oof => True
    | _, _ => False := by
  have h1 := erase_reduce n e1
  have h2 := erase_reduce n e2
  rw [h, ← h2] at h1
  revert h1
  cases reduce n e1 with
  | ok a => cases reduce n e2 <;> simp [eraseOut]
  | err x =>
    cases reduce n e2 with
    | err y => cases x <;> cases y <;> simp [eraseOut, RErr.erase]
    | _ => simp [eraseOut]
  | panic => cases reduce n e2 <;> simp [eraseOut]
  | oof => cases reduce n e2 <;> simp [eraseOut]

example : ∃ e1 e2 : NE, e1.erase = e2.erase ∧ e1.info.span ≠ e2.info.span :=
  ⟨exCall, exCall.setInfo ⟨none, 7⟩, by simp, by decide⟩

/-- More fuel never changes an outcome, so "reduces to" does not depend on the fuel. -/
theorem reduceC_fuel_independent {n m : Nat} {e : Core} (hn : reduceC n e ≠ .oof) (hm : reduceC m e ≠ .oof) :
    reduceC n e = reduceC m e := by
  rcases Nat.le_total n m with h | h
  · exact (reduceC_mono h e hn).symm
  · exact reduceC_mono h e hm

/-- The expression of the program `let w x = x x; match w w;`. -/
def omegaProg : NE :=
  .letE ⟨none, 0⟩ (.newLet (.spanned false "w" 1))
    (.lam ⟨some (.newLet (.spanned false "w" 1)), 0⟩ [.newVariable (.spanned false "x" 2)]
      (.call ⟨none, 0⟩ (.var ⟨some (.newVariable (.spanned false "x" 3)), 0⟩ 0)
        [.var ⟨some (.newVariable (.spanned false "x" 4)), 0⟩ 0]))
    (.call ⟨some (.newVariable (.spanless "Ast")), 0⟩ (.var ⟨some (.newVariable (.spanned false "w" 5)), 0⟩ 0)
      [.var ⟨some (.newVariable (.spanned false "w" 6)), 0⟩ 0])

/-- **C21** is false: `let w x = x x; match w w;` is accepted by the front end (see
`C21_omega_converts`), but no amount of fuel lets its reduction return. -/
theorem C21_reduction_can_diverge : ∀ n, reduce n omegaProg = .oof := by
  have h : ∀ n, reduceC n (.call (.lam 1 (.call (.var 0) [.var 0])) [.lam 1 (.call (.var 0) [.var 0])]) = .oof := by
    intro n
    induction n with
    | zero => rfl
    | succ n ih =>
      rw [reduceC]
      cases n with
      | zero => rfl
      | succ n =>
        rw [reduceC]
        simp only [Out.bind, List.length_singleton, ne_eq, not_true, if_false]
        exact ih
  intro n
  rw [reduce_oof_iff]
  cases n with
  | zero => rfl
  | succ n => exact h n

/-- **C21** (the part that holds). Reduction terminates, and succeeds, on every expression that is
simply typed with grammars as the only base type (free variables, if any, being grammars).  Missing:
programs that are not simply typed, for which the claim is false. -/
theorem C21_simply_typed_reduces_partial (e : NE) (Γ : List STy) (τ : STy)
    (h : HasSTy Γ e.erase τ) (hΓ : ∀ τ ∈ Γ, τ = .gram) :
    ∃ n e', reduce n e = .ok e' := by
  obtain ⟨n, v, hv⟩ := h.reduces hΓ
  have := erase_reduce n e
  rw [hv] at this
  cases hr : reduce n e with
  | ok e' => exact ⟨n, e', hr⟩
  | _ => rw [hr] at this; cases this

example : HasSTy [] exCall.erase .gram := by
  simp only [exCall, NE.erase, NE.eraseP, NE.eraseL, List.length_cons, List.length_nil]
  refine .call [] _ _ [.gram, .gram] .gram (.lam [] _ [.gram, .gram] .gram ?_) rfl ?_
  · refine .cat _ _ ?_
    intro e he
    simp only [List.mem_cons, List.not_mem_nil, or_false] at he
    rcases he with rfl | rfl
    · exact .var _ 1 .gram rfl
    · exact .var _ 0 .gram rfl
  · intro p hp
    simp only [List.zip_cons_cons, List.zip_nil_left, List.mem_cons, List.not_mem_nil, or_false] at hp
    rcases hp with rfl | rfl <;> exact .lit _ _

end Chomp
