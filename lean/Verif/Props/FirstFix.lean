import Verif.Lower.First
import Verif.Props.Hash
import Verif.Props.Shared

/-!
# C36: exactly what the emitted parser does when fix points are shared

`C36_counterexample` shows that the emitted parser need not accept the language of the grammar.  Here is what it does accept, for every
program: the language of the grammar as it is read when every fix point stands for the first fix point of the program with the same
body, and its variables for what they stand for *there*.
-/

namespace Chomp

mutual
/-- The strings an expression of the program `root` stands for, below the fix points with the bodies `ρ` (innermost first), if every
fix point stands for the first one of the program with an equal body.  Only the rule for `fix` differs from the usual reading, where it
would be `SharedLang (b :: ρ) b w`. -/
inductive SharedLang (root : TE) : List TE → TE → List Char → Prop
  | eps (ρ : List TE) (nm : Option Name) : SharedLang root ρ (.eps nm) []
  | lit (ρ : List TE) (nm : Option Name) (s : List Char) : SharedLang root ρ (.lit nm s) s
  | cat (ρ : List TE) (nm : Option Name) (ty : Ty) (l : List TE) (w : List Char) : SharedLangL root ρ l w → SharedLang root ρ (.cat nm ty l) w
  | alt (ρ : List TE) (nm : Option Name) (ty : Ty) (l : List TE) (t : TE) (w : List Char) : t ∈ l → SharedLang root ρ t w →
      SharedLang root ρ (.alt nm ty l) w
  | fix (ρ : List TE) (nm : Option Name) (b : TE) (ρ0 : List TE) (b0 : TE) (w : List Char) : root.firstFix b = some (ρ0, b0) →
      SharedLang root (b0 :: ρ0) b0 w → SharedLang root ρ (.fix nm b) w
  | var (ρ : List TE) (nm : Option Name) (i : Nat) (ty : Ty) (b : TE) (ρ' : List TE) (w : List Char) : ρ.drop i = b :: ρ' →
      SharedLang root ρ' (.fix none b) w → SharedLang root ρ (.var nm i ty) w
/-- Concatenation. -/
inductive SharedLangL (root : TE) : List TE → List TE → List Char → Prop
  | nil (ρ : List TE) : SharedLangL root ρ [] []
  | cons (ρ : List TE) (t : TE) (l : List TE) (u v : List Char) : SharedLang root ρ t u → SharedLangL root ρ l v → SharedLangL root ρ (t :: l) (u ++ v)
end

theorem sharedLangL_of {root : TE} {ρ : List TE} : ∀ (l : List TE) (ts : List Tree),
    All2 (fun (c : List TE × TE) t => SharedLang root c.1 c.2 t.display) (l.map fun t => (ρ, t)) ts → SharedLangL root ρ l (Tree.displayL ts)
  | [], _, h => by cases h; exact .nil ρ
  | x :: l, _, h => by
    cases h with
    | cons h1 h2 => exact .cons ρ x l _ _ h1 (sharedLangL_of l _ h2)

theorem value_sharedLang {root : TE} {c : List TE × TE} {t : Tree} (h : Value (stepS root) c t) : SharedLang root c.1 c.2 t.display := by
  refine Value.ind (P := fun c t => SharedLang root c.1 c.2 t.display) ?_ ?_ ?_ ?_ ?_ ?_ h
  · rintro ⟨ρ, te⟩ hs
    cases te <;> simp only [stepS] at hs <;> (try split at hs) <;> cases hs
    exact .eps _ _
  · rintro ⟨ρ, te⟩ s hs
    cases te <;> simp only [stepS] at hs <;> (try split at hs) <;> cases hs
    exact .lit _ _ _
  · rintro ⟨ρ, te⟩ l ts hs _ hv
    cases te <;> simp only [stepS] at hs <;> (try split at hs) <;> cases hs
    exact .cat _ _ _ _ _ (sharedLangL_of _ _ hv)
  · rintro ⟨ρ, te⟩ tys l k b t hs hk _ hv
    cases te <;> simp only [stepS] at hs <;> (try split at hs) <;> cases hs
    rw [List.getElem?_map, Option.map_eq_some_iff] at hk
    obtain ⟨x, hx, rfl⟩ := hk
    exact .alt _ _ _ _ x _ (List.mem_of_getElem? hx) hv
  · rintro ⟨ρ, te⟩ b t hs _ hv
    cases te with
    | fix nm b' =>
      simp only [stepS] at hs
      split at hs
      · rename_i h1
        cases hs
        exact .fix _ _ _ _ _ _ h1 hv
      · cases hs
    | var nm i ty => simp only [stepS] at hs; split at hs <;> cases hs
    | _ => simp only [stepS] at hs; cases hs
  · rintro ⟨ρ, te⟩ b t hs _ hv
    cases te with
    | var nm i ty =>
      simp only [stepS] at hs
      split at hs
      · rename_i h1
        cases hs
        exact .var _ _ _ _ _ _ _ h1 hv
      · cases hs
    | fix nm b' => simp only [stepS] at hs; split at hs <;> cases hs
    | _ => simp only [stepS] at hs; cases hs

mutual
theorem sharedLang_value {root : TE} : ∀ {ρ : List TE} {te : TE} {w : List Char}, SharedLang root ρ te w →
    ∃ t, Value (stepS root) (ρ, te) t ∧ t.display = w
  | _, _, _, .eps ρ nm => ⟨.eps, .eps _ rfl, rfl⟩
  | _, _, _, .lit ρ nm s => ⟨.lit s, .lit _ s rfl, rfl⟩
  | _, _, _, .cat ρ nm ty l w h => by
    obtain ⟨ts, h1, h2⟩ := sharedLangL_value h
    exact ⟨.cat ts, .cat _ _ ts rfl h1, by rw [Tree.display]; exact h2⟩
  | _, _, _, .alt ρ nm ty l t w hm h => by
    obtain ⟨u, h1, h2⟩ := sharedLang_value h
    obtain ⟨k, hk⟩ := List.getElem?_of_mem hm
    exact ⟨.alt k u, .alt _ (l.map TE.ty) _ k (ρ, t) u rfl (by rw [List.getElem?_map, hk]; rfl) h1, by rw [Tree.display]; exact h2⟩
  | _, _, _, .fix ρ nm b ρ0 b0 w hf h => by
    obtain ⟨u, h1, h2⟩ := sharedLang_value h
    exact ⟨u, .alias _ (b0 :: ρ0, b0) u (by simp only [stepS, hf]) h1, h2⟩
  | _, _, _, .var ρ nm i ty b ρ' w hd h => by
    obtain ⟨u, h1, h2⟩ := sharedLang_value h
    exact ⟨.box u, .box _ (ρ', .fix none b) u (by simp only [stepS, hd]) h1, by rw [Tree.display]; exact h2⟩
theorem sharedLangL_value {root : TE} : ∀ {ρ : List TE} {l : List TE} {w : List Char}, SharedLangL root ρ l w →
    ∃ ts, ValueL (stepS root) (l.map fun t => (ρ, t)) ts ∧ Tree.displayL ts = w
  | _, _, _, .nil ρ => ⟨[], .nil, rfl⟩
  | _, _, _, .cons ρ t l u v h1 h2 => by
    obtain ⟨x, h3, h4⟩ := sharedLang_value h1
    obtain ⟨xs, h5, h6⟩ := sharedLangL_value h2
    exact ⟨x :: xs, .cons _ _ _ _ h3 h5, by simp only [Tree.displayL, h4, h6]⟩
end

theorem Compiled.shared {e : NE} {te : TE} {s : BState} {id : Nat} (h : Compiled e te s id) (ht : te.EqTrans) :
    ∃ B : Nat → List TE × TE → Prop, B id ([], te) ∧ ∀ a c, B a c → NodeF.Rel B (s.step a) (stepS te c) := by
  obtain ⟨cas, hc⟩ := h.code
  exact gen_first h.ann ht hc

/-- **C36** (exactly what the emitted parser does). For every typed program on whose fix points equality of bodies is transitive: the
emitted parser behaves, on every input, in every state and to every recursion depth, including errors, panics, positions and the number
of steps, like the parser one gets by reading the program with every fix point replaced by the first one with an equal body. -/
theorem C36_behaviour_exact {e : NE} {te : TE} {s : BState} {id : Nat} (h : Compiled e te s id) (ht : te.EqTrans) (m : Nat) (w : IW) :
    s.take m id w = run (stepS te) m ([], te) w ∧ runCost s.step m id w = runCost (stepS te) m ([], te) w := by
  obtain ⟨B, h1, h2⟩ := h.shared ht
  exact ⟨run_bisim h2 m _ _ w h1, runCost_bisim h2 m _ _ w h1⟩

/-- **C36** (exactly which strings the emitted parser accepts), for every typed program as in `C36_behaviour_exact`. -/
theorem C36_language_exact {e : NE} {te : TE} {s : BState} {id : Nat} (h : Compiled e te s id) (ht : te.EqTrans) (text : List Char) :
    (∃ t, Parses s id text (.ok t)) ↔ SharedLang te [] te text := by
  obtain ⟨B, h1, h2⟩ := h.shared ht
  constructor
  · rintro ⟨t, hp⟩
    obtain ⟨hv, rfl⟩ := (C81_parse_iff h id h.root_lt text t).1 hp
    exact value_sharedLang (value_bisim h2 hv h1)
  · intro hl
    obtain ⟨t, hv, rfl⟩ := sharedLang_value hl
    refine ⟨t, (C81_parse_iff h id h.root_lt _ t).2 ⟨?_, rfl⟩⟩
    exact value_bisim (R := fun c a => B a c) (fun c a hb => (h2 a c hb).flip) hv h1

theorem eqTrans_of_spine {P : Name → Prop} (hP : Uniform P) {fuel fuel' : Nat} {e e' : NE} {te : TE} (he : e.Spine P)
    (hr : reduce fuel e = Out.ok e') (hi : (inferTop fuel' e' ⟨[], []⟩).1 = .ok te) : te.EqTrans :=
  TE.Inner.trans hP te [] (infer_inner fuel' e' _ _ te (he.reduce fuel e e' hr) hi)

/-- What a successful run of the back end consists of. -/
theorem backEnd_ok_parts {cas : Casing} {fuel : Nat} {r : Conv NE} {te : TE} {id : Nat} {st : BState} {out : List Nat}
    (h : backEnd cas fuel r = .ok te id st out) : ∃ e c e', r = some (.ok e, c) ∧ reduce fuel e = .ok e' ∧
      (inferTop fuel e' ⟨[], []⟩).1 = .ok te ∧ gen cas te {} = .ok (id, st) := by
  unfold backEnd at h
  split at h
  · cases h
  · cases h
  · rename_i e c
    split at h
    · cases h
    · cases h
    · cases h
    · rename_i e' hr
      split at h
      · cases h
      · cases h
      · cases h
      · rename_i te' hi
        split at h
        · cases h
        · rename_i id' st' hg
          split at h
          · cases h
          · cases h
          · cases h
            exact ⟨e, c, e', rfl, hr, hi, hg⟩

theorem backEnd_shared {P : Name → Prop} (hP : Uniform P) {cas : Casing} {fuel : Nat} {r : Conv NE} {te : TE} {id : Nat} {st : BState} {out : List Nat}
    (hs : ∀ e c, r = some (.ok e, c) → e.Spine P) (h : backEnd cas fuel r = .ok te id st out) : te.EqTrans ∧ ∃ e, Compiled e te st id := by
  obtain ⟨e, c, e', h1, h2, h3, h4⟩ := backEnd_ok_parts h
  exact ⟨eqTrans_of_spine hP (hs e c h1) h2 h3, e', ⟨_, h3⟩, cas, h4⟩

/-- **C36** (exact). For every program the compiler accepts, with no condition on it: the emitted parser accepts exactly the strings
the program stands for when every fix point is read as the first one with the same body; and it behaves like a parser written for that
reading on every input, in every state and to every recursion depth, including errors, panics and positions. -/
theorem C36_exact {cas : Casing} {fuel : Nat} {prog : Stmt} {te : TE} {id : Nat} {st : BState} {out : List Nat}
    (h : compile cas fuel prog = .ok te id st out) :
    (∀ text, (∃ t, Parses st id text (.ok t)) ↔ SharedLang te [] te text) ∧
      ∀ m w, st.take m id w = run (stepS te) m ([], te) w ∧ runCost st.step m id w = runCost (stepS te) m ([], te) w := by
  obtain ⟨ht, e, hc⟩ := backEnd_shared uniform_spanned (r := convStmt prog []) (fun e c h => convStmt_spine prog [] c e (Stmt.names_spanned prog) h) h
  exact ⟨C36_language_exact hc ht, C36_behaviour_exact hc ht⟩

/-- **C36** (exact, autonibble). The same for programs read by autonibble. -/
theorem C36_exact_autonibble {cas : Casing} {fuel : Nat} {prog : Tree} {te : TE} {id : Nat} {st : BState} {out : List Nat}
    (h : backEnd cas fuel (autoAst prog []) = .ok te id st out) :
    (∀ text, (∃ t, Parses st id text (.ok t)) ↔ SharedLang te [] te text) ∧
      ∀ m w, st.take m id w = run (stepS te) m ([], te) w ∧ runCost st.step m id w = runCost (stepS te) m ([], te) w := by
  obtain ⟨ht, e, hc⟩ := backEnd_shared uniform_spanless (fun e c h => (autoAst_spanless _ prog [] c e (Nat.lt_succ_self _) h).spine) h
  exact ⟨C36_language_exact hc ht, C36_behaviour_exact hc ht⟩

/-- **C36** (exactly when the compiler is right). The parser emitted for a program accepts the language of its grammar if and only if
reading every fix point as the first one with the same body does not change the language. -/
theorem C36_faithful_iff {cas : Casing} {fuel : Nat} {prog : Stmt} {te : TE} {id : Nat} {st : BState} {out : List Nat}
    (h : compile cas fuel prog = .ok te id st out) :
    (∀ text, (∃ t, Parses st id text (.ok t)) ↔ te.gram.language text) ↔ ∀ text, SharedLang te [] te text ↔ te.gram.language text := by
  constructor
  · exact fun h1 text => ((C36_exact h).1 text).symm.trans (h1 text)
  · exact fun h1 text => ((C36_exact h).1 text).trans (h1 text)

/-- **C36** (the two readings agree without sharing conflicts). -/
theorem C36_readings_agree {cas : Casing} {fuel : Nat} {prog : Stmt} {te : TE} {id : Nat} {st : BState} {out : List Nat}
    (h : compile cas fuel prog = .ok te id st out) (hns : NoSharingConflict te) (text : List Char) :
    SharedLang te [] te text ↔ te.gram.language text := by
  obtain ⟨_, _, _, _, _, hc, _⟩ := compile_ok h
  rw [← (C36_exact h).1 text]
  exact hc.accepts hns text

/-! ## A program for which they do not agree -/

private def qa (l : List Labelled) : Expr := .alt (.mk 0 (l.map (·, 0)))
private def ql (l : List Term) : Labelled := .mk 0 (.mk 0 (l.map fun t => (.mk 0 [t], 0))) none
private def qmu (x : String) (l : List Labelled) : Term := .fix 0 (.parens (.lam 0 [⟨false, x, 0⟩] (.mk 0 (l.map (·, 0)))))
private def qv (x : String) : Term := .ident ⟨false, x, 0⟩
private def qi (x : String) : Term := qmu "i" [ql [.lit 0 ['y'], qv "i"], ql [.lit 0 ['z']], ql [qv x]]

/-- `match !(/a/ "x" . !(/i/ "y" . i | "z" | a) . "1") . !(/a/ "x" . !(/i/ "y" . i | "z" | a) . "2");`, where the two inner fix points
are written alike and mean different things. -/
private def exAlike : Stmt :=
  .goal 0 (qa [ql [qmu "a" [ql [.lit 0 ['x'], qi "a", .lit 0 ['1']]], qmu "a" [ql [.lit 0 ['x'], qi "a", .lit 0 ['2']]]]])

theorem compile_not_language {cas : Casing} {fuel : Nat} {prog : Stmt} {te : TE} {id : Nat} {st : BState} {out : List Nat}
    (h : compile cas fuel prog = .ok te id st out) {n : Nat} {text : List Char} {e : TakeError} {w' : IW}
    (h' : takeR n [] te (IW.new text) = .err e w') : ¬ te.gram.language text := by
  obtain ⟨_, _, _, _, _, hc, _⟩ := compile_ok h
  exact takeR_not_language hc.ann h'

/-- **C36** (a program on which the two readings differ). The compiler accepts it and emits a parser that rejects a string of the
grammar and accepts one that is not. -/
theorem C36_counterexample_program : ∃ te id st out, compile ⟨some, some⟩ 12 exAlike = .ok te id st out ∧
    (te.gram.language "xz1xxz22".toList ∧ ¬ SharedLang te [] te "xz1xxz22".toList) ∧
    (¬ te.gram.language "xz1xxz12".toList ∧ SharedLang te [] te "xz1xxz12".toList) := by
  refine ⟨_, _, _, _, rfl, ⟨?_, ?_⟩, ?_, ?_⟩
  · exact takeR_language (n := 40) rfl rfl
  · rw [← (C36_exact (cas := ⟨some, some⟩) (fuel := 12) (prog := exAlike) rfl).1]
    exact Parses.not_ok (err := .take (.badString ⟨1, 6⟩ ['2'] ['1'])) ⟨by simp, 40, rfl⟩
  · exact compile_not_language (cas := ⟨some, some⟩) (fuel := 12) (prog := exAlike) (n := 40) rfl rfl
  · rw [← (C36_exact (cas := ⟨some, some⟩) (fuel := 12) (prog := exAlike) rfl).1]
    exact ⟨_, by simp, 40, rfl⟩

end Chomp
