import Verif.Ast.Denote
import Verif.Props.Nibble
import Verif.Props.Parser
import Verif.Props.Codegen

/-! # C43: the whole compiler -/

namespace Chomp

/-- The outcome of the compiler: the typed program and the generated table with the root type and the
emitted definitions, the error of the stage that failed, a panic, or out of fuel. -/
inductive Compile where
  | ok (typed : TE) (root : Nat) (table : BState) (emitted : List Nat)
  | convert (e : ConvErr)
  | reduce (e : RErr)
  | typing (e : TErr)
  | panic
  | oof

/-- `src/main.rs:27-55` and `chomp-macro/src/lib.rs:17-42`: the stages after parsing, in order, each
error being returned as it is.  Fuel bounds reduction, type inference and the rounds of emission. -/
def compile (cas : Casing) (fuel : Nat) (s : Stmt) : Compile :=
  match convStmt s [] with
  | none => .panic
  | some (.error e, _) => .convert e
  | some (.ok e, _) =>
    match reduce fuel e with
    | .err e => .reduce e
    | .panic => .panic
    | .oof => .oof
    | .ok e =>
      match (inferTop fuel e ⟨[], []⟩).1 with
      | .err e => .typing e
      | .panic => .panic
      | .oof => .oof
      | .ok te =>
        match gen cas te {} with
        | .error _ => .panic
        | .ok (id, st) =>
          match st.emitIds fuel id with
          | none => .oof
          | some (.error _) => .panic
          | some (.ok out) => .ok te id st out

theorem compile_ok {cas : Casing} {fuel : Nat} {s : Stmt} {te : TE} {id : Nat} {st : BState} {out : List Nat}
    (h : compile cas fuel s = .ok te id st out) : ∃ e c e', convStmt s [] = some (.ok e, c) ∧
      reduce fuel e = .ok e' ∧ Compiled e' te st id ∧ st.emitIds fuel id = some (.ok out) := by
  unfold compile at h
  split at h
  · cases h
  · cases h
  · rename_i e c hc
    split at h
    · cases h
    · cases h
    · cases h
    · rename_i e' hr
      split at h
      · cases h
      · cases h
      · cases h
      · rename_i te' hi
        split at h
        · cases h
        · rename_i id' st' hg
          split at h
          · cases h
          · cases h
          · rename_i out' he
            cases h
            exact ⟨e, c, e', hc, hr, ⟨⟨fuel, hi⟩, cas, hg⟩, he⟩

/-- The languages a program can mean as a whole (`Verif/Ast/Denote.lean`; lexical scoping is that of
`NCore.eval`). -/
def Stmt.Means (s : Stmt) (L : Lang) : Prop :=
  ∃ n, flatStmt s = some n ∧ n.eval meansAlg (fun _ _ => False) [] .gram L

/-! ## Example

`let opt x = _ | x; let list f sep = !(/l/ f (sep . l)); match list (/t/ "a" . opt t) ",";`: a grammar
with a function as parameter. -/

private def idn (s : String) : Ident := ⟨false, s, 0⟩
private def alt1 (l : List Call) : Alt := .mk 0 [(.mk 0 (.mk 0 (l.map fun c => (c, 0))) none, 0)]
private def altN (l : List Call) : Alt := .mk 0 (l.map fun c => (.mk 0 (.mk 0 [(c, 0)]) none, 0))
private def v (s : String) : Term := .ident (idn s)
private def q (s : String) : Term := .lit 0 s.toList
private def call (l : List Term) : Call := .mk 0 l

/-- The program above. -/
def exPipeline : Stmt :=
  .letS 0 (idn "opt") [idn "x"] (.alt (altN [call [.eps 0], call [v "x"]]))
    (.letS 0 (idn "list") [idn "f", idn "sep"]
      (.alt (alt1 [call [.fix 0 (.parens (.lam 0 [idn "l"]
        (alt1 [call [v "f", .parens (.alt (alt1 [call [v "sep"], call [v "l"]]))]])))]]))
      (.goal 0 (.alt (alt1 [call [v "list",
        .parens (.lam 0 [idn "t"] (alt1 [call [q "a"], call [v "opt", v "t"]])), q ","]]))))

private def ccas : Casing := ⟨some, some⟩

private theorem exPipeline_ok : ∃ te id st out, compile ccas 20 exPipeline = .ok te id st out ∧ NoSharingConflict te ∧
    ∃ t, Parses st id "a,a,a".toList (.ok t) :=
  ⟨_, _, _, _, rfl, TE.shareSafe_sound (by decide), _, by simp, 40, rfl⟩

/-! ## Fuel -/

theorem Out.bind_congr_ne {ε α β : Type} {x : Out ε α} {f g : α → Out ε β} (h : x.bind f ≠ .oof)
    (hfg : ∀ a, f a ≠ .oof → g a = f a) : x.bind g = x.bind f := by
  cases x with
  | ok a => exact hfg a h
  | _ => rfl

/-- More fuel does not change a result. -/
theorem reduce_succ (n : Nat) : ∀ e, reduce n e ≠ .oof → reduce (n + 1) e = reduce n e := by
  induction n with
  | zero => intro e h; exact absurd rfl h
  | succ n ih =>
    intro e h
    cases e with
    | eps i => rfl
    | lit i s => rfl
    | cat i f r =>
      rw [reduce] at h
      rw [reduce, reduce, ih f (Out.bind_ne_oof h)]
      exact Out.bind_congr_ne h fun a ha => by rw [mapP_mono ih r (Out.bind_ne_oof ha)]
    | alt i f r =>
      rw [reduce] at h
      rw [reduce, reduce, ih f (Out.bind_ne_oof h)]
      exact Out.bind_congr_ne h fun a ha => by rw [mapP_mono ih r (Out.bind_ne_oof ha)]
    | fix i b =>
      rw [reduce] at h
      rw [reduce, reduce, ih b (Out.bind_ne_oof h)]
      refine Out.bind_congr_ne h fun a ha => ?_
      cases a with
      | lam j ps c => simp only at ha ⊢; rw [ih c (Out.bind_ne_oof ha)]
      | _ => rfl
    | var i k => rfl
    | call i on args =>
      rw [reduce] at h
      rw [reduce, reduce, ih on (Out.bind_ne_oof h)]
      refine Out.bind_congr_ne h fun a ha => ?_
      cases a with
      | lam j ps c =>
        simp only at ha ⊢
        split at ha
        · rename_i hk; rw [if_pos hk]; rw [if_pos hk]
        · rename_i hk
          rw [if_neg hk, if_neg hk]
          exact Out.bind_congr_ne ha fun o ho => by rw [ih o (Out.bind_ne_oof ho)]
      | _ => rfl
    | lam i ps b => rfl
    | letE i nm b c =>
      rw [reduce] at h
      rw [reduce, reduce]
      exact Out.bind_congr_ne h fun o ho => by rw [ih o (Out.bind_ne_oof ho)]

theorem reduce_mono {n m : Nat} (hnm : n ≤ m) (e : NE) (h : reduce n e ≠ .oof) : reduce m e = reduce n e := by
  induction hnm with
  | refl => rfl
  | step _ ih => rw [reduce_succ _ _ (by rw [ih]; exact h), ih]

theorem emitLoop_mono {data : List Entry} : ∀ {n m : Nat}, n ≤ m → ∀ {todo completed o : List Nat}
    {r : Except GenPanic (List Nat)}, emitLoop data n todo completed o = some r → emitLoop data m todo completed o = some r := by
  intro n
  induction n with
  | zero =>
    intro m _ todo completed o r h
    cases todo with
    | nil => cases m <;> simpa only [emitLoop] using h
    | cons a l => simp [emitLoop] at h
  | succ n ih =>
    intro m hm todo completed o r h
    cases todo with
    | nil => cases m <;> simpa only [emitLoop] using h
    | cons a l =>
      cases m with
      | zero => omega
      | succ m =>
        simp only [emitLoop] at h ⊢
        split at h
        · exact h
        · exact ih (by omega) h

theorem emitLoop_det {data : List Entry} {n m : Nat} {todo completed o : List Nat} {r r' : Except GenPanic (List Nat)}
    (h : emitLoop data n todo completed o = some r) (h' : emitLoop data m todo completed o = some r') : r = r' := by
  have h1 := emitLoop_mono (Nat.le_max_left n m) h
  have h2 := emitLoop_mono (Nat.le_max_right n m) h'
  rw [h1] at h2
  cases h2
  rfl

/-! ## Theorems -/

/-- **C43.** If all stages succeed, the generated parser accepts exactly the strings of the language of
the reduced program, which was obtained from the program by contracting calls and lets, and the
emitted program contains every generated type once. -/
theorem C43_accepts_reduced_program {cas : Casing} {fuel : Nat} {s : Stmt} {te : TE} {id : Nat} {st : BState}
    {out : List Nat} (h : compile cas fuel s = .ok te id st out) (hns : NoSharingConflict te) :
    ∃ (e : NE) (c : Ctx) (e' : NE) (g : Gram), convStmt s [] = some (.ok e, c) ∧ Core.Steps e.erase e'.erase ∧ e'.grammar = some g ∧
      (∀ text, (∃ t, Parses st id text (.ok t)) ↔ g.language text) ∧
      out.Nodup ∧ ∀ j, j ∈ out ↔ j < st.data.length := by
  obtain ⟨e, c, e', h1, h2, h3, h4⟩ := compile_ok h
  obtain ⟨g, hg, h5⟩ := C30_accepts_language h3 hns
  obtain ⟨cas', hc⟩ := h3.code
  obtain ⟨out', h6, h7, h8, -⟩ := C38_emits_everything_once hc
  have : out' = out := by
    have := emitLoop_det h6 h4
    cases this
    rfl
  subst this
  exact ⟨e, c, e', g, h1, C17_reduce_steps _ _ _ h2, hg, h5, h7, h8⟩

/-- **C43** (meaning of the source). If all stages succeed and the program means the language `L`,
with calls applying functions, identifiers lexically scoped and `!` the least fix point, then the
generated parser accepts exactly the strings of `L`. -/
theorem C43_accepts_source_meaning {cas : Casing} {fuel : Nat} {s : Stmt} {te : TE} {id : Nat} {st : BState}
    {out : List Nat} (h : compile cas fuel s = .ok te id st out) (hns : NoSharingConflict te) (L : Lang)
    (hL : s.Means L) (text : List Char) : (∃ t, Parses st id text (.ok t)) ↔ L text := by
  obtain ⟨e, c, e', h1, h2, h3, -⟩ := compile_ok h
  obtain ⟨g, hg, h5⟩ := C30_accepts_language h3 hns
  obtain ⟨n, hn, hL⟩ := hL
  rw [← C11_program_meaning s n hn e c h1 meansAlg (fun _ _ => False)] at hL
  have hL := (C17_reduce_steps _ _ _ h2).means _ _ _ hL
  have := gram_means e'.erase g hg (fun _ _ _ => False) (fun _ _ => False) (fun _ _ hX => hX.elim) L hL
  rw [h5 text, this]
  exact Iff.rfl

/-- **C43** (existence). Programs that are simply typed as a grammar mean a language. -/
theorem C43_simply_typed_means (s : Stmt) (e : NE) (c : Ctx) (hc : convStmt s [] = some (.ok e, c))
    (ht : HasSTy [] e.erase .gram) : ∃ L, s.Means L := by
  obtain ⟨L, hL⟩ := ht.means (fun _ _ _ => False) (by simp)
  obtain ⟨n, hn, -⟩ := (C10_convert_succeeds_iff s).2.1 ⟨e, c, hc⟩
  exact ⟨L, n, hn, by rw [← C11_program_meaning s n hn e c hc meansAlg (fun _ _ => False)]; exact hL⟩

/-- **C43** (termination). On programs that are simply typed as a grammar the compiler ends, and from
then on the outcome does not depend on the fuel of the model. -/
theorem C43_simply_typed_compiles (cas : Casing) (s : Stmt) (e : NE) (c : Ctx) (hc : convStmt s [] = some (.ok e, c))
    (ht : HasSTy [] e.erase .gram) : ∃ (N : Nat) (r : Compile), r ≠ .oof ∧ ∀ fuel, N ≤ fuel → compile cas fuel s = r := by
  obtain ⟨n, e', hr⟩ := C21_simply_typed_reduces_partial e [] .gram ht (by simp)
  obtain ⟨N, r, hr2, hi⟩ := C22_inference_terminates e' ⟨[], []⟩ TCtx.Built.default
  have hred : ∀ m, n ≤ m → reduce m e = .ok e' := fun m hm => by
    rw [reduce_mono hm e (by rw [hr]; simp), hr]
  rcases hr2 with ⟨te, rfl⟩ | ⟨err, rfl⟩
  · cases hg : gen cas te {} with
    | error p =>
      refine ⟨max n N, .panic, by simp, fun fuel hf => ?_⟩
      simp only [compile, hc, hred fuel (by omega), hi fuel (by omega), hg]
    | ok p =>
      obtain ⟨id, st⟩ := p
      obtain ⟨out, h6, -⟩ := C38_emits_everything_once hg
      refine ⟨max (max n N) (st.data.length + 1), .ok te id st out, by simp, fun fuel hf => ?_⟩
      have he : st.emitIds fuel id = some (.ok out) := emitLoop_mono (by omega) h6
      simp only [compile, hc, hred fuel (by omega), hi fuel (by omega), hg, he]
  · refine ⟨max n N, .typing err, by simp, fun fuel hf => ?_⟩
    simp only [compile, hc, hred fuel (by omega), hi fuel (by omega)]

/-- The example has a meaning. -/
example : ∃ L, exPipeline.Means L := by
  refine C43_simply_typed_means exPipeline _ _ rfl ?_
  show HasSTy [] (.letE (.lam 1 (.alt [.eps, .var 0]))
    (.letE (.lam 2 (.fix (.lam 1 (.call (.var 2) [.cat [.var 1, .var 0]]))))
      (.call (.var 0) [.lam 1 (.cat [.lit ['a'], .call (.var 2) [.var 0]]), .lit [',']]))) .gram
  have h1 : HasSTy [] (.lam 1 (.alt [.eps, .var 0])) (.fn [.gram] .gram) := by
    refine .lam [] _ [.gram] .gram (.alt _ _ ?_)
    simp only [List.mem_cons, List.not_mem_nil, or_false, forall_eq_or_imp, forall_eq]
    exact ⟨.eps _, .var _ 0 _ rfl⟩
  have h2 : HasSTy [.fn [.gram] .gram] (.lam 2 (.fix (.lam 1 (.call (.var 2) [.cat [.var 1, .var 0]]))))
      (.fn [.fn [.gram] .gram, .gram] .gram) := by
    refine .lam _ _ [.fn [.gram] .gram, .gram] .gram (.fix _ _ (.lam _ _ [.gram] .gram ?_))
    refine .call _ _ _ [.gram] _ (.var _ 2 _ rfl) rfl ?_
    simp only [List.zip_cons_cons, List.zip_nil_left, List.mem_cons, List.not_mem_nil, or_false, forall_eq]
    refine .cat _ _ ?_
    simp only [List.mem_cons, List.not_mem_nil, or_false, forall_eq_or_imp, forall_eq]
    exact ⟨.var _ 1 _ rfl, .var _ 0 _ rfl⟩
  refine .letE [] _ _ _ _ h1 (.letE _ _ _ _ _ h2 (.call _ _ _ [.fn [.gram] .gram, .gram] _ (.var _ 0 _ rfl) rfl ?_))
  simp only [List.zip_cons_cons, List.zip_nil_left, List.mem_cons, List.not_mem_nil, or_false, forall_eq_or_imp,
    forall_eq]
  refine ⟨.lam _ _ [.gram] .gram (.cat _ _ ?_), .lit _ _⟩
  simp only [List.mem_cons, List.not_mem_nil, or_false, forall_eq_or_imp, forall_eq]
  refine ⟨.lit _ _, .call _ _ _ [.gram] _ (.var _ 2 _ rfl) rfl ?_⟩
  simp only [List.zip_cons_cons, List.zip_nil_left, List.mem_cons, List.not_mem_nil, or_false, forall_eq]
  exact .var _ 0 _ rfl

example : ∃ te id st out, compile ccas 20 exPipeline = .ok te id st out ∧ NoSharingConflict te ∧
    ∃ t, Parses st id "a,a,a".toList (.ok t) := exPipeline_ok

end Chomp
