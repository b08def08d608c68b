import Verif.Props.EndToEnd
import Verif.Props.Shared
import Verif.Nibble.Syntax

/-!
# Grammars in the repository

The grammars in `/repo` are compiled by the model inside Lean's kernel, so that the theorems about
generated parsers apply to them.  The resulting tables are compared with the names that the Rust code in
`/repo` uses for the generated types, fields and variants (that code only compiles if the real backend
generates these names), which ties the model of the backend to the real one.
-/

namespace Chomp

/-- The words of an identifier: split at underscores and between a lower case and an upper case letter. -/
def identWords : List Char → List Char → List (List Char)
  | [], cur => if cur.isEmpty then [] else [cur.reverse]
  | c :: r, cur =>
    if c = '_' then (if cur.isEmpty then [] else [cur.reverse]) ++ identWords r []
    else
      match cur with
      | p :: _ => if p.isLower && c.isUpper then cur.reverse :: identWords r [c] else identWords r (c :: cur)
      | [] => identWords r [c]

/-- First letter in upper case, the others in lower case. -/
def capitalize : List Char → List Char
  | [] => []
  | c :: r => c.toUpper :: r.map Char.toLower

/-- `to_camel_case` and `to_snake_case` of the crate `heck` (not in `/repo`), for the ASCII identifiers that occur
in the grammars of the repository (the rule of `heck` for runs of upper case letters followed by a lower
case one is left out: there are none).  Used for concrete grammars only, see `Casing`. -/
def heckCasing : Casing where
  camel s := some (String.ofList ((identWords s.toList []).map capitalize).flatten)
  snake s := some (String.ofList (List.intercalate ['_'] ((identWords s.toList []).map (·.map Char.toLower))))

/-- The pipeline from tokens to the table: `chomp-macro/src/lib.rs:17-42`. -/
def compileToks (fuel : Nat) (ts : List Tok) : Option (TE × BState) :=
  match parseProgram ts with
  | .ok s =>
    match compile heckCasing fuel s with
    | .ok te 0 st _ => some (te, st)
    | _ => none
  | _ => none

/-- A generated type without the types of the alternatives. -/
def NodeF.shape {α : Type} : NodeF α → NodeF α
  | .alt _ l => .alt [] l
  | n => n

/-- What a table of types says apart from the types of the alternatives. -/
def BState.table (s : BState) : List (String × NodeF Nat × List String) :=
  s.data.map fun e => (e.name, e.node.shape, e.fields)

/-- Look up a type in a table. -/
def tableStep (tbl : List (String × NodeF Nat × List String)) (i : Nat) : NodeF Nat :=
  match tbl[i]? with
  | some (_, n, _) => n
  | none => .bad

mutual
theorem Value.shape_congr {α : Type} {f g : α → NodeF α} (h : ∀ a, (f a).shape = (g a).shape) :
    ∀ {a : α} {t : Tree}, Value f a t → Value g a t
  | _, _, .eps a h1 => by
    have h2 := h a
    rw [h1] at h2
    cases h3 : g a <;> rw [h3] at h2 <;> cases h2
    exact .eps a h3
  | _, _, .lit a s h1 => by
    have h2 := h a
    rw [h1] at h2
    cases h3 : g a <;> rw [h3] at h2 <;> cases h2
    exact .lit a s h3
  | _, _, .cat a l ts h1 h4 => by
    have h5 := ValueL.shape_congr h h4
    have h2 := h a
    rw [h1] at h2
    cases h3 : g a <;> rw [h3] at h2 <;> cases h2
    exact .cat a l ts h3 h5
  | _, _, .alt a tys l k b t h1 h4 h5 => by
    have h6 := Value.shape_congr h h5
    have h2 := h a
    rw [h1] at h2
    cases h3 : g a <;> rw [h3] at h2 <;> cases h2
    exact .alt a _ l k b t h3 h4 h6
  | _, _, .alias a b t h1 h4 => by
    have h5 := Value.shape_congr h h4
    have h2 := h a
    rw [h1] at h2
    cases h3 : g a <;> rw [h3] at h2 <;> cases h2
    exact .alias a b t h3 h5
  | _, _, .box a b t h1 h4 => by
    have h5 := Value.shape_congr h h4
    have h2 := h a
    rw [h1] at h2
    cases h3 : g a <;> rw [h3] at h2 <;> cases h2
    exact .box a b t h3 h5
theorem ValueL.shape_congr {α : Type} {f g : α → NodeF α} (h : ∀ a, (f a).shape = (g a).shape) :
    ∀ {l : List α} {ts : List Tree}, ValueL f l ts → ValueL g l ts
  | _, _, .nil => .nil
  | _, _, .cons a l t ts h1 h2 => .cons a l t ts (Value.shape_congr h h1) (ValueL.shape_congr h h2)
end

@[simp] theorem NodeF.shape_shape {α : Type} (n : NodeF α) : n.shape.shape = n.shape := by cases n <;> rfl

theorem BState.tableStep_eq (s : BState) (i : Nat) : tableStep s.table i = (s.step i).shape := by
  unfold tableStep BState.table BState.step
  rw [List.getElem?_map]
  cases s.data[i]? <;> rfl

theorem BState.value_table (s : BState) (i : Nat) (t : Tree) : Value s.step i t ↔ Value (tableStep s.table) i t :=
  ⟨Value.shape_congr fun a => by rw [s.tableStep_eq]; simp, Value.shape_congr fun a => by rw [s.tableStep_eq]; simp⟩

/-- A value of a type, by the definition of the type. -/
def ValueAt (tbl : List (String × NodeF Nat × List String)) (n : NodeF Nat) (t : Tree) : Prop :=
  match n with
  | .eps => t = .eps
  | .lit s => t = .lit s
  | .cat l => ∃ ts, t = .cat ts ∧ ValueL (tableStep tbl) l ts
  | .alt _ l => ∃ k b t', t = .alt k t' ∧ l[k]? = some b ∧ Value (tableStep tbl) b t'
  | .alias b => Value (tableStep tbl) b t
  | .box b => ∃ t', t = .box t' ∧ Value (tableStep tbl) b t'
  | .bad => False

theorem value_iff (tbl : List (String × NodeF Nat × List String)) (a : Nat) (t : Tree) :
    Value (tableStep tbl) a t ↔ ValueAt tbl (tableStep tbl a) t := by
  constructor
  · intro h
    cases h with
    | eps _ h => rw [h]; rfl
    | lit _ _ h => rw [h]; rfl
    | cat _ _ _ h h1 => rw [h]; exact ⟨_, rfl, h1⟩
    | alt _ _ _ _ _ _ h h1 h2 => rw [h]; exact ⟨_, _, _, rfl, h1, h2⟩
    | alias _ _ _ h h1 => rw [h]; exact h1
    | box _ _ _ h h1 => rw [h]; exact ⟨_, rfl, h1⟩
  · intro h
    cases hs : tableStep tbl a with
    | eps => rw [hs] at h; cases h; exact .eps _ hs
    | lit s => rw [hs] at h; cases h; exact .lit _ _ hs
    | cat l => rw [hs] at h; obtain ⟨ts, rfl, h1⟩ := h; exact .cat _ _ _ hs h1
    | alt tys l => rw [hs] at h; obtain ⟨k, b, t', rfl, h1, h2⟩ := h; exact .alt _ _ _ _ _ _ hs h1 h2
    | alias b => rw [hs] at h; exact .alias _ _ _ hs h
    | box b => rw [hs] at h; obtain ⟨t', rfl, h1⟩ := h; exact .box _ _ _ hs h1
    | bad => rw [hs] at h; cases h

theorem valueL_nil {α : Type} {f : α → NodeF α} {ts : List Tree} : ValueL f [] ts ↔ ts = [] :=
  ⟨fun h => by cases h; rfl, fun h => by rw [h]; exact .nil⟩

theorem valueL_cons {α : Type} {f : α → NodeF α} {a : α} {l : List α} {ts : List Tree} :
    ValueL f (a :: l) ts ↔ ∃ t ts', ts = t :: ts' ∧ Value f a t ∧ ValueL f l ts' :=
  ⟨fun h => by cases h with | cons _ _ t ts h1 h2 => exact ⟨t, ts, rfl, h1, h2⟩,
   fun ⟨_, _, h, h1, h2⟩ => by rw [h]; exact .cons _ _ _ _ h1 h2⟩

theorem compile_mono {cas : Casing} {n m : Nat} (hnm : n ≤ m) (s : Stmt) (h : compile cas n s ≠ .oof) :
    compile cas m s = compile cas n s := by
  unfold compile at h ⊢
  cases hc : convStmt s [] with
  | none => rfl
  | some p =>
    obtain ⟨r, c⟩ := p
    cases r with
    | error e => rfl
    | ok e =>
      rw [hc] at h
      simp only at h ⊢
      have hr : reduce n e ≠ .oof := by intro hr; rw [hr] at h; exact h rfl
      rw [reduce_mono hnm e hr]
      cases hr' : reduce n e with
      | err e => rfl
      | panic => rfl
      | oof => rfl
      | ok e' =>
        rw [hr'] at h
        simp only at h ⊢
        have hi : (inferTop n e' ⟨[], []⟩).1 ≠ .oof := by intro hi; rw [hi] at h; exact h rfl
        have hi2 : inferTop m e' ⟨[], []⟩ = inferTop n e' ⟨[], []⟩ := infer_fuel hnm _ _ _ hi
        rw [hi2]
        cases hi' : (inferTop n e' ⟨[], []⟩).1 with
        | err e => rfl
        | panic => rfl
        | oof => rfl
        | ok te =>
          rw [hi'] at h
          simp only at h ⊢
          cases hg : gen cas te {} with
          | error e => rfl
          | ok p =>
            obtain ⟨id, st⟩ := p
            rw [hg] at h
            simp only at h ⊢
            cases he : st.emitIds n id with
            | none => rw [he] at h; exact absurd rfl h
            | some r =>
              have : st.emitIds m id = some r := emitLoop_mono hnm he
              rw [this]

/-- In a build where the compiler ends (some fuel of the model suffices), the parser that the backend generates for the
grammar with the tokens `ts` is `st`; its type `Ast` is type 0. -/
def Generates (ts : List Tok) (st : BState) : Prop := ∃ fuel te, compileToks fuel ts = some (te, st)

theorem compileToks_some {fuel : Nat} {ts : List Tok} {te : TE} {st : BState} (h : compileToks fuel ts = some (te, st)) :
    ∃ s out, parseProgram ts = .ok s ∧ compile heckCasing fuel s = .ok te 0 st out := by
  unfold compileToks at h
  split at h
  · rename_i s hs
    split at h
    · rename_i te' st' out hcomp
      cases h
      exact ⟨s, out, hs, hcomp⟩
    · cases h
  · cases h

theorem Generates.unique {ts : List Tok} {fuel : Nat} {te : TE} {st st' : BState} (h : compileToks fuel ts = some (te, st))
    (h' : Generates ts st') : st' = st := by
  obtain ⟨k, te', h'⟩ := h'
  obtain ⟨s, out, h1, h2⟩ := compileToks_some h
  obtain ⟨s', out', h3, h4⟩ := compileToks_some h'
  rw [h1] at h3
  cases h3
  have e1 := compile_mono (Nat.le_max_left fuel k) s (by rw [h2]; simp : compile heckCasing fuel s ≠ .oof)
  have e2 := compile_mono (Nat.le_max_right fuel k) s (by rw [h4]; simp : compile heckCasing k s ≠ .oof)
  rw [h2] at e1
  rw [h4, e1] at e2
  cases e2
  rfl

/-- No sharing conflict, and literals whose characters but the last are ASCII (see C33). -/
def TE.simple (te : TE) : Bool := te.shareSafe && te.lits.all fun l => l.dropLast.all fun c => c.utf8Size == 1

theorem TE.simple_lits {te : TE} (h : te.simple = true) : ∀ l ∈ te.lits, AsciiButLast l := by
  intro l hl c hc
  unfold TE.simple at h
  rw [Bool.and_eq_true, List.all_eq_true] at h
  have := h.2 l hl
  rw [List.all_eq_true] at this
  simpa using this c hc

/-- A grammar whose tokens compile (in the model) to the given table: what the theorems about generated
parsers say for it. -/
theorem generates_table {fuel : Nat} {ts : List Tok} {tbl : List (String × NodeF Nat × List String)}
    (h : (compileToks fuel ts).map (fun p => (p.1.simple, p.2.table)) = some (true, tbl)) :
    (∃ st, Generates ts st) ∧ ∀ st, Generates ts st → st.table = tbl ∧
      (∀ text t, Parses st 0 text (.ok t) ↔ Value (tableStep tbl) 0 t ∧ t.display = text) ∧
      ∀ text, (∃ t, Parses st 0 text (.ok t)) ∨ ∃ err, Parses st 0 text (.err err) := by
  cases hc : compileToks fuel ts with
  | none => rw [hc] at h; cases h
  | some p =>
    obtain ⟨te, st⟩ := p
    rw [hc] at h
    simp only [Option.map_some, Option.some.injEq, Prod.mk.injEq] at h
    obtain ⟨h1, rfl⟩ := h
    refine ⟨⟨st, fuel, te, hc⟩, fun st' hst => ?_⟩
    have := hst.unique hc
    subst this
    obtain ⟨s, out, hs, hcomp⟩ := compileToks_some hc
    obtain ⟨e, c, e', h2, h3, h4, h5⟩ := compile_ok hcomp
    have hsh : te.shareSafe = true := by
      unfold TE.simple at h1
      rw [Bool.and_eq_true] at h1
      exact h1.1
    have hns := TE.shareSafe_sound hsh
    refine ⟨rfl, fun text t => ?_, C33_parse_returns h4 (TE.simple_lits h1)⟩
    rw [← st'.value_table]
    constructor
    · intro hp
      have hd := C31_parse_display _ _ _ _ hp
      rw [C30_parse_tree h4 hns] at hp
      exact ⟨(C32_values_are_trees h4 hns t).2 hp.1, hd⟩
    · rintro ⟨hv, rfl⟩
      exact C32_parse_of_display h4 t hv

end Chomp
