import Verif.Props.TokenNames
import Verif.Props.Driver

/-! # C83: what the program `chomp` prints -/

namespace Chomp

/-- All stages of the compiler, with the backend as it is written: conversion, reduction, type inference, and the tokens. -/
def CompilesTo (doc : List Char → List Char) (cas : Casing) (s : Stmt) (ts : List RTok) : Prop :=
  ∃ e c e' te, convStmt s [] = some (.ok e, c) ∧ (∃ n, reduce n e = .ok e') ∧ (∃ n, (inferTop n e' ⟨[], []⟩).1 = .ok te) ∧ Writes doc cas te ts

theorem compilesTo_iff {doc : List Char → List Char} {cas : Casing} {s : Stmt} {ts : List RTok} :
    CompilesTo doc cas s ts ↔ ∃ fuel te id st out, compile cas fuel s = .ok te id st out ∧ ts = (st.program none id out).toks doc := by
  constructor
  · rintro ⟨e, c, e', te, h1, ⟨n1, h2⟩, ⟨n2, h3⟩, hw⟩
    obtain ⟨st, id, n3, out, h4, h5, rfl⟩ := writes_iff.1 hw
    refine ⟨max n1 (max n2 n3), te, id, st, out, ?_, rfl⟩
    have r1 : reduce (max n1 (max n2 n3)) e = .ok e' := by
      rw [reduce_mono (Nat.le_max_left _ _) e (by rw [h2]; simp)]; exact h2
    have r2 : (inferTop (max n1 (max n2 n3)) e' ⟨[], []⟩).1 = .ok te := by
      have : inferTop (max n1 (max n2 n3)) e' ⟨[], []⟩ = inferTop n2 e' ⟨[], []⟩ :=
        infer_fuel (by omega) _ _ _ (show (inferTop n2 e' ⟨[], []⟩).1 ≠ .oof by rw [h3]; simp)
      rw [this]; exact h3
    have r3 : st.emitIds (max n1 (max n2 n3)) id = some (.ok out) := emitLoop_mono (by omega) h5
    simp only [compile_eq, backEnd, h1, r1, r2, h4, r3]
  · rintro ⟨fuel, te, id, st, out, h, rfl⟩
    obtain ⟨e, c, e', h1, h2, h3⟩ := backEnd_ok (by rw [← compile_eq]; exact h)
    obtain ⟨n, out', h4, h5⟩ := h3.emission
    refine ⟨e, c, e', te, h1, ⟨fuel, h2⟩, h3.typed, writes_iff.2 ⟨st, id, n, out', h3.code, h4, by rw [h5]⟩⟩

/-- **C83** (one sequence of tokens). A program compiles to at most one sequence of tokens. -/
theorem C83_compiles_to_one {doc : List Char → List Char} {cas : Casing} {s : Stmt} {ts ts' : List RTok} (h : CompilesTo doc cas s ts)
    (h' : CompilesTo doc cas s ts') : ts = ts' := by
  obtain ⟨n, te, id, st, out, h1, rfl⟩ := compilesTo_iff.1 h
  obtain ⟨m, te', id', st', out', h1', rfl⟩ := compilesTo_iff.1 h'
  have e1 := compile_mono (Nat.le_max_left n m) s (by rw [h1]; simp)
  have e2 := compile_mono (Nat.le_max_right n m) s (by rw [h1']; simp)
  rw [h1] at e1
  rw [e1, h1'] at e2
  cases e2
  rfl

/-- **C83** (what is printed). Let `w.print` print the tokens of a program with `shown` (`{:#}` of a `TokenStream`), the doc
comments being `doc`.  `chomp` ends with code 0 and the output `o` exactly if the input is a program that compiles to some
tokens, and `o` is their text. -/
theorem C83_chomp_prints (w : World) (hw : w.Works) (doc : List Char → List Char) (shown : List RTok → List Char)
    (hp : ∀ p : RProg, w.print p = shown (p.toks doc)) (stdin : Except (List Char) (List Char)) (o : List Char) :
    (∃ fuel, w.chomp fuel stdin = some ⟨o, [], 0⟩) ↔ ∃ s ts, w.Reads stdin s ∧ CompilesTo doc w.cas s ts ∧ o = shown ts := by
  constructor
  · rintro ⟨fuel, h⟩
    obtain ⟨s, te, id, st, out, h1, h2, h3, -⟩ := (C67_success w hw fuel stdin o []).1 h
    exact ⟨s, _, h1, compilesTo_iff.2 ⟨fuel, te, id, st, out, h2, rfl⟩, by rw [h3, hp]⟩
  · rintro ⟨s, ts, h1, h2, rfl⟩
    obtain ⟨fuel, te, id, st, out, h3, rfl⟩ := compilesTo_iff.1 h2
    exact ⟨fuel, (C67_success w hw fuel stdin _ []).2 ⟨s, te, id, st, out, h1, h3, (hp _).symm, rfl⟩⟩

/-- **C83** (the printed text is the parser). Let also `lex` read the printed tokens back, as the lexer of the Rust compiler does.
If `chomp` succeeds with the output `o`, then `o` is the text of a program; if that compiles, its `Ast::parse_str` returns `v`
exactly if `v` is of the type `Ast` and displayed as the input, and without a sharing conflict (C36) it accepts exactly
the words of the grammar that the input of `chomp` describes. -/
theorem C83_printed_text_parses (w : World) (hw : w.Works) (doc : List Char → List Char) (shown : List RTok → List Char)
    (hp : ∀ p : RProg, w.print p = shown (p.toks doc)) (lex : List Char → Option (List RTok))
    (hlex : ∀ p : RProg, lex (shown (p.toks doc)) = some (p.toks doc)) {fuel : Nat} {stdin : Except (List Char) (List Char)} {o : List Char}
    (h : w.chomp fuel stdin = some ⟨o, [], 0⟩) :
    ∃ s e c e' te ts p, w.Reads stdin s ∧ convStmt s [] = some (.ok e, c) ∧ reduce fuel e = .ok e' ∧
      (∃ n, (inferTop n e' ⟨[], []⟩).1 = .ok te) ∧ lex o = some ts ∧ readProgram ts = some p ∧
      (p.Compiles → (∀ text v, p.Parses text (.ok v) ↔ v.HasType p astTy ∧ v.fmt p = some text) ∧
        (NoSharingConflict te → ∃ g, e'.grammar = some g ∧ ∀ text, (∃ v, p.Parses text (.ok v)) ↔ g.language text)) := by
  obtain ⟨s, te, id, st, out, h1, h2, h3, -⟩ := (C67_success w hw fuel stdin o []).1 h
  obtain ⟨e, c, e', h4, h5, h6⟩ := backEnd_ok (by rw [← compile_eq]; exact h2)
  refine ⟨s, e, c, e', te, _, _, h1, h4, h5, h6.typed, ?_, readProgram_ok doc _ (program_armsOk st none id out), fun hc =>
    ⟨fun text v => C64_parse_iff h6 hc text v, fun hns => C64_accepts_language h6 hc hns⟩⟩
  rw [h3, hp, hlex]

/-! ## The assumptions can be met -/

/-- The characters of a token behind a mark each, and an end. -/
private def marked : List Char → List Char
  | [] => [';']
  | c :: l => 'x' :: c :: marked l

private def unmarked : List Char → Option (List Char × List Char)
  | ';' :: r => some ([], r)
  | 'x' :: c :: r => (unmarked r).map fun (l, r) => (c :: l, r)
  | _ => none

private theorem unmarked_marked : ∀ (l r : List Char), unmarked (marked l ++ r) = some (l, r)
  | [], r => rfl
  | c :: l, r => by simp only [marked, List.cons_append, unmarked, unmarked_marked l r]; rfl

private def showTok : RTok → List Char
  | .id s => 'i' :: marked s.toList
  | .op s => 'o' :: marked s.toList
  | .opn c => 'l' :: marked [c]
  | .cls c => 'r' :: marked [c]
  | .str s => 's' :: marked s
  | .chr c => 'c' :: marked [c]
  | .int n => 'n' :: marked (List.replicate n '1')

private def lexTok : List Char → Option (RTok × List Char)
  | 'i' :: r => (unmarked r).map fun (l, r) => (.id (String.ofList l), r)
  | 'o' :: r => (unmarked r).map fun (l, r) => (.op (String.ofList l), r)
  | 'l' :: r => (unmarked r).map fun (l, r) => (.opn (l.headD ' '), r)
  | 'r' :: r => (unmarked r).map fun (l, r) => (.cls (l.headD ' '), r)
  | 's' :: r => (unmarked r).map fun (l, r) => (.str l, r)
  | 'c' :: r => (unmarked r).map fun (l, r) => (.chr (l.headD ' '), r)
  | 'n' :: r => (unmarked r).map fun (l, r) => (.int l.length, r)
  | _ => none

private theorem lexTok_showTok (t : RTok) (r : List Char) : lexTok (showTok t ++ r) = some (t, r) := by
  cases t <;> simp [showTok, lexTok, unmarked_marked]

private def lexAll : Nat → List Char → Option (List RTok)
  | _, [] => some []
  | 0, _ => none
  | n + 1, r => (lexTok r).bind fun (t, r) => (lexAll n r).map (t :: ·)

private def showAll (ts : List RTok) : List Char := ts.flatMap showTok

private theorem lexAll_showAll : ∀ (ts : List RTok) (n : Nat), ts.length ≤ n → lexAll n (showAll ts) = some ts
  | [], n, _ => by cases n <;> rfl
  | t :: ts, n, h => by
    cases n with
    | zero => simp at h
    | succ n =>
      have h1 : showAll (t :: ts) = showTok t ++ showAll ts := by simp [showAll]
      have h2 : showTok t ++ showAll ts ≠ [] := by cases t <;> simp [showTok]
      rw [h1]
      have h3 : lexAll (n + 1) (showTok t ++ showAll ts) = (lexTok (showTok t ++ showAll ts)).bind fun (t, r) => (lexAll n r).map (t :: ·) := by
        cases h4 : showTok t ++ showAll ts with
        | nil => exact absurd h4 h2
        | cons a b => rfl
      rw [h3, lexTok_showTok, Option.bind_some]
      dsimp only
      rw [lexAll_showAll ts n (by simpa using h)]
      rfl

private theorem length_showAll : ∀ ts : List RTok, ts.length ≤ (showAll ts).length
  | [] => by simp
  | t :: ts => by
    have := length_showAll ts
    have h1 : showAll (t :: ts) = showTok t ++ showAll ts := by simp [showAll]
    have h2 : 1 ≤ (showTok t).length := by cases t <;> simp [showTok]
    rw [h1, List.length_append, List.length_cons]
    omega

private def xworld : World where
  cas := ⟨some, some⟩
  tokens := fun _ => .ok [.ident false "match", .str ['a'], .punct ';']
  synMessage := fun _ => []
  panicMessage := []
  print := fun p => showAll (p.toks id)
  plain := fun _ => true
  write := fun x => (x, none)

/-- There are ways to print tokens so that they can be read back, and a program that is printed. -/
example : (∀ p : RProg, (fun s => lexAll s.length s) (showAll (p.toks id)) = some (p.toks id)) ∧ xworld.Works ∧
    ∃ o, xworld.chomp 10 (.ok []) = some ⟨o, [], 0⟩ :=
  ⟨fun _ => lexAll_showAll _ _ (length_showAll _), fun _ => rfl, _, rfl⟩

end Chomp
