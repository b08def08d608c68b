import Verif.Lower.TokenSim
import Verif.Lower.TokenExact
import Verif.Props.Emitted

/-! # C83: the emitted tokens -/

namespace Chomp

/-- The backend as it is written (`Verif/Lower/TokenBackend.lean`), run on the typed expression `te`, writes the tokens `ts`;
`n` bounds the number of rounds of emission. -/
def Writes (doc : List Char → List Char) (cas : Casing) (te : TE) (ts : List RTok) : Prop :=
  ∃ id t n, genT doc cas te {} = .ok (id, t) ∧ t.emitCode n none id = some (.ok ts)

theorem render_empty (doc : List Char → List Char) : BState.render doc {} = {} := rfl

theorem genT_gen (doc : List Char → List Char) (cas : Casing) (te : TE) : genT doc cas te {} = rendered doc (gen cas te {}) := by
  have := genT_eq doc cas te {} .empty (by simp)
  rwa [render_empty] at this

theorem enumArms_ne (tys : List Ty) (parts : List String) : ∀ a ∈ enumArms tys parts, a.1 ≠ [] := by
  intro a ha
  unfold enumArms at ha
  obtain ⟨x, -, h⟩ := List.mem_filterMap.1 ha
  split at h
  · cases h
  · rename_i hx
    cases h
    intro h
    dsimp only at h
    rw [h] at hx
    simp at hx

theorem item_armsOk {s : BState} {e : Entry} {i : RItem} (h : s.item e = some i) : i.ArmsOk := by
  unfold BState.item at h
  split at h <;> try (cases h; done)
  · cases h; trivial
  · dsimp only at h
    split at h <;> cases h <;> trivial
  · cases h
    exact enumArms_ne _ _
  · cases h; trivial

theorem program_armsOk (s : BState) (name : Option Name) (id : Nat) (out : List Nat) : ∀ i ∈ s.program name id out, i.ArmsOk := by
  intro i hi
  unfold BState.program at hi
  rcases List.mem_append.1 hi with hi | hi
  · obtain ⟨j, -, h⟩ := List.mem_filterMap.1 hi
    obtain ⟨e, -, h⟩ := Option.bind_eq_some_iff.1 h
    exact item_armsOk h
  · rw [List.mem_singleton] at hi
    subst hi
    trivial

/-- What is written, in terms of the other model. -/
theorem writes_iff {doc : List Char → List Char} {cas : Casing} {te : TE} {ts : List RTok} :
    Writes doc cas te ts ↔ ∃ s id n out, gen cas te {} = .ok (id, s) ∧ s.emitIds n id = some (.ok out) ∧ ts = (s.program none id out).toks doc := by
  unfold Writes
  simp only [genT_gen]
  constructor
  · rintro ⟨id, t, n, h1, h2⟩
    obtain ⟨⟨id', s⟩, h3, h4⟩ := except_map_ok h1
    cases h4
    have hid := (gen_reach cas te _ _ _ h3 .empty (by simp)).1
    rw [emitCode_eq doc s n none hid] at h2
    obtain ⟨r, h5, h6⟩ := Option.map_eq_some_iff.1 h2
    obtain ⟨out, h7, h8⟩ := except_map_ok h6
    subst h7
    exact ⟨s, id', n, out, h3, h5, h8.symm⟩
  · rintro ⟨s, id, n, out, h1, h2, rfl⟩
    have hid := (gen_reach cas te _ _ _ h1 .empty (by simp)).1
    refine ⟨id, s.render doc, n, by rw [h1]; rfl, ?_⟩
    rw [emitCode_eq doc s n none hid, h2]
    rfl

/-- **C83** (the tokens are the program). If type inference accepts a program as `te` and the backend writes the
tokens `ts` for it, then `ts` can be read as Rust items, and these are the items of the program that C63 and C64
are about: nothing is missing, nothing is added, and no name written early has changed since. -/
theorem C83_tokens_read {doc : List Char → List Char} {cas : Casing} {e : NE} {te : TE} {ts : List RTok}
    (ht : ∃ n, (inferTop n e ⟨[], []⟩).1 = .ok te) (h : Writes doc cas te ts) :
    ∃ s id p, Emits cas e te s id p ∧ readProgram ts = some p := by
  obtain ⟨s, id, n, out, h1, h2, rfl⟩ := writes_iff.1 h
  exact ⟨s, id, s.program none id out, ⟨ht, h1, n, out, h2, rfl⟩, readProgram_ok doc _ (program_armsOk s none id out)⟩

/-- **C83** (and conversely). For every program that C63 and C64 speak of the backend writes tokens, and they are
read as this program. -/
theorem C83_every_program_written {cas : Casing} {e : NE} {te : TE} {s : BState} {id : Nat} {p : RProg} (h : Emits cas e te s id p)
    (doc : List Char → List Char) : ∃ ts, Writes doc cas te ts ∧ readProgram ts = some p := by
  obtain ⟨n, out, h1, rfl⟩ := h.emission
  exact ⟨_, writes_iff.2 ⟨s, id, n, out, h.code, h1, rfl⟩, readProgram_ok doc _ (program_armsOk s none id out)⟩

/-- **C83** (one outcome). Code generation ends with exactly one sequence of tokens, or it panics because a name cannot
be an identifier. -/
theorem C83_one_outcome {cas : Casing} {e : NE} {te : TE} (ht : ∃ n, (inferTop n e ⟨[], []⟩).1 = .ok te) (doc : List Char → List Char) :
    (∃ ts, Writes doc cas te ts ∧ ∀ ts', Writes doc cas te ts' → ts' = ts) ∨ genT doc cas te {} = .error .badName := by
  rw [genT_gen]
  cases hg : gen cas te {} with
  | error x =>
    right
    cases x with
    | badName => rfl
    | index =>
      obtain ⟨n, ht⟩ := ht
      exact absurd hg (C37_no_index_panic cas n e te ht)
  | ok x =>
    obtain ⟨id, s⟩ := x
    left
    obtain ⟨out, h1, -⟩ := C38_emits_everything_once hg
    refine ⟨_, writes_iff.2 ⟨s, id, _, out, hg, h1, rfl⟩, fun ts' h => ?_⟩
    obtain ⟨s', id', n, out', h2, h3, rfl⟩ := writes_iff.1 h
    rw [hg] at h2
    cases h2
    cases emitLoop_det h1 h3
    rfl

/-- **C83** (the reader reads nothing else). If tokens can be read as a program, they are `use ::chewed::*;` followed by the
tokens of the items, up to the texts of doc comments. -/
theorem C83_reader_exact {ts : List RTok} {p : RProg} (h : readProgram ts = some p) :
    ∃ docs, docs.length = p.length ∧ ts = R.use ++ docToks p docs := by
  unfold readProgram at h
  simp only [Option.bind_eq_bind] at h
  obtain ⟨t, h1, h2⟩ := Option.bind_eq_some_iff.1 h
  obtain ⟨ds, h3, h4⟩ := readItems_inv h2
  exact ⟨ds, h3, by rw [eat_inv h1, h4]⟩

/-- **C83** (doc comments do not matter). The same program with other doc comments is read in the same way. -/
theorem C83_docs_irrelevant {doc doc' : List Char → List Char} {cas : Casing} {te : TE} {ts ts' : List RTok} (h : Writes doc cas te ts)
    (h' : Writes doc' cas te ts') : readProgram ts = readProgram ts' ∧ readProgram ts ≠ none := by
  obtain ⟨s, id, n, out, h1, h2, rfl⟩ := writes_iff.1 h
  obtain ⟨s', id', n', out', h1', h2', rfl⟩ := writes_iff.1 h'
  rw [h1] at h1'
  cases h1'
  cases emitLoop_det h2 h2'
  rw [readProgram_ok doc _ (program_armsOk s none id out), readProgram_ok doc' _ (program_armsOk s none id out)]
  exact ⟨rfl, by simp⟩

/-- **C83** (never stale). What the table holds for a type when code generation has ended, name and definition, is what
would be written now, although it was written when the names of later types were not known. -/
theorem C83_never_stale {doc : List Char → List Char} {cas : Casing} {te : TE} {id : Nat} {t : TBackend}
    (h : genT doc cas te {} = .ok (id, t)) : ∃ s, gen cas te {} = .ok (id, s) ∧ t.data.length = s.data.length ∧
      ∀ (i : Nat) (e : Entry), s.data[i]? = some e →
        t.data[i]? = some ⟨(s.rty i).toks, match s.item e with | some it => it.toks doc | none => [], e.deps⟩ := by
  rw [genT_gen] at h
  obtain ⟨⟨id', s⟩, h3, h4⟩ := except_map_ok h
  cases h4
  refine ⟨s, h3, by simp [BState.render], fun i e he => ?_⟩
  rw [render_get, he, BState.rty_entryTy he]
  rfl

/-- **C83** (the whole way). Let type inference accept `e`, and let the backend write tokens for it.  Read as Rust, if
they compile, their `Ast::parse_str` returns `v` exactly if `v` is of the type `Ast` and is displayed as the input; and where
fix points are not shared wrongly (C36), it accepts exactly the words of the grammar. -/
theorem C83_tokens_parse {doc : List Char → List Char} {cas : Casing} {e : NE} {te : TE} {ts : List RTok}
    (ht : ∃ n, (inferTop n e ⟨[], []⟩).1 = .ok te) (h : Writes doc cas te ts) :
    ∃ p, readProgram ts = some p ∧ (p.Compiles → (∀ text v, p.Parses text (.ok v) ↔ v.HasType p astTy ∧ v.fmt p = some text) ∧
      (NoSharingConflict te → ∃ g, e.grammar = some g ∧ ∀ text, (∃ v, p.Parses text (.ok v)) ↔ g.language text)) := by
  obtain ⟨s, id, p, h1, h2⟩ := C83_tokens_read ht h
  exact ⟨p, h2, fun hc => ⟨fun text v => C64_parse_iff h1 hc text v, fun hns => C64_accepts_language h1 hc hns⟩⟩

/-! ## Delimiters -/

/-- The closing delimiter for an opening one. -/
def closing : Char → Char
  | '(' => ')'
  | '[' => ']'
  | _ => '}'

/-- TokReads tokens with a stack of delimiters that have to be closed. -/
def delims : List Char → List RTok → Option (List Char)
  | st, [] => some st
  | st, .opn c :: ts => delims (closing c :: st) ts
  | st, .cls c :: ts =>
    match st with
    | d :: st => if c = d then delims st ts else none
    | [] => none
  | st, _ :: ts => delims st ts

theorem delims_append : ∀ (a b : List RTok) (st : List Char), delims st (a ++ b) = (delims st a).bind fun st => delims st b
  | [], _, _ => rfl
  | .opn c :: a, b, st => by simp only [List.cons_append, delims]; exact delims_append a b _
  | .cls c :: a, b, st => by
    simp only [List.cons_append, delims]
    cases st with
    | nil => rfl
    | cons d st =>
      dsimp only
      split
      · exact delims_append a b _
      · rfl
  | .id _ :: a, b, st => by simp only [List.cons_append, delims]; exact delims_append a b _
  | .op _ :: a, b, st => by simp only [List.cons_append, delims]; exact delims_append a b _
  | .str _ :: a, b, st => by simp only [List.cons_append, delims]; exact delims_append a b _
  | .chr _ :: a, b, st => by simp only [List.cons_append, delims]; exact delims_append a b _
  | .int _ :: a, b, st => by simp only [List.cons_append, delims]; exact delims_append a b _

/-- The delimiters match. -/
def Bal (ts : List RTok) : Prop := ∀ st, delims st ts = some st

theorem bal_sep {s : String} : ∀ {l : List (List RTok)}, (∀ x ∈ l, Bal x) → Bal (sepToks (.op s) l)
  | [], _, _ => rfl
  | [x], h, st => h x (by simp) st
  | x :: y :: l, h, st => by
    have ih := bal_sep (s := s) (l := y :: l) (fun z hz => h z (List.mem_cons_of_mem _ hz)) st
    simp only [sepToks, delims_append, h x (by simp) st, Option.bind_some, delims] at ih ⊢
    exact ih

theorem bal_many : ∀ {l : List (List RTok)}, (∀ x ∈ l, Bal x) → Bal (manyToks l)
  | [], _, _ => rfl
  | x :: l, h, st => by
    simp only [manyToks, delims_append, h x (by simp) st, Option.bind_some]
    exact bal_many (fun z hz => h z (List.mem_cons_of_mem _ hz)) st

theorem bal_map {α : Type} {f : α → List RTok} {l : List α} (h : ∀ a, Bal (f a)) : ∀ x ∈ l.map f, Bal x := by
  intro x hx
  obtain ⟨a, -, rfl⟩ := List.mem_map.1 hx
  exact h a

theorem bal_ty : ∀ t : RTy, Bal t.toks
  | .path _, _ => rfl
  | .boxed t, st => by simp only [RTy.toks, delims_append, delims, Option.bind_some, bal_ty t st]

theorem bal_display {name : String} {body : List RTok} (h : Bal body) : Bal (displayToks name body) := by
  intro st
  simp only [displayToks, delims_append, Q.implDisplay, Q.fnFmt, Q.close, delims, Option.bind_some, h _]
  simp [closing]

theorem bal_parse {name : String} {body : List RTok} (h : Bal body) : Bal (parseToks name body) := by
  intro st
  simp only [parseToks, delims_append, Q.implParse, Q.fnTake, Q.close, delims, Option.bind_some, h _]
  simp [closing]

theorem bal_append {a b : List RTok} (ha : Bal a) (hb : Bal b) : Bal (a ++ b) := by
  intro st
  simp [delims_append, ha st, hb st]

theorem bal_lets (lets : List String) : Bal (letToks lets) :=
  bal_many (bal_map fun x st => by simp [Q.let_, Q.take, delims, closing])

theorem bal_arms (arms : List (List Char × String)) : Bal (armToks arms) :=
  bal_many (bal_map fun x st => by
    have h : Bal (someToks x.1) := bal_sep (bal_map fun c st => by simp [delims, closing])
    simp [delims_append, h st, Q.armOk, Q.armTake, delims, closing])

theorem bal_other (o : ROther) : Bal (otherToks o) := by
  intro st
  cases o with
  | take v => simp [otherToks, delims, Q.armOk, Q.armTake, closing]
  | fail l =>
    have h : Bal (sepToks (.op ",") (l.map fun c => [.chr c])) := bal_sep (bal_map fun c st => by simp [delims])
    simp [otherToks, Q.badBranch, Q.endOfStream, delims_append, delims, closing, h _]

theorem bal_item (doc : List Char → List Char) (i : RItem) : Bal (i.toks doc) := by
  cases i with
  | unit n text consume c =>
    have h1 : Bal (displayToks n (Q.write ++ [.str text] ++ [.cls ')'])) := bal_display fun st => by simp [Q.write, delims, closing]
    have h2 : Bal (parseToks n (Q.consume ++ [.str consume] ++ Q.mapUnit ++ [.id n] ++ [.cls ')'])) :=
      bal_parse fun st => by simp [Q.consume, Q.mapUnit, delims, closing]
    intro st
    cases c <;>
    · simp only [RItem.toks, litToks, delims_append, h1 _, h2 _, Q.doc, Q.docEnd, Q.derive, Q.pubStruct, Q.fromOpen, Q.fromLit, Q.toSelf, Q.close,
        delims, closing, Option.bind_some]
      try simp
  | named n fields shown lets build =>
    have h1 : Bal (sepToks (.op ",") ((fields.map fun f => (f.1, f.2.toks)).map fun f => [.id "pub"] ++ [.id f.1] ++ [.op ":"] ++ f.2)) := by
      rw [List.map_map]
      exact bal_sep (bal_map fun f st => by simp [delims, bal_ty f.2 st])
    have h2 : Bal (displayToks n (manyToks (shown.map fun x => Q.selfDot ++ [.id x] ++ Q.dotFmt) ++ Q.okUnit)) :=
      bal_display (bal_append (bal_many (bal_map fun x st => by simp [Q.selfDot, Q.dotFmt, delims, closing]))
        fun st => by simp [Q.okUnit, delims, closing])
    have h3 : Bal (sepToks (.op ",") (build.map fun b => [.id b.1] ++ [.op ":"] ++ [.id b.2])) := bal_sep (bal_map fun b st => by simp [delims])
    have h4 : Bal (parseToks n (letToks lets ++ Q.okNamed ++ sepToks (.op ",") (build.map fun b => [.id b.1] ++ [.op ":"] ++ [.id b.2]) ++
        [.cls '}'] ++ [.cls ')'])) :=
      bal_parse fun st => by
        rw [delims_append, delims_append, delims_append, delims_append, bal_lets lets st]
        simp only [Option.bind_some, Q.okNamed, delims, h3 _]
        simp [closing]
    intro st
    simp only [RItem.toks, namedToks, delims_append, h1 _, h2 _, h4 _, Q.derive, Q.pubStruct, delims, Option.bind_some]
    simp [closing, h2 _, h4 _]
  | tuple n fields shown lets build =>
    have h1 : Bal (sepToks (.op ",") ((fields.map RTy.toks).map fun f => [.id "pub"] ++ f)) := by
      rw [List.map_map]
      exact bal_sep (bal_map fun f st => by simp [delims, bal_ty f st])
    have h2 : Bal (displayToks n (manyToks (shown.map fun x => Q.selfDot ++ [.int x] ++ Q.dotFmt) ++ Q.okUnit)) :=
      bal_display (bal_append (bal_many (bal_map fun x st => by simp [Q.selfDot, Q.dotFmt, delims, closing]))
        fun st => by simp [Q.okUnit, delims, closing])
    have h3 : Bal (sepToks (.op ",") (build.map fun b => [.id b])) := bal_sep (bal_map fun b st => by simp [delims])
    have h4 : Bal (parseToks n (letToks lets ++ Q.okTuple ++ sepToks (.op ",") (build.map fun b => [.id b]) ++ [.cls ')'] ++ [.cls ')'])) :=
      bal_parse fun st => by
        rw [delims_append, delims_append, delims_append, delims_append, bal_lets lets st]
        simp only [Option.bind_some, Q.okTuple, delims, h3 _]
        simp [closing]
    intro st
    simp only [RItem.toks, tupleToks, delims_append, h1 _, h2 _, h4 _, Q.derive, Q.pubStruct, delims, Option.bind_some]
    simp [closing, h2 _, h4 _]
  | enum n variants shown arms other chars =>
    have h1 : Bal (sepToks (.op ",") ((variants.map fun f => (f.1, f.2.toks)).map fun v => [.id v.1] ++ [.opn '('] ++ v.2 ++ [.cls ')'])) := by
      rw [List.map_map]
      exact bal_sep (bal_map fun f st => by simp [delims_append, delims, bal_ty f.2 _, closing])
    have h2 : Bal (displayToks n (Q.matchSelf ++ sepToks (.op ",") (shown.map fun x => Q.selfPath ++ [.id x] ++ Q.innerFmt) ++ [.cls '}'])) :=
      bal_display fun st => by
        have h : Bal (sepToks (.op ",") (shown.map fun x => Q.selfPath ++ [.id x] ++ Q.innerFmt)) :=
          bal_sep (bal_map fun x st => by simp [Q.selfPath, Q.innerFmt, delims, closing])
        rw [delims_append, delims_append]
        simp only [Q.matchSelf, delims, Option.bind_some, h _]
        simp [closing]
    have h3 : Bal (parseToks n (Q.matchPeek ++ armToks arms ++ otherToks other ++ [.cls '}'])) :=
      bal_parse fun st => by
        rw [delims_append, delims_append, delims_append]
        simp [Q.matchPeek, delims, bal_arms arms _, bal_other other _, closing]
    intro st
    cases chars with
    | none =>
      simp only [RItem.toks, enumToks, delims_append, h1 _, h2 _, h3 _, Q.derive, Q.pubEnum, delims, Option.bind_some]
      simp [closing, h2 _, h3 _]
    | some xs =>
      have h4 : Bal (sepToks (.op ",") (xs.map fun x => [.id n] ++ [.op "::"] ++ [.id x] ++ Q.innerInto)) :=
        bal_sep (bal_map fun x st => by simp [Q.innerInto, delims, closing])
      simp only [RItem.toks, enumToks, delims_append, h1 _, h2 _, h3 _, h4 _, Q.derive, Q.pubEnum, Q.fromOpen, Q.fromAlt, Q.toSelf, Q.matchAlt,
        Q.close, delims, Option.bind_some]
      simp [closing, h2 _, h3 _, h4 _, delims]
  | alias n t =>
    intro st
    simp [RItem.toks, aliasToks, Q.pubType, delims_append, delims, bal_ty t _]

/-- **C83** (groups). The delimiters in the emitted tokens match, so that they form token trees. -/
theorem C83_delimiters_match {doc : List Char → List Char} {cas : Casing} {te : TE} {ts : List RTok} (h : Writes doc cas te ts) :
    delims [] ts = some [] := by
  obtain ⟨s, id, n, out, -, -, rfl⟩ := writes_iff.1 h
  unfold RProg.toks
  rw [delims_append, show delims [] Q.use = some [] from rfl]
  exact bal_many (bal_map (bal_item doc)) []

/-! ## Examples -/

private def xi : Info := ⟨none, 0⟩
private def xnm (s : String) : Info := ⟨some (.newVariable (.spanless s)), 0⟩
private def xcat (a : NE) (l : List NE) : NE := .cat xi a (l.map fun b => (0, b))
private def xalt (a : NE) (l : List NE) : NE := .alt xi a (l.map fun b => (0, b))
private def xcas : Casing := ⟨fun s => some (if s = "x" then "X" else if s = "open" then "Open" else s), some⟩

/-- `!(/x/ "(" : open . x . ")" | "b" | "c")`. -/
private def exNested : NE :=
  .fix xi (.lam xi [.newVariable (.spanless "x")]
    (xalt (xcat (.lit (xnm "open") ['(']) [.var xi 0, .lit xi [')']]) [.lit xi ['b'], .lit xi ['c']]))

/-- A concrete program with every kind of item is written, its tokens are read back, and their delimiters match. -/
theorem C83_example : ∃ te, (∃ n, (inferTop n exNested ⟨[], []⟩).1 = .ok te) ∧
    ∃ ts, Writes (fun _ => ['d']) xcas te ts ∧ ts.length = 1047 ∧ delims [] ts = some [] ∧
      readProgram ts = some [.alias "Fix1" (.path "Alt8"),
        .enum "Alt8" [("Branch1", .path "Cat5"), ("Branch2", .path "Lit6"), ("Branch3", .path "Lit7")] ["Branch1", "Branch2", "Branch3"]
          [(['('], "Branch1"), (['b'], "Branch2"), (['c'], "Branch3")] (.fail ['(', 'b', 'c']) none,
        .named "Cat5" [("open1", .path "Open1"), ("part2", .boxed (.path "Fix1")), ("part3", .path "Lit4")]
          ["open1", "part2", "part3"] ["part0", "part1", "part2"] [("open1", "part0"), ("part2", "part1"), ("part3", "part2")],
        .unit "Lit6" ['b'] ['b'] (some 'b'), .unit "Lit7" ['c'] ['c'] (some 'c'), .unit "Open1" ['('] ['('] (some '('),
        .unit "Lit4" [')'] [')'] (some ')'), .alias "Ast" (.path "Fix1")] := by
  refine ⟨_, ⟨10, rfl⟩, _, ⟨_, _, 20, rfl, rfl⟩, by decide +kernel, by decide +kernel, by decide +kernel⟩

end Chomp
