import Verif.Props.AutoAll
import Verif.Props.Earliest

/-!
# C91: the layout of autonibble programs

Which texts of a program autonibble accepts: the tokens in their order, white space anywhere around them, and some white space between two
terms or names, and between `match` and `/`.  Two texts of the same program have the same outcome.
-/

namespace Chomp

/-! ## Specification -/

/-- A token, parentheses apart.  `raw` and `other` stand for the tokens that autonibble does not have. -/
inductive Word where
  | ident (sym : String)
  | raw (sym : String)
  | punct (c : Char)
  | str (value : List Char)
  | lpar
  | rpar
  | other

mutual
/-- The tokens of a token tree. -/
def Tok.words : Tok → List Word
  | .ident true s => [.raw s]
  | .ident false s => [.ident s]
  | .punct c => [.punct c]
  | .str v => [.str v]
  | .other => [.other]
  | .group true l => .lpar :: (Tok.wordsL l ++ [.rpar])
  | .group false _ => [.other]
def Tok.wordsL : List Tok → List Word
  | [] => []
  | t :: l => t.words ++ Tok.wordsL l
end

/-- How a token is written: an identifier, `_` included, as itself; the characters of a literal as themselves or with one of the escapes. -/
def Word.Spells : Word → List Char → Prop
  | .ident s, a => a = s.toList
  | .punct c, a => a = [c]
  | .str v, a => ∃ l : List UChar, l ≠ [] ∧ l.map UChar.denotes = v.map some ∧ a = '"' :: (l.flatMap UChar.text ++ ['"'])
  | .lpar, a => a = ['(']
  | .rpar, a => a = [')']
  | .raw _, _ => False
  | .other, _ => False

/-- A term or a name can end with it. -/
def Word.Ends : Word → Prop
  | .ident _ => True
  | .str _ => True
  | .rpar => True
  | _ => False

/-- A term or a name can start with it. -/
def Word.Starts : Word → Prop
  | .ident _ => True
  | .raw _ => True
  | .str _ => True
  | .lpar => True
  | .punct c => c = '!'
  | _ => False

/-- There must be white space between the token and the next one: between two terms or names, and in `match /`. -/
def Word.Apart (w : Word) : List Word → Prop
  | [] => False
  | v :: _ => w.Ends ∧ v.Starts ∨ w = .ident "match" ∧ v = .punct '/'

/-- The text consists of the tokens, each followed by white space, which may be empty if it need not be there. -/
inductive Laid : List Word → List Char → Prop
  | nil : Laid [] []
  | cons {w : Word} {a b : List Char} {ts : List Word} {r : List Char} (h1 : w.Spells a) (h2 : ∀ c ∈ b, c ∈ wsChars)
      (h3 : w.Apart ts → b ≠ []) (h4 : Laid ts r) : Laid (w :: ts) (a ++ (b ++ r))

/-! ## Preparation -/

theorem Tok.wordsL_append : ∀ a b : List Tok, Tok.wordsL (a ++ b) = Tok.wordsL a ++ Tok.wordsL b
  | [], b => rfl
  | t :: a, b => by simp only [List.cons_append, Tok.wordsL, Tok.wordsL_append a b, List.append_assoc]

theorem Blank.mem (b : Blank) : ∀ c ∈ b.text, c ∈ wsChars := by
  intro c hc
  obtain ⟨k, _, rfl⟩ := List.mem_map.1 hc
  exact k.char_mem

theorem Blank.ofChars : ∀ b : List Char, (∀ c ∈ b, c ∈ wsChars) → ∃ k : Blank, k.text = b
  | [], _ => ⟨[], rfl⟩
  | c :: b, h => by
    obtain ⟨k, hk⟩ := Pick.of_mem (h c (by simp))
    obtain ⟨l, hl⟩ := Blank.ofChars b fun x hx => h x (List.mem_cons_of_mem _ hx)
    exact ⟨k :: l, by rw [← hl, ← hk]; rfl⟩

theorem Laid.step {w : Word} {a : List Char} {b : Blank} {ts : List Word} {r : List Char} (h1 : w.Spells a) (h3 : b = [] → ¬ w.Apart ts)
    (h4 : Laid ts r) : Laid (w :: ts) (a ++ (b.text ++ r)) :=
  .cons h1 b.mem (fun h hb => h3 (by cases b with
    | nil => rfl
    | cons => cases hb) h) h4

/-- Without white space. -/
theorem Laid.tight {w : Word} {a : List Char} {ts : List Word} {r : List Char} (h1 : w.Spells a) (h3 : ¬ w.Apart ts)
    (h4 : Laid ts r) : Laid (w :: ts) (a ++ r) := Laid.step (b := []) h1 (fun _ => h3) h4

theorem Laid.inv {w : Word} {ts : List Word} {text : List Char} (h : Laid (w :: ts) text) :
    ∃ a, ∃ b : Blank, ∃ r, w.Spells a ∧ text = a ++ (b.text ++ r) ∧ (b = [] → ¬ w.Apart ts) ∧ Laid ts r := by
  cases h with
  | cons h1 h2 h3 h4 =>
    rename_i a b r
    obtain ⟨k, rfl⟩ := Blank.ofChars b h2
    exact ⟨a, k, r, h1, rfl, fun hk ha => h3 ha (by rw [hk]; rfl), h4⟩

/-- No term goes on here, nor does a lambda begin. -/
def Quiet : List Word → Prop
  | [] => True
  | v :: _ => ¬ v.Starts ∧ v ≠ .punct '/'

/-- A term begins here. -/
def TermBegins : List Word → Prop
  | [] => False
  | v :: _ => v.Starts

theorem Quiet.apart {w : Word} {ts : List Word} (h : Quiet ts) : ¬ w.Apart ts := by
  cases ts with
  | nil => exact fun h => h
  | cons v l => exact fun ha => ha.elim (fun k => h.1 k.2) fun k => h.2 k.2

theorem quiet_punct {c : Char} (h1 : c ≠ '!') (h2 : c ≠ '/') (ts : List Word) : Quiet (.punct c :: ts) :=
  ⟨h1, fun h => h2 (by injection h)⟩

theorem quiet_rpar (ts : List Word) : Quiet (.rpar :: ts) := ⟨fun h => h, fun h => by cases h⟩

theorem punct_apart (c : Char) (ts : List Word) : ¬ (Word.punct c).Apart ts := by
  cases ts with
  | nil => exact fun h => h
  | cons v l => exact fun h => h.elim (fun k => k.1) fun k => by cases k.1

theorem lpar_apart (ts : List Word) : ¬ Word.lpar.Apart ts := by
  cases ts with
  | nil => exact fun h => h
  | cons v l => exact fun h => h.elim (fun k => k.1) fun k => by cases k.1

theorem Ident.toks_words (u : UIdent) : Tok.wordsL u.ident.toks = [.ident u.ident.sym] := rfl

theorem UIdent.spells (u : UIdent) : (Word.ident u.ident.sym).Spells u.text := by
  show u.text = u.ident.sym.toList
  simp [UIdent.ident]

/-! ## Texts of the grammar are laid out so -/

theorem UNames.lay : ∀ (u : UNames) {ts : List Word} {r : List Char}, (∀ i ∈ u.idents, ¬ (Word.ident i.sym).Apart ts) → Laid ts r →
    Laid (Tok.wordsL (u.idents.flatMap Ident.toks) ++ ts) (u.text ++ r)
  | .one i, ts, r, h, hl => Laid.tight i.spells (h _ (by simp [UNames.idents])) hl
  | .trail i w ws, ts, r, h, hl => by
    have := Laid.step (b := w :: ws) i.spells (fun hb => by cases hb) hl
    simpa [UNames.text, Blank.text, UNames.idents, Ident.toks_words] using this
  | .more i w ws u, ts, r, h, hl => by
    have ih := UNames.lay u (fun j hj => h j (by simp [UNames.idents, hj])) hl
    have := Laid.step (b := w :: ws) i.spells (fun hb => by cases hb) ih
    simpa [UNames.text, Blank.text, UNames.idents, Tok.wordsL_append, Ident.toks_words] using this

theorem lit_denotes : ∀ {l : List UChar}, l.all (fun c => c.denotes.isSome) = true → l.map UChar.denotes = (l.map UChar.val).map some
  | [], _ => rfl
  | c :: l, h => by
    simp only [List.all_cons, Bool.and_eq_true] at h
    obtain ⟨v, hv⟩ := Option.isSome_iff_exists.1 h.1
    simp only [List.map_cons, lit_denotes h.2, UChar.val, hv, Option.getD_some]

mutual
theorem UTerm.lay : ∀ (u : UTerm) {ts : List Word} {r : List Char} (b : Blank), u.ok = true → "match" ∉ u.params → (b = [] → Quiet ts) → Laid ts r →
    Laid (Tok.wordsL u.term.toks ++ ts) (u.text ++ (b.text ++ r))
  | .eps, ts, r, b, _, _, hb, hl => Laid.step (w := .ident "_") (a := ['_']) (by show ['_'] = "_".toList; decide) (fun h => (hb h).apart) hl
  | .lit c l, ts, r, b, ho, hp, hb, hl =>
    Laid.step (w := .str ((c :: l).map UChar.val)) (a := (UTerm.lit c l).text) ⟨c :: l, by simp, lit_denotes ho, rfl⟩
      (fun h => (hb h).apart) hl
  | .parens ws e, ts, r, b, ho, hp, hb, hl => by
    have h1 := Laid.step (w := .rpar) (a := [')']) rfl (fun h => (hb h).apart) hl
    have h2 := e.lay ho hp (quiet_rpar ts) h1
    have h3 := Laid.step (w := .lpar) (a := ['(']) (b := ws) rfl (fun _ => lpar_apart _) h2
    simpa [UTerm.text, UTerm.term, Term.toks, Tok.wordsL, Tok.words] using h3
  | .fix ws t, ts, r, b, ho, hp, hb, hl => by
    have h3 := Laid.step (w := .punct '!') (a := ['!']) (b := ws) rfl (fun _ => punct_apart _ _) (t.lay b ho hp hb hl)
    simpa [UTerm.text, UTerm.term, Term.toks, Tok.wordsL, Tok.words] using h3
  | .var i, ts, r, b, _, _, hb, hl => Laid.step i.spells (fun h => (hb h).apart) hl
theorem UCall.lay : ∀ (u : UCall) {ts : List Word} {r : List Char}, u.ok = true → "match" ∉ u.params → Quiet ts → Laid ts r →
    Laid (Tok.wordsL (Term.toksL u.terms) ++ ts) (u.text ++ r)
  | .one t, ts, r, ho, hp, hq, hl => by
    simpa [UCall.terms, Term.toksL, UCall.text, Blank.text] using t.lay [] ho hp (fun _ => hq) hl
  | .trail t w ws, ts, r, ho, hp, hq, hl => by
    simpa [UCall.terms, Term.toksL, UCall.text, Blank.text] using t.lay (w :: ws) ho hp (fun _ => hq) hl
  | .more t w ws u, ts, r, ho, hp, hq, hl => by
    rw [UCall.ok, Bool.and_eq_true] at ho
    rw [UCall.params, List.mem_append, not_or] at hp
    simpa [UCall.terms, Term.toksL, UCall.text, Blank.text, Tok.wordsL_append] using
      t.lay (w :: ws) ho.1 hp.1 (fun h => by cases h) (u.lay ho.2 hp.2 hq hl)
theorem UCat.lay : ∀ (u : UCat) {ts : List Word} {r : List Char}, u.ok = true → "match" ∉ u.params → Quiet ts → Laid ts r →
    Laid (Tok.wordsL (Call.toksL u.calls) ++ ts) (u.text ++ r)
  | .one x, ts, r, ho, hp, hq, hl => by
    simpa [UCat.calls, Call.toksL, UCat.text, Call.toks] using x.lay ho hp hq hl
  | .more x ws u, ts, r, ho, hp, hq, hl => by
    rw [UCat.ok, Bool.and_eq_true] at ho
    rw [UCat.params, List.mem_append, not_or] at hp
    have h1 := Laid.step (w := .punct '.') (a := ['.']) (b := ws) rfl (fun _ => punct_apart _ _) (u.lay ho.2 hp.2 hq hl)
    have h2 := x.lay ho.1 hp.1 (quiet_punct (by decide) (by decide) _) h1
    have hn : u.calls ≠ [] := by cases u <;> simp [UCat.calls]
    simpa [UCat.calls, Call.toksL_cons _ _ _ hn, UCat.text, Call.toks, Tok.wordsL_append, Tok.wordsL, Tok.words] using h2
theorem ULabelled.lay : ∀ (u : ULabelled) {ts : List Word} {r : List Char}, u.ok = true → "match" ∉ u.params → Quiet ts → Laid ts r →
    Laid (Tok.wordsL u.labelled.toks ++ ts) (u.text ++ r)
  | .plain x, ts, r, ho, hp, hq, hl => by
    simpa [ULabelled.labelled, ULabelled.text, Labelled.toks, Cat.toks] using x.lay ho hp hq hl
  | .label x ws i ws', ts, r, ho, hp, hq, hl => by
    have h0 := Laid.step (b := ws') i.spells (fun _ => hq.apart) hl
    have h1 := Laid.step (w := .punct ':') (a := [':']) (b := ws) rfl (fun _ => punct_apart _ _) h0
    have h2 := x.lay ho hp (quiet_punct (by decide) (by decide) _) h1
    simpa [ULabelled.labelled, ULabelled.text, Labelled.toks, Cat.toks, Tok.wordsL_append, Tok.wordsL, Tok.words, Ident.toks_words] using h2
theorem UAlt.lay : ∀ (u : UAlt) {ts : List Word} {r : List Char}, u.ok = true → "match" ∉ u.params → Quiet ts → Laid ts r →
    Laid (Tok.wordsL (Labelled.toksL u.labelleds) ++ ts) (u.text ++ r)
  | .one x, ts, r, ho, hp, hq, hl => by
    simpa [UAlt.labelleds, Labelled.toksL, UAlt.text] using x.lay ho hp hq hl
  | .more x ws u, ts, r, ho, hp, hq, hl => by
    rw [UAlt.ok, Bool.and_eq_true] at ho
    rw [UAlt.params, List.mem_append, not_or] at hp
    have h1 := Laid.step (w := .punct '|') (a := ['|']) (b := ws) rfl (fun _ => punct_apart _ _) (u.lay ho.2 hp.2 hq hl)
    have h2 := x.lay ho.1 hp.1 (quiet_punct (by decide) (by decide) _) h1
    have hn : u.labelleds ≠ [] := by cases u <;> simp [UAlt.labelleds]
    simpa [UAlt.labelleds, Labelled.toksL_cons _ _ _ hn, UAlt.text, Tok.wordsL_append, Tok.wordsL, Tok.words] using h2
theorem UExpr.lay : ∀ (u : UExpr) {ts : List Word} {r : List Char}, u.ok = true → "match" ∉ u.params → Quiet ts → Laid ts r →
    Laid (Tok.wordsL u.expr.toks ++ ts) (u.text ++ r)
  | .alt a, ts, r, ho, hp, hq, hl => by
    simpa [UExpr.expr, UExpr.text, Expr.toks, Alt.toks] using a.lay ho hp hq hl
  | .lam ws args ws' a, ts, r, ho, hp, hq, hl => by
    rw [UExpr.params, List.mem_append, not_or] at hp
    have h1 := Laid.step (w := .punct '/') (a := ['/']) (b := ws') rfl (fun _ => punct_apart _ _) (a.lay ho hp.2 hq hl)
    have h2 := args.lay (ts := .punct '/' :: (Tok.wordsL (Labelled.toksL a.labelleds) ++ ts)) (by
      intro i hi ha
      rcases ha with ⟨_, ha⟩ | ⟨ha, _⟩
      · exact absurd (show ('/' : Char) = '!' from ha) (by decide)
      · injection ha with ha
        exact hp.1 (List.mem_map.2 ⟨i, hi, ha⟩)) h1
    have h3 := Laid.step (w := .punct '/') (a := ['/']) (b := ws) rfl (fun _ => punct_apart _ _) h2
    simpa [UExpr.expr, UExpr.text, Expr.toks, Alt.toks, Tok.wordsL_append, Tok.wordsL, Tok.words] using h3
end

theorem match_apart (b : Pick wsChars) (ws : Blank) (ts : List Word) : b :: ws = [] → ¬ (Word.ident "match").Apart ts := fun h => by cases h

theorem UStmt.lay : ∀ (u : UStmt), u.ok = true → "match" ∉ u.params → Laid (Tok.wordsL u.abs.toks) u.text
  | .goal w ws e ws', ho, hp => by
    have h1 := Laid.step (w := .punct ';') (a := [';']) (b := ws') rfl (fun _ => punct_apart _ _) .nil
    have h2 := e.lay ho hp (quiet_punct (by decide) (by decide) _) h1
    have h3 := Laid.step (w := .ident "match") (a := "match".toList) (b := w :: ws) rfl (fun h => by cases h) h2
    simpa [UStmt.text, UStmt.abs, Stmt.toks, Tok.wordsL_append, Tok.wordsL, Tok.words, Blank.text] using h3
  | .letS w ws names ws1 e ws2 next, ho, hp => by
    rw [UStmt.ok, Bool.and_eq_true] at ho
    rw [UStmt.params, List.mem_append, List.mem_append, not_or, not_or] at hp
    have h1 := Laid.step (w := .punct ';') (a := [';']) (b := ws2) rfl (fun _ => punct_apart _ _) (next.lay ho.2 hp.2.2)
    have h2 := e.lay ho.1 hp.2.1 (quiet_punct (by decide) (by decide) _) h1
    have h3 := Laid.step (w := .punct '=') (a := ['=']) (b := ws1) rfl (fun _ => punct_apart _ _) h2
    have h4 := names.lay (ts := .punct '=' :: _) (by
      intro i hi ha
      rcases ha with ⟨_, ha⟩ | ⟨_, ha⟩
      · exact absurd (show ('=' : Char) = '!' from ha) (by decide)
      · injection ha with ha
        exact absurd ha (by decide)) h3
    have h5 := Laid.step (w := .ident "let") (a := "let".toList) (b := w :: ws) rfl (fun h => by cases h) h4
    obtain ⟨i, l, hn⟩ := names.idents_cons
    rw [hn] at h5
    rw [UStmt.text, UStmt.abs, hn]
    simpa [Stmt.toks, Tok.wordsL_append, Tok.wordsL, Tok.words, Blank.text] using h5

/-! ## Texts that are laid out so are texts of the grammar -/

theorem peek_begins : ∀ {ts : List Tok}, peekTerm ts = true → ∀ r : List Word, TermBegins (Tok.wordsL ts ++ r)
  | .ident true _ :: _, _, _ => trivial
  | .ident false _ :: _, _, _ => trivial
  | .str _ :: _, _, _ => trivial
  | .punct c :: _, h, _ => (by simpa [peekTerm] using h : c = '!')
  | .group true _ :: _, _, _ => trivial
  | .group false _ :: _, h, _ => by cases h
  | .other :: _, h, _ => by cases h
  | [], h, _ => by cases h

theorem TermBegins.apart {w : Word} (hw : w.Ends) {ts : List Word} (h : TermBegins ts) : w.Apart ts := by
  cases ts with
  | nil => exact h.elim
  | cons v l => exact .inl ⟨hw, h⟩

theorem Ident.Spelled.lift {i : Ident} (h : i.Spelled) (h0 : i.span = 0) {ts : List Word} {text : List Char}
    (hl : Laid (Tok.wordsL i.toks ++ ts) text) : ∃ u : UIdent, ∃ b : Blank, ∃ r, u.ident = i ∧ text = u.text ++ (b.text ++ r) ∧
      (b = [] → ¬ (Word.ident i.sym).Apart ts) ∧ Laid ts r := by
  obtain ⟨u, rfl⟩ := h.ident h0
  obtain ⟨a, b, r, h1, rfl, h3, h4⟩ := Laid.inv (by simpa [Ident.toks_words] using hl)
  refine ⟨u, b, r, rfl, ?_, h3, h4⟩
  have : a = u.text := (show a = u.ident.sym.toList from h1).trans (show u.text = _ from u.spells).symm
  rw [this]

theorem UNames.lift : ∀ (l : List Ident), l ≠ [] → (∀ i ∈ l, i.Spelled) → (∀ i ∈ l, i.span = 0) → ∀ {ts : List Word} {text : List Char},
    Laid (Tok.wordsL (l.flatMap Ident.toks) ++ ts) text → ∃ u : UNames, ∃ r, u.idents = l ∧ text = u.text ++ r ∧ Laid ts r
  | [], h, _, _, _, _, _ => (h rfl).elim
  | [i], _, h1, h2, ts, text, hl => by
    obtain ⟨u, b, r, rfl, rfl, -, h3⟩ := (h1 i (by simp)).lift (h2 i (by simp)) (ts := ts) (text := text) (by simpa using hl)
    cases b with
    | nil => exact ⟨.one u, r, rfl, by simp [UNames.text, Blank.text], h3⟩
    | cons w ws => exact ⟨.trail u w ws, r, rfl, by simp [UNames.text, Blank.text], h3⟩
  | i :: j :: l, _, h1, h2, ts, text, hl => by
    obtain ⟨u, b, r, rfl, rfl, h4, h3⟩ := (h1 i (by simp)).lift (h2 i (by simp))
      (ts := Tok.wordsL ((j :: l).flatMap Ident.toks) ++ ts) (text := text)
      (by simpa only [List.flatMap_cons, Tok.wordsL_append, List.append_assoc] using hl)
    obtain ⟨v, r', hv, rfl, h5⟩ := UNames.lift (j :: l) (by simp) (fun x hx => h1 x (List.mem_cons_of_mem _ hx))
      (fun x hx => h2 x (List.mem_cons_of_mem _ hx)) h3
    cases b with
    | nil =>
      refine (h4 rfl (TermBegins.apart (by exact trivial) ?_)).elim
      rw [List.flatMap_cons]
      refine peek_begins ?_ _
      rfl
    | cons w ws => exact ⟨.more u w ws v, r', by rw [UNames.idents, hv], by simp [UNames.text, Blank.text], h5⟩

/-- The text of a token and the white space behind it. -/
theorem Laid.takePunct {c : Char} {ts : List Word} {text : List Char} (h : Laid (.punct c :: ts) text) :
    ∃ b : Blank, ∃ r, text = c :: (b.text ++ r) ∧ Laid ts r := by
  obtain ⟨a, b, r, h1, rfl, -, h4⟩ := h.inv
  cases (show a = [c] from h1)
  exact ⟨b, r, rfl, h4⟩

theorem val_of_denotes : ∀ {l : List UChar} {s : List Char}, l.map UChar.denotes = s.map some →
    l.map UChar.val = s ∧ l.all (fun c => c.denotes.isSome) = true
  | [], [], _ => ⟨rfl, rfl⟩
  | [], _ :: _, h => by cases h
  | _ :: _, [], h => by cases h
  | c :: l, x :: s, h => by
    simp only [List.map_cons, List.cons.injEq] at h
    obtain ⟨h1, h2⟩ := val_of_denotes h.2
    exact ⟨by simp [UChar.val, h.1, h1], by simp [h.1]; simpa using h2⟩

mutual
theorem Term.lift : ∀ t : Term, t.wf → t.Every Ident.Spelled (· ≠ []) → ∀ {ts : List Word} {text : List Char},
    Laid (Tok.wordsL t.toks ++ ts) text → ∃ u : UTerm, ∃ b : Blank, ∃ r, u.term = t ∧ u.ok = true ∧ text = u.text ++ (b.text ++ r) ∧
      (b = [] → ¬ TermBegins ts) ∧ Laid ts r
  | .eps sp, h, _, ts, text, hl => by
    cases (show sp = 0 from h)
    obtain ⟨a, b, r, h1, rfl, h3, h4⟩ := Laid.inv (w := .ident "_") hl
    refine ⟨.eps, b, r, rfl, rfl, ?_, fun hb hs => h3 hb (TermBegins.apart (by exact trivial) hs), h4⟩
    have : a = ['_'] := (show a = "_".toList from h1).trans (by decide)
    rw [this]
    rfl
  | .ident i, h, h', ts, text, hl => by
    obtain ⟨u, b, r, rfl, rfl, h3, h4⟩ := Ident.Spelled.lift h' h.2 hl
    exact ⟨.var u, b, r, rfl, rfl, rfl, fun hb hs => h3 hb (TermBegins.apart (by exact trivial) hs), h4⟩
  | .lit sp s, h, h', ts, text, hl => by
    cases (show sp = 0 from h)
    obtain ⟨a, b, r, ⟨l, h1, h2, rfl⟩, rfl, h3, h4⟩ := Laid.inv (w := .str s) hl
    obtain ⟨k1, k2⟩ := val_of_denotes h2
    cases l with
    | nil => exact (h1 rfl).elim
    | cons c l => exact ⟨.lit c l, b, r, by rw [UTerm.term, k1], k2, rfl, fun hb hs => h3 hb (TermBegins.apart (by exact trivial) hs), h4⟩
  | .fix sp t, h, h', ts, text, hl => by
    obtain ⟨h1, h2⟩ := h
    subst h1
    obtain ⟨b, r, rfl, h4⟩ := Laid.takePunct (c := '!') hl
    obtain ⟨u, b', r', hu, ho, rfl, k1, k2⟩ := Term.lift t h2 h' h4
    exact ⟨.fix b u, b', r', by rw [UTerm.term, hu], ho, by simp [UTerm.text], k1, k2⟩
  | .parens e, h, h', ts, text, hl => by
    obtain ⟨a, b, r, h1, rfl, -, h4⟩ := Laid.inv (w := .lpar) (ts := Tok.wordsL e.toks ++ (.rpar :: ts))
      (by simpa [Term.toks, Tok.wordsL, Tok.words] using hl)
    cases (show a = ['('] from h1)
    obtain ⟨u, r', hu, ho, rfl, k⟩ := Expr.lift e h h' (ts := .rpar :: ts) (fun hb => hb) h4
    obtain ⟨a, b', r, h1, rfl, h3, h5⟩ := k.inv
    cases (show a = [')'] from h1)
    exact ⟨.parens b u, b', r, by rw [UTerm.term, hu], ho, by simp [UTerm.text], fun hb hs => h3 hb (TermBegins.apart (by exact trivial) hs), h5⟩
theorem Call.lift : ∀ x : Call, x.wf → x.Every Ident.Spelled (· ≠ []) → ∀ {ts : List Word} {text : List Char}, ¬ TermBegins ts →
    Laid (Tok.wordsL x.toks ++ ts) text → ∃ u : UCall, ∃ r, .mk 0 u.terms = x ∧ u.ok = true ∧ text = u.text ++ r ∧ Laid ts r
  | .mk sp l, h, h', ts, text, hq, hl => by
    obtain ⟨h1, h2, h3⟩ := h
    subst h1
    obtain ⟨u, r, hu, ho, k1, k2⟩ := Term.liftL l h2 h3 h' hq hl
    exact ⟨u, r, by rw [hu], ho, k1, k2⟩
theorem Term.liftL : ∀ l : List Term, l ≠ [] → Term.wfL l → Term.EveryL Ident.Spelled (· ≠ []) l → ∀ {ts : List Word} {text : List Char},
    ¬ TermBegins ts → Laid (Tok.wordsL (Term.toksL l) ++ ts) text → ∃ u : UCall, ∃ r, u.terms = l ∧ u.ok = true ∧ text = u.text ++ r ∧ Laid ts r
  | [], h, _, _, _, _, _, _ => (h rfl).elim
  | [t], _, h, h', ts, text, hq, hl => by
    obtain ⟨u, b, r, hu, ho, rfl, -, k2⟩ := Term.lift t h.1 h'.1 (ts := ts) (text := text) (by simpa [Term.toksL] using hl)
    cases b with
    | nil => exact ⟨.one u, r, by rw [UCall.terms, hu], ho, by simp [UCall.text, Blank.text], k2⟩
    | cons w ws => exact ⟨.trail u w ws, r, by rw [UCall.terms, hu], ho, by simp [UCall.text, Blank.text], k2⟩
  | t :: t' :: l, _, h, h', ts, text, hq, hl => by
    obtain ⟨u, b, r, hu, ho, rfl, k1, k2⟩ := Term.lift t h.1 h'.1 (ts := Tok.wordsL (Term.toksL (t' :: l)) ++ ts) (text := text)
      (by rw [Term.toksL, Tok.wordsL_append, List.append_assoc] at hl; exact hl)
    obtain ⟨v, r', hv, ho', rfl, k3⟩ := Term.liftL (t' :: l) (by simp) h.2 h'.2 hq k2
    cases b with
    | nil => exact (k1 rfl (peek_begins (by rw [Term.toksL]; exact t'.peek _) _)).elim
    | cons w ws => exact ⟨.more u w ws v, r', by rw [UCall.terms, hu, hv], by rw [UCall.ok, ho, ho']; rfl,
        by simp [UCall.text, Blank.text], k3⟩
theorem Call.liftL : ∀ l : List (Call × Nat), l ≠ [] → Call.wfL l → Call.EveryL Ident.Spelled (· ≠ []) l →
    ∀ {ts : List Word} {text : List Char}, ¬ TermBegins ts → Laid (Tok.wordsL (Call.toksL l) ++ ts) text →
    ∃ u : UCat, ∃ r, u.calls = l ∧ u.ok = true ∧ text = u.text ++ r ∧ Laid ts r
  | [], h, _, _, _, _, _, _ => (h rfl).elim
  | [(t, sp)], _, h, h', ts, text, hq, hl => by
    obtain ⟨h1, h2, _⟩ := h
    subst h2
    obtain ⟨u, r, hu, ho, rfl, q1⟩ := Call.lift t h1 h'.1 hq hl
    exact ⟨.one u, r, by rw [UCat.calls, hu], ho, rfl, q1⟩
  | (t, sp) :: t' :: l, _, h, h', ts, text, hq, hl => by
    obtain ⟨h1, h2, h3⟩ := h
    subst h2
    obtain ⟨u, r, hu, ho, rfl, q1⟩ := Call.lift t h1 h'.1 (ts := .punct '.' :: (Tok.wordsL (Call.toksL (t' :: l)) ++ ts)) (text := text)
      (by show ('.' : Char) ≠ '!'; decide)
      (by simpa [Call.toksL, Tok.wordsL_append, Tok.wordsL, Tok.words] using hl)
    obtain ⟨b, r', rfl, q2⟩ := q1.takePunct
    obtain ⟨v, r, hv, ho', rfl, k3⟩ := Call.liftL (t' :: l) (by simp) h3 h'.2 hq q2
    exact ⟨.more u b v, r, by rw [UCat.calls, hu, hv], by rw [UCat.ok, ho, ho']; rfl, by simp [UCat.text], k3⟩
theorem Cat.lift : ∀ x : Cat, x.wf → x.Every Ident.Spelled (· ≠ []) → ∀ {ts : List Word} {text : List Char}, ¬ TermBegins ts →
    Laid (Tok.wordsL x.toks ++ ts) text → ∃ u : UCat, ∃ r, .mk 0 u.calls = x ∧ u.ok = true ∧ text = u.text ++ r ∧ Laid ts r
  | .mk sp l, h, h', ts, text, hq, hl => by
    obtain ⟨h1, h2, h3⟩ := h
    subst h1
    obtain ⟨u, r, hu, ho, k1, k2⟩ := Call.liftL l h2 h3 h' hq hl
    exact ⟨u, r, by rw [hu], ho, k1, k2⟩
theorem Labelled.lift : ∀ x : Labelled, x.wf → x.Every Ident.Spelled (· ≠ []) → ∀ {ts : List Word} {text : List Char}, ¬ TermBegins ts →
    Laid (Tok.wordsL x.toks ++ ts) text → ∃ u : ULabelled, ∃ r, u.labelled = x ∧ u.ok = true ∧ text = u.text ++ r ∧ Laid ts r
  | .mk sp cat none, h, h', ts, text, hq, hl => by
    obtain ⟨h1, h2, h3⟩ := h
    subst h1
    obtain ⟨u, r, hu, ho, k1, k2⟩ := Cat.lift cat h2 h'.1 hq hl
    exact ⟨.plain u, r, by rw [ULabelled.labelled, hu], ho, k1, k2⟩
  | .mk sp cat (some i), h, h', ts, text, hq, hl => by
    obtain ⟨h1, h2, h3⟩ := h
    subst h1
    obtain ⟨u, r, hu, ho, rfl, q1⟩ := Cat.lift cat h2 h'.1 (ts := .punct ':' :: (Tok.wordsL i.toks ++ ts)) (text := text)
      (by show (':' : Char) ≠ '!'; decide)
      (by simpa [Labelled.toks, Tok.wordsL_append, Tok.wordsL, Tok.words] using hl)
    obtain ⟨b, r', rfl, q2⟩ := q1.takePunct
    obtain ⟨v, b', r, hv, rfl, -, k3⟩ := (h'.2 i rfl).lift (h3 i rfl) q2
    exact ⟨.label u b v b', r, by rw [ULabelled.labelled, hu, hv], ho, by simp [ULabelled.text], k3⟩
theorem Labelled.liftL : ∀ l : List (Labelled × Nat), l ≠ [] → Labelled.wfL l → Labelled.EveryL Ident.Spelled (· ≠ []) l →
    ∀ {ts : List Word} {text : List Char}, ¬ TermBegins ts → Laid (Tok.wordsL (Labelled.toksL l) ++ ts) text →
    ∃ u : UAlt, ∃ r, u.labelleds = l ∧ u.ok = true ∧ text = u.text ++ r ∧ Laid ts r
  | [], h, _, _, _, _, _, _ => (h rfl).elim
  | [(t, sp)], _, h, h', ts, text, hq, hl => by
    obtain ⟨h1, h2, _⟩ := h
    subst h2
    obtain ⟨u, r, hu, ho, rfl, q1⟩ := Labelled.lift t h1 h'.1 hq hl
    exact ⟨.one u, r, by rw [UAlt.labelleds, hu], ho, rfl, q1⟩
  | (t, sp) :: t' :: l, _, h, h', ts, text, hq, hl => by
    obtain ⟨h1, h2, h3⟩ := h
    subst h2
    obtain ⟨u, r, hu, ho, rfl, q1⟩ := Labelled.lift t h1 h'.1 (ts := .punct '|' :: (Tok.wordsL (Labelled.toksL (t' :: l)) ++ ts))
      (text := text) (by show ('|' : Char) ≠ '!'; decide)
      (by simpa [Labelled.toksL, Tok.wordsL_append, Tok.wordsL, Tok.words] using hl)
    obtain ⟨b, r', rfl, q2⟩ := q1.takePunct
    obtain ⟨v, r, hv, ho', rfl, k3⟩ := Labelled.liftL (t' :: l) (by simp) h3 h'.2 hq q2
    exact ⟨.more u b v, r, by rw [UAlt.labelleds, hu, hv], by rw [UAlt.ok, ho, ho']; rfl, by simp [UAlt.text], k3⟩
theorem Alt.lift : ∀ x : Alt, x.wf → x.Every Ident.Spelled (· ≠ []) → ∀ {ts : List Word} {text : List Char}, ¬ TermBegins ts →
    Laid (Tok.wordsL x.toks ++ ts) text → ∃ u : UAlt, ∃ r, .mk 0 u.labelleds = x ∧ u.ok = true ∧ text = u.text ++ r ∧ Laid ts r
  | .mk sp l, h, h', ts, text, hq, hl => by
    obtain ⟨h1, h2, h3⟩ := h
    subst h1
    obtain ⟨u, r, hu, ho, k1, k2⟩ := Labelled.liftL l h2 h3 h' hq hl
    exact ⟨u, r, by rw [hu], ho, k1, k2⟩
theorem Expr.lift : ∀ x : Expr, x.wf → x.Every Ident.Spelled (· ≠ []) → ∀ {ts : List Word} {text : List Char}, ¬ TermBegins ts →
    Laid (Tok.wordsL x.toks ++ ts) text → ∃ u : UExpr, ∃ r, u.expr = x ∧ u.ok = true ∧ text = u.text ++ r ∧ Laid ts r
  | .alt a, h, h', ts, text, hq, hl => by
    obtain ⟨u, r, hu, ho, k1, k2⟩ := Alt.lift a h h' hq hl
    exact ⟨.alt u, r, by rw [UExpr.expr, hu], ho, k1, k2⟩
  | .lam sp args body, h, h', ts, text, hq, hl => by
    obtain ⟨h1, h2, h3, h4⟩ := h
    subst h1
    obtain ⟨b, r, rfl, q1⟩ := Laid.takePunct (c := '/')
      (ts := Tok.wordsL (args.flatMap Ident.toks) ++ (.punct '/' :: (Tok.wordsL body.toks ++ ts))) (text := text)
      (by simpa [Expr.toks, Tok.wordsL_append, Tok.wordsL, Tok.words] using hl)
    obtain ⟨v, r', hv, rfl, q2⟩ := UNames.lift args h2 h'.1 (fun i hi => (h3 i hi).2) q1
    obtain ⟨b', r, rfl, q3⟩ := q2.takePunct
    obtain ⟨u, r', hu, ho, rfl, q4⟩ := Alt.lift body h4 h'.2 hq q3
    exact ⟨.lam b v b' u, r', by rw [UExpr.expr, hu, hv], ho, by simp [UExpr.text], q4⟩
end

/-- What follows `match`. -/
theorem Expr.match_apart {e : Expr} (h : e.wf) (ts : List Word) : (Word.ident "match").Apart (Tok.wordsL e.toks ++ ts) := by
  cases e with
  | alt a =>
    obtain ⟨sp, l⟩ := a
    obtain ⟨_, h2, h3⟩ := h
    refine TermBegins.apart (by exact trivial) (peek_begins ?_ _)
    have := Labelled.peekL h3 h2 []
    rw [List.append_nil] at this
    exact this
  | lam sp args body => exact .inr ⟨rfl, rfl⟩

theorem Stmt.lift : ∀ s : Stmt, s.wf → s.Sayable → ∀ {text : List Char}, Laid (Tok.wordsL s.toks) text →
    ∃ u : UStmt, u.abs = s ∧ u.ok = true ∧ text = u.text
  | .goal sp e, h, h', text, hl => by
    obtain ⟨h1, h2⟩ := h
    subst h1
    obtain ⟨a, b, r, h1, rfl, h3, q1⟩ := Laid.inv (w := .ident "match") (ts := Tok.wordsL e.toks ++ [.punct ';']) (text := text)
      (by simpa [Stmt.toks, Tok.wordsL_append, Tok.wordsL, Tok.words] using hl)
    cases (show a = "match".toList from h1)
    obtain ⟨u, r', hu, ho, rfl, q2⟩ := Expr.lift e h2 h' (by show (';' : Char) ≠ '!'; decide) q1
    obtain ⟨b', r, rfl, q3⟩ := q2.takePunct
    cases q3
    cases b with
    | nil => exact (h3 rfl (Expr.match_apart h2 _)).elim
    | cons w ws => exact ⟨.goal w ws u b', by rw [UStmt.abs, hu], ho, by simp [UStmt.text, Blank.text]⟩
  | .letS sp x args e next, h, h', text, hl => by
    obtain ⟨h1, h2, h3, h4, h5⟩ := h
    obtain ⟨k1, k2, k3, k4⟩ := h'
    subst h1
    obtain ⟨a, b, r, h1, rfl, h6, q1⟩ := Laid.inv (w := .ident "let")
      (ts := Tok.wordsL ((x :: args).flatMap Ident.toks) ++ (.punct '=' :: (Tok.wordsL e.toks ++ (.punct ';' :: Tok.wordsL next.toks))))
      (text := text) (by simpa [Stmt.toks, Tok.wordsL_append, Tok.wordsL, Tok.words] using hl)
    cases (show a = "let".toList from h1)
    obtain ⟨v, r', hv, rfl, q2⟩ := UNames.lift (x :: args) (by simp) (by simpa using ⟨k1, k2⟩) (by
      intro i hi
      rcases List.mem_cons.1 hi with rfl | hi
      · exact h2
      · exact (h3 i hi).2) q1
    obtain ⟨b1, r, rfl, q3⟩ := q2.takePunct
    obtain ⟨u, r', hu, ho, rfl, q4⟩ := Expr.lift e h4 k3 (by show (';' : Char) ≠ '!'; decide) q3
    obtain ⟨b2, r, rfl, q5⟩ := q4.takePunct
    obtain ⟨n, hn, ho', rfl⟩ := Stmt.lift next h5 k4 q5
    cases b with
    | nil =>
      refine (h6 rfl (TermBegins.apart (by exact trivial) ?_)).elim
      rw [List.flatMap_cons]
      exact peek_begins rfl _
    | cons w ws => exact ⟨.letS w ws v b1 u b2 n, by rw [UStmt.abs, hu, hv, hn]; rfl, by rw [UStmt.ok, ho, ho']; rfl,
        by simp [UStmt.text, Blank.text]⟩

/-! ## Statements -/

/-- **C91** (layout). Let `ts` be the tokens of a program. Autonibble accepts a text, and its tokens are `ts`, exactly if the identifiers and
literals of the program can be spelled in autonibble and the text consists of white space and the tokens `ts`, laid out as described by
`Laid`. -/
theorem C91_layout {st : BState} (h : Generates autoToks st) {ts : List Tok} {s : Stmt} (hs : parseProgram ts = .ok s) (text : List Char) :
    ((∃ t, Parses st 0 text (.ok t)) ∧ lex text = .ok ts) ↔
      s.Sayable ∧ ∃ b r, text = b ++ r ∧ (∀ c ∈ b, c ∈ wsChars) ∧ Laid (Tok.wordsL ts) r := by
  obtain ⟨h1, h2⟩ := C14_print_parse ts s hs
  constructor
  · rintro ⟨⟨t, ht⟩, hl⟩
    obtain ⟨p, rfl, rfl⟩ := (auto_parses h _ _).1 ht
    rw [lex_prog] at hl
    split at hl
    · rename_i hok
      cases hl
      have := parse_uprog hs
      subst this
      refine ⟨p.stmt.sayable, p.ws.text, p.stmt.text, rfl, p.ws.mem, p.stmt.lay hok fun hm => ?_⟩
      exact (wf_ustmt p.stmt).1 h2 _ hm (by decide)
    · cases hl
  · rintro ⟨hsay, b, r, rfl, hb, hl⟩
    obtain ⟨b, rfl⟩ := Blank.ofChars b hb
    rw [← h1] at hl
    obtain ⟨u, rfl, hok, rfl⟩ := Stmt.lift s h2 hsay hl
    refine ⟨⟨_, (auto_parses h _ _).2 ⟨⟨b, u⟩, rfl, rfl⟩⟩, ?_⟩
    show lex (UProg.text ⟨b, u⟩) = _
    rw [lex_prog, if_pos hok]
    exact congrArg _ h1

/-- The outcomes of two conversions are the same: both succeed, with the same expression, up to the name `Ast` that a goal without a name
gets by default, or both fail, with the same error. -/
def SameConv : Conv NE → Conv NE → Prop
  | some (.ok e, _), some (.ok e', _) => e.nameGoal = e'.nameGoal
  | some (.error x, _), some (.error x', _) => x = x'
  | _, _ => False

/-- **C91** (outcome). The outcome depends on the tokens only. -/
theorem C91_same_outcome {st : BState} (h : Generates autoToks st) {text text' : List Char} {t t' : Tree} (ht : Parses st 0 text (.ok t))
    (ht' : Parses st 0 text' (.ok t')) {ts : List Tok} (hl : lex text = .ok ts) (hl' : lex text' = .ok ts) :
    SameConv (autoAst t []) (autoAst t' []) := by
  obtain ⟨p, rfl, rfl⟩ := (auto_parses h _ _).1 ht
  obtain ⟨p', rfl, rfl⟩ := (auto_parses h _ _).1 ht'
  rw [lex_prog] at hl hl'
  split at hl
  · split at hl'
    · rename_i hok hok'
      cases hl
      have heq : p'.stmt.abs.toks = p.stmt.abs.toks := by injection hl'
      have hw : @Stmt.wf ⟨[]⟩ p.stmt.abs := (@wf_ustmt ⟨[]⟩ p.stmt).2 (by intro n _; show n ∉ []; simp)
      have hw' : @Stmt.wf ⟨[]⟩ p'.stmt.abs := (@wf_ustmt ⟨[]⟩ p'.stmt).2 (by intro n _; show n ∉ []; simp)
      have e1 := @C14_parse_print ⟨[]⟩ _ hw
      have e2 := @C14_parse_print ⟨[]⟩ _ hw'
      rw [heq, e1] at e2
      have heq : p'.stmt.abs = p.stmt.abs := by injection e2 with e2; exact e2.symm
      have g := agree_uprog p hok
      have g' := agree_uprog p' hok'
      rw [heq] at g'
      rcases g with ⟨a, b, d, k1, k2, k3, k4⟩ | ⟨x, d, k1, k2⟩
      · rcases g' with ⟨a', b', d', k1', k2', k3', k4'⟩ | ⟨x', d', k1', k2'⟩
        · rw [k1] at k1'
          cases k1'
          rw [k2, k2']
          exact k3.symm.trans k3'
        · rw [k1] at k1'
          cases k1'
      · rcases g' with ⟨a', b', d', k1', k2', k3', k4'⟩ | ⟨x', d', k1', k2'⟩
        · rw [k1] at k1'
          cases k1'
        · rw [k1] at k1'
          cases k1'
          rw [k2, k2']
          rfl
    · cases hl'
  · cases hl

/-- **C91** (inserting white space). White space can be inserted between any two tokens. -/
theorem C91_insert {ts1 ts2 : List Word} {x y b : List Char} (h1 : Laid ts1 x) (h0 : ts1 ≠ []) (h2 : Laid ts2 y)
    (hb : ∀ c ∈ b, c ∈ wsChars) (h : b ≠ [] ∨ Laid (ts1 ++ ts2) (x ++ y)) : Laid (ts1 ++ ts2) (x ++ (b ++ y)) := by
  rcases h with h | h
  · induction h1 with
    | nil => exact (h0 rfl).elim
    | @cons w a k ts r k1 k2 k3 k4 ih =>
      cases ts with
      | nil =>
        cases k4
        have := Laid.cons (b := k ++ b) (r := y) k1 (by
          intro c hc
          rcases List.mem_append.1 hc with hc | hc
          · exact k2 c hc
          · exact hb c hc) (fun _ hk => h (List.append_eq_nil_iff.1 hk).2) h2
        simpa using this
      | cons v l =>
        have := Laid.cons (r := r ++ (b ++ y)) (ts := (v :: l) ++ ts2) k1 k2 k3 (ih (by simp))
        simpa using this
  · cases b with
    | nil => exact h
    | cons c b =>
      clear h
      induction h1 with
      | nil => exact (h0 rfl).elim
      | @cons w a k ts r k1 k2 k3 k4 ih =>
        cases ts with
        | nil =>
          cases k4
          have := Laid.cons (b := k ++ (c :: b)) (r := y) k1 (by
            intro d hd
            rcases List.mem_append.1 hd with hd | hd
            · exact k2 d hd
            · exact hb d hd) (fun _ hk => by simp at hk) h2
          simpa using this
        | cons v l =>
          have := Laid.cons (r := r ++ (c :: b ++ y)) (ts := (v :: l) ++ ts2) k1 k2 k3 (ih (by simp))
          simpa using this

/-- **C91** (inserting white space, in texts). If a text that autonibble accepts is split between two tokens, white space can be inserted
there: the text is still accepted, with the same tokens, and hence with the same outcome. -/
theorem C91_insert_text {st : BState} (h : Generates autoToks st) {ts : List Tok} {s : Stmt} (hs : parseProgram ts = .ok s)
    {ts1 ts2 : List Word} (hts : Tok.wordsL ts = ts1 ++ ts2) (h0 : ts1 ≠ []) {b0 x y b : List Char} (hb0 : ∀ c ∈ b0, c ∈ wsChars)
    (h1 : Laid ts1 x) (h2 : Laid ts2 y) (hb : ∀ c ∈ b, c ∈ wsChars) {t : Tree} (ht : Parses st 0 (b0 ++ (x ++ y)) (.ok t))
    (hl : lex (b0 ++ (x ++ y)) = .ok ts) :
    ∃ t', Parses st 0 (b0 ++ (x ++ (b ++ y))) (.ok t') ∧ lex (b0 ++ (x ++ (b ++ y))) = .ok ts ∧ SameConv (autoAst t []) (autoAst t' []) := by
  cases b with
  | nil => exact ⟨t, ht, hl, C91_same_outcome h ht ht hl hl⟩
  | cons c b =>
    have hsay := ((C91_layout h hs _).1 ⟨⟨t, ht⟩, hl⟩).1
    have hla : Laid (Tok.wordsL ts) (x ++ (c :: b ++ y)) := by
      rw [hts]
      exact C91_insert h1 h0 h2 hb (.inl (by simp))
    obtain ⟨⟨t', ht'⟩, hl'⟩ := (C91_layout h hs (b0 ++ (x ++ (c :: b ++ y)))).2 ⟨hsay, b0, _, rfl, hb0, hla⟩
    exact ⟨t', ht', hl', C91_same_outcome h ht ht' hl hl'⟩

/-! ## White space that Rust does not need -/

/-- A value, an error. -/
def ParseRes.isOk : ParseRes Tree → Bool
  | .ok _ => true
  | _ => false
def ParseRes.isErr : ParseRes Tree → Bool
  | .err _ => true
  | _ => false

theorem ParseRes.isOk_eq {r : ParseRes Tree} (h : r.isOk = true) : ∃ t, r = .ok t := by
  cases r <;> first | exact ⟨_, rfl⟩ | cases h

theorem ParseRes.isErr_eq {r : ParseRes Tree} (h : r.isErr = true) : ∃ t, r = .err t := by
  cases r <;> first | exact ⟨_, rfl⟩ | cases h

set_option maxHeartbeats 0 in
set_option maxRecDepth 100000 in
theorem autoRun_tight : (runTyped autoTyped11_0 "match \"a\"(_);".toList).isErr = true := by decide +kernel

set_option maxHeartbeats 0 in
set_option maxRecDepth 100000 in
theorem autoRun_loose : (runTyped autoTyped11_0 "match \"a\" (_) ;".toList).isOk = true := by decide +kernel

/-- The tokens of both texts. -/
def spaceToks : List Tok := [.ident false "match", .str ['a'], .group true [.ident false "_"], .punct ';']

/-- **C91** (white space that Rust does not need). `match "a"(_);` and `match "a" (_) ;` have the same tokens, those of a program that can be
said in autonibble; autonibble accepts only the second. -/
theorem C91_space_needed {st : BState} (h : Generates autoToks st) :
    lex "match \"a\"(_);".toList = .ok spaceToks ∧ lex "match \"a\" (_) ;".toList = .ok spaceToks ∧
    (∃ s, parseProgram spaceToks = .ok s ∧ s.Sayable) ∧
    (∃ e, Parses st 0 "match \"a\"(_);".toList (.err e)) ∧ ∃ t, Parses st 0 "match \"a\" (_) ;".toList (.ok t) := by
  obtain ⟨e, h1⟩ := ParseRes.isErr_eq autoRun_tight
  obtain ⟨t, h2⟩ := ParseRes.isOk_eq autoRun_loose
  refine ⟨by rfl, by rfl, ⟨_, rfl, ?_⟩, ⟨e, autoRun_parses h h1 (by simp)⟩, t, autoRun_parses h h2 (by simp)⟩
  exact ⟨⟨⟨⟨(by simp : (['a'] : List Char) ≠ []), ⟨⟨⟨⟨trivial, trivial⟩, trivial⟩, by simp⟩, trivial⟩, trivial⟩, trivial⟩, by simp⟩, trivial⟩

/-- The hypotheses of `C91_insert_text` (and so of `C91_insert` and `C91_same_outcome`) hold for `match "a" (_) ;`, split behind `match `. -/
example {st : BState} (h : Generates autoToks st) : ∃ s ts1 ts2 x y t, parseProgram spaceToks = .ok s ∧ Tok.wordsL spaceToks = ts1 ++ ts2 ∧
    ts1 ≠ [] ∧ Laid ts1 x ∧ Laid ts2 y ∧ Parses st 0 ([] ++ (x ++ y)) (.ok t) ∧ lex ([] ++ (x ++ y)) = .ok spaceToks := by
  obtain ⟨h1, h2, ⟨s, h3, _⟩, _, t, h4⟩ := C91_space_needed h
  have w : ∀ c ∈ [' '], c ∈ wsChars := by decide
  have n : ∀ c ∈ ([] : List Char), c ∈ wsChars := by simp
  have k1 : Laid [.ident "match"] ("match".toList ++ ([' '] ++ [])) := .cons rfl w (fun _ => by simp) .nil
  have k2 : Laid [.str ['a'], .lpar, .ident "_", .rpar, .punct ';']
      ("\"a\"".toList ++ ([' '] ++ (['('] ++ ([] ++ (['_'] ++ ([] ++ ([')'] ++ ([' '] ++ ([';'] ++ ([] ++ [])))))))))) := by
    refine .cons ⟨[.plain ⟨63, by decide⟩], by simp, by rfl, by rfl⟩ w (fun _ => by simp) (.cons rfl n (fun k => (lpar_apart _ k).elim)
      (.cons (by rfl) n (fun k => ?_) (.cons rfl w (fun _ => by simp) (.cons rfl n (fun k => (punct_apart _ _ k).elim) .nil))))
    exact ((quiet_rpar _).apart k).elim
  exact ⟨s, [.ident "match"], _, _, _, t, h3, rfl, by simp, k1, k2, h4, h2⟩

end Chomp
