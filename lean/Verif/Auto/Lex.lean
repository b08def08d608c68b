import Verif.Auto.Ast
import Verif.Nibble.Syntax

/-!
# Tokens of a text: a small specification of Rust's lexer

What `proc_macro2` (and `rustc`) make of the text of a program before `nibble` sees it (`The Rust Reference`, chapter
"Lexical structure").  This is not code of the repository; it is needed to say what "the same program" is for the two
front ends.  The text is read from left to right, one character at a time.  Left out, with the outcome `unknown`: comments,
characters that are not ASCII (outside of string literals, and except for white space), numbers, lifetimes and character
literals, raw identifiers, literals with a prefix or suffix, and line breaks and `_` in escapes.
-/

namespace Chomp

/-- Why there are no tokens: the text is no sequence of Rust tokens, or a token is not modelled. -/
inductive LexErr where
  | bad | unknown
deriving DecidableEq, Repr

/-- What has been read of the current token. -/
inductive LexMode where
  /-- nothing -/
  | between
  /-- `/`, which may start a comment -/
  | slash
  /-- a string literal, which may be followed by a suffix -/
  | afterStr
  /-- an identifier or a keyword -/
  | word (w : List Char)
  /-- a string literal with the value so far -/
  | str (v : List Char)
  /-- the `\` of an escape -/
  | esc (v : List Char)
  /-- `\x` -/
  | hex1 (v : List Char)
  /-- `\x` and a digit -/
  | hex2 (v : List Char) (d : Nat)
  /-- `\u` -/
  | uni (v : List Char)
  /-- `\u{` and digits -/
  | uniDigits (v : List Char) (ds : List Nat)

/-- State of the lexer: the delimiters opened and not closed yet, innermost first, each with the tokens before it; the tokens
after the innermost one; the current token. -/
structure Scan where
  stack : List (Char × List Tok)
  cur : List Tok
  mode : LexMode

/-- The value of a hexadecimal digit. -/
def hexValue (c : Char) : Option Nat :=
  if c.isDigit then some (c.toNat - 48)
  else if 'a' ≤ c ∧ c ≤ 'f' then some (c.toNat - 87)
  else if 'A' ≤ c ∧ c ≤ 'F' then some (c.toNat - 55)
  else none

/-- Add a token. -/
def Scan.add (σ : Scan) (t : Tok) : Scan := { σ with cur := σ.cur ++ [t], mode := .between }

/-- A character that is not part of the token before. -/
def Scan.fresh (σ : Scan) (c : Char) : Except LexErr Scan :=
  if wsChars.contains c then .ok { σ with mode := .between }
  else if c.isAlpha || c == '_' then .ok { σ with mode := .word [c] }
  else if c == '"' then .ok { σ with mode := .str [] }
  else if c == '/' then .ok { σ with mode := .slash }
  else if c == '(' || c == '[' || c == '{' then .ok ⟨(c, σ.cur) :: σ.stack, [], .between⟩
  else if c == ')' || c == ']' || c == '}' then
    match σ.stack with
    | [] => .error .bad
    | (o, before) :: stack =>
      if (o, c) ∈ [('(', ')'), ('[', ']'), ('{', '}')] then .ok ⟨stack, before ++ [.group (o == '(') σ.cur], .between⟩
      else .error .bad
  else if "~!@#$%^&*-=+|;:,<.>?".toList.contains c then .ok (σ.add (.punct c))
  else .error .unknown

/-- Read a character. -/
def Scan.step (σ : Scan) (c : Char) : Except LexErr Scan :=
  match σ.mode with
  | .between => σ.fresh c
  | .slash => if c == '/' || c == '*' then .error .unknown else (σ.add (.punct '/')).fresh c
  | .afterStr => if c.isAlpha || c == '_' then .error .unknown else σ.fresh c
  | .word w =>
    if c.isAlphanum || c == '_' then .ok { σ with mode := .word (w ++ [c]) }
    else if c == '"' || c == '\'' || c == '#' then .error .unknown
    else (σ.add (.ident false (String.ofList w))).fresh c
  | .str v =>
    if c == '"' then .ok { σ.add (.str v) with mode := .afterStr }
    else if c == '\\' then .ok { σ with mode := .esc v }
    else if c == '\r' then .error .unknown
    else .ok { σ with mode := .str (v ++ [c]) }
  | .esc v =>
    if c == 'x' then .ok { σ with mode := .hex1 v }
    else if c == 'u' then .ok { σ with mode := .uni v }
    else if c == '\n' || c == '\r' then .error .unknown
    else match [('n', '\n'), ('r', '\r'), ('t', '\t'), ('\\', '\\'), ('0', Char.ofNat 0), ('\'', '\''), ('"', '"')].lookup c with
      | some c => .ok { σ with mode := .str (v ++ [c]) }
      | none => .error .bad
  | .hex1 v =>
    match hexValue c with
    | some d => if d < 8 then .ok { σ with mode := .hex2 v d } else .error .bad
    | none => .error .bad
  | .hex2 v d =>
    match hexValue c with
    | some d' => .ok { σ with mode := .str (v ++ [Char.ofNat (16 * d + d')]) }
    | none => .error .bad
  | .uni v => if c == '{' then .ok { σ with mode := .uniDigits v [] } else .error .bad
  | .uniDigits v ds =>
    if c == '}' then
      let n := ds.foldl (fun a d => 16 * a + d) 0
      if 1 ≤ ds.length ∧ ds.length ≤ 6 ∧ n.isValidChar then .ok { σ with mode := .str (v ++ [Char.ofNat n]) } else .error .bad
    else if c == '_' then .error .unknown
    else match hexValue c with
      | some d => .ok { σ with mode := .uniDigits v (ds ++ [d]) }
      | none => .error .bad

/-- Read the characters of a text. -/
def Scan.run (σ : Scan) : List Char → Except LexErr Scan
  | [] => .ok σ
  | c :: r =>
    match σ.step c with
    | .ok σ => σ.run r
    | .error e => .error e

/-- The end of the text. -/
def Scan.finish (σ : Scan) : Except LexErr (List Tok) :=
  match σ.stack with
  | _ :: _ => .error .bad
  | [] =>
    match σ.mode with
    | .between | .afterStr => .ok σ.cur
    | .slash => .ok (σ.cur ++ [.punct '/'])
    | .word w => .ok (σ.cur ++ [.ident false (String.ofList w)])
    | _ => .error .bad

/-- The tokens of a text. -/
def lex (text : List Char) : Except LexErr (List Tok) :=
  match Scan.run ⟨[], [], .between⟩ text with
  | .ok σ => σ.finish
  | .error e => .error e

example : lex "let x y=( y ) .\"a\\x41\\u{e9}\\n\" | _;match /x/!x;".toList =
    .ok [.ident false "let", .ident false "x", .ident false "y", .punct '=', .group true [.ident false "y"], .punct '.',
      .str ['a', 'A', Char.ofNat 233, '\n'], .punct '|', .ident false "_", .punct ';', .ident false "match", .punct '/',
      .ident false "x", .punct '/', .punct '!', .ident false "x", .punct ';'] := by rfl
example : lex "\"\\u{d800}\"".toList = .error .bad ∧ lex "( ]".toList = .error .bad ∧ lex "a // b".toList = .error .unknown :=
  ⟨by rfl, by rfl, by rfl⟩

/-! ## The tokens of a program -/

/-- Characters that end identifiers and string literals. -/
def stopChars : List Char := wsChars ++ ['.', ':', '|', '/', '=', ';', ')']

/-- The text goes on with such a character. -/
def Stops (r : List Char) : Prop := ∃ c r', r = c :: r' ∧ c ∈ stopChars

theorem stop_word : ∀ c ∈ stopChars, (c.isAlphanum || c == '_') = false ∧ (c == '"' || c == '\'' || c == '#') = false ∧
    (c.isAlpha || c == '_') = false := by decide +kernel

theorem Stops.ws (w : Pick wsChars) (r : List Char) : Stops (w.char :: r) :=
  ⟨_, _, rfl, List.mem_append_left _ (List.getElem_mem _)⟩

theorem Stops.blank (b : Blank) {r : List Char} (h : Stops r) : Stops (b.text ++ r) := by
  cases b with
  | nil => exact h
  | cons w ws => exact Stops.ws w _

theorem Stops.char {c : Char} (r : List Char) (h : c ∈ stopChars := by decide) : Stops (c :: r) := ⟨_, _, rfl, h⟩

/-- Add tokens. -/
def Scan.adds (σ : Scan) (ts : List Tok) : Scan := { σ with cur := σ.cur ++ ts, mode := .between }

/-- Between two tokens. -/
def Scan.btw (σ : Scan) : Prop := σ.mode = .between

theorem Scan.btw_adds (σ : Scan) (ts : List Tok) : (σ.adds ts).btw := rfl

theorem Scan.adds_adds (σ : Scan) (a b : List Tok) : (σ.adds a).adds b = σ.adds (a ++ b) := by
  simp [Scan.adds]

theorem Scan.adds_mode (σ : Scan) (m : LexMode) (a : List Tok) : ({ σ with mode := m } : Scan).adds a = σ.adds a := rfl

theorem Scan.btw_eq {σ : Scan} (h : σ.btw) : ({ σ with mode := .between } : Scan) = σ := by
  cases σ
  cases h
  rfl

/-- White space does not matter. -/
theorem run_blank {σ : Scan} (h : σ.btw) : ∀ (b : Blank) (r : List Char), σ.run (b.text ++ r) = σ.run r
  | [], _ => rfl
  | w :: ws, r => by
    have hw : wsChars.contains w.char = true := by
      rw [List.contains_iff_mem]
      exact List.getElem_mem _
    have : σ.step w.char = .ok σ := by
      unfold Scan.step
      rw [show σ.mode = .between from h]
      simp only [Scan.fresh, hw, if_true]
      rw [Scan.btw_eq h]
    show σ.run (w.char :: (Blank.text ws ++ r)) = _
    rw [Scan.run, this]
    exact run_blank h ws r

theorem run_ws {σ : Scan} (h : σ.btw) (w : Pick wsChars) (ws : Blank) (r : List Char) :
    σ.run (w.char :: (ws.text ++ r)) = σ.run r := run_blank h (w :: ws) r

theorem run_word_stop (σ : Scan) (w : List Char) {r : List Char} (h : Stops r) :
    ({ σ with mode := .word w } : Scan).run r = (σ.adds [.ident false (String.ofList w)]).run r := by
  obtain ⟨c, r, rfl, hc⟩ := h
  obtain ⟨h1, h2, h3⟩ := stop_word c hc
  have e : ({ σ with mode := .word w } : Scan).step c = (σ.adds [.ident false (String.ofList w)]).step c := by
    unfold Scan.step
    simp only [h1, h2]
    rfl
  rw [Scan.run, Scan.run, e]

theorem run_afterStr (σ : Scan) {r : List Char} (h : Stops r) :
    ({ σ with mode := .afterStr } : Scan).run r = (σ.adds []).run r := by
  obtain ⟨c, r, rfl, hc⟩ := h
  obtain ⟨h1, h2, h3⟩ := stop_word c hc
  have e : ({ σ with mode := .afterStr } : Scan).step c = (σ.adds []).step c := by
    unfold Scan.step
    simp only [h3]
    show Scan.fresh _ c = Scan.fresh _ c
    unfold Scan.fresh Scan.adds Scan.add
    simp
  rw [Scan.run, Scan.run, e]

theorem run_slash {σ : Scan} {c : Char} (r : List Char) (h : c ≠ '/') (h' : c ≠ '*') :
    ({ σ with mode := .slash } : Scan).run (c :: r) = (σ.adds [.punct '/']).run (c :: r) := by
  have e : ({ σ with mode := .slash } : Scan).step c = (σ.adds [.punct '/']).step c := by
    unfold Scan.step
    simp [h, h', Scan.adds, Scan.add]
  rw [Scan.run, Scan.run, e]

theorem cont_word : ∀ k : UCont, (k.char.isAlphanum || k.char == '_') = true
  | .start k => by
    have : ∀ c ∈ startChars, (c.isAlphanum || c == '_') = true := by decide +kernel
    exact this _ (List.getElem_mem _)
  | .other k => by
    have : ∀ c ∈ otherChars, (c.isAlphanum || c == '_') = true := by decide +kernel
    exact this _ (List.getElem_mem _)

theorem run_conts (σ : Scan) : ∀ (l : List UCont) (w : List Char) {r : List Char}, Stops r →
    ({ σ with mode := .word w } : Scan).run (l.map UCont.char ++ r) =
      (σ.adds [.ident false (String.ofList (w ++ l.map UCont.char))]).run r
  | [], w, r, h => by simpa using run_word_stop σ w h
  | k :: l, w, r, h => by
    have e : ({ σ with mode := .word w } : Scan).step k.char = .ok { σ with mode := .word (w ++ [k.char]) } := by
      unfold Scan.step
      simp only [cont_word k, if_true]
    rw [List.map_cons, List.cons_append, Scan.run, e]
    simp only
    rw [run_conts σ l _ h]
    simp

theorem start_fresh : ∀ c ∈ startChars, wsChars.contains c = false ∧ (c.isAlpha || c == '_') = true := by decide +kernel

theorem run_ident {σ : Scan} (hσ : σ.btw) (i : UIdent) {r : List Char} (h : Stops r) :
    σ.run (i.text ++ r) = (σ.adds i.ident.toks).run r := by
  obtain ⟨h1, h2⟩ := start_fresh i.first.char (List.getElem_mem _)
  have e : σ.step i.first.char = .ok { σ with mode := .word [i.first.char] } := by
    unfold Scan.step
    rw [show σ.mode = .between from hσ]
    simp only [Scan.fresh, h1, h2]
    rfl
  rw [UIdent.text, List.cons_append, Scan.run, e]
  simp only
  rw [run_conts σ _ _ h]
  simp [Ident.toks, UIdent.ident, UIdent.text]

theorem run_eps {σ : Scan} (hσ : σ.btw) {r : List Char} (h : Stops r) :
    σ.run ('_' :: r) = (σ.adds [.ident false "_"]).run r := by
  have e : σ.step '_' = .ok { σ with mode := .word ['_'] } := by
    unfold Scan.step
    rw [show σ.mode = .between from hσ]
    rfl
  rw [Scan.run, e]
  exact run_word_stop σ _ h

/-- Punctuation except `/`. -/
theorem run_punct {σ : Scan} (hσ : σ.btw) (c : Char) (r : List Char)
    (hc : c ∈ ['.', ':', '|', '=', ';', '!'] := by decide) : σ.run (c :: r) = (σ.adds [.punct c]).run r := by
  have h : ∀ c ∈ ['.', ':', '|', '=', ';', '!'], wsChars.contains c = false ∧ (c.isAlpha || c == '_') = false ∧ (c == '"') = false ∧
      (c == '/') = false ∧ (c == '(' || c == '[' || c == '{') = false ∧ (c == ')' || c == ']' || c == '}') = false ∧
      "~!@#$%^&*-=+|;:,<.>?".toList.contains c = true := by decide +kernel
  obtain ⟨h1, h2, h3, h4, h5, h6, h7⟩ := h c hc
  have e : σ.step c = .ok (σ.adds [.punct c]) := by
    unfold Scan.step
    rw [show σ.mode = .between from hσ]
    simp only [Scan.fresh, h1, h2, h3, h4, h5, h6, h7]
    rfl
  rw [Scan.run, e]

/-! ### String literals -/

theorem plain_chars : ∀ c ∈ plainChars, (c == '"') = false ∧ (c == '\\') = false ∧ (c == '\r') = false := by decide +kernel

theorem ascii_chars : ∀ k : Pick asciiChars, (k.char == 'x') = false ∧ (k.char == 'u') = false ∧
    (k.char == '\n' || k.char == '\r') = false ∧
    [('n', '\n'), ('r', '\r'), ('t', '\t'), ('\\', '\\'), ('0', Char.ofNat 0), ('\'', '\''), ('"', '"')].lookup k.char =
      asciiVals[k.val]? := by decide +kernel

theorem ascii_some : ∀ k : Pick asciiChars, ∃ c, asciiVals[k.val]? = some c := by
  intro k
  have h : k.val < asciiVals.length := k.isLt
  exact ⟨_, List.getElem?_eq_getElem h⟩

theorem hex_chars : ∀ k : Pick hexChars, hexValue k.char = some (hexVal16 k) ∧ (k.char == '}') = false ∧ (k.char == '_') = false := by
  decide +kernel

theorem oct_chars : ∀ k : Pick octChars, hexValue k.char = some k.val := by decide +kernel

theorem run_digits (σ : Scan) (v : List Char) : ∀ (ds : List (Pick hexChars)) (acc : List Nat) (r : List Char),
    ({ σ with mode := .uniDigits v acc } : Scan).run (ds.map Pick.char ++ r) =
      ({ σ with mode := .uniDigits v (acc ++ ds.map hexVal16) } : Scan).run r
  | [], acc, r => by simp
  | d :: ds, acc, r => by
    obtain ⟨h1, h2, h3⟩ := hex_chars d
    have e : ({ σ with mode := .uniDigits v acc } : Scan).step d.char = .ok { σ with mode := .uniDigits v (acc ++ [hexVal16 d]) } := by
      unfold Scan.step
      simp only [h1, h2, h3]
      rfl
    rw [List.map_cons, List.cons_append, Scan.run, e]
    simp only
    rw [run_digits σ v ds]
    simp

theorem hexNum_foldl : ∀ (ds : List (Pick hexChars)) (a : Nat),
    (ds.map hexVal16).foldl (fun a d => 16 * a + d) a = ds.foldl (fun a d => a * 16 + hexVal16 d) a
  | [], _ => rfl
  | d :: ds, a => by
    simp only [List.map_cons, List.foldl_cons]
    rw [hexNum_foldl ds, Nat.mul_comm]

theorem run_uchar (σ : Scan) (v : List Char) (r : List Char) : ∀ c : UChar,
    ({ σ with mode := .str v } : Scan).run (c.text ++ r) =
      if c.denotes.isSome then ({ σ with mode := .str (v ++ [c.val]) } : Scan).run r else .error .bad
  | .plain k => by
    obtain ⟨h1, h2, h3⟩ := plain_chars k.char (List.getElem_mem _)
    have e : ({ σ with mode := .str v } : Scan).step k.char = .ok { σ with mode := .str (v ++ [k.char]) } := by
      unfold Scan.step
      simp only [h1, h2, h3]
      rfl
    rw [UChar.text, List.singleton_append, Scan.run, e]
    simp [UChar.denotes, UChar.val]
  | .ascii k => by
    obtain ⟨h1, h2, h3, h4⟩ := ascii_chars k
    obtain ⟨c, hc⟩ := ascii_some k
    have e : ({ σ with mode := .str v } : Scan).step '\\' = .ok { σ with mode := .esc v } := rfl
    have e' : ({ σ with mode := .esc v } : Scan).step k.char = .ok { σ with mode := .str (v ++ [c]) } := by
      unfold Scan.step
      simp only [h1, h2, h3, h4, hc]
      rfl
    show Scan.run _ ('\\' :: k.char :: r) = _
    rw [Scan.run, e]
    simp only
    rw [Scan.run, e']
    simp [UChar.denotes, UChar.val, hc]
  | .byte o k => by
    obtain ⟨h1, _, _⟩ := hex_chars k
    have h2 := oct_chars o
    have h3 : o.val < 8 := o.isLt
    have e : ({ σ with mode := .str v } : Scan).step '\\' = .ok { σ with mode := .esc v } := rfl
    have e1 : ({ σ with mode := .esc v } : Scan).step 'x' = .ok { σ with mode := .hex1 v } := rfl
    have e2 : ({ σ with mode := .hex1 v } : Scan).step o.char = .ok { σ with mode := .hex2 v o.val } := by
      unfold Scan.step
      simp only [h2, h3, if_true]
    have e3 : ({ σ with mode := .hex2 v o.val } : Scan).step k.char =
        .ok { σ with mode := .str (v ++ [Char.ofNat (16 * o.val + hexVal16 k)]) } := by
      unfold Scan.step
      simp only [h1]
    show Scan.run _ ('\\' :: 'x' :: o.char :: k.char :: r) = _
    rw [Scan.run, e]; simp only
    rw [Scan.run, e1]; simp only
    rw [Scan.run, e2]; simp only
    rw [Scan.run, e3]
    simp [UChar.denotes, UChar.val, Nat.mul_comm]
  | .unicode d ds hl => by
    have e : ({ σ with mode := .str v } : Scan).step '\\' = .ok { σ with mode := .esc v } := rfl
    have e1 : ({ σ with mode := .esc v } : Scan).step 'u' = .ok { σ with mode := .uni v } := rfl
    have e2 : ({ σ with mode := .uni v } : Scan).step '{' = .ok { σ with mode := .uniDigits v [] } := rfl
    have hlen : ((d :: ds).map hexVal16).length = ds.length + 1 := by simp
    have hn : ((d :: ds).map hexVal16).foldl (fun a d => 16 * a + d) 0 = hexNum (d :: ds) := hexNum_foldl _ _
    have e3 : ({ σ with mode := .uniDigits v ([] ++ (d :: ds).map hexVal16) } : Scan).step '}' =
        if (hexNum (d :: ds)).isValidChar then .ok { σ with mode := .str (v ++ [Char.ofNat (hexNum (d :: ds))]) }
        else .error .bad := by
      rw [List.nil_append]
      unfold Scan.step
      simp only [hlen, hn]
      by_cases hv : (hexNum (d :: ds)).isValidChar
      · rw [if_pos hv]
        simp only [beq_self_eq_true, if_true]
        rw [if_pos ⟨by omega, by omega, hv⟩]
      · rw [if_neg hv]
        simp only [beq_self_eq_true, if_true]
        rw [if_neg fun h => hv h.2.2]
    have ht : (UChar.unicode d ds hl).text ++ r = '\\' :: 'u' :: '{' :: ((d :: ds).map Pick.char ++ '}' :: r) := by
      simp [UChar.text]
    rw [ht, Scan.run, e]; simp only
    rw [Scan.run, e1]; simp only
    rw [Scan.run, e2]; simp only
    rw [run_digits, Scan.run, e3]
    by_cases hv : (hexNum (d :: ds)).isValidChar
    · simp [hv, UChar.denotes, UChar.val]
    · simp [hv, UChar.denotes]

theorem run_uchars (σ : Scan) (r : List Char) : ∀ (l : List UChar) (v : List Char),
    ({ σ with mode := .str v } : Scan).run (l.flatMap UChar.text ++ r) =
      if l.all fun c => c.denotes.isSome then ({ σ with mode := .str (v ++ l.map UChar.val) } : Scan).run r else .error .bad
  | [], v => by simp
  | c :: l, v => by
    rw [List.flatMap_cons, List.append_assoc, run_uchar, run_uchars σ r l]
    by_cases hc : c.denotes.isSome
    · simp [hc]
    · simp [hc]

theorem run_lit {σ : Scan} (hσ : σ.btw) (c : UChar) (l : List UChar) {r : List Char} (h : Stops r) :
    σ.run ((UTerm.lit c l).text ++ r) =
      if (UTerm.lit c l).ok then (σ.adds (UTerm.lit c l).term.toks).run r else .error .bad := by
  have e : σ.step '"' = .ok { σ with mode := .str [] } := by
    unfold Scan.step
    rw [show σ.mode = .between from hσ]
    rfl
  have ht : (UTerm.lit c l).text ++ r = '"' :: ((c :: l).flatMap UChar.text ++ '"' :: r) := by simp [UTerm.text]
  rw [ht, Scan.run, e]
  simp only
  rw [run_uchars]
  rw [show (UTerm.lit c l).ok = ((c :: l).all fun c => c.denotes.isSome) by rw [UTerm.ok]]
  split
  · have e' : ({ σ with mode := .str ([] ++ (c :: l).map UChar.val) } : Scan).step '"' =
        .ok { σ.adds [.str ((c :: l).map UChar.val)] with mode := .afterStr } := rfl
    rw [Scan.run, e']
    simp only
    rw [run_afterStr _ h]
    rw [UTerm.term, Term.toks, Scan.adds_adds, List.append_nil]
  · rfl

/-! ### Programs -/

theorem UTerm.head (t : UTerm) : ∃ c r, t.text = c :: r ∧ c ≠ '/' ∧ c ≠ '*' := by
  cases t with
  | eps => exact ⟨_, _, by rw [UTerm.text], by decide, by decide⟩
  | lit => exact ⟨_, _, by rw [UTerm.text], by decide, by decide⟩
  | parens => exact ⟨_, _, by rw [UTerm.text], by decide, by decide⟩
  | fix => exact ⟨_, _, by rw [UTerm.text], by decide, by decide⟩
  | var i =>
    refine ⟨_, _, by rw [UTerm.text, UIdent.text], ?_⟩
    have : ∀ c ∈ startChars, c ≠ '/' ∧ c ≠ '*' := by decide
    exact this _ (List.getElem_mem _)

/-- The text of something that starts with a term starts like one. -/
def NoComment (l : List Char) : Prop := ∃ c r, l = c :: r ∧ c ≠ '/' ∧ c ≠ '*'

theorem NoComment.append {l : List Char} (h : NoComment l) (r : List Char) : NoComment (l ++ r) := by
  obtain ⟨c, r', rfl, h⟩ := h
  exact ⟨c, r' ++ r, rfl, h⟩

theorem NoComment.blank (b : Blank) {l : List Char} (h : NoComment l) : NoComment (b.text ++ l) := by
  cases b with
  | nil => exact h
  | cons w ws =>
    have : ∀ c ∈ wsChars, c ≠ '/' ∧ c ≠ '*' := by decide
    exact ⟨w.char, _, rfl, this _ (List.getElem_mem _)⟩

theorem UCall.noComment : ∀ x : UCall, NoComment x.text
  | .one t => by rw [UCall.text]; exact t.head
  | .trail t w ws => by rw [UCall.text]; exact NoComment.append t.head _
  | .more t w ws r => by rw [UCall.text]; exact NoComment.append t.head _
theorem UCat.noComment : ∀ x : UCat, NoComment x.text
  | .one t => by rw [UCat.text]; exact t.noComment
  | .more t ws r => by rw [UCat.text]; exact NoComment.append t.noComment _
theorem ULabelled.noComment : ∀ x : ULabelled, NoComment x.text
  | .plain t => by rw [ULabelled.text]; exact t.noComment
  | .label t ws i ws' => by rw [ULabelled.text]; exact NoComment.append t.noComment _
theorem UAlt.noComment : ∀ x : UAlt, NoComment x.text
  | .one t => by rw [UAlt.text]; exact t.noComment
  | .more t ws r => by rw [UAlt.text]; exact NoComment.append t.noComment _
theorem UIdent.noComment (i : UIdent) : NoComment i.text := by
  have : ∀ c ∈ startChars, c ≠ '/' ∧ c ≠ '*' := by decide
  exact ⟨_, _, rfl, this _ (List.getElem_mem _)⟩
theorem UNames.noComment : ∀ x : UNames, NoComment x.text
  | .one t => by rw [UNames.text]; exact t.noComment
  | .trail t w ws => by rw [UNames.text]; exact NoComment.append t.noComment _
  | .more t w ws r => by rw [UNames.text]; exact NoComment.append t.noComment _

theorem run_slash' {σ : Scan} (hσ : σ.btw) {r : List Char} (h : NoComment r) :
    σ.run ('/' :: r) = (σ.adds [.punct '/']).run r := by
  have e : σ.step '/' = .ok { σ with mode := .slash } := by
    unfold Scan.step
    rw [show σ.mode = .between from hσ]
    rfl
  obtain ⟨c, r, rfl, h1, h2⟩ := h
  rw [Scan.run, e]
  exact run_slash r h1 h2

theorem run_names : ∀ (n : UNames) {σ : Scan} {r : List Char}, σ.btw → Stops r →
    σ.run (n.text ++ r) = (σ.adds (n.idents.flatMap Ident.toks)).run r
  | .one i, σ, r, hσ, h => by
    rw [UNames.text, run_ident hσ i h]
    simp [UNames.idents]
  | .trail i w ws, σ, r, hσ, h => by
    rw [UNames.text, List.append_assoc, List.cons_append, run_ident hσ i (Stops.ws w _), run_ws (Scan.btw_adds _ _)]
    simp [UNames.idents]
  | .more i w ws n, σ, r, hσ, h => by
    rw [UNames.text, List.append_assoc, List.cons_append, List.append_assoc, run_ident hσ i (Stops.ws w _),
      run_ws (Scan.btw_adds _ _), run_names n (Scan.btw_adds _ _) h, Scan.adds_adds]
    simp [UNames.idents]

theorem UCat.calls_ne (x : UCat) : x.calls ≠ [] := by cases x <;> simp [UCat.calls]
theorem UAlt.labelleds_ne (x : UAlt) : x.labelleds ≠ [] := by cases x <;> simp [UAlt.labelleds]

theorem calls_toks {x : Call} {sp : Nat} {l : List (Call × Nat)} (h : l ≠ []) :
    Call.toksL ((x, sp) :: l) = x.toks ++ .punct '.' :: Call.toksL l := by
  cases l with
  | nil => exact absurd rfl h
  | cons a l => rw [Call.toksL]; simp
theorem labelleds_toks {x : Labelled} {sp : Nat} {l : List (Labelled × Nat)} (h : l ≠ []) :
    Labelled.toksL ((x, sp) :: l) = x.toks ++ .punct '|' :: Labelled.toksL l := by
  cases l with
  | nil => exact absurd rfl h
  | cons a l => rw [Labelled.toksL]; simp

/-- Read a part of a program with the given tokens. -/
def Reads (text : List Char) (ok : Bool) (ts : List Tok) : Prop :=
  ∀ {σ : Scan} {r : List Char}, σ.btw → Stops r → σ.run (text ++ r) = if ok then (σ.adds ts).run r else .error .bad

mutual
theorem run_uterm : ∀ t : UTerm, Reads t.text t.ok t.term.toks
  | .eps, σ, r, hσ, h => by
    rw [UTerm.text, UTerm.ok, UTerm.term, Term.toks]
    exact run_eps hσ h
  | .lit c l, σ, r, hσ, h => run_lit hσ c l h
  | .parens ws e, σ, r, hσ, h => by
    rw [UTerm.text, UTerm.ok, UTerm.term, Term.toks]
    have e1 : σ.step '(' = .ok ⟨('(', σ.cur) :: σ.stack, [], .between⟩ := by
      unfold Scan.step
      rw [show σ.mode = .between from hσ]
      rfl
    have e2 : (Scan.adds ⟨('(', σ.cur) :: σ.stack, [], .between⟩ e.expr.toks).step ')' = .ok (σ.adds [.group true e.expr.toks]) := rfl
    rw [List.cons_append, List.append_assoc, List.append_assoc, List.singleton_append, Scan.run, e1]
    simp only
    rw [run_blank (show Scan.btw ⟨_, _, .between⟩ from rfl), run_uexpr e (show Scan.btw ⟨_, _, .between⟩ from rfl) (Stops.char (c := ')') r)]
    split
    · rw [Scan.run, e2]
    · rfl
  | .fix ws t, σ, r, hσ, h => by
    rw [UTerm.text, UTerm.ok, UTerm.term, Term.toks, List.cons_append, List.append_assoc, run_punct hσ '!',
      run_blank (Scan.btw_adds _ _), run_uterm t (Scan.btw_adds _ _) h, Scan.adds_adds, List.singleton_append]
  | .var i, σ, r, hσ, h => by
    rw [UTerm.text, UTerm.ok, UTerm.term, Term.toks]
    exact run_ident hσ i h
theorem run_ucall : ∀ x : UCall, Reads x.text x.ok (Term.toksL x.terms)
  | .one t, σ, r, hσ, h => by
    rw [UCall.text, UCall.ok, UCall.terms, Term.toksL, Term.toksL, List.append_nil]
    exact run_uterm t hσ h
  | .trail t w ws, σ, r, hσ, h => by
    rw [UCall.text, UCall.ok, UCall.terms, Term.toksL, Term.toksL, List.append_nil, List.append_assoc, List.cons_append,
      run_uterm t hσ (Stops.ws w _), run_ws (Scan.btw_adds _ _)]
  | .more t w ws x, σ, r, hσ, h => by
    rw [UCall.text, UCall.ok, UCall.terms, Term.toksL, List.append_assoc, List.cons_append, List.append_assoc,
      run_uterm t hσ (Stops.ws w _), run_ws (Scan.btw_adds _ _), run_ucall x (Scan.btw_adds _ _) h, Scan.adds_adds]
    cases t.ok <;> simp
theorem run_ucat : ∀ x : UCat, Reads x.text x.ok (Call.toksL x.calls)
  | .one t, σ, r, hσ, h => by
    rw [UCat.text, UCat.ok, UCat.calls, Call.toksL, Call.toks]
    exact run_ucall t hσ h
  | .more t ws x, σ, r, hσ, h => by
    rw [UCat.text, UCat.ok, UCat.calls, calls_toks x.calls_ne, Call.toks, List.append_assoc, List.cons_append, List.append_assoc,
      run_ucall t hσ (Stops.char (c := '.') _), run_punct (Scan.btw_adds _ _) '.', run_blank (Scan.btw_adds _ _),
      run_ucat x (Scan.btw_adds _ _) h, Scan.adds_adds, Scan.adds_adds]
    cases t.ok <;> simp
theorem run_ulabelled : ∀ x : ULabelled, Reads x.text x.ok x.labelled.toks
  | .plain t, σ, r, hσ, h => by
    rw [ULabelled.text, ULabelled.ok, ULabelled.labelled, Labelled.toks, Cat.toks]
    exact run_ucat t hσ h
  | .label t ws i ws', σ, r, hσ, h => by
    rw [ULabelled.text, ULabelled.ok, ULabelled.labelled, Labelled.toks, Cat.toks, List.append_assoc, List.cons_append,
      List.append_assoc, List.append_assoc,
      run_ucat t hσ (Stops.char (c := ':') _), run_punct (Scan.btw_adds _ _) ':', run_blank (Scan.btw_adds _ _),
      run_ident (Scan.btw_adds _ _) i (Stops.blank ws' h), run_blank (Scan.btw_adds _ _), Scan.adds_adds, Scan.adds_adds]
    cases t.ok <;> simp
theorem run_ualt : ∀ x : UAlt, Reads x.text x.ok (Labelled.toksL x.labelleds)
  | .one t, σ, r, hσ, h => by
    rw [UAlt.text, UAlt.ok, UAlt.labelleds, Labelled.toksL]
    exact run_ulabelled t hσ h
  | .more t ws x, σ, r, hσ, h => by
    rw [UAlt.text, UAlt.ok, UAlt.labelleds, labelleds_toks x.labelleds_ne, List.append_assoc, List.cons_append,
      List.append_assoc,
      run_ulabelled t hσ (Stops.char (c := '|') _), run_punct (Scan.btw_adds _ _) '|', run_blank (Scan.btw_adds _ _),
      run_ualt x (Scan.btw_adds _ _) h, Scan.adds_adds, Scan.adds_adds]
    cases t.ok <;> simp
theorem run_uexpr : ∀ x : UExpr, Reads x.text x.ok x.expr.toks
  | .alt a, σ, r, hσ, h => by
    rw [UExpr.text, UExpr.ok, UExpr.expr, Expr.toks, Alt.toks]
    exact run_ualt a hσ h
  | .lam ws n ws' a, σ, r, hσ, h => by
    rw [UExpr.text, UExpr.ok, UExpr.expr, Expr.toks, Alt.toks, List.cons_append, List.append_assoc, List.append_assoc,
      List.cons_append, List.append_assoc,
      run_slash' hσ (NoComment.blank ws (NoComment.append n.noComment _)), run_blank (Scan.btw_adds _ _),
      run_names n (Scan.btw_adds _ _) (Stops.char (c := '/') _),
      run_slash' (Scan.btw_adds _ _) (NoComment.blank ws' (NoComment.append a.noComment _)), run_blank (Scan.btw_adds _ _),
      run_ualt a (Scan.btw_adds _ _) h, Scan.adds_adds, Scan.adds_adds, Scan.adds_adds]
    simp
end

theorem run_keyword {σ : Scan} (hσ : σ.btw) (s : String) (hs : s = "let" ∨ s = "match") {r : List Char} (h : Stops r) :
    σ.run (s.toList ++ r) = (σ.adds [.ident false s]).run r := by
  rcases hs with rfl | rfl
  · have := run_ident hσ ⟨(⟨11, by decide⟩ : Pick startChars), [.start ⟨4, by decide⟩, .start ⟨19, by decide⟩]⟩ h
    exact this
  · have := run_ident hσ ⟨(⟨12, by decide⟩ : Pick startChars),
      [.start ⟨0, by decide⟩, .start ⟨19, by decide⟩, .start ⟨2, by decide⟩, .start ⟨7, by decide⟩]⟩ h
    exact this

theorem UNames.idents_eq (n : UNames) : n.idents = n.idents.headD ⟨false, "", 0⟩ :: n.idents.tail := by
  cases n <;> simp [UNames.idents]

theorem run_ustmt : ∀ (s : UStmt) {σ : Scan}, σ.btw → σ.run s.text = if s.ok then .ok (σ.adds s.abs.toks) else .error .bad
  | .goal w ws e ws', σ, hσ => by
    rw [UStmt.text, UStmt.ok, UStmt.abs, Stmt.toks, run_keyword hσ "match" (.inr rfl) (Stops.ws w _), run_ws (Scan.btw_adds _ _),
      run_uexpr e (Scan.btw_adds _ _) (Stops.char (c := ';') _)]
    split
    · rw [run_punct (Scan.btw_adds _ _) ';', ← List.append_nil ws'.text, run_blank (Scan.btw_adds _ _), Scan.adds_adds,
        Scan.adds_adds, Scan.run]
      simp
    · rfl
  | .letS w ws n ws1 e ws2 s, σ, hσ => by
    rw [UStmt.text, UStmt.ok, UStmt.abs, Stmt.toks, run_keyword hσ "let" (.inl rfl) (Stops.ws w _), run_ws (Scan.btw_adds _ _),
      run_names n (Scan.btw_adds _ _) (Stops.char (c := '=') _), run_punct (Scan.btw_adds _ _) '=', run_blank (Scan.btw_adds _ _),
      run_uexpr e (Scan.btw_adds _ _) (Stops.char (c := ';') _)]
    cases he : e.ok with
    | false => simp
    | true =>
      simp only [if_true, Bool.true_and]
      rw [run_punct (Scan.btw_adds _ _) ';', run_blank (Scan.btw_adds _ _), run_ustmt s (Scan.btw_adds _ _)]
      simp only [Scan.adds_adds]
      have : n.idents.flatMap Ident.toks =
          (n.idents.headD ⟨false, "", 0⟩).toks ++ n.idents.tail.flatMap Ident.toks := by
        conv => lhs; rw [n.idents_eq]
        rw [List.flatMap_cons]
      rw [this]
      simp

/-- The tokens of the text of a program. -/
theorem lex_prog (p : UProg) : lex p.text = if p.stmt.ok then .ok p.stmt.abs.toks else .error .bad := by
  unfold lex UProg.text
  rw [run_blank (show Scan.btw ⟨_, _, .between⟩ from rfl), run_ustmt _ (show Scan.btw ⟨_, _, .between⟩ from rfl)]
  cases p.stmt.ok <;> simp [Scan.adds, Scan.finish]

end Chomp
