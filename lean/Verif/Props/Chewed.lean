import Verif.Chewed.Lemmas

/-!
# Properties C01–C07: the `chewed` runtime

The specifications are at the top of each section; the theorems mention only the modelled API
(`IW.new`, `IW.peek`, `IW.advance` (= `Parser::next`), `consumeStr`, ...) and these specifications.
`IW.rem w` (defined in `Chewed/Lemmas.lean`) is the list of characters still to be delivered.
-/

namespace Chomp

/-! ## C01: stream fidelity -/

/-- A call made by the user of an `IterWrapper`. -/
inductive StreamOp where
  | peek
  | next
deriving DecidableEq, Repr

/-- Run a history of calls; collects every returned value. -/
def runOps : List StreamOp → IW → List (Option Char) × IW
  | [], w => ([], w)
  | .peek :: ops, w => let r := runOps ops w.peek.2; (w.peek.1 :: r.1, r.2)
  | .next :: ops, w => let r := runOps ops w.advance.2; (w.advance.1 :: r.1, r.2)

theorem runOps_spec (ops : List StreamOp) (w : IW) :
    (runOps ops w).1.length = ops.length ∧
    (runOps ops w).2.rem = w.rem.drop (ops.count .next) ∧
    (runOps ops w).2.pos = advPosN w.pos (ops.count .next) w.rem ∧
    ∀ i, i < ops.length → (runOps ops w).1[i]? = some (w.rem[(ops.take i).count .next]?) := by
  induction ops generalizing w with
  | nil => simp [runOps, advPosN]
  | cons op ops ih =>
    cases op with
    | peek =>
      obtain ⟨h1, h2, h3, h4⟩ := ih w.peek.2
      rw [IW.peek_rem] at h2 h4
      rw [IW.peek_rem, IW.peek_pos] at h3
      refine ⟨by simp [runOps, h1], by simpa [runOps] using h2, by simpa [runOps] using h3, ?_⟩
      intro i hi
      cases i with
      | zero => simp [runOps, IW.peek_fst, List.head?_eq_getElem?]
      | succ i => simpa [runOps] using h4 i (by simpa using hi)
    | next =>
      obtain ⟨h1, h2, h3, h4⟩ := ih w.advance.2
      rw [IW.advance_rem] at h2 h4
      rw [IW.advance_rem, IW.advance_pos] at h3
      refine ⟨by simp [runOps, h1], by simpa [runOps] using h2, by simpa [runOps, advPosN] using h3, ?_⟩
      intro i hi
      cases i with
      | zero => simp [runOps, IW.advance_fst, List.head?_eq_getElem?]
      | succ i => simpa [runOps] using h4 i (by simpa using hi)

/-- **C01.** For every text and every history of `peek`/`next` calls, the `i`-th call returns
the character of the text whose index is the number of earlier `next` calls (`None` past the end).
In particular `next` delivers the text in order, `peek` returns what the next `next` will return,
and the number and placement of `peek` calls is irrelevant. -/
theorem C01_stream_fidelity (text : List Char) (ops : List StreamOp) :
    (runOps ops (IW.new text)).1.length = ops.length ∧
    ∀ i, i < ops.length →
      (runOps ops (IW.new text)).1[i]? = some (text[(ops.take i).count .next]?) := by
  have h := runOps_spec ops (IW.new text)
  rw [IW.rem_new] at h
  exact ⟨h.1, h.2.2.2⟩

/-- **C01** (second half). The state reached – position and remaining characters – depends only on
the number of `next` calls: dropping all `peek` calls from a history changes nothing. -/
theorem C01_peek_invisible (text : List Char) (ops : List StreamOp) :
    let w := (runOps ops (IW.new text)).2
    let w' := (runOps (ops.filter (· == .next)) (IW.new text)).2
    w.pos = w'.pos ∧ w.rem = w'.rem ∧ w.rem = text.drop (ops.count .next) := by
  have h := runOps_spec ops (IW.new text)
  have h' := runOps_spec (ops.filter (· == .next)) (IW.new text)
  have hc : (ops.filter (· == .next)).count .next = ops.count .next := by
    rw [List.count_filter]; rfl
  rw [hc] at h'
  refine ⟨by rw [h.2.2.1, h'.2.2.1], by rw [h.2.1, h'.2.1], by simpa using h.2.1⟩

example : (runOps [.peek, .next, .peek, .peek, .next, .next, .next] (IW.new ['a', '\x0D', '\n'])).1
    = [some 'a', some 'a', some '\x0D', some '\x0D', some '\x0D', some '\n', none] := by decide

/-! ## C02: positions -/

/-- Specification: the character at index `i` of the text ends a line.  LF, VT, FF, NEL, LS, PS
always do; CR does unless the next character is LF (so a CR LF pair ends one line). -/
def endsLine (text : List Char) (i : Nat) : Bool :=
  match text[i]? with
  | none => false
  | some c =>
    c ∈ ['\n', '\x0B', '\x0C', '\u0085', '\u2028', '\u2029'] ||
    (c == '\x0D' && text[i + 1]? != some '\n')

/-- Specification: one-indexed line after `n` characters: one plus the number of line ends. -/
def specLine (text : List Char) (n : Nat) : Nat := 1 + (List.range n).countP (endsLine text)

/-- Specification: zero-indexed column after `n` characters: how many characters since the last
line end. -/
def specCol (text : List Char) (n : Nat) : Nat :=
  ((List.range n).reverse.takeWhile (fun i => !endsLine text i)).length

theorem advPos_spec (text : List Char) (n : Nat) (hn : n < text.length) (p : LineCol) :
    advPos p (text.drop n) =
      if endsLine text n then ⟨p.line + 1, 0⟩ else ⟨p.line, p.col + 1⟩ := by
  have h1 : text.drop n = text[n] :: text.drop (n + 1) := List.drop_eq_getElem_cons hn
  rw [h1, advPos, endsLine, List.getElem?_eq_getElem hn, List.head?_drop]
  generalize text[n] = c
  simp only [isBreak, Bool.or_eq_true, beq_iff_eq, decide_eq_true_eq,
    Bool.and_eq_true, bne_iff_ne, ne_eq]
  by_cases hb : c ∈ ['\n', '\x0B', '\x0C', '\u0085', '\u2028', '\u2029']
  · have : ((((c = '\n' ∨ c = '\x0B') ∨ c = '\x0C') ∨ c = '\u0085') ∨ c = '\u2028') ∨ c = '\u2029' := by
      simpa [or_assoc] using hb
    simp only [this, hb, true_or, if_true]
  · have : ¬ (((((c = '\n' ∨ c = '\x0B') ∨ c = '\x0C') ∨ c = '\u0085') ∨ c = '\u2028') ∨ c = '\u2029') := by
      simpa [or_assoc] using hb
    simp only [this, hb, false_or, if_false]
    by_cases hc : c = '\x0D'
    · by_cases hl : text[n + 1]? = some '\n' <;> simp [hc, hl]
    · simp [hc]

theorem advPosN_spec (text : List Char) (n : Nat) (hn : n ≤ text.length) :
    advPosN ⟨1, 0⟩ n text = ⟨specLine text n, specCol text n⟩ := by
  induction n with
  | zero => simp [advPosN, specLine, specCol]
  | succ n ih =>
    rw [advPosN_succ, ih (by omega), advPos_spec text n (by omega)]
    simp only [specLine, specCol, List.range_succ, List.countP_append, List.reverse_append,
      List.reverse_cons, List.reverse_nil, List.nil_append, List.singleton_append,
      List.takeWhile_cons]
    by_cases h : endsLine text n = true
    · simp [h, Nat.add_assoc]
    · simp [h]

/-- **C02.** After any history of calls with at most as many `next` calls as there are
characters, `pos()` is the specified line and column of the consumed prefix. -/
theorem C02_position (text : List Char) (ops : List StreamOp)
    (h : ops.count .next ≤ text.length) :
    (runOps ops (IW.new text)).2.pos
      = ⟨specLine text (ops.count .next), specCol text (ops.count .next)⟩ := by
  rw [(runOps_spec ops (IW.new text)).2.2.1]
  simpa using advPosN_spec text _ h

theorem advPosN_nil (p : LineCol) (n : Nat) : advPosN p n [] = ⟨p.line, p.col + n⟩ := by
  induction n generalizing p with
  | zero => rfl
  | succ n ih => simp [advPosN, advPos, ih]; omega

/-- **C02**, past the end: every `next` call that returns `None` still increments the column, so
the position is no longer that of the end of the text (a defect of the code: the last match arm
of `IterWrapper::next` also runs for `None`). -/
theorem C02_position_past_end (text : List Char) (ops : List StreamOp)
    (h : text.length ≤ ops.count .next) :
    (runOps ops (IW.new text)).2.pos
      = ⟨specLine text text.length,
         specCol text text.length + (ops.count .next - text.length)⟩ := by
  rw [(runOps_spec ops (IW.new text)).2.2.1]
  obtain ⟨k, hk⟩ := Nat.le.dest h
  rw [← hk, IW.pos_new, IW.rem_new, advPosN_add, advPosN_spec text _ (Nat.le_refl _),
    List.drop_length, advPosN_nil]
  simp

example : (runOps [.next, .peek, .next, .next, .next] (IW.new ['a', '\x0D', '\n', 'b'])).2.pos = ⟨2, 1⟩
    ∧ specLine ['a', '\x0D', '\n', 'b'] 4 = 2 ∧ specCol ['a', '\x0D', '\n', 'b'] 4 = 1 := by decide

/-! ## C03, C04: consume_str -/

/-- **C03.** `consume_str(s)` returns `Ok` exactly if the remaining text starts with `s`, and then
exactly `s` has been consumed and the position advanced accordingly. -/
theorem C03_consume_str_ok (s : List Char) (w : IW) :
    ((∃ w', consumeStr s w = .ok () w') ↔ s <+: w.rem) ∧
    (∀ u w', consumeStr s w = .ok u w' →
      w.rem = s ++ w'.rem ∧ w'.pos = advPosN w.pos s.length w.rem) := by
  rcases consumeGo_spec s 0 s w with ⟨w', h1, h2, h3, h4⟩ | ⟨m, w', h1, h2, h3, h4, h5, h6, h7, h8⟩
  · refine ⟨⟨fun _ => h2, fun _ => ⟨w', h1⟩⟩, ?_⟩
    intro u w'' h
    rw [consumeStr, h1] at h
    injection h with _ h; subst h
    obtain ⟨r, hr⟩ := h2
    exact ⟨by rw [h3, ← hr]; simp, h4⟩
  · have hno : ∀ w'', consumeStr s w ≠ .ok () w'' := by
      intro w''
      rw [consumeStr]
      rcases h8 with ⟨_, h⟩ | ⟨_, _, ⟨_, _, h⟩ | ⟨_, h⟩⟩ <;> rw [h] <;> simp
    exact ⟨⟨fun ⟨w'', h⟩ => absurd h (hno w''), fun h => absurd h h1⟩,
      fun _ w'' h => absurd h (hno w'')⟩

example : consumeStr ['l', 'e'] (IW.new ['l', 'e', 't']) = .ok () ⟨⟨1, 2⟩, none, ['t']⟩ := by decide

/-- Specification: length of the longest common prefix. -/
def lcp : List Char → List Char → Nat
  | a :: as, b :: bs => if a = b then lcp as bs + 1 else 0
  | _, _ => 0

theorem lcp_eq (s r : List Char) (m : Nat) (hm : m < s.length) (h4 : s.take m = r.take m)
    (h3 : m ≤ r.length) (h5 : s[m]? ≠ r[m]?) : lcp s r = m := by
  induction m generalizing s r with
  | zero =>
    cases s <;> cases r <;> simp_all [lcp]
  | succ m ih =>
    cases s with
    | nil => simp at hm
    | cons a as =>
      cases r with
      | nil => simp at h3
      | cons b bs =>
        simp only [List.take_succ_cons, List.cons.injEq] at h4
        simp only [lcp, h4.1, if_true]
        rw [ih as bs (by simpa using hm) h4.2 (by simpa using h3) (by simpa using h5)]

/-- **C04 (partial: all characters of `s` but the last are ASCII).**  When `consume_str(s)` fails,
exactly the longest common prefix of `s` and the remaining text has been consumed, and the error
reports the position reached and either end of stream (text exhausted) or the matched prefix
followed by the offending character.  Missing: literals with a multi-byte character before the
last one, for which the claim is false, see `C04_consume_str_panics`. -/
theorem C04_consume_str_err_partial (s : List Char) (hs : ∀ c ∈ s.dropLast, c.utf8Size = 1) (w : IW)
    (h : ¬ s <+: w.rem) :
    ∃ w', w'.rem = w.rem.drop (lcp s w.rem) ∧ w'.pos = advPosN w.pos (lcp s w.rem) w.rem ∧
      consumeStr s w = .err
        (match w'.rem with
         | [] => .endOfStream w'.pos
         | got :: _ => .badString w'.pos (s.take (lcp s w.rem) ++ [got]) s) w' := by
  rcases consumeGo_spec s 0 s w with ⟨w', _, h2, _⟩ | ⟨m, w', h1, h2, h3, h4, h5, h6, h7, h8⟩
  · exact absurd h2 h
  · have hl := lcp_eq s w.rem m h2 h4 h3 h5
    rw [hl]
    refine ⟨w', h6, h7, ?_⟩
    rcases h8 with ⟨ha, hb⟩ | ⟨got, hg, h8⟩
    · have : w'.rem = [] := by rw [h6, ← ha]; simp
      rw [this]; exact hb
    · have hsl : sliceTo s (0 + m) = some (s.take m) := by
        have hm' : m ≤ s.dropLast.length := by simp; omega
        have e := sliceTo_ascii s.dropLast hs m hm'
        have hss : s = s.dropLast ++ [s.getLast (by intro h0; subst h0; exact absurd h2 (Nat.not_lt_zero _))] :=
          (List.dropLast_concat_getLast _).symm
        have key : ∀ (l x : List Char) (n : Nat) (o : List Char),
            sliceTo l n = some o → sliceTo (l ++ x) n = some o := by
          intro l x
          induction l with
          | nil =>
            intro n o h0
            cases n with
            | zero => rw [sliceTo] at h0 ⊢; exact h0
            | succ n => rw [sliceTo] at h0; cases h0
          | cons c cs ih =>
            intro n o h0
            cases n with
            | zero => simpa [sliceTo] using h0
            | succ n =>
              simp only [sliceTo, List.cons_append] at h0 ⊢
              split at h0
              · rename_i hc
                rw [if_pos hc]
                cases hq : sliceTo cs (n + 1 - c.utf8Size) with
                | none => rw [hq] at h0; simp at h0
                | some q => rw [hq] at h0; rw [ih _ _ hq]; exact h0
              · simp at h0
        rw [Nat.zero_add]
        have e2 := key _ [s.getLast (by intro h0; subst h0; exact absurd h2 (Nat.not_lt_zero _))] _ _ e
        rw [← hss] at e2
        rw [e2]
        congr 1
        rw [List.dropLast_eq_take, List.take_take]
        congr 1; omega
      rw [hsl] at h8
      rcases h8 with ⟨pre, he, h8⟩ | ⟨he, _⟩
      · cases he
        have : w'.rem = got :: w.rem.drop (m + 1) := by
          rw [h6]
          have hm : m < w.rem.length := by
            rcases Nat.lt_or_ge m w.rem.length with h' | h'
            · exact h'
            · rw [List.getElem?_eq_none h'] at hg; simp at hg
          rw [List.drop_eq_getElem_cons hm]
          rw [List.getElem?_eq_getElem hm] at hg
          simp at hg; rw [hg]
        rw [this]; exact h8
      · simp at he

/-- **C04** is false in general: `count` counts characters but is used as a byte offset, so
matching the first (two-byte) character of `"éa"` and then failing slices inside that character:
the call panics instead of returning an error. -/
theorem C04_consume_str_panics : consumeStr ['é', 'a'] (IW.new ['é', 'b']) = .panic := by decide

/-- **C04**, second defect: with a two-byte character the reported text can also silently lose
matched characters: `"éab"` against `"éax"` reports `"éx"` instead of `"éax"`. -/
theorem C04_consume_str_misreports :
    consumeStr ['é', 'a', 'b'] (IW.new ['é', 'a', 'x'])
      = .err (.badString ⟨1, 2⟩ ['é', 'x'] ['é', 'a', 'b']) ⟨⟨1, 2⟩, some 'x', []⟩ := by decide

/-- **C04**, what holds for every `s`: a failing `consume_str` either panics or returns an error
that carries the position of the first mismatch, with exactly the common prefix consumed; and it
reports end of stream exactly if the text was exhausted. -/
theorem C04_consume_str_err_any (s : List Char) (w : IW) (h : ¬ s <+: w.rem) :
    consumeStr s w = .panic ∨
    ∃ w', w'.rem = w.rem.drop (lcp s w.rem) ∧ w'.pos = advPosN w.pos (lcp s w.rem) w.rem ∧
      ((w'.rem = [] ∧ consumeStr s w = .err (.endOfStream w'.pos) w') ∨
       (∃ got r pre, w'.rem = got :: r ∧
          consumeStr s w = .err (.badString w'.pos (pre ++ [got]) s) w')) := by
  rcases consumeGo_spec s 0 s w with ⟨w', _, h2, _⟩ | ⟨m, w', h1, h2, h3, h4, h5, h6, h7, h8⟩
  · exact absurd h2 h
  · have hl := lcp_eq s w.rem m h2 h4 h3 h5
    rw [hl]
    rcases h8 with ⟨ha, hb⟩ | ⟨got, hg, ⟨pre, _, h8⟩ | ⟨_, h8⟩⟩
    · right
      exact ⟨w', h6, h7, .inl ⟨by rw [h6, ← ha]; simp, hb⟩⟩
    · right
      refine ⟨w', h6, h7, .inr ⟨got, w.rem.drop (m + 1), pre, ?_, h8⟩⟩
      rw [h6]
      have hm : m < w.rem.length := by
        rcases Nat.lt_or_ge m w.rem.length with h' | h'
        · exact h'
        · rw [List.getElem?_eq_none h'] at hg; simp at hg
      rw [List.drop_eq_getElem_cons hm]
      rw [List.getElem?_eq_getElem hm] at hg
      simp at hg; rw [hg]
    · exact .inl h8

example : (∀ c ∈ ['l', 'e', '\u0085'].dropLast, c.utf8Size = 1) ∧
    ¬ ['l', 'e', '\u0085'] <+: (IW.new ['l', 'e', 'x']).rem := by decide

/-! ## C05: skip_while and take_chars_from -/

/-- **C05.** `skip_while(f)` consumes exactly the longest prefix whose characters satisfy `f`. -/
theorem C05_skip_while (f : Char → Bool) (w : IW) :
    ∃ u, w.rem = u ++ (skipWhile f w).rem ∧ (∀ c ∈ u, f c = true) ∧
      (∀ c, (skipWhile f w).rem.head? = some c → f c = false) ∧
      (skipWhile f w).pos = advPosN w.pos u.length w.rem := by
  have h := skipGo_spec f w.left w (by rw [IW.left_eq]; exact Nat.le_refl _)
  refine ⟨w.rem.takeWhile f, ?_, ?_, ?_, h.2⟩
  · rw [skipWhile, h.1, List.takeWhile_append_dropWhile]
  · intro c hc
    have : ∀ (l : List Char), ∀ c ∈ l.takeWhile f, f c = true := by
      intro l
      induction l with
      | nil => simp
      | cons a l ih =>
        intro c hc
        simp only [List.takeWhile_cons] at hc
        split at hc
        · rcases List.mem_cons.1 hc with rfl | hc
          · assumption
          · exact ih c hc
        · simp at hc
    exact this _ c hc
  · intro c hc
    rw [skipWhile, h.1] at hc
    generalize w.rem = l at hc
    induction l with
    | nil => simp at hc
    | cons a l ih =>
      simp only [List.dropWhile_cons] at hc
      split at hc
      · exact ih hc
      · rename_i hf; simp at hc; subst hc; simpa using hf

example : (skipWhile (· == ' ') (IW.new [' ', ' ', 'x'])).rem = ['x'] := by decide

/-- **C05** (second half). `take_chars_from(set, buf)` with a buffer of length `n` succeeds iff the
next `n` characters exist and all lie in `set`; it then fills the buffer with them, in order, and
consumes exactly them.  Otherwise it returns an error (it never panics). -/
theorem C05_take_chars_from (set : List Char) (n : Nat) (w : IW) :
    ((∃ b w', takeCharsFrom set n w = .ok b w') ↔
      (n ≤ w.rem.length ∧ ∀ c ∈ w.rem.take n, c ∈ set)) ∧
    (∀ b w', takeCharsFrom set n w = .ok b w' →
      b.length = n ∧ w.rem = b ++ w'.rem ∧ w'.pos = advPosN w.pos n w.rem) ∧
    ((∃ b w', takeCharsFrom set n w = .ok b w') ∨ (∃ e w', takeCharsFrom set n w = .err e w')) := by
  rcases takeCharsFrom_spec set n w with ⟨h1, h2, w', h3, h4, h5⟩ | ⟨h1, e, w', h2⟩
  · refine ⟨⟨fun _ => ⟨h1, h2⟩, fun _ => ⟨_, _, h3⟩⟩, ?_, .inl ⟨_, _, h3⟩⟩
    intro b w'' h
    rw [h3] at h
    cases h
    refine ⟨by simp; omega, ?_, h5⟩
    rw [h4, List.take_append_drop]
  · refine ⟨⟨fun ⟨b, w'', h⟩ => ?_, fun h => absurd h h1⟩, ?_, .inr ⟨_, _, h2⟩⟩
    · rw [h2] at h; cases h
    · intro b w'' h; rw [h2] at h; cases h

example : takeCharsFrom ['0', '1'] 2 (IW.new ['1', '0', 'x']) = .ok ['1', '0'] ⟨⟨1, 2⟩, none, ['x']⟩ := by
  decide

/-! ## C06: parse -/

/-- **C06.** `parse` succeeds with `a` iff `take` succeeds with `a` leaving no input; leftover input
gives `InputContinues` at the position `take` stopped; errors and panics of `take` pass through. -/
theorem C06_parse_complete {α : Type} (take : IW → Res α) (w : IW) :
    (∀ a, parseWith take w = .ok a ↔ ∃ w', take w = .ok a w' ∧ w'.rem = []) ∧
    (∀ p, parseWith take w = .err (.inputContinues p) ↔
      ∃ a w', take w = .ok a w' ∧ w'.rem ≠ [] ∧ p = w'.pos) ∧
    (∀ e, parseWith take w = .err (.take e) ↔ ∃ w', take w = .err e w') ∧
    (parseWith take w = .panic ↔ take w = .panic) := by
  unfold parseWith
  cases h : take w with
  | ok a w' =>
    dsimp only
    rw [IW.peek_eq]
    cases hr : w'.rem with
    | nil =>
      refine ⟨fun b => ⟨fun h => ?_, fun h => ?_⟩, fun p => ⟨fun h => ?_, fun h => ?_⟩, by simp, by simp⟩
      · cases h; exact ⟨w', rfl, hr⟩
      · obtain ⟨_, h, _⟩ := h; cases h; rfl
      · cases h
      · obtain ⟨_, _, h, h2, _⟩ := h; cases h; exact absurd hr h2
    | cons c cs =>
      refine ⟨fun b => ⟨fun h => ?_, fun h => ?_⟩, fun p => ⟨fun h => ?_, fun h => ?_⟩, by simp, by simp⟩
      · cases h
      · obtain ⟨_, h, h2⟩ := h; cases h; rw [hr] at h2; cases h2
      · cases h; exact ⟨a, w', rfl, by simp [hr], by simp⟩
      · obtain ⟨_, _, h, h2, h3⟩ := h; cases h; subst h3; simp
  | err e w' => simp
  | panic => simp
  | oof => simp

example : parseWith (consumeStr ['a']) (IW.new ['a']) = .ok () ∧
    parseWith (consumeStr ['a']) (IW.new ['a', 'b']) = .err (.inputContinues ⟨1, 1⟩) := by decide

/-! ## C07: iter_strict -/

theorem collect_nil {α : Type} {cfg : IterCfg} {item : IW → Res α} {n : Nat} {w w' : IW} {xs : List α}
    (hh : w.rem.head? = some cfg.stop) (h : collectIter cfg item n w = .ok xs w') :
    xs = [] ∧ w'.rem = w.rem := by
  cases n with
  | zero => simp [collectIter] at h
  | succ n =>
    rw [collectIter, iterNext, IW.peek_eq, hh] at h
    simp at h
    exact ⟨h.1, by rw [← h.2]; simp⟩

/-- **C07.** If collecting `iter_strict` succeeds with `xs`, and every successful item parse consumes
a text related to its value by `Q`, then the text consumed is the item texts joined by single
separators (no leading, doubled or trailing separator), one per returned value and in order, and
iteration stopped in front of the stop character – or at once, at end of input. -/
theorem C07_iter_strict_sound {α : Type} (cfg : IterCfg) (item : IW → Res α) (Q : List Char → α → Prop)
    (hitem : ∀ w a w', item w = .ok a w' → ∃ u, w.rem = u ++ w'.rem ∧ Q u a)
    (hstop : cfg.stop ∉ cfg.first) (n : Nat) (w w' : IW) (xs : List α)
    (h : collectIter cfg item n w = .ok xs w') :
    ∃ us : List (List Char), us.length = xs.length ∧ (∀ p ∈ us.zip xs, Q p.1 p.2) ∧
      w.rem = List.intercalate [cfg.sep] us ++ w'.rem ∧
      (w'.rem.head? = some cfg.stop ∨ (xs = [] ∧ w.rem = [])) := by
  induction n generalizing w xs with
  | zero => simp [collectIter] at h
  | succ n ih =>
    rw [collectIter, iterNext, IW.peek_eq] at h
    cases hr : w.rem with
    | nil =>
      rw [hr] at h
      simp at h
      refine ⟨[], by simp [h.1], by simp, by simp [← h.2, hr], by simp [h.1]⟩
    | cons c cs =>
      rw [hr] at h
      simp only [List.head?_cons] at h
      by_cases hc : c = cfg.stop
      · rw [if_pos hc] at h
        simp at h
        refine ⟨[], by simp [h.1], by simp, by simp [← h.2, hr], by simp [← h.2, hr, hc]⟩
      · rw [if_neg hc] at h
        cases hi : item w.peek.2 with
        | panic => rw [hi] at h; simp at h
        | oof => rw [hi] at h; simp at h
        | err e w2 =>
          rw [hi] at h
          dsimp only at h
          rw [iterAfter, IW.peek_eq] at h
          split at h
          · rename_i h2
            revert h2
            split
            · intro h2; cases h2
            · split
              · rw [IW.peek_eq]
                split
                · intro h2; cases h2
                · split <;> (intro h2; cases h2)
              · split <;> (intro h2; cases h2)
          · rename_i h2
            revert h2
            split
            · intro h2; cases h2
            · split
              · rw [IW.peek_eq]
                split
                · intro h2; cases h2
                · split <;> (intro h2; cases h2)
              · split <;> (intro h2; cases h2)
          · simp at h
          · simp at h
          · simp at h
        | ok a w2 =>
          rw [hi] at h
          dsimp only at h
          obtain ⟨u, hu, hq⟩ := hitem _ _ _ hi
          rw [IW.peek_rem, hr] at hu
          rw [iterAfter, IW.peek_eq] at h
          cases hr2 : w2.rem with
          | nil => rw [hr2] at h; simp at h
          | cons d ds =>
            rw [hr2] at h hu
            simp only [List.head?_cons] at h
            by_cases hd : d = cfg.sep
            · rw [if_pos hd, IW.peek_eq] at h
              have hr3 : w2.peek.2.advance.2.rem = ds := by simp [hr2]
              rw [hr3] at h
              cases ds with
              | nil => simp at h
              | cons f fs =>
                simp only [List.head?_cons] at h
                by_cases hf : cfg.first.contains f
                · rw [if_pos hf] at h
                  dsimp only at h
                  cases hcl : collectIter cfg item n w2.peek.2.advance.2.peek.2 with
                  | panic => rw [hcl] at h; simp [Res.map] at h
                  | oof => rw [hcl] at h; simp [Res.map] at h
                  | err e w3 => rw [hcl] at h; simp [Res.map] at h
                  | ok ys w3 =>
                    rw [hcl] at h
                    simp only [Res.map, Res.ok.injEq] at h
                    obtain ⟨rfl, rfl⟩ := h
                    obtain ⟨us, h1, h2, h3, h4⟩ := ih _ _ hcl
                    rw [IW.peek_rem, hr3] at h3 h4
                    have hfs : f ≠ cfg.stop := by
                      rintro rfl; exact hstop (by simpa using hf)
                    have hne : us ≠ [] := by
                      rintro rfl
                      simp [List.intercalate] at h3
                      rw [← h3] at h4
                      simp [hfs] at h4
                    obtain ⟨v, vs, rfl⟩ := List.exists_cons_of_ne_nil hne
                    refine ⟨u :: v :: vs, by simpa using h1, ?_, ?_, ?_⟩
                    · intro p hp
                      simp only [List.zip_cons_cons, List.mem_cons] at hp
                      rcases hp with rfl | hp
                      · exact hq
                      · exact h2 p hp
                    · rw [hu, h3, hd]
                      simp [List.intercalate]
                    · left
                      rcases h4 with h4 | h4
                      · exact h4
                      · simp at h4
                · rw [if_neg hf] at h
                  simp at h
            · rw [if_neg hd] at h
              by_cases hds : d = cfg.stop
              · rw [if_pos hds] at h
                dsimp only at h
                cases hcl : collectIter cfg item n w2.peek.2 with
                | panic => rw [hcl] at h; simp [Res.map] at h
                | oof => rw [hcl] at h; simp [Res.map] at h
                | err e w3 => rw [hcl] at h; simp [Res.map] at h
                | ok ys w3 =>
                  rw [hcl] at h
                  simp only [Res.map, Res.ok.injEq] at h
                  obtain ⟨rfl, rfl⟩ := h
                  obtain ⟨rfl, h2⟩ := collect_nil (by simp [hr2, hds]) hcl
                  rw [IW.peek_rem, hr2] at h2
                  refine ⟨[u], by simp, ?_, ?_, ?_⟩
                  · intro p hp
                    simp at hp; subst hp; exact hq
                  · rw [hu, h2]; simp [List.intercalate]
                  · left; rw [h2, ← hds]; rfl
              · rw [if_neg hds] at h
                simp at h

/-- **C07** (errors). If an item parse fails, the collection fails (possibly with a later error,
because `Iter::next` inspects the separator before returning). -/
theorem C07_item_error_not_lost {α : Type} (cfg : IterCfg) (item : IW → Res α) (n : Nat) (w : IW)
    (c : Char) (hc : w.rem.head? = some c) (hcs : c ≠ cfg.stop) (e : TakeError) (w1 : IW)
    (hi : item w.peek.2 = .err e w1) :
    ∃ e' w', collectIter cfg item (n + 1) w = .err e' w' := by
  rw [collectIter, iterNext, IW.peek_eq, hc]
  simp only [hcs, if_false, hi]
  rw [iterAfter, IW.peek_eq]
  split
  · rename_i h2; revert h2
    split
    · intro h2; cases h2
    · split
      · rw [IW.peek_eq]
        split
        · intro h2; cases h2
        · split <;> (intro h2; cases h2)
      · split <;> (intro h2; cases h2)
  · rename_i h2; revert h2
    split
    · intro h2; cases h2
    · split
      · rw [IW.peek_eq]
        split
        · intro h2; cases h2
        · split <;> (intro h2; cases h2)
      · split <;> (intro h2; cases h2)
  · exact ⟨_, _, rfl⟩
  · rename_i h2; revert h2
    split
    · intro h2; cases h2
    · split
      · rw [IW.peek_eq]
        split
        · intro h2; cases h2
        · split <;> (intro h2; cases h2)
      · split <;> (intro h2; cases h2)
  · rename_i h2; revert h2
    split
    · intro h2; cases h2
    · split
      · rw [IW.peek_eq]
        split
        · intro h2; cases h2
        · split <;> (intro h2; cases h2)
      · split <;> (intro h2; cases h2)

/-- **C07** (completeness). A text made of item texts joined by separators and followed by the stop
character is collected completely, provided the item parser handles each item text when followed
by a separator or the stop character, and every item text starts with a character of `first`
(other than the stop character). -/
theorem C07_iter_strict_complete {α : Type} (cfg : IterCfg) (item : IW → Res α)
    (hss : cfg.sep ≠ cfg.stop)
    (items : List (List Char × α)) (hne : items ≠ [])
    (hparse : ∀ p ∈ items, ∀ w r d, w.rem = p.1 ++ d :: r → d = cfg.sep ∨ d = cfg.stop →
      ∃ w', item w = .ok p.2 w' ∧ w'.rem = d :: r)
    (hfirst : ∀ p ∈ items, ∃ c cs, p.1 = c :: cs ∧ c ∈ cfg.first ∧ c ≠ cfg.stop)
    (w : IW) (r : List Char)
    (hw : w.rem = List.intercalate [cfg.sep] (items.map (·.1)) ++ cfg.stop :: r) :
    ∃ w', collectIter cfg item (items.length + 1) w = .ok (items.map (·.2)) w' ∧
      w'.rem = cfg.stop :: r := by
  induction items generalizing w with
  | nil => exact absurd rfl hne
  | cons p ps ih =>
    obtain ⟨c, cs, hp, hcf, hcs⟩ := hfirst p (by simp)
    rw [List.length_cons, collectIter, iterNext, IW.peek_eq]
    cases ps with
    | nil =>
      have hw1 : w.rem = p.1 ++ cfg.stop :: r := by simpa [List.intercalate] using hw
      have hh : w.rem.head? = some c := by rw [hw1, hp]; rfl
      rw [hh]
      simp only [hcs, if_false]
      obtain ⟨w2, h1, h2⟩ := hparse p (by simp) w.peek.2 r cfg.stop (by simpa using hw1) (.inr rfl)
      rw [h1]
      simp only [iterAfter]
      rw [IW.peek_eq, h2]
      simp only [List.head?_cons, Ne.symm hss, if_false, if_true]
      rw [List.length_nil, Nat.zero_add, collectIter, iterNext, IW.peek_eq, IW.peek_rem, h2]
      simp [Res.map, h2]
    | cons q qs =>
      have hw1 : w.rem = p.1 ++ cfg.sep ::
          (List.intercalate [cfg.sep] ((q :: qs).map (·.1)) ++ cfg.stop :: r) := by
        simpa [List.intercalate] using hw
      have hh : w.rem.head? = some c := by rw [hw1, hp]; rfl
      rw [hh]
      simp only [hcs, if_false]
      obtain ⟨w2, h1, h2⟩ := hparse p (by simp) w.peek.2 _ cfg.sep (by simpa using hw1) (.inl rfl)
      rw [h1]
      simp only [iterAfter]
      rw [IW.peek_eq, h2]
      simp only [List.head?_cons, if_true]
      obtain ⟨c', cs', hp', hcf', hcs'⟩ := hfirst q (by simp)
      have h3 : w2.peek.2.advance.2.rem =
          List.intercalate [cfg.sep] ((q :: qs).map (·.1)) ++ cfg.stop :: r := by
        simp [h2]
      have h4 : w2.peek.2.advance.2.rem.head? = some c' := by
        rw [h3]
        cases qs <;> simp [List.intercalate, hp']
      rw [IW.peek_eq, h4]
      simp only [List.contains_eq_mem, hcf', decide_true, if_true]
      obtain ⟨w3, h5, h6⟩ := ih (by simp) (fun x hx => hparse x (by simp [List.mem_cons.1 hx]))
        (fun x hx => hfirst x (by simp [List.mem_cons.1 hx])) w2.peek.2.advance.2.peek.2 (by simpa using h3)
      exact ⟨w3, by rw [h5]; rfl, h6⟩

/-- A concrete instance: digits separated by commas and closed by a bracket. -/
example :
    (match collectIter ⟨',', ']', [',', ']'], ['1', '2']⟩ (takeCharsFrom ['1', '2'] 1) 5
        (IW.new ['1', ',', '2', ']', 'x']) with
     | .ok xs w => decide (xs = [['1'], ['2']] ∧ w.rem = [']', 'x'])
     | _ => false) = true ∧
    (match collectIter ⟨',', ']', [',', ']'], ['1', '2']⟩ (takeCharsFrom ['1', '2'] 1) 5
        (IW.new ['1', ',', ']']) with
     | .err (.badBranch p c _) _ => decide (p = ⟨1, 2⟩ ∧ c = ']')
     | _ => false) = true := by decide

end Chomp
