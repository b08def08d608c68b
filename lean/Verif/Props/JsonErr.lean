import Verif.Bench.JsonErr
import Verif.Props.ArithErr

/-! # C86: the errors of the hand-written JSON parser -/

namespace Chomp

theorem jsonParse_err_of {F : F64} {m : Ovf} {n : Nat} {text : List Char} {e : TakeError} {w : IW} (h : takeJson F m n (IW.new text) = .err e w) :
    HandJson F m text (.err (.take e)) := ⟨by simp, n, by rw [jsonParse, parseStr, parseWith, h]⟩

theorem advPos_next (P : LineCol) (x : Char) (l : List Char) (c : Char) (r s : List Char) :
    advPos P (x :: (l ++ c :: r)) = advPos P (x :: (l ++ c :: s)) := by
  cases l <;> rfl

/-- The position reached depends on what was read and the next character. -/
theorem advPosN_next (P : LineCol) (p : List Char) (c : Char) (r s : List Char) :
    advPosN P p.length (p ++ c :: r) = advPosN P p.length (p ++ c :: s) := by
  induction p generalizing P with
  | nil => rfl
  | cons x l ih =>
    show advPosN (advPos P (x :: (l ++ c :: r))) l.length (l ++ c :: r) = advPosN (advPos P (x :: (l ++ c :: s))) l.length (l ++ c :: s)
    rw [advPos_next P x l c r s]
    exact ih _

/-- **C86** (JSON: errors and their places). If the parser reports an error `e` other than that the input continues, the text is `p ++ r` where
`e` is about the place between `p` and `r` (`JsonErrorAt`): it has the line and column of the end of `p`, and the first character of `r`, which
is not one of those it says were expected — except that at the end of the input inside a string the column is one more, and for hexadecimal
digits the position is the one after the offending character.  What comes after that character does not matter: every text that starts with
`p` and goes on with the same character (or also ends there) is rejected, too. -/
theorem C86_json_error_place (F : F64) (m : Ovf) (text : List Char) (e : TakeError) (h : HandJson F m text (.err (.take e))) :
    ∃ p r, text = p ++ r ∧ JsonErrorAt e ⟨specLine text p.length, specCol text p.length⟩ r ∧
      ∀ s, s.head? = r.head? → ∃ e', HandJson F m (p ++ s) (.err (.take e')) := by
  obtain ⟨-, n, h⟩ := h
  rw [jsonParse, parseStr, parseWith] at h
  have hl := takeJson_loc F m n (IW.new text) trivial
  cases hx : takeJson F m n (IW.new text) with
  | panic => rw [hx] at h; cases h
  | oof => rw [hx] at h; cases h
  | ok v w => rw [hx] at h; dsimp only at h; split at h <;> cases h
  | err e' w =>
    rw [hx] at h hl
    cases h
    obtain ⟨⟨p, r, h1, h2, h3⟩, -⟩ := hl
    rw [IW.rem_new] at h1
    refine ⟨p, r, h1, ?_, fun s hs => ?_⟩
    · rw [IW.pos_new, IW.rem_new, h1] at h2
      have h2 := (advPosN_text p r) ▸ h2
      rw [h1]
      exact h2
    · obtain ⟨e', w2, h4⟩ := h3 (IW.new (p ++ s)) s (IW.rem_new _) hs
      exact ⟨e', jsonParse_err_of h4⟩

/-- **C86** (JSON: the input continues). If the parser reports that the input continues, everything before the reported position is
accepted, and every text that continues it with the same character is rejected with the same error. -/
theorem C86_json_input_continues (F : F64) (m : Ovf) (text : List Char) (pos : LineCol) (h : HandJson F m text (.err (.inputContinues pos))) :
    ∃ p c r, text = p ++ c :: r ∧ pos = ⟨specLine text p.length, specCol text p.length⟩ ∧ (∃ v, HandJson F m p (.ok v)) ∧
      ∀ s, HandJson F m (p ++ c :: s) (.err (.inputContinues pos)) := by
  obtain ⟨-, n, h⟩ := h
  rw [jsonParse, parseStr, parseWith] at h
  have hl := takeJson_loc F m n (IW.new text) trivial
  cases hx : takeJson F m n (IW.new text) with
  | panic => rw [hx] at h; cases h
  | oof => rw [hx] at h; cases h
  | err e' w => rw [hx] at h; cases h
  | ok v w =>
    rw [hx] at h hl
    dsimp only at h
    rw [IW.peek_eq] at h
    cases hh : w.rem with
    | nil => rw [hh] at h; cases h
    | cons c r =>
      rw [hh] at h
      cases h
      obtain ⟨p, ⟨hp, hv⟩, hw⟩ := takeJson_sound F m n _ _ _ hx
      obtain ⟨a, ha, h3⟩ := hl
      obtain ⟨h1, h2⟩ := ha.place
      rw [IW.rem_new] at hw
      have hpa : p.text = a := List.append_cancel_right (hw.symm.trans h1)
      subst hpa
      refine ⟨p.text, c, r, by rw [← hh]; exact h1, by rw [IW.peek_pos]; exact h2, ⟨v, handJson_of_doc m hp hv⟩, fun s => ?_⟩
      obtain ⟨w2, h4, h5⟩ := h3 (IW.new (p.text ++ c :: s)) (c :: s) (IW.rem_new _) (by rw [hh]; rfl)
      have hl2 := takeJson_loc F m n (IW.new (p.text ++ c :: s)) trivial
      rw [h4] at hl2
      obtain ⟨b, hb, -⟩ := hl2
      obtain ⟨h6, h7⟩ := hb.place
      rw [h5] at h6
      have hba : b = p.text := List.append_cancel_right h6.symm
      subst hba
      refine ⟨by simp, n, ?_⟩
      rw [jsonParse, parseStr, parseWith, h4]
      dsimp only
      rw [IW.peek_eq, h5]
      show ParseRes.err (.inputContinues w2.peek.2.pos) = .err (.inputContinues w.peek.2.pos)
      rw [IW.peek_pos, IW.peek_pos, hb.2, ha.2, IW.pos_new, IW.pos_new, IW.rem_new, IW.rem_new, h1, hh, advPosN_next]

theorem HandJson.place {F : F64} {m : Ovf} {text p : List Char} {pos : LineCol} {c : Char} {r : List Char} {got exp : List Char} (h : HandJson F m text (.err (.take (.badString pos got exp))))
    (hp : ∀ n ≤ text.length, pos = ⟨specLine text n, specCol text n⟩ → n = p.length) (ht : text = p ++ c :: r) (s : List Char) (v : JValue F) :
    ¬ HandJson F m (p ++ c :: s) (.ok v) := by
  intro hs
  obtain ⟨q, t, h1, h2, h3⟩ := C86_json_error_place F m text _ h
  rcases h2 with ⟨h2, -⟩ | ⟨-, h2⟩ | ⟨_, _, _, _, h2⟩
  · have hl : q.length = p.length := hp _ (by rw [h1, List.length_append]; omega) h2
    have hq : q = p := by
      have := congrArg (List.take p.length) (h1.symm.trans ht)
      rwa [List.take_left, ← hl, List.take_left] at this
    subst hq
    have ht2 : t = c :: r := List.append_cancel_left (h1.symm.trans ht)
    obtain ⟨e', h4⟩ := h3 (c :: s) (by rw [ht2]; rfl)
    cases h4.unique hs
  · cases h2
  · cases h2

/-- **C86** (JSON: lists of expected characters). Unlike the lists of the arithmetic parser, those of the JSON parser may be wrong: for
`[nul 1]` it says that a comma or a bracket was expected instead of the space, but no document starts with `[nul,` or `[nul]`. -/
theorem C86_json_expected_wrong (F : F64) (m : Ovf) : HandJson F m "[nul 1]".toList (.err (.take (.badBranch ⟨1, 4⟩ ' ' [',', ']']))) ∧
    ∀ (c : Char) (s : List Char) (v : JValue F), c ∈ [',', ']'] → ¬ HandJson F m ("[nul".toList ++ c :: s) (.ok v) := by
  refine ⟨⟨by simp, 5, by cases m <;> rfl⟩, fun c s v hc => ?_⟩
  have h1 : HandJson F m "[nul,[]]".toList (.err (.take (.badString ⟨1, 4⟩ "nul,".toList "null".toList))) := ⟨by simp, 5, by cases m <;> rfl⟩
  have h2 : HandJson F m "[nul]".toList (.err (.take (.badString ⟨1, 4⟩ "nul]".toList "null".toList))) := ⟨by simp, 5, by cases m <;> rfl⟩
  simp only [List.mem_cons, List.not_mem_nil, or_false] at hc
  rcases hc with rfl | rfl
  · exact h1.place (p := "[nul".toList) (r := "[]]".toList) (by decide +kernel) (by decide +kernel) s v
  · exact h2.place (p := "[nul".toList) (r := []) (by decide +kernel) (by decide +kernel) s v

/-- **C86** (JSON: lists of expected characters, at the first error). The lists may be wrong even if no earlier error is hidden: for `[x` a comma
or a bracket is said to be expected after the bracket, which does begin documents, but not with a comma. -/
theorem C86_json_expected_wrong_first (F : F64) (m : Ovf) : HandJson F m "[x".toList (.err (.take (.badBranch ⟨1, 1⟩ 'x' [',', ']']))) ∧
    HandJson F m "[]".toList (.ok (.array [])) ∧ ∀ (s : List Char) (v : JValue F), ¬ HandJson F m ("[".toList ++ ',' :: s) (.ok v) := by
  refine ⟨⟨by simp, 5, by cases m <;> rfl⟩, ⟨by simp, 5, by cases m <;> rfl⟩, fun s v hs => ?_⟩
  have h : HandJson F m "[,[]]".toList (.err (.take (.badBranch ⟨1, 1⟩ ',' jsonFirst))) := ⟨by simp, 5, by cases m <;> rfl⟩
  obtain ⟨q, t, h1, h2, h3⟩ := C86_json_error_place F m _ _ h
  rcases h2 with ⟨h2, -⟩ | ⟨-, h2⟩ | ⟨_, _, _, _, h2⟩
  · have hl : q.length = 1 := by
      have hle : q.length ≤ 5 := by
        have := congrArg List.length h1
        rw [List.length_append] at this
        have h0 : "[,[]]".toList.length = 5 := by decide +kernel
        omega
      have hall : ∀ n ≤ 5, (⟨1, 1⟩ : LineCol) = ⟨specLine "[,[]]".toList n, specCol "[,[]]".toList n⟩ → n = 1 := by decide +kernel
      exact hall _ hle h2
    have hq : q = ['['] := by
      have := congrArg (List.take 1) h1
      rw [← hl, List.take_left, hl] at this
      rw [← this]; rfl
    subst hq
    have ht : t = ",[]]".toList := List.append_cancel_left (h1.symm.trans (by decide +kernel : "[,[]]".toList = ['['] ++ ",[]]".toList))
    obtain ⟨e', h4⟩ := h3 (',' :: s) (by rw [ht]; rfl)
    cases h4.unique hs
  · cases h2
  · injection h2 with _ _ h2
    exact absurd h2 (by decide +kernel)

/-- **C86** (JSON: late errors). The error reported need not be the first one: no document starts with `[nul,`, but if what follows cannot start a
value, that is what the parser complains about. -/
theorem C86_json_late_error (F : F64) (m : Ovf) : HandJson F m "[nul,]".toList (.err (.take (.badBranch ⟨1, 5⟩ ']' jsonFirstWs))) ∧
    ∀ (s : List Char) (v : JValue F), ¬ HandJson F m ("[nul,".toList ++ s) (.ok v) :=
  ⟨⟨by simp, 5, by cases m <;> rfl⟩, fun s v => (C86_json_expected_wrong F m).2 ',' s v (by simp)⟩

-- the three forms of a place
example (F : F64) (m : Ovf) : HandJson F m "{\"a\",\"b\":null}".toList (.err (.take (.badString ⟨1, 4⟩ [','] [':']))) := ⟨by simp, 5, by cases m <;> rfl⟩
example (F : F64) (m : Ovf) : HandJson F m "\n[tru".toList (.err (.take (.endOfStream ⟨2, 4⟩))) := ⟨by simp, 5, by cases m <;> rfl⟩
example (F : F64) (m : Ovf) : HandJson F m "[\"a".toList (.err (.take (.endOfStream ⟨1, 4⟩))) := ⟨by simp, 5, by cases m <;> rfl⟩
example (F : F64) (m : Ovf) : HandJson F m "\"\\u00g0\"".toList (.err (.take (.badBranch ⟨1, 6⟩ 'g' jsonHex))) := ⟨by simp, 5, by cases m <;> rfl⟩
example (F : F64) (m : Ovf) : HandJson F m "[] []".toList (.err (.inputContinues ⟨1, 3⟩)) := ⟨by simp, 5, by cases m <;> rfl⟩
-- after a comma in an object only a key is expected
example (F : F64) (m : Ovf) : HandJson F m "{\"a\":null,n".toList (.err (.take (.badBranch ⟨1, 10⟩ 'n' ['"', ' ', '\t', '\n', '\r']))) :=
  ⟨by simp, 5, by cases m <;> rfl⟩

end Chomp
