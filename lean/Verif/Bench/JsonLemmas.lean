import Verif.Bench.JsonSpec
import Verif.Bench.ArithLemmas
import Verif.Props.Chewed
import Verif.Lower.Ref

/-! Lemmas about the hand-written JSON parser. -/

namespace Chomp

/-! ### Characters -/

theorem jsonPlain_iff (c : Char) : jsonPlain c = true ↔ 0x20 ≤ c.toNat ∧ c ≠ '"' ∧ c ≠ '\\' := by
  have h1 : c.toNat < 0x110000 := by
    have := c.valid
    rcases this with h | h
    · exact Nat.lt_trans h (by decide)
    · exact h.2
  have h2 : c = '"' ↔ c.toNat = 0x22 := by
    constructor
    · rintro rfl; rfl
    · intro h; exact Char.toNat_inj.1 (by rw [h]; rfl)
  have h3 : c = '\\' ↔ c.toNat = 0x5C := by
    constructor
    · rintro rfl; rfl
    · intro h; exact Char.toNat_inj.1 (by rw [h]; rfl)
  unfold jsonPlain
  simp only [Bool.or_eq_true, Bool.and_eq_true, decide_eq_true_eq, ne_eq, h2, h3]
  omega

theorem char_toNat_eq {c : Char} {n : Nat} (h : c.toNat = n) : c = Char.ofNat n := by
  rw [← h, Char.ofNat_toNat]

theorem hexVal_of_mem {c : Char} (h : c ∈ jsonHex) : (hexVal c).isSome = true := by
  revert h
  revert c
  show ∀ c ∈ jsonHex, (hexVal c).isSome = true
  decide

theorem mem_of_hexVal {c : Char} (h : (hexVal c).isSome = true) : c ∈ jsonHex := by
  have key : ∀ n, (48 ≤ n ∧ n ≤ 57) ∨ (97 ≤ n ∧ n ≤ 102) ∨ (65 ≤ n ∧ n ≤ 70) → Char.ofNat n ∈ jsonHex := by
    intro n hn
    have : n = 48 ∨ n = 49 ∨ n = 50 ∨ n = 51 ∨ n = 52 ∨ n = 53 ∨ n = 54 ∨ n = 55 ∨ n = 56 ∨ n = 57 ∨ n = 97 ∨ n = 98 ∨
        n = 99 ∨ n = 100 ∨ n = 101 ∨ n = 102 ∨ n = 65 ∨ n = 66 ∨ n = 67 ∨ n = 68 ∨ n = 69 ∨ n = 70 := by omega
    rcases this with h | h | h | h | h | h | h | h | h | h | h | h | h | h | h | h | h | h | h | h | h | h <;> subst h <;> decide
  have hle : ∀ a b : Char, a ≤ b ↔ a.toNat ≤ b.toNat := fun a b => Iff.rfl
  rw [← Char.ofNat_toNat c]
  apply key
  unfold hexVal at h
  simp only [hle] at h
  split at h
  · rename_i h'; left; exact h'
  · split at h
    · rename_i h'; right; left; exact h'
    · split at h
      · rename_i h'; right; right; exact h'
      · cases h

theorem hexArm_eq (c : Char) : hexArm c = hexVal c := by
  have hd : c.isDigit = true ↔ '0' ≤ c ∧ c ≤ '9' := by
    unfold Char.isDigit
    simp only [Bool.and_eq_true, decide_eq_true_eq]
    exact Iff.rfl
  unfold hexArm hexVal
  simp only [hd]
  rfl

theorem jsonEscape_iff (e : Char) : jsonEscape e = if e ∈ ['"', '\\', '/', 'b', 'f', 'n', 'r', 't'] then some (escapeValue e) else none := by
  unfold jsonEscape
  by_cases h1 : e = '"'
  · subst h1; rfl
  by_cases h2 : e = '\\'
  · subst h2; rfl
  by_cases h3 : e = '/'
  · subst h3; rfl
  by_cases h4 : e = 'b'
  · subst h4; rfl
  by_cases h5 : e = 'f'
  · subst h5; rfl
  by_cases h6 : e = 'n'
  · subst h6; rfl
  by_cases h7 : e = 'r'
  · subst h7; rfl
  by_cases h8 : e = 't'
  · subst h8; rfl
  simp [h1, h2, h3, h4, h5, h6, h7, h8]

/-! ### Input -/

theorem advance_cons {c : Char} {cs : List Char} {w : IW} (h : w.rem = c :: cs) :
    ∃ w', w.advance = (some c, w') ∧ w'.rem = cs := by
  have h1 := w.advance_fst
  have h2 := w.advance_rem
  rw [h] at h1 h2
  rcases hw : w.advance with ⟨o, w'⟩
  rw [hw] at h1 h2
  cases h1
  exact ⟨w', rfl, h2⟩

theorem advance_nil {w : IW} (h : w.rem = []) : ∃ w', w.advance = (none, w') := by
  have h1 := w.advance_fst
  rw [h] at h1
  rcases hw : w.advance with ⟨o, w'⟩
  rw [hw] at h1
  cases h1
  exact ⟨w', rfl⟩

theorem consume_ok {s : List Char} {w w' : IW} {u : Unit} (h : consumeStr s w = .ok u w') : w.rem = s ++ w'.rem :=
  ((C03_consume_str_ok s w).2 u w' h).1

theorem consume_of {s r : List Char} {w : IW} (h : w.rem = s ++ r) : ∃ w', consumeStr s w = .ok () w' ∧ w'.rem = r := by
  obtain ⟨w', hw⟩ := (C03_consume_str_ok s w).1.2 (by rw [h]; exact List.prefix_append _ _)
  refine ⟨w', hw, ?_⟩
  have := consume_ok hw
  rw [h] at this
  exact (List.append_cancel_left this).symm

theorem consume_ascii_total {s : List Char} (hs : ∀ c ∈ s, c.utf8Size = 1) (w : IW) :
    (∃ w', consumeStr s w = .ok () w') ∨ ∃ e w', consumeStr s w = .err e w' := by
  by_cases h : s <+: w.rem
  · exact .inl ((C03_consume_str_ok s w).1.2 h)
  · right
    rcases consumeGo_spec s 0 s w with ⟨w', h1, h2, h3, h4⟩ | ⟨m, w', h1, h2, h3, h4, h5, h6, h7, h8⟩
    · exact absurd h2 h
    · rcases h8 with ⟨_, h9⟩ | ⟨g, _, ⟨_, _, h9⟩ | ⟨h10, h9⟩⟩
      · exact ⟨_, _, h9⟩
      · exact ⟨_, _, h9⟩
      · have := sliceTo_ascii s hs m (by omega)
        simp only [Nat.zero_add] at h10
        rw [h10] at this
        cases this

theorem jsonSkipWs_rem (w : IW) : (jsonSkipWs w).rem = w.rem.dropWhile (jsonWs.contains ·) :=
  (skipGo_spec _ _ _ (by rw [IW.left_eq]; exact Nat.le_refl _)).1

theorem mem_jsonWs {c : Char} : jsonWs.contains c = true ↔ (c = ' ' ∨ c = '\t' ∨ c = '\n' ∨ c = '\r') := by
  simp [jsonWs]

theorem jsonSkipWs_sound (w : IW) : ∃ ws, IsWs ws ∧ w.rem = ws ++ (jsonSkipWs w).rem := by
  obtain ⟨u, h1, h2, -⟩ := C05_skip_while (jsonWs.contains ·) w
  exact ⟨u, fun c hc => mem_jsonWs.1 (h2 c hc), h1⟩

theorem jsonSkipWs_of {ws r : List Char} {w : IW} (hws : IsWs ws) (hr : ∀ c ∈ r.head?, jsonWs.contains c = false)
    (h : w.rem = ws ++ r) : (jsonSkipWs w).rem = r := by
  rw [jsonSkipWs_rem, h]
  induction ws with
  | nil =>
    cases r with
    | nil => rfl
    | cons c r =>
      have := hr c rfl
      rw [List.nil_append, List.dropWhile_cons, this]
      rfl
  | cons a ws _ =>
    rw [List.cons_append, List.dropWhile_cons, mem_jsonWs.2 (hws a (by simp))]
    have hd : ∀ ws : List Char, IsWs ws → (ws ++ r).dropWhile (jsonWs.contains ·) = r := by
      intro ws hws
      induction ws with
      | nil =>
        cases r with
        | nil => rfl
        | cons c r => rw [List.nil_append, List.dropWhile_cons, hr c rfl]; rfl
      | cons a ws ih =>
        rw [List.cons_append, List.dropWhile_cons, mem_jsonWs.2 (hws a (by simp))]
        exact ih (fun c hc => hws c (by simp [hc]))
    exact hd ws (fun c hc => hws c (by simp [hc]))

/-! ### Escapes -/

/-- What the hand-written parser makes of a string: every `\uXXXX` becomes NUL (see C49). -/
def decodeHand : List JChar → List Char
  | [] => []
  | .lit c :: r => c :: decodeHand r
  | .esc e :: r => escapeValue e :: decodeHand r
  | .uni _ _ _ _ :: r => '\x00' :: decodeHand r

theorem u16Loop_zero (m : Ovf) : ∀ l : List Char, (∀ c ∈ l, (hexVal c).isSome = true) → u16Loop m l 0 = some 0
  | [], _ => rfl
  | c :: l, h => by
    have h1 := h c (by simp)
    rw [u16Loop, hexArm_eq]
    cases hc : hexVal c with
    | none => rw [hc] at h1; cases h1
    | some d =>
      simp only [Option.bind_some, Nat.zero_mul]
      exact u16Loop_zero m l (fun c hc => h c (by simp [hc]))

theorem parseU16_of {m : Ovf} {a b c d : Char} {r : List Char} {w : IW} (hw : w.rem = a :: b :: c :: d :: r)
    (h : ∀ x ∈ [a, b, c, d], (hexVal x).isSome = true) : ∃ w', parseU16 m w = .ok 0 w' ∧ w'.rem = r := by
  rcases takeCharsFrom_spec jsonHex 4 w with ⟨_, _, w', h1, h2, _⟩ | ⟨h1, _⟩
  · refine ⟨w', ?_, by rw [h2, hw]; rfl⟩
    rw [parseU16, h1, hw]
    show orPanic (u16Loop m [a, b, c, d] 0) _ = _
    rw [u16Loop_zero m _ h]
    rfl
  · exfalso
    apply h1
    rw [hw]
    exact ⟨by simp, fun x hx => mem_of_hexVal (h x hx)⟩

theorem parseU16_ok {m : Ovf} {w w' : IW} {v : Nat} (h : parseU16 m w = .ok v w') :
    v = 0 ∧ ∃ a b c d, w.rem = a :: b :: c :: d :: w'.rem ∧ ∀ x ∈ [a, b, c, d], (hexVal x).isSome = true := by
  obtain ⟨chars, w1, h1, h2⟩ := Res.bind_ok h
  rcases takeCharsFrom_spec jsonHex 4 w with ⟨h3, h4, w2, h5, h6, _⟩ | ⟨_, _, _, h3⟩
  · rw [h5] at h1
    cases h1
    have h7 : ∀ x ∈ w.rem.take 4, (hexVal x).isSome = true := fun x hx => hexVal_of_mem (h4 x hx)
    rw [u16Loop_zero m _ h7] at h2
    cases h2
    refine ⟨rfl, ?_⟩
    match hr : w.rem, h3 with
    | a :: b :: c :: d :: r, _ =>
      rw [hr] at h6 h7
      exact ⟨a, b, c, d, by rw [h6]; rfl, h7⟩
  · rw [h3] at h1; cases h1

theorem parseU16_total (m : Ovf) (w : IW) : (∃ w', parseU16 m w = .ok 0 w') ∨ ∃ e w', parseU16 m w = .err e w' := by
  rw [parseU16]
  rcases takeCharsFrom_spec jsonHex 4 w with ⟨h3, h4, w2, h5, h6, _⟩ | ⟨_, e, w', h3⟩
  · left
    rw [h5]
    refine ⟨w2, ?_⟩
    simp only [Res.bind]
    rw [u16Loop_zero m _ fun x hx => hexVal_of_mem (h4 x hx)]
    rfl
  · right
    rw [h3]
    exact ⟨_, _, rfl⟩

/-- One character of a string, as `strLoop` sees it. -/
theorem strLoop_step (m : Ovf) (n : Nat) (acc : List Char) (w : IW) (x : JChar) (hx : x.Ok) (r : List Char)
    (hw : w.rem = x.text ++ r) : ∃ w', strLoop m (n + 1) acc w = strLoop m n (acc ++ decodeHand [x]) w' ∧ w'.rem = r := by
  cases x with
  | lit c =>
    obtain ⟨w', h1, h2⟩ := advance_cons (w := w) (c := c) (cs := r) hw
    refine ⟨w', ?_, h2⟩
    rw [strLoop, h1]
    simp only
    rw [if_neg hx.2.1, if_pos ((jsonPlain_iff c).2 hx)]
    rfl
  | esc e =>
    obtain ⟨w', h1, h2⟩ := advance_cons (w := w) (c := '\\') (cs := e :: r) hw
    obtain ⟨w2, h3, h4⟩ := advance_cons h2
    refine ⟨w2, ?_, h4⟩
    rw [strLoop, h1]
    simp only
    rw [if_neg (by decide), if_neg (by decide), if_pos (by trivial), h3]
    simp only
    rw [jsonEscape_iff, if_pos (show e ∈ ['"', '\\', '/', 'b', 'f', 'n', 'r', 't'] from hx)]
    rfl
  | uni a b c d =>
    obtain ⟨w', h1, h2⟩ := advance_cons (w := w) (c := '\\') (cs := 'u' :: a :: b :: c :: d :: r) hw
    obtain ⟨w2, h3, h4⟩ := advance_cons h2
    obtain ⟨w3, h5, h6⟩ := parseU16_of (m := m) h4 hx
    refine ⟨w3, ?_, h6⟩
    rw [strLoop, h1]
    simp only
    rw [if_neg (by decide), if_neg (by decide), if_pos (by trivial), h3]
    simp only
    rw [jsonEscape_iff, if_neg (by decide)]
    simp only
    rw [if_pos trivial, h5]
    rfl

theorem decodeHand_cons (x : JChar) (s : List JChar) : decodeHand (x :: s) = decodeHand [x] ++ decodeHand s := by
  cases x <;> rfl

theorem strLoop_complete (m : Ovf) : ∀ (s : List JChar) (n : Nat) (acc : List Char) (w : IW) (r : List Char),
    (∀ c ∈ s, c.Ok) → s.length < n → w.rem = JChar.textL s ++ '"' :: r →
    ∃ w', strLoop m n acc w = .ok (acc ++ decodeHand s) w' ∧ w'.rem = r
  | [], n + 1, acc, w, r, _, _, hw => by
    obtain ⟨w', h1, h2⟩ := advance_cons (w := w) hw
    exact ⟨w', by rw [strLoop, h1]; simp [decodeHand], h2⟩
  | x :: s, n + 1, acc, w, r, hs, hn, hw => by
    have hw' : w.rem = x.text ++ (JChar.textL s ++ '"' :: r) := by
      rw [hw]; simp [JChar.textL]
    obtain ⟨w1, h1, h2⟩ := strLoop_step m n acc w x (hs x (by simp)) _ hw'
    obtain ⟨w2, h3, h4⟩ := strLoop_complete m s n (acc ++ decodeHand [x]) w1 r (fun c hc => hs c (by simp [hc]))
      (by simpa using hn) h2
    refine ⟨w2, ?_, h4⟩
    rw [h1, h3, decodeHand_cons x s, List.append_assoc]

/-- `strLoop` consumes one character, or ends. -/
theorem strLoop_cases (m : Ovf) (n : Nat) (acc : List Char) (w : IW) :
    (∃ x w', JChar.Ok x ∧ w.rem = x.text ++ w'.rem ∧ strLoop m (n + 1) acc w = strLoop m n (acc ++ decodeHand [x]) w') ∨
    (∃ w', w.rem = '"' :: w'.rem ∧ strLoop m (n + 1) acc w = .ok acc w') ∨
    (∃ e w', strLoop m (n + 1) acc w = .err e w') ∨ strLoop m (n + 1) acc w = .panic := by
  cases hr : w.rem with
  | nil =>
    obtain ⟨w', h1⟩ := advance_nil hr
    exact .inr (.inr (.inl ⟨_, _, by rw [strLoop, h1]⟩))
  | cons c cs =>
    obtain ⟨w', h1, h2⟩ := advance_cons hr
    by_cases hq : c = '"'
    · exact .inr (.inl ⟨w', by rw [h2, hq], by rw [strLoop, h1]; simp [hq]⟩)
    by_cases hp : jsonPlain c = true
    · refine .inl ⟨.lit c, w', (jsonPlain_iff c).1 hp, by rw [h2]; rfl, ?_⟩
      rw [strLoop, h1]
      simp only
      rw [if_neg hq, if_pos hp]
      rfl
    by_cases hb : c = '\\'
    · subst hb
      cases cs with
      | nil =>
        obtain ⟨w2, h3⟩ := advance_nil h2
        refine .inr (.inr (.inl ⟨.endOfStream w2.pos, w2, ?_⟩))
        · rw [strLoop, h1]
          simp only
          rw [if_neg hq, if_neg hp, if_pos (by trivial), h3]
      | cons e cs =>
        obtain ⟨w2, h3, h4⟩ := advance_cons h2
        have heq : strLoop m (n + 1) acc w = (match jsonEscape e with
          | some x => strLoop m n (acc ++ [x]) w2
          | none =>
            if e = 'u' then
              (parseU16 m w2).bind fun v w =>
                ((if 0xD800 ≤ v ∧ v ≤ 0xDFFF then
                  (consumeStr ['\\', 'u'] w).bind fun _ w =>
                    (parseU16 m w).bind fun other w => orPanic (decodePair v other) fun x => .ok x w
                else .ok v w) : Res Nat).bind fun codepoint w =>
                  orPanic (charOfU32 codepoint) fun x => strLoop m n (acc ++ [x]) w
            else .panic) := by
          rw [strLoop, h1]
          simp only
          rw [if_neg hq, if_neg hp, if_pos (by trivial), h3]
          rfl
        by_cases he : e ∈ ['"', '\\', '/', 'b', 'f', 'n', 'r', 't']
        · refine .inl ⟨.esc e, w2, he, by rw [h4]; rfl, ?_⟩
          rw [heq, jsonEscape_iff, if_pos he]
          rfl
        · rw [heq, jsonEscape_iff, if_neg he]
          simp only
          by_cases hu : e = 'u'
          · subst hu
            rw [if_pos (by trivial)]
            rcases parseU16_total m w2 with ⟨w3, h5⟩ | ⟨er, w3, h5⟩
            · obtain ⟨-, a, b, c, d, h6, h7⟩ := parseU16_ok h5
              refine .inl ⟨.uni a b c d, w3, h7, by rw [← h4, h6]; rfl, ?_⟩
              rw [h5]
              rfl
            · exact .inr (.inr (.inl ⟨er, w3, by rw [h5]; rfl⟩))
          · rw [if_neg hu]
            exact .inr (.inr (.inr rfl))
    · refine .inr (.inr (.inr ?_))
      rw [strLoop, h1]
      simp only
      rw [if_neg hq, if_neg hp, if_neg hb]

theorem strLoop_sound (m : Ovf) : ∀ (n : Nat) (acc : List Char) (w w' : IW) (v : List Char), strLoop m n acc w = .ok v w' →
    ∃ s : List JChar, (∀ c ∈ s, c.Ok) ∧ w.rem = JChar.textL s ++ '"' :: w'.rem ∧ v = acc ++ decodeHand s
  | 0, _, _, _, _, h => by cases h
  | n + 1, acc, w, w', v, h => by
    rcases strLoop_cases m n acc w with ⟨x, w1, h1, h2, h3⟩ | ⟨w1, h1, h2⟩ | ⟨e, w1, h1⟩ | h1
    · rw [h3] at h
      obtain ⟨s, h4, h5, h6⟩ := strLoop_sound m n _ _ _ _ h
      refine ⟨x :: s, ?_, ?_, ?_⟩
      · intro c hc
        rcases List.mem_cons.1 hc with rfl | hc
        · exact h1
        · exact h4 c hc
      · rw [h2, h5]; simp [JChar.textL]
      · rw [h6, decodeHand_cons x s, List.append_assoc]
    · rw [h2] at h
      cases h
      exact ⟨[], by simp, by rw [h1]; rfl, by simp [decodeHand]⟩
    · rw [h1] at h; cases h
    · rw [h1] at h; cases h

theorem JChar.text_length_pos (x : JChar) : 0 < x.text.length := by cases x <;> simp [JChar.text]

theorem strLoop_ends (m : Ovf) : ∀ (n : Nat) (acc : List Char) (w : IW), w.rem.length < n → strLoop m n acc w ≠ .oof
  | 0, _, _, h => by omega
  | n + 1, acc, w, h => by
    rcases strLoop_cases m n acc w with ⟨x, w1, h1, h2, h3⟩ | ⟨w1, h1, h2⟩ | ⟨e, w1, h1⟩ | h1
    · rw [h3]
      apply strLoop_ends m n
      have := x.text_length_pos
      rw [h2, List.length_append] at h
      omega
    · rw [h2]; simp
    · rw [h1]; simp
    · rw [h1]; simp

theorem takeStr_complete (m : Ovf) (s : List JChar) (hs : ∀ c ∈ s, c.Ok) (w : IW) (r : List Char)
    (hw : w.rem = '"' :: JChar.textL s ++ '"' :: r) : ∃ w', jsonTakeStr m w = .ok (decodeHand s) w' ∧ w'.rem = r := by
  obtain ⟨w1, h1, h2⟩ := consume_of (s := ['"']) (r := JChar.textL s ++ '"' :: r) (w := w) (by rw [hw]; rfl)
  have hlen : s.length < w1.left + 1 := by
    rw [IW.left_eq, h2]
    have : ∀ s : List JChar, s.length ≤ (JChar.textL s).length := by
      intro s
      induction s with
      | nil => simp
      | cons x s ih =>
        have := x.text_length_pos
        simp only [JChar.textL, List.map_cons, List.flatten_cons, List.length_append, List.length_cons] at ih ⊢
        omega
    have := this s
    simp only [List.length_append]
    omega
  obtain ⟨w2, h3, h4⟩ := strLoop_complete m s _ [] w1 r hs hlen h2
  refine ⟨w2, ?_, h4⟩
  rw [jsonTakeStr, h1]
  exact h3

theorem takeStr_sound {m : Ovf} {w w' : IW} {v : List Char} (h : jsonTakeStr m w = .ok v w') :
    ∃ s : List JChar, (∀ c ∈ s, c.Ok) ∧ w.rem = '"' :: JChar.textL s ++ '"' :: w'.rem ∧ v = decodeHand s := by
  obtain ⟨_, w1, h1, h2⟩ := Res.bind_ok h
  obtain ⟨s, h3, h4, h5⟩ := strLoop_sound m _ _ _ _ _ h2
  exact ⟨s, h3, by rw [consume_ok h1, h4]; rfl, by simpa using h5⟩

theorem takeStr_ends (m : Ovf) (w : IW) : jsonTakeStr m w ≠ .oof := by
  rw [jsonTakeStr]
  rcases consume1_total '"' w with ⟨w1, h1⟩ | ⟨e, w1, h1⟩
  · rw [h1]
    exact strLoop_ends m _ _ _ (by rw [IW.left_eq]; exact Nat.lt_succ_self _)
  · rw [h1]; simp [Res.bind]

/-! ### Numbers -/

/-- The texts that the hand-written parser takes for numbers. -/
def HandNumber (l : List Char) : Prop := ∃ c r, l = c :: r ∧ (c.isDigit = true ∨ c = '-') ∧ ∀ x ∈ r, numChar x = true

theorem numLoop_complete : ∀ (l : List Char) (n : Nat) (acc : List Char) (w : IW) (r : List Char), (∀ x ∈ l, numChar x = true) →
    (∀ x ∈ r.head?, numChar x = false) → l.length < n → w.rem = l ++ r →
    ∃ w', numLoop n acc w = .ok (acc ++ l) w' ∧ w'.rem = r
  | [], n + 1, acc, w, r, _, hr, _, hw => by
    rw [numLoop, IW.peek_eq, hw]
    cases r with
    | nil => exact ⟨w.peek.2, by simp, by rw [IW.peek_rem, hw]; rfl⟩
    | cons c r =>
      have := hr c rfl
      refine ⟨w.peek.2, by simp [this], by rw [IW.peek_rem, hw]; rfl⟩
  | c :: l, n + 1, acc, w, r, hl, hr, hn, hw => by
    rw [numLoop, IW.peek_eq, hw]
    simp only [List.cons_append, List.head?_cons]
    rw [if_pos (hl c (by simp))]
    obtain ⟨w', h1, h2⟩ := numLoop_complete l n (acc ++ [c]) w.peek.2.advance.2 r (fun x hx => hl x (by simp [hx])) hr
      (by simpa using hn) (by simp [hw])
    exact ⟨w', by rw [h1]; simp, h2⟩

theorem numLoop_sound : ∀ (n : Nat) (acc : List Char) (w w' : IW) (v : List Char), numLoop n acc w = .ok v w' →
    ∃ l, v = acc ++ l ∧ w.rem = l ++ w'.rem ∧ ∀ x ∈ l, numChar x = true
  | 0, _, _, _, _, h => by cases h
  | n + 1, acc, w, w', v, h => by
    rw [numLoop, IW.peek_eq] at h
    cases hr : w.rem with
    | nil =>
      rw [hr] at h
      cases h
      exact ⟨[], by simp, by simp [hr], by simp⟩
    | cons c cs =>
      rw [hr] at h
      simp only [List.head?_cons] at h
      split at h
      · rename_i hc
        obtain ⟨l, h1, h2, h3⟩ := numLoop_sound n _ _ _ _ h
        refine ⟨c :: l, by rw [h1]; simp, ?_, ?_⟩
        · have : w.peek.2.advance.2.rem = cs := by simp [hr]
          rw [this] at h2
          rw [h2]; rfl
        · intro x hx
          rcases List.mem_cons.1 hx with rfl | hx
          · exact hc
          · exact h3 x hx
      · cases h
        exact ⟨[], by simp, by simp [hr], by simp⟩

theorem numLoop_ends : ∀ (n : Nat) (acc : List Char) (w : IW), w.rem.length < n → numLoop n acc w ≠ .oof
  | 0, _, _, h => by omega
  | n + 1, acc, w, h => by
    rw [numLoop, IW.peek_eq]
    cases hr : w.rem with
    | nil => simp
    | cons c cs =>
      simp only [List.head?_cons]
      split
      · apply numLoop_ends n
        simp [hr]
        rw [hr] at h
        simpa using h
      · simp

theorem takeNum_complete {F : F64} {l r : List Char} {x : F.Num} (hl : HandNumber l) (hr : ∀ x ∈ r.head?, numChar x = false)
    (hx : F.parse l = some x) {w : IW} (hw : w.rem = l ++ r) : ∃ w', takeNum F w = .ok x w' ∧ w'.rem = r := by
  obtain ⟨c, l', rfl, hc, hl'⟩ := hl
  obtain ⟨w1, h1, h2⟩ := advance_cons (w := w) hw
  obtain ⟨w2, h3, h4⟩ := numLoop_complete l' (w1.left + 1) [c] w1 r hl' hr (by
    rw [IW.left_eq]
    have : w1.rem = l' ++ r := h2
    rw [this, List.length_append]; omega) h2
  refine ⟨w2, ?_, h4⟩
  rw [takeNum, h1]
  simp only
  rw [h3]
  show orPanic (F.parse (c :: l')) _ = _
  rw [hx]
  rfl

theorem takeNum_sound {F : F64} {w w' : IW} {x : F.Num} (h : takeNum F w = .ok x w')
    (hh : ∀ c ∈ w.rem.head?, c.isDigit = true ∨ c = '-') : ∃ l, HandNumber l ∧ F.parse l = some x ∧ w.rem = l ++ w'.rem := by
  unfold takeNum at h
  split at h
  · cases h
  · rename_i c w1 heq
    have h1 := w.advance_fst
    have h2 := w.advance_rem
    rw [heq] at h1 h2
    cases hr : w.rem with
    | nil => rw [hr] at h1; cases h1
    | cons d ds =>
      rw [hr] at h1 h2 hh
      simp only [List.head?_cons, Option.some.injEq, List.tail_cons] at h1 h2
      subst h1
      obtain ⟨s, w2, h3, h4⟩ := Res.bind_ok h
      obtain ⟨l, rfl, h5, h6⟩ := numLoop_sound _ _ _ _ _ h3
      cases hp : F.parse ([c] ++ l) with
      | none => rw [hp] at h4; cases h4
      | some y =>
        rw [hp] at h4
        cases h4
        exact ⟨c :: l, ⟨c, l, rfl, hh c rfl, h6⟩, hp, by rw [← h2, h5]; rfl⟩

theorem takeNum_ends (F : F64) (w : IW) : takeNum F w ≠ .oof := by
  unfold takeNum
  split
  · simp
  · rename_i c w1 _
    have := numLoop_ends (w1.left + 1) [c] w1 (by rw [IW.left_eq]; exact Nat.lt_succ_self _)
    cases h : numLoop (w1.left + 1) [c] w1 with
    | oof => exact absurd h this
    | ok s w2 =>
      simp only [Res.bind]
      cases F.parse s <;> simp [orPanic]
    | err e w2 => simp [Res.bind]
    | panic => simp [Res.bind]

end Chomp
