import Verif.Chewed.Text

/-!
# C65: characters and strings in the texts of parse errors

What the messages print for a character or a string is a Rust literal of it: it can be pasted into a program (or a grammar).
-/

namespace Chomp

/-! ## Specification: Rust's literals -/

/-- The value of a hexadecimal digit (in lower case, which is what is printed). -/
inductive HexDigit : Char → Nat → Prop where
  | dec {c : Char} : '0' ≤ c → c ≤ '9' → HexDigit c (c.toNat - 48)
  | hex {c : Char} : 'a' ≤ c → c ≤ 'f' → HexDigit c (c.toNat - 87)

/-- The value of a hexadecimal number, most significant digit first. -/
inductive HexNum : List Char → Nat → Prop where
  | one {d : Char} {n : Nat} : HexDigit d n → HexNum [d] n
  | snoc {l : List Char} {d : Char} {m n : Nat} : HexNum l m → HexDigit d n → HexNum (l ++ [d]) (16 * m + n)

/-- `CharCode q l c`: between quotes `q`, the text `l` stands for the character `c` in a Rust literal (The Rust Reference,
Tokens: character and string literals).  Only the escapes that the reference lists, and no tab or line break as itself. -/
inductive CharCode (q : Char) : List Char → Char → Prop where
  | itself {c : Char} : c ≠ '\\' → c ≠ q → c ≠ '\n' → c ≠ '\r' → c ≠ '\t' → c.toNat ≠ 0 → CharCode q [c] c
  | null : CharCode q ['\\', '0'] (Char.ofNat 0)
  | tab : CharCode q ['\\', 't'] '\t'
  | newline : CharCode q ['\\', 'n'] '\n'
  | cr : CharCode q ['\\', 'r'] '\r'
  | backslash : CharCode q ['\\', '\\'] '\\'
  | quote : CharCode q ['\\', q] q
  | unicode {ds : List Char} {c : Char} : HexNum ds c.toNat → 1 ≤ ds.length → ds.length ≤ 6 → CharCode q (['\\', 'u', '{'] ++ ds ++ ['}']) c

/-- Texts that stand for strings. -/
inductive StrCode (q : Char) : List Char → List Char → Prop where
  | nil : StrCode q [] []
  | cons {l m : List Char} {c : Char} {s : List Char} : CharCode q l c → StrCode q m s → StrCode q (l ++ m) (c :: s)

/-! ## Proof -/

theorem hexDigit_digitChar : ∀ n : Fin 16, HexDigit n.val.digitChar n.val := by
  intro n
  rcases Nat.lt_or_ge n.val 10 with h | h
  · have e : n.val = n.val.digitChar.toNat - 48 ∧ '0' ≤ n.val.digitChar ∧ n.val.digitChar ≤ '9' := by
      revert n; decide
    have := HexDigit.dec e.2.1 e.2.2
    rwa [← e.1] at this
  · have e : n.val = n.val.digitChar.toNat - 87 ∧ 'a' ≤ n.val.digitChar ∧ n.val.digitChar ≤ 'f' := by
      revert n; decide
    have := HexDigit.hex e.2.1 e.2.2
    rwa [← e.1] at this

theorem hexNum_showHex : ∀ n, HexNum (showHex n) n := by
  intro n
  induction n using Nat.strongRecOn with
  | ind n ih =>
    unfold showHex at ih ⊢
    rcases Nat.lt_or_ge n 16 with h | h
    · rw [Nat.toDigits_of_lt_base h]
      exact .one (hexDigit_digitChar ⟨n, h⟩)
    · rw [Nat.toDigits_of_base_le (by decide) h]
      have h1 := HexNum.snoc (ih (n / 16) (Nat.div_lt_self (by omega) (by decide))) (hexDigit_digitChar ⟨n % 16, Nat.mod_lt _ (by decide)⟩)
      have h2 : 16 * (n / 16) + n % 16 = n := Nat.div_add_mod n 16
      dsimp only at h1
      rwa [h2] at h1

theorem showHex_length : ∀ k n, n < 16 ^ (k + 1) → 1 ≤ (showHex n).length ∧ (showHex n).length ≤ k + 1 := by
  intro k
  induction k with
  | zero =>
    intro n h
    unfold showHex
    rw [Nat.toDigits_of_lt_base (by simpa using h)]
    simp
  | succ k ih =>
    intro n h
    unfold showHex at ih ⊢
    rcases Nat.lt_or_ge n 16 with h1 | h1
    · rw [Nat.toDigits_of_lt_base h1]
      simp
    · rw [Nat.toDigits_of_base_le (by decide) h1]
      have h2 := ih (n / 16) (by rw [Nat.pow_succ] at h; omega)
      simp only [List.length_append, List.length_singleton]
      omega

theorem escapeDebug_code (plain : Char → Bool) (hp : ∀ c, plain c = true → c.toNat ≠ 0) {q : Char} (c : Char) :
    CharCode q (escapeDebug plain q c) c := by
  unfold escapeDebug
  split
  · rename_i h; subst h; exact .null
  split
  · rename_i h; subst h; exact .tab
  split
  · rename_i h; subst h; exact .cr
  split
  · rename_i h; subst h; exact .newline
  split
  · rename_i h; subst h; exact .backslash
  split
  · rename_i h; subst h; exact .quote
  split
  · rename_i h1 h2 h3 h4 h5 h6 h7
    exact .itself h5 h6 h4 h3 h2 (hp c h7)
  · have h := showHex_length 5 c.toNat (by
      have := c.valid
      simp only [UInt32.isValidChar, Nat.isValidChar] at this
      show c.val.toNat < 16777216
      omega)
    exact .unicode (hexNum_showHex _) h.1 h.2

theorem debugStr_code (plain : Char → Bool) (hp : ∀ c, plain c = true → c.toNat ≠ 0) {q : Char} : ∀ s : List Char,
    StrCode q (s.flatMap (escapeDebug plain q)) s
  | [] => .nil
  | c :: s => by
    rw [List.flatMap_cons]
    exact .cons (escapeDebug_code plain hp c) (debugStr_code plain hp s)

/-- **C65** (characters and strings). Wherever a message shows a character it shows a Rust character literal of that
character, between single quotes, and wherever it shows a string a Rust string literal of that string, between double
quotes; the literal contains no tab, line break or NUL as such, so the message stays on one line.  (`plain` are the
characters that the standard library prints as they are; NUL is not one of them.) -/
theorem C65_shown_as_literals (plain : Char → Bool) (hp : ∀ c, plain c = true → c.toNat ≠ 0) :
    (∀ c, ∃ l, debugChar plain c = ['\''] ++ l ++ ['\''] ∧ CharCode '\'' l c) ∧
    (∀ s, ∃ l, debugStr plain s = ['"'] ++ l ++ ['"'] ∧ StrCode '"' l s) :=
  ⟨fun c => ⟨_, rfl, escapeDebug_code plain hp c⟩, fun s => ⟨_, rfl, debugStr_code plain hp s⟩⟩

/-- **C65** (ordinary characters). A character that needs no escape is shown as itself: `'x'`. -/
theorem C65_shown_as_itself (plain : Char → Bool) (c : Char) (hp : plain c = true)
    (hs : c ∉ [Char.ofNat 0, '\t', '\r', '\n', '\\', '\'']) : debugChar plain c = ['\'', c, '\''] := by
  simp only [List.mem_cons, List.not_mem_nil, or_false, not_or] at hs
  obtain ⟨h0, h1, h2, h3, h4, h5⟩ := hs
  simp only [debugChar, escapeDebug, if_neg h0, if_neg h1, if_neg h2, if_neg h3, if_neg h4, if_neg h5, if_pos hp]
  rfl

theorem CharCode.visible {q : Char} (hq : q.toNat ≠ 0) (hq2 : q ≠ '\n') {l : List Char} {c : Char} (h : CharCode q l c) :
    ∀ x ∈ l, x ≠ '\n' := by
  have hd : ∀ {d n}, HexDigit d n → d ≠ '\n' := by
    intro d n h e
    subst e
    cases h with
    | dec h1 _ => exact absurd h1 (by decide)
    | hex h1 _ => exact absurd h1 (by decide)
  have hn : ∀ {l n}, HexNum l n → ∀ x ∈ l, x ≠ '\n' := by
    intro l n h
    induction h with
    | one h => intro x hx; rw [List.mem_singleton.1 hx]; exact hd h
    | snoc _ h ih =>
      intro x hx
      rcases List.mem_append.1 hx with hx | hx
      · exact ih x hx
      · rw [List.mem_singleton.1 hx]; exact hd h
  cases h with
  | itself _ _ h _ _ _ => intro x hx; rw [List.mem_singleton.1 hx]; exact h
  | unicode h _ _ =>
    intro x hx
    simp only [List.mem_append, List.mem_cons, List.not_mem_nil, or_false] at hx
    rcases hx with (hx | hx) | hx
    · rcases hx with rfl | rfl | rfl <;> decide
    · exact hn h x hx
    · subst hx; decide
  | quote => intro x hx; simp only [List.mem_cons, List.not_mem_nil, or_false] at hx; rcases hx with rfl | rfl; decide; exact hq2
  | _ => intro x hx; simp only [List.mem_cons, List.not_mem_nil, or_false] at hx; rcases hx with rfl | rfl <;> decide

theorem StrCode.visible {q : Char} (hq : q.toNat ≠ 0) (hq2 : q ≠ '\n') {l : List Char} {s : List Char} (h : StrCode q l s) :
    ∀ x ∈ l, x ≠ '\n' := by
  induction h with
  | nil => simp
  | cons h _ ih =>
    intro x hx
    rcases List.mem_append.1 hx with hx | hx
    · exact h.visible hq hq2 x hx
    · exact ih x hx

theorem showNat_line (n : Nat) : ∀ x ∈ showNat n, x ≠ '\n' := by
  intro x hx e
  subst e
  exact absurd (showNat_digit hx) (by decide)

/-- **C65** (one line). The text of a parse error is a single line, whatever characters the input and the grammar contain. -/
theorem C65_single_line (plain : Char → Bool) (hp : ∀ c, plain c = true → c.toNat ≠ 0) (e : ParseError) : '\n' ∉ e.text plain := by
  have hc (c : Char) : ∀ x ∈ debugChar plain c, x ≠ '\n' := by
    intro x hx
    simp only [debugChar, List.mem_cons, List.mem_append, List.not_mem_nil, or_false] at hx
    rcases hx with rfl | hx | rfl
    · decide
    · exact (escapeDebug_code plain hp c).visible (by decide) (by decide) x hx
    · decide
  have hs (s : List Char) : ∀ x ∈ debugStr plain s, x ≠ '\n' := by
    intro x hx
    simp only [debugStr, List.mem_cons, List.mem_append, List.not_mem_nil, or_false] at hx
    rcases hx with rfl | hx | rfl
    · decide
    · exact (debugStr_code plain hp s).visible (by decide) (by decide) x hx
    · decide
  have hl (p : LineCol) : '\n' ∉ p.text := by
    intro hx
    simp only [LineCol.text, List.mem_append, List.mem_cons] at hx
    rcases hx with hx | hx | hx
    · exact showNat_line _ _ hx rfl
    · exact absurd hx (by decide)
    · exact showNat_line _ _ hx rfl
  have hc' (c : Char) : '\n' ∉ debugChar plain c := fun h => hc c _ h rfl
  have hs' (s : List Char) : '\n' ∉ debugStr plain s := fun h => hs s _ h rfl
  have lit1 : '\n' ∉ ": Unexpected character ".toList := by decide
  have lit2 : '\n' ∉ ": Unexpected string ".toList := by decide
  have lit3 : '\n' ∉ ": Unexpected end of input".toList := by decide
  have lit4 : '\n' ∉ ": Expected end of input".toList := by decide
  have lit5 : '\n' ∉ ". ".toList := by decide
  have lit6 : '\n' ∉ ". Expected ".toList := by decide
  have lit7 : '\n' ∉ "Expected end of input.".toList := by decide
  have lit8 : '\n' ∉ "Expected character ".toList := by decide
  have lit9 : '\n' ∉ ".".toList := by decide
  have lit10 : '\n' ∉ "Expected one of ".toList := by decide
  have lit11 : '\n' ∉ ", ".toList := by decide
  have he : ∀ l, '\n' ∉ expectedText plain l := by
    intro l hx
    rcases l with _ | ⟨c, _ | ⟨d, l⟩⟩
    · exact lit7 hx
    · exact (List.mem_append.1 hx).elim lit8 fun hx => (List.mem_append.1 hx).elim (hc' _) lit9
    · refine (List.mem_append.1 hx).elim lit10 fun hx => (List.mem_append.1 hx).elim (hc' _) fun hx => ?_
      obtain ⟨a, _, hx⟩ := List.mem_flatMap.1 hx
      exact (List.mem_append.1 hx).elim lit11 (hc' _)
  intro hx
  rcases e with (⟨p, g, l⟩ | ⟨p, g, l⟩ | p) | p
  · simp only [ParseError.text, TakeError.text, List.mem_append] at hx
    rcases hx with hx | hx | hx | hx | hx
    · exact hl _ hx
    · exact lit1 hx
    · exact hc' _ hx
    · exact lit5 hx
    · exact he _ hx
  · simp only [ParseError.text, TakeError.text, List.mem_append] at hx
    rcases hx with hx | hx | hx | hx | hx
    · exact hl _ hx
    · exact lit2 hx
    · exact hs' _ hx
    · exact lit6 hx
    · exact hs' _ hx
  · exact (List.mem_append.1 (show '\n' ∈ p.text ++ ": Unexpected end of input".toList from hx)).elim (hl _) lit3
  · exact (List.mem_append.1 (show '\n' ∈ p.text ++ ": Expected end of input".toList from hx)).elim (hl _) lit4

/-- Non-vacuity: what is shown for a line break, an umlaut (not ASCII, here escaped), a quote and a string. -/
example : debugChar Char.isAlphanum '\n' = "'\\n'".toList ∧ debugChar Char.isAlphanum 'ä' = "'\\u{e4}'".toList ∧
    debugChar Char.isAlphanum '"' = "'\\u{22}'".toList ∧ debugStr Char.isAlphanum "a\"b\n".toList = "\"a\\\"b\\n\"".toList ∧
    (∀ c, Char.isAlphanum c = true → c.toNat ≠ 0) := by
  refine ⟨by decide +kernel, by decide +kernel, by decide +kernel, by decide +kernel, fun c h e => ?_⟩
  have : c = Char.ofNat 0 := Char.toNat_inj' e
  subst this
  exact absurd h (by decide)

end Chomp
