import Verif.Chewed.Model

/-!
# The texts of parse errors

`/repo/chewed/src/position.rs:18-22` and `/repo/chewed/src/error.rs:12-42,52-59`: the `Display` implementations.

Rust's formatting of numbers is `Nat.toDigits`.  `{:?}` of characters and strings is that of the standard library
(`char::escape_debug`): which characters that have no escape of their own are printed as they are depends on tables of Unicode
(`plain`, an arbitrary set here).
-/

namespace Chomp

/-- `{}` of a number. -/
def showNat (n : Nat) : List Char := Nat.toDigits 10 n

/-- `{:x}` of a number. -/
def showHex (n : Nat) : List Char := Nat.toDigits 16 n

/-- One character as `{:?}` shows it between quotes `q` (`'` or `"`; the other quote is not escaped). -/
def escapeDebug (plain : Char → Bool) (q c : Char) : List Char :=
  if c = Char.ofNat 0 then ['\\', '0']
  else if c = '\t' then ['\\', 't']
  else if c = '\r' then ['\\', 'r']
  else if c = '\n' then ['\\', 'n']
  else if c = '\\' then ['\\', '\\']
  else if c = q then ['\\', q]
  else if plain c then [c]
  else '\\' :: 'u' :: '{' :: (showHex c.toNat ++ ['}'])

/-- `{:?}` of a character. -/
def debugChar (plain : Char → Bool) (c : Char) : List Char := '\'' :: (escapeDebug plain '\'' c ++ ['\''])

/-- `{:?}` of a string. -/
def debugStr (plain : Char → Bool) (s : List Char) : List Char := '"' :: (s.flatMap (escapeDebug plain '"') ++ ['"'])

/-- `chewed/src/position.rs:18-22`: `Display for LineCol`. -/
def LineCol.text (p : LineCol) : List Char := showNat p.line ++ ':' :: showNat p.col

/-- `chewed/src/error.rs:16-33`: what was expected, for `BadBranch`. -/
def expectedText (plain : Char → Bool) : List Char → List Char
  | [] => "Expected end of input.".toList
  | [c] => "Expected character ".toList ++ (debugChar plain c ++ ".".toList)
  | c :: l => "Expected one of ".toList ++ (debugChar plain c ++ l.flatMap fun c => ", ".toList ++ debugChar plain c)

/-- `chewed/src/error.rs:12-42`: `Display for TakeError`. -/
def TakeError.text (plain : Char → Bool) : TakeError → List Char
  | .badBranch pos got expected =>
    pos.text ++ (": Unexpected character ".toList ++ (debugChar plain got ++ (". ".toList ++ expectedText plain expected)))
  | .badString pos got expected =>
    pos.text ++ (": Unexpected string ".toList ++ (debugStr plain got ++ (". Expected ".toList ++ debugStr plain expected)))
  | .endOfStream pos => pos.text ++ ": Unexpected end of input".toList

/-- `chewed/src/error.rs:52-59`: `Display for ParseError`. -/
def ParseError.text (plain : Char → Bool) : ParseError → List Char
  | .take e => e.text plain
  | .inputContinues pos => pos.text ++ ": Expected end of input".toList

/-! ## Unique decoding -/

theorem digitChar_inj {a b : Nat} (ha : a < 16) (hb : b < 16) (h : a.digitChar = b.digitChar) : a = b := by
  have : ∀ (x y : Fin 16), x.val.digitChar = y.val.digitChar → x = y := by decide
  exact congrArg Fin.val (this ⟨a, ha⟩ ⟨b, hb⟩ h)

theorem toDigits_inj {b : Nat} (hb : 1 < b) (hb' : b ≤ 16) : ∀ n m, Nat.toDigits b n = Nat.toDigits b m → n = m := by
  intro n
  induction n using Nat.strongRecOn with
  | ind n ih =>
    intro m h
    have hl (k : Nat) : (Nat.toDigits b k).length ≠ 0 := fun h0 => Nat.toDigits_ne_nil (List.length_eq_zero_iff.1 h0)
    rcases Nat.lt_or_ge n b with hn | hn <;> rcases Nat.lt_or_ge m b with hm | hm
    · rw [Nat.toDigits_of_lt_base hn, Nat.toDigits_of_lt_base hm] at h
      exact digitChar_inj (by omega) (by omega) (List.cons.inj h).1
    · rw [Nat.toDigits_of_lt_base hn, Nat.toDigits_of_base_le hb hm] at h
      have := congrArg List.length h
      simp at this
    · rw [Nat.toDigits_of_base_le hb hn, Nat.toDigits_of_lt_base hm] at h
      have := congrArg List.length h
      simp at this
    · rw [Nat.toDigits_of_base_le hb hn, Nat.toDigits_of_base_le hb hm] at h
      have h' := List.append_inj_right' h rfl
      have h1 := List.append_inj_left' h rfl
      have h2 := digitChar_inj (Nat.lt_of_lt_of_le (Nat.mod_lt _ (by omega)) hb')
        (Nat.lt_of_lt_of_le (Nat.mod_lt _ (by omega)) hb') (List.cons.inj h').1
      have h3 := ih (n / b) (Nat.div_lt_self (by omega) hb) (m / b) h1
      rw [← Nat.div_add_mod n b, ← Nat.div_add_mod m b, h2, h3]

theorem split_at {P : Char → Prop} {a b : Char} (ha : ¬ P a) (hb : ¬ P b) : ∀ {l m x y : List Char}, (∀ c ∈ l, P c) → (∀ c ∈ m, P c) →
    l ++ a :: x = m ++ b :: y → l = m ∧ a = b ∧ x = y
  | [], [], _, _, _, _, h => by simpa using h
  | [], c :: m, _, _, _, hm, h => by
    cases h
    exact absurd (hm _ (by simp)) ha
  | c :: l, [], _, _, hl, _, h => by
    cases h
    exact absurd (hl _ (by simp)) hb
  | c :: l, d :: m, _, _, hl, hm, h => by
    simp only [List.cons_append, List.cons.injEq] at h
    obtain ⟨h1, h2⟩ := h
    have := split_at ha hb (fun c hc => hl c (by simp [hc])) (fun c hc => hm c (by simp [hc])) h2
    exact ⟨by rw [h1, this.1], this.2⟩

theorem showNat_digit {n : Nat} {c : Char} (h : c ∈ showNat n) : c.isDigit := Nat.isDigit_of_mem_toDigits (by decide) (by decide) h

/-- A number followed by a character that is not a digit can be read back. -/
theorem showNat_next {n m : Nat} {a b : Char} {x y : List Char} (ha : a.isDigit = false) (hb : b.isDigit = false)
    (h : showNat n ++ a :: x = showNat m ++ b :: y) : n = m ∧ a = b ∧ x = y := by
  obtain ⟨h1, h2⟩ := split_at (P := fun c => c.isDigit = true) (by simp [ha]) (by simp [hb]) (fun c => showNat_digit)
    (fun c => showNat_digit) h
  exact ⟨toDigits_inj (by decide) (by decide) _ _ h1, h2⟩

theorem showNat_inj {n m : Nat} (h : showNat n = showNat m) : n = m := toDigits_inj (by decide) (by decide) _ _ h

theorem mem_toDigits16 : ∀ (n : Nat) {c : Char}, c ∈ Nat.toDigits 16 n → c ≠ '}' := by
  intro n
  induction n using Nat.strongRecOn with
  | ind n ih =>
    intro c hc
    have hd : ∀ x : Fin 16, x.val.digitChar ≠ '}' := by decide
    rcases Nat.lt_or_ge n 16 with hn | hn
    · rw [Nat.toDigits_of_lt_base hn] at hc
      rw [List.mem_singleton.1 hc]
      exact hd ⟨n, hn⟩
    · rw [Nat.toDigits_of_base_le (by decide) hn, List.mem_append] at hc
      rcases hc with hc | hc
      · exact ih _ (Nat.div_lt_self (by omega) (by decide)) hc
      · rw [List.mem_singleton.1 hc]
        exact hd ⟨n % 16, Nat.mod_lt _ (by decide)⟩

/-- The end of a text after a code that can be read back. -/
def Decodes {α : Type} (enc : α → List Char) : Prop := ∀ a b x y, enc a ++ x = enc b ++ y → a = b ∧ x = y

theorem Char.toNat_inj' {a b : Char} (h : a.toNat = b.toNat) : a = b := by
  rw [← Char.ofNat_toNat a, ← Char.ofNat_toNat b, h]

/-- The character that an escape of two characters stands for. -/
def shortEscape (q : Char) : Char → Char
  | '0' => Char.ofNat 0
  | 't' => '\t'
  | 'r' => '\r'
  | 'n' => '\n'
  | '\\' => '\\'
  | _ => q

theorem escapeDebug_cases (plain : Char → Bool) {q : Char} (hq : q = '\'' ∨ q = '"') (c : Char) :
    (escapeDebug plain q c = [c] ∧ c ≠ '\\' ∧ c ≠ q) ∨ (∃ k, escapeDebug plain q c = ['\\', k] ∧ k ≠ 'u' ∧ c = shortEscape q k) ∨
      escapeDebug plain q c = '\\' :: 'u' :: '{' :: (showHex c.toNat ++ ['}']) := by
  have hs : shortEscape q q = q := by rcases hq with rfl | rfl <;> rfl
  have hu : q ≠ 'u' := by rcases hq with rfl | rfl <;> decide
  unfold escapeDebug
  split
  · exact .inr (.inl ⟨_, rfl, by decide, by assumption⟩)
  split
  · exact .inr (.inl ⟨_, rfl, by decide, by assumption⟩)
  split
  · exact .inr (.inl ⟨_, rfl, by decide, by assumption⟩)
  split
  · exact .inr (.inl ⟨_, rfl, by decide, by assumption⟩)
  split
  · exact .inr (.inl ⟨_, rfl, by decide, by assumption⟩)
  split
  · rename_i h
    exact .inr (.inl ⟨_, rfl, hu, by rw [hs, h]⟩)
  split
  · exact .inl ⟨rfl, by assumption, by assumption⟩
  · exact .inr (.inr rfl)

theorem escapeDebug_decodes (plain : Char → Bool) {q : Char} (hq : q = '\'' ∨ q = '"') : Decodes (escapeDebug plain q) := by
  intro a b x y h
  rcases escapeDebug_cases plain hq a with ⟨ha, ha', _⟩ | ⟨k, ha, hk, ha'⟩ | ha <;>
    rcases escapeDebug_cases plain hq b with ⟨hb, hb', _⟩ | ⟨k', hb, hk', hb'⟩ | hb <;> rw [ha, hb] at h <;>
    simp only [List.cons_append, List.nil_append, List.append_assoc, List.cons.injEq] at h
  · exact h
  · exact absurd h.1 ha'
  · exact absurd h.1 ha'
  · exact absurd h.1.symm hb'
  · exact ⟨by rw [ha', hb', h.2.1], h.2.2⟩
  · exact absurd h.2.1 hk
  · exact absurd h.1.symm hb'
  · exact absurd h.2.1.symm hk'
  · obtain ⟨h1, _, h2⟩ := split_at (P := fun c => c ≠ '}') (by simp) (by simp) (fun c => mem_toDigits16 _) (fun c => mem_toDigits16 _)
      h.2.2.2
    exact ⟨Char.toNat_inj' (toDigits_inj (by decide) (by decide) _ _ h1), h2⟩

theorem escapeDebug_head (plain : Char → Bool) {q : Char} (hq : q = '\'' ∨ q = '"') (c : Char) : ∃ a l, escapeDebug plain q c = a :: l ∧ a ≠ q := by
  rcases escapeDebug_cases plain hq c with ⟨ha, _, ha'⟩ | ⟨k, ha, _, _⟩ | ha
  · exact ⟨_, _, ha, ha'⟩
  · exact ⟨_, _, ha, by rcases hq with rfl | rfl <;> decide⟩
  · exact ⟨_, _, ha, by rcases hq with rfl | rfl <;> decide⟩

theorem debugChar_decodes (plain : Char → Bool) : Decodes (debugChar plain) := by
  intro a b x y h
  simp only [debugChar, List.cons_append, List.append_assoc, List.cons.injEq, true_and] at h
  obtain ⟨h1, h2⟩ := escapeDebug_decodes plain (.inl rfl) _ _ _ _ h
  exact ⟨h1, by simpa using h2⟩

theorem debugStr_decodes (plain : Char → Bool) : Decodes (debugStr plain) := by
  intro a b x y h
  simp only [debugStr, List.cons_append, List.append_assoc, List.cons.injEq, true_and] at h
  have go : ∀ a b : List Char, a.flatMap (escapeDebug plain '"') ++ ('"' :: ([] ++ x)) = b.flatMap (escapeDebug plain '"') ++ ('"' :: ([] ++ y)) →
      a = b ∧ x = y := by
    intro a
    induction a with
    | nil =>
      intro b h
      cases b with
      | nil => simpa using h
      | cons d b =>
        obtain ⟨k, l, hk, hq⟩ := escapeDebug_head plain (.inr rfl) d
        simp only [List.flatMap_cons, List.flatMap_nil, hk, List.cons_append, List.nil_append, List.cons.injEq] at h
        exact absurd h.1.symm hq
    | cons c a ih =>
      intro b h
      cases b with
      | nil =>
        obtain ⟨k, l, hk, hq⟩ := escapeDebug_head plain (.inr rfl) c
        simp only [List.flatMap_cons, List.flatMap_nil, hk, List.cons_append, List.nil_append, List.cons.injEq] at h
        exact absurd h.1 hq
      | cons d b =>
        simp only [List.flatMap_cons, List.append_assoc] at h
        obtain ⟨h1, h2⟩ := escapeDebug_decodes plain (.inr rfl) _ _ _ _ h
        obtain ⟨h3, h4⟩ := ih b h2
        exact ⟨by rw [h1, h3], h4⟩
  exact go a b h

theorem othersText_inj (plain : Char → Bool) : ∀ {a b : List Char},
    (a.flatMap fun c => ", ".toList ++ debugChar plain c) = (b.flatMap fun c => ", ".toList ++ debugChar plain c) → a = b
  | [], [], _ => rfl
  | [], d :: b, h => by simp at h
  | c :: a, [], h => by simp at h
  | c :: a, d :: b, h => by
    simp only [List.flatMap_cons, List.append_assoc, List.append_cancel_left_eq] at h
    obtain ⟨h1, h2⟩ := debugChar_decodes plain _ _ _ _ h
    rw [h1, othersText_inj plain h2]

theorem lit_one_many (x y : List Char) : "Expected character ".toList ++ x ≠ "Expected one of ".toList ++ y := by simp
theorem lit_end_one (x : List Char) : "Expected end of input.".toList ≠ "Expected character ".toList ++ x := by simp
theorem lit_end_many (x : List Char) : "Expected end of input.".toList ≠ "Expected one of ".toList ++ x := by simp

theorem expectedText_inj (plain : Char → Bool) {a b : List Char} (h : expectedText plain a = expectedText plain b) : a = b := by
  rcases a with _ | ⟨c, _ | ⟨c', l⟩⟩ <;> rcases b with _ | ⟨d, _ | ⟨d', m⟩⟩
  · rfl
  · exact absurd h (lit_end_one _)
  · exact absurd h (lit_end_many _)
  · exact absurd h.symm (lit_end_one _)
  · rw [(debugChar_decodes plain _ _ _ _ (List.append_cancel_left h)).1]
  · exact absurd h (lit_one_many _ _)
  · exact absurd h.symm (lit_end_many _)
  · exact absurd h.symm (lit_one_many _ _)
  · obtain ⟨h1, h2⟩ := debugChar_decodes plain _ _ _ _ (List.append_cancel_left h)
    rw [h1, othersText_inj plain h2]

theorem LineCol.text_next {p q : LineCol} {a b : Char} {x y : List Char} (ha : a.isDigit = false) (hb : b.isDigit = false)
    (h : p.text ++ a :: x = q.text ++ b :: y) : p = q ∧ a = b ∧ x = y := by
  simp only [LineCol.text, List.append_assoc, List.cons_append] at h
  obtain ⟨h1, _, h2⟩ := showNat_next (by decide) (by decide) h
  obtain ⟨h3, h4⟩ := showNat_next ha hb h2
  cases p; cases q
  simp only at h1 h3
  exact ⟨by rw [h1, h3], h4⟩

end Chomp
