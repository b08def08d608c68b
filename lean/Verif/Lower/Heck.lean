import Verif.Lower.NameLemmas

/-!
# The case conversions of names

`Content::to_camel_case` and `Content::to_snake_case` (`/repo/src/chomp/name.rs:35-59`) call the crate
`heck` (version 0.3, not in `/repo`) and then `Ident::new`, which panics on texts that are not
identifiers.  This file models `heck`'s `transform` on ASCII identifiers, character by character as the
crate does it.  (On an ASCII identifier `unicode_words`, which `transform` starts with, gives the
identifier itself, or nothing if it consists of underscores only; the loop below then finds no word
either.)
-/

namespace Chomp

/-- `WordMode` of `heck::transform`. -/
inductive WordMode where
  | boundary | lowercase | uppercase
deriving DecidableEq, Repr

/-- The mode including the current character, if there is no word boundary. -/
def WordMode.next (mode : WordMode) (c : Char) : WordMode :=
  if c.isLower then .lowercase else if c.isUpper then .uppercase else mode

/-- The loop of `heck::transform`: the words of an identifier.  `cur` holds the characters from `init` up to
the current position, last one first. -/
def heckWords (mode : WordMode) (cur : List Char) : List Char → List (List Char)
  | [] => []
  | c :: rest =>
    if c = '_' then
      -- `if init == i { init += 1 }`
      heckWords mode (if cur = [] then [] else c :: cur) rest
    else
      match rest with
      | [] => [(c :: cur).reverse]
      | d :: _ =>
        if d = '_' ∨ (mode.next c = .lowercase ∧ d.isUpper = true) then (c :: cur).reverse :: heckWords .boundary [] rest
        else if mode = .uppercase ∧ c.isUpper = true ∧ d.isLower = true then cur.reverse :: heckWords .boundary [c] rest
        else heckWords (mode.next c) (c :: cur) rest

/-- `heck::capitalize`: the first letter in upper case, the others in lower case. -/
def heckCapitalize : List Char → List Char
  | [] => []
  | c :: r => c.toUpper :: r.map Char.toLower

/-- `heck::lowercase`. -/
def heckLower (l : List Char) : List Char := l.map Char.toLower

/-- `CamelCase for str` of `heck`: nothing between the words. -/
def heckCamel (s : List Char) : List Char := ((heckWords .boundary [] s).map heckCapitalize).flatten

/-- `transform` with a boundary character: it is written before every word but the first. -/
def joinWords (sep : Char) : List (List Char) → List Char
  | [] => []
  | [w] => w
  | w :: v :: l => w ++ sep :: joinWords sep (v :: l)

/-- `SnakeCase for str` of `heck`. -/
def heckSnake (s : List Char) : List Char := joinWords '_' ((heckWords .boundary [] s).map heckLower)

/-- The characters of ASCII identifiers. -/
def identChar (c : Char) : Bool := c.isAlphanum || c == '_'

/-- The ASCII texts that `Ident::new` takes. -/
def identText : List Char → Bool
  | [] => false
  | c :: r => (c.isAlpha || c == '_') && r.all identChar

/-- `Ident::new` on a text of ASCII characters: the text or a panic (`none`). -/
def identNew (s : List Char) : Option String := if identText s then some (String.ofList s) else none

/-- A casing that does to ASCII identifiers what `src/chomp/name.rs:35-59` does; nothing is assumed about other names. -/
def Casing.LikeHeck (cas : Casing) : Prop :=
  ∀ s : String, identText s.toList = true → cas.camel s = identNew (heckCamel s.toList) ∧ cas.snake s = identNew (heckSnake s.toList)

/-- Such a casing. -/
def heckAscii : Casing where
  camel s := identNew (heckCamel s.toList)
  snake s := identNew (heckSnake s.toList)

theorem heckAscii_likeHeck : heckAscii.LikeHeck := fun _ _ => ⟨rfl, rfl⟩

/-! ## Lemmas -/

theorem heckWords_flatten : ∀ (s : List Char) (mode : WordMode) (cur : List Char), (cur ≠ [] → s ≠ []) →
    (∀ r, s = '_' :: r → cur = []) → (heckWords mode cur s).flatten = cur.reverse ++ s.filter (· != '_') := by
  intro s
  induction s with
  | nil =>
    intro mode cur h _
    have : cur = [] := Classical.byContradiction fun hc => h hc rfl
    subst this; rfl
  | cons c rest ih =>
    intro mode cur h1 h2
    unfold heckWords
    by_cases hc : c = '_'
    · subst hc
      have := h2 rest rfl; subst this
      simp only [if_true]
      rw [ih mode [] (fun h => absurd rfl h) (fun _ _ => rfl)]
      simp
    · rw [if_neg hc]
      have hf : (c :: rest).filter (· != '_') = c :: rest.filter (· != '_') := by simp [hc]
      rw [hf]
      cases rest with
      | nil => simp
      | cons d r =>
        simp only
        split
        · simp only [List.flatten_cons]
          rw [ih _ [] (fun h => absurd rfl h) (fun _ _ => rfl)]
          simp
        · rename_i hd
          have hd' : d ≠ '_' := fun h => hd (.inl h)
          split
          · simp only [List.flatten_cons]
            rw [ih _ [c] (fun _ => by simp) (fun _ h => by cases h; exact absurd rfl hd')]
            simp
          · rw [ih _ (c :: cur) (fun _ => by simp) (fun _ h => by cases h; exact absurd rfl hd')]
            simp

/-- No word is empty. -/
theorem heckWords_nonempty : ∀ (s : List Char) (mode : WordMode) (cur : List Char), (mode = .uppercase → cur ≠ []) →
    ∀ w ∈ heckWords mode cur s, w ≠ [] := by
  intro s
  induction s with
  | nil => intro mode cur _ w hw; simp [heckWords] at hw
  | cons c rest ih =>
    intro mode cur h w hw
    unfold heckWords at hw
    by_cases hc : c = '_'
    · subst hc
      simp only [if_true] at hw
      refine ih _ _ ?_ w hw
      intro hm
      split
      · rename_i h0; exact absurd h0 (h hm)
      · simp
    · rw [if_neg hc] at hw
      cases rest with
      | nil => simp only [List.mem_singleton] at hw; subst hw; simp
      | cons d r =>
        simp only at hw
        split at hw
        · rcases List.mem_cons.mp hw with rfl | hw
          · simp
          · exact ih _ _ (fun h => by cases h) w hw
        · split at hw
          · rename_i hu
            rcases List.mem_cons.mp hw with rfl | hw
            · simp [h hu.1]
            · exact ih _ _ (fun h => by cases h) w hw
          · exact ih _ _ (fun _ => by simp) w hw

/-- No word contains an underscore. -/
theorem heckWords_no_underscore (s : List Char) : ∀ w ∈ heckWords .boundary [] s, ∀ c ∈ w, c ≠ '_' := by
  intro w hw c hc
  have h := heckWords_flatten s .boundary [] (fun h => absurd rfl h) (fun _ _ => rfl)
  have : c ∈ (heckWords .boundary [] s).flatten := List.mem_flatten.mpr ⟨w, hw, hc⟩
  rw [h] at this
  simp at this
  exact this.2

theorem ascii_of_identChar {c : Char} (h : identChar c = true) : c.toNat < 128 := by
  simp only [identChar, Char.isAlphanum, Char.isAlpha, Char.isUpper, Char.isLower, Char.isDigit, Bool.or_eq_true,
    Bool.and_eq_true, decide_eq_true_eq, beq_iff_eq] at h
  rcases h with ((h | h) | h) | h
  · have := h.2; have : c.val.toNat ≤ 90 := this; show c.val.toNat < 128; omega
  · have := h.2; have : c.val.toNat ≤ 122 := this; show c.val.toNat < 128; omega
  · have := h.2; have : c.val.toNat ≤ 57 := this; show c.val.toNat < 128; omega
  · subst h; decide

theorem ascii_forall {P : Char → Prop} (h : ∀ n : Fin 128, P (Char.ofNat n.val)) {c : Char} (hc : c.toNat < 128) : P c := by
  have := h ⟨c.toNat, hc⟩
  simpa [Char.ofNat_toNat] using this

/-- What the letters of identifiers do under the two conversions. -/
theorem letter_facts {c : Char} (hc : identChar c = true) : c.toUpper.toLower = c.toLower ∧ identChar c.toUpper = true ∧
    identChar c.toLower = true ∧ (c.toUpper = '_' ↔ c = '_') ∧ (c.toLower = '_' ↔ c = '_') ∧
    c.toUpper.isAlpha = c.isAlpha ∧ c.toLower.isAlpha = c.isAlpha ∧ c.toUpper.isDigit = c.isDigit ∧ c.toLower.isDigit = c.isDigit ∧
    c.toLower.toLower = c.toLower := by
  have h := ascii_of_identChar hc
  revert hc
  refine ascii_forall (P := fun c => identChar c = true → c.toUpper.toLower = c.toLower ∧ identChar c.toUpper = true ∧
    identChar c.toLower = true ∧ (c.toUpper = '_' ↔ c = '_') ∧ (c.toLower = '_' ↔ c = '_') ∧
    c.toUpper.isAlpha = c.isAlpha ∧ c.toLower.isAlpha = c.isAlpha ∧ c.toUpper.isDigit = c.isDigit ∧ c.toLower.isDigit = c.isDigit ∧
    c.toLower.toLower = c.toLower) ?_ h
  decide +kernel

end Chomp
