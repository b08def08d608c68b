import Verif.Lower.Heck
import Verif.Props.NameExact
import Verif.Props.TokenNames
import Verif.Props.Errors

/-!
# C85: from the names in a program to the names in the emitted code

The theorems on names (C39, C40, C43, C63) speak about the results of the case conversions.  Here the
conversions are those of `heck` on ASCII identifiers (`Verif/Lower/Heck.lean`), and the conditions are
about the names as they are written in the program.

`letters s` is the name `s` without its underscores.  The conversions change only the case of letters
and the underscores.
-/

namespace Chomp

/-- A name without its underscores. -/
def letters (s : String) : List Char := s.toList.filter (· != '_')

/-- A name without its underscores and in lower case: what the conversions do not change. -/
def folded (s : String) : List Char := (letters s).map Char.toLower

/-- A name that begins, underscores apart, with a letter. -/
def BeginsWithLetter (s : String) : Prop := ∃ c r, letters s = c :: r ∧ c.isAlpha = true

/-- A name that ends, underscores apart, with a digit. -/
def EndsWithDigit (s : String) : Prop := ∃ c, (letters s).getLast? = some c ∧ c.isDigit = true

/-- An ASCII identifier. -/
def AsciiIdent (s : String) : Prop := identText s.toList = true

/-! ## The conversions -/

theorem identText_all {s : List Char} (h : identText s = true) : ∀ c ∈ s, identChar c = true := by
  cases s with
  | nil => simp
  | cons c r =>
    simp only [identText, Bool.and_eq_true, Bool.or_eq_true, List.all_eq_true] at h
    intro d hd
    rcases List.mem_cons.mp hd with rfl | hd
    · simp only [identChar, Char.isAlphanum, Bool.or_eq_true]
      rcases h.1 with h | h
      · exact .inl (.inl h)
      · exact .inr h
    · exact h.2 d hd

theorem capitalize_map {β : Type} {f : Char → β} {w : List Char} (h : ∀ c ∈ w, f c.toUpper = f c ∧ f c.toLower = f c) :
    (heckCapitalize w).map f = w.map f := by
  cases w with
  | nil => rfl
  | cons c r =>
    simp only [heckCapitalize, List.map_cons, List.map_map, List.cons.injEq]
    refine ⟨(h c (by simp)).1, ?_⟩
    apply List.map_congr_left
    intro d hd
    exact (h d (List.mem_cons_of_mem _ hd)).2

theorem heckWords_letters (s : List Char) : (heckWords .boundary [] s).flatten = s.filter (· != '_') := by
  simpa using heckWords_flatten s .boundary [] (fun h => absurd rfl h) (fun _ _ => rfl)

theorem flatten_map_eq {β : Type} {g : List Char → List Char} {f : Char → β} : ∀ (ws : List (List Char)),
    (∀ w ∈ ws, (g w).map f = w.map f) → ((ws.map g).flatten).map f = ws.flatten.map f
  | [], _ => rfl
  | w :: ws, h => by
    simp only [List.map_cons, List.flatten_cons, List.map_append]
    rw [h w (by simp), flatten_map_eq ws fun v hv => h v (List.mem_cons_of_mem _ hv)]

/-- Whatever does not depend on case is the same for the letters of a name and for its camel case. -/
theorem camel_map {β : Type} {f : Char → β} {s : List Char} (h : ∀ c ∈ s, f c.toUpper = f c ∧ f c.toLower = f c) :
    (heckCamel s).map f = (s.filter (· != '_')).map f := by
  rw [← heckWords_letters, heckCamel]
  apply flatten_map_eq
  intro w hw
  apply capitalize_map
  intro c hc
  have : c ∈ (heckWords .boundary [] s).flatten := List.mem_flatten.mpr ⟨w, hw, hc⟩
  rw [heckWords_letters] at this
  exact h c (List.mem_filter.mp this).1

theorem joinWords_head : ∀ (ws : List (List Char)), (∀ w ∈ ws, w ≠ []) → (joinWords '_' ws).head? = ws.flatten.head?
  | [], _ => rfl
  | [w], _ => by simp [joinWords]
  | w :: v :: l, h => by
    have := h w (by simp)
    cases w with
    | nil => exact absurd rfl this
    | cons c r => rfl

theorem joinWords_ne : ∀ (ws : List (List Char)), ws ≠ [] → (∀ w ∈ ws, w ≠ []) → joinWords '_' ws ≠ []
  | [], h, _ => absurd rfl h
  | [w], _, h => h w (by simp)
  | w :: v :: l, _, _ => by simp [joinWords]

theorem joinWords_last : ∀ (ws : List (List Char)), (∀ w ∈ ws, w ≠ []) → (joinWords '_' ws).getLast? = ws.flatten.getLast?
  | [], _ => rfl
  | [w], _ => by simp [joinWords]
  | w :: v :: l, h => by
    have ih := joinWords_last (v :: l) fun x hx => h x (List.mem_cons_of_mem _ hx)
    have hv : v ≠ [] := h v (by simp)
    have h1 : joinWords '_' (v :: l) ≠ [] := joinWords_ne _ (by simp) fun x hx => h x (List.mem_cons_of_mem _ hx)
    have h2 : (v :: l).flatten ≠ [] := by
      intro h0; simp at h0; exact hv h0.1
    rw [joinWords, List.flatten_cons]
    rw [List.getLast?_append, List.getLast?_append, ← ih, List.getLast?_cons]
    cases hj : (joinWords '_' (v :: l)).getLast? with
    | none => exact absurd (List.getLast?_eq_none_iff.mp hj) h1
    | some c => rfl

theorem joinWords_filter : ∀ (ws : List (List Char)), (∀ w ∈ ws, ∀ c ∈ w, c ≠ '_') →
    (joinWords '_' ws).filter (· != '_') = ws.flatten
  | [], _ => rfl
  | [w], h => by
    simp only [joinWords, List.flatten_cons, List.flatten_nil, List.append_nil]
    exact List.filter_eq_self.mpr fun c hc => by simp [h w (by simp) c hc]
  | w :: v :: l, h => by
    have ih := joinWords_filter (v :: l) fun x hx => h x (List.mem_cons_of_mem _ hx)
    rw [joinWords, List.filter_append, List.flatten_cons, List.filter_cons]
    simp only [bne_self_eq_false, Bool.false_eq_true, if_false]
    rw [ih, List.filter_eq_self.mpr fun c hc => by simp [h w (by simp) c hc]]

theorem lower_words {s : List Char} (hs : ∀ c ∈ s, identChar c = true) :
    (∀ w ∈ (heckWords .boundary [] s).map heckLower, w ≠ []) ∧
    (∀ w ∈ (heckWords .boundary [] s).map heckLower, ∀ c ∈ w, c ≠ '_') ∧
    ((heckWords .boundary [] s).map heckLower).flatten = (s.filter (· != '_')).map Char.toLower := by
  refine ⟨?_, ?_, ?_⟩
  · intro w hw
    obtain ⟨v, hv, rfl⟩ := List.mem_map.mp hw
    have := heckWords_nonempty s .boundary [] (fun h => by cases h) v hv
    simpa [heckLower] using this
  · intro w hw c hc
    obtain ⟨v, hv, rfl⟩ := List.mem_map.mp hw
    obtain ⟨d, hd, rfl⟩ := List.mem_map.mp hc
    have h1 := heckWords_no_underscore s v hv d hd
    have : d ∈ (heckWords .boundary [] s).flatten := List.mem_flatten.mpr ⟨v, hv, hd⟩
    rw [heckWords_letters] at this
    exact fun h => h1 ((letter_facts (hs d (List.mem_filter.mp this).1)).2.2.2.2.1.mp h)
  · rw [← heckWords_letters, List.map_flatten]
    rfl

/-- The snake case of a name without its underscores. -/
theorem snake_filter {s : List Char} (hs : ∀ c ∈ s, identChar c = true) :
    (heckSnake s).filter (· != '_') = (s.filter (· != '_')).map Char.toLower := by
  obtain ⟨-, h2, h3⟩ := lower_words hs
  rw [heckSnake, joinWords_filter _ h2, h3]

theorem snake_ends {s : List Char} (hs : ∀ c ∈ s, identChar c = true) :
    (heckSnake s).head? = ((s.filter (· != '_')).map Char.toLower).head? ∧
    (heckSnake s).getLast? = ((s.filter (· != '_')).map Char.toLower).getLast? := by
  obtain ⟨h1, -, h3⟩ := lower_words hs
  rw [heckSnake, joinWords_head _ h1, joinWords_last _ h1, h3]
  exact ⟨rfl, rfl⟩

theorem identText_iff {l : List Char} (h : ∀ c ∈ l, identChar c = true) :
    identText l = true ↔ ∃ c, l.head? = some c ∧ (c.isAlpha = true ∨ c = '_') := by
  cases l with
  | nil => simp [identText]
  | cons c r =>
    have h1 : r.all identChar = true := List.all_eq_true.mpr fun d hd => h d (List.mem_cons_of_mem _ hd)
    simp [identText, h1]

theorem mem_joinWords : ∀ {ws : List (List Char)} {c : Char}, c ∈ joinWords '_' ws → c = '_' ∨ ∃ w ∈ ws, c ∈ w
  | [], _, h => by simp [joinWords] at h
  | [w], _, h => .inr ⟨w, by simp, h⟩
  | w :: v :: l, c, h => by
    rw [joinWords, List.mem_append, List.mem_cons] at h
    rcases h with h | rfl | h
    · exact .inr ⟨w, by simp, h⟩
    · exact .inl rfl
    · rcases mem_joinWords h with h | ⟨x, hx, hc⟩
      · exact .inl h
      · exact .inr ⟨x, List.mem_cons_of_mem _ hx, hc⟩

theorem snake_chars {s : List Char} (hs : ∀ c ∈ s, identChar c = true) : ∀ c ∈ heckSnake s, identChar c = true := by
  intro c hc
  rcases mem_joinWords hc with rfl | ⟨w, hw, hc⟩
  · rfl
  · have h3 := (lower_words hs).2.2
    have : c ∈ ((heckWords .boundary [] s).map heckLower).flatten := List.mem_flatten.mpr ⟨w, hw, hc⟩
    rw [h3] at this
    obtain ⟨d, hd, rfl⟩ := List.mem_map.mp this
    exact (letter_facts (hs d (List.mem_filter.mp hd).1)).2.2.1

theorem camel_chars {s : List Char} (hs : ∀ c ∈ s, identChar c = true) : ∀ c ∈ heckCamel s, identChar c = true := by
  have h := camel_map (f := identChar) (s := s) fun c hc => by
    obtain ⟨_, h2, h3, _⟩ := letter_facts (hs c hc)
    rw [h2, h3, hs c hc]; exact ⟨rfl, rfl⟩
  intro c hc
  have h1 : identChar c ∈ (heckCamel s).map identChar := List.mem_map.mpr ⟨c, hc, rfl⟩
  rw [h] at h1
  obtain ⟨d, hd, he⟩ := List.mem_map.mp h1
  rw [← he]; exact hs d (List.mem_filter.mp hd).1

theorem head_of_map {α β : Type} {f : α → β} {l l' : List α} (h : l.map f = l'.map f) :
    l.head?.map f = l'.head?.map f := by
  have := congrArg List.head? h; simpa using this

theorem last_of_map {α β : Type} {f : α → β} {l l' : List α} (h : l.map f = l'.map f) :
    l.getLast?.map f = l'.getLast?.map f := by
  have := congrArg List.getLast? h; simpa using this

theorem camel_no_underscore {s : List Char} (hs : ∀ c ∈ s, identChar c = true) : ∀ c ∈ heckCamel s, c ≠ '_' := by
  have h := camel_map (f := fun c => decide (c = '_')) (s := s) fun c hc => by
    obtain ⟨_, _, _, h4, h5, _⟩ := letter_facts (hs c hc)
    exact ⟨by simp [h4], by simp [h5]⟩
  intro c hc hcu
  have h1 : decide (c = '_') ∈ (heckCamel s).map fun c => decide (c = '_') := List.mem_map.mpr ⟨c, hc, rfl⟩
  rw [h] at h1
  obtain ⟨d, hd, he⟩ := List.mem_map.mp h1
  have h2 := (List.mem_filter.mp hd).2
  simp only [bne_iff_ne] at h2
  simp [hcu, h2] at he

/-- **C85** (camel case). The camel case of a name has the letters and digits of the name, in order, up to case, and no underscore; it is an
identifier exactly if the name begins with a letter. -/
theorem C85_camel {cas : Casing} (hc : cas.LikeHeck) {s : String} (hs : AsciiIdent s) :
    (cas.camel s ≠ none ↔ BeginsWithLetter s) ∧
    ∀ r, cas.camel s = some r → r.toList.map Char.toLower = folded s ∧ '_' ∉ r.toList ∧ AsciiIdent r ∧
      (endsInDigit r = true ↔ EndsWithDigit s) := by
  have hall := identText_all hs
  have hh := head_of_map (camel_map (f := Char.isAlpha) (s := s.toList) fun c hc => by
    obtain ⟨_, _, _, _, _, h6, h7, _⟩ := letter_facts (hall c hc); exact ⟨h6, h7⟩)
  have hd := last_of_map (camel_map (f := Char.isDigit) (s := s.toList) fun c hc => by
    obtain ⟨_, _, _, _, _, _, _, h8, h9, _⟩ := letter_facts (hall c hc); exact ⟨h8, h9⟩)
  have hl := camel_map (f := Char.toLower) (s := s.toList) fun c hc => by
    obtain ⟨h1, _, _, _, _, _, _, _, _, h10⟩ := letter_facts (hall c hc); exact ⟨h1, h10⟩
  have hu := camel_no_underscore hall
  have hi : identText (heckCamel s.toList) = true ↔ BeginsWithLetter s := by
    rw [identText_iff (camel_chars hall)]
    constructor
    · rintro ⟨c, h1, h2⟩
      rcases h2 with h2 | rfl
      · rw [h1] at hh
        cases hlet : s.toList.filter (· != '_') with
        | nil => rw [hlet] at hh; simp at hh
        | cons d r => rw [hlet] at hh; simp at hh; exact ⟨d, r, hlet, by rw [← hh, h2]⟩
      · exact absurd rfl (hu '_' (List.mem_of_mem_head? h1))
    · rintro ⟨d, r, h1, h2⟩
      unfold letters at h1
      rw [h1] at hh
      cases hcam : heckCamel s.toList with
      | nil => rw [hcam] at hh; simp at hh
      | cons c r' => rw [hcam] at hh; simp at hh; exact ⟨c, rfl, .inl (by rw [hh, h2])⟩
  rw [(hc s hs).1]
  unfold identNew
  constructor
  · rw [← hi]; split <;> simp_all
  · intro r hr
    split at hr
    · rename_i hit
      cases hr
      refine ⟨?_, ?_, ?_, ?_⟩
      · simpa [folded, letters] using hl
      · intro h; exact hu '_' (by simpa using h) rfl
      · simpa [AsciiIdent] using hit
      · unfold endsInDigit EndsWithDigit letters
        rw [String.toList_ofList, hd]
        cases (s.toList.filter (· != '_')).getLast? <;> simp
    · cases hr

/-- **C85** (snake case). The snake case of a name has the letters and digits of the name, in order and in lower case, with underscores between
them but not at the ends; it is an identifier exactly if the name begins with a letter. -/
theorem C85_snake {cas : Casing} (hc : cas.LikeHeck) {s : String} (hs : AsciiIdent s) :
    (cas.snake s ≠ none ↔ BeginsWithLetter s) ∧
    ∀ r, cas.snake s = some r → letters r = folded s ∧ r.toList.head? = (folded s).head? ∧
      r.toList.getLast? = (folded s).getLast? ∧ AsciiIdent r ∧ (endsInDigit r = true ↔ EndsWithDigit s) := by
  have hall := identText_all hs
  obtain ⟨hh, hd⟩ := snake_ends hall
  have hl := snake_filter hall
  have hi : identText (heckSnake s.toList) = true ↔ BeginsWithLetter s := by
    rw [identText_iff (snake_chars hall), hh]
    constructor
    · rintro ⟨c, h1, h2⟩
      cases hlet : s.toList.filter (· != '_') with
      | nil => rw [hlet] at h1; simp at h1
      | cons d r =>
        rw [hlet] at h1; simp at h1
        have hdm : d ∈ s.toList.filter (· != '_') := by rw [hlet]; simp
        obtain ⟨_, _, _, _, h5, _, h7, _⟩ := letter_facts (hall d (List.mem_filter.mp hdm).1)
        have hne : d ≠ '_' := by simpa using (List.mem_filter.mp hdm).2
        rcases h2 with h2 | rfl
        · exact ⟨d, r, hlet, by rw [← h7, h1, h2]⟩
        · exact absurd (h5.mp h1) hne
    · rintro ⟨d, r, h1, h2⟩
      unfold letters at h1
      have hdm : d ∈ s.toList.filter (· != '_') := by rw [h1]; simp
      obtain ⟨_, _, _, _, _, _, h7, _⟩ := letter_facts (hall d (List.mem_filter.mp hdm).1)
      rw [h1]
      exact ⟨d.toLower, rfl, .inl (by rw [h7, h2])⟩
  rw [(hc s hs).2]
  unfold identNew
  constructor
  · rw [← hi]; split <;> simp_all
  · intro r hr
    split at hr
    · rename_i hit
      cases hr
      refine ⟨?_, ?_, ?_, ?_, ?_⟩
      · simpa [folded, letters] using hl
      · simpa [folded, letters] using hh
      · simpa [folded, letters] using hd
      · simpa [AsciiIdent] using hit
      · unfold endsInDigit EndsWithDigit letters
        rw [String.toList_ofList, hd, List.getLast?_map]
        cases hlast : (s.toList.filter (· != '_')).getLast? with
        | none => simp
        | some d =>
          have hdm := List.mem_of_getLast? hlast
          obtain ⟨_, _, _, _, _, _, _, _, h9, _⟩ := letter_facts (hall d (List.mem_filter.mp hdm).1)
          simp [h9]
    · cases hr

/-! ## Programs -/

theorem letters_ast : letters astName.content.hashed = ['A', 's', 't'] := by decide +kernel

theorem ast_ascii : AsciiIdent astName.content.hashed := by unfold AsciiIdent; decide +kernel

theorem ast_begins : BeginsWithLetter astName.content.hashed := ⟨'A', ['s', 't'], letters_ast, by decide⟩

/-- **C85** (no panic). If the names in a program are ASCII identifiers that begin, underscores apart, with a letter, the compiler does not
panic. -/
theorem C85_no_panic {cas : Casing} (hc : cas.LikeHeck) (fuel : Nat) (s : Stmt)
    (hs : ∀ n ∈ s.names, AsciiIdent n.content.hashed ∧ BeginsWithLetter n.content.hashed) : compile cas fuel s ≠ .panic :=
  C43_no_panic cas fuel s
    (fun n hn => ⟨(C85_camel hc (hs n hn).1).1.mpr (hs n hn).2, (C85_snake hc (hs n hn).1).1.mpr (hs n hn).2⟩)
    ⟨(C85_camel hc ast_ascii).1.mpr ast_begins, (C85_snake hc ast_ascii).1.mpr ast_begins⟩

/-- **C85** (when it panics). The program `match "a" . "b" : n;` makes the compiler panic exactly if the label does not begin, underscores apart,
with a letter. -/
theorem C85_panics_iff {cas : Casing} (hc : cas.LikeHeck) (n : String) (hn : AsciiIdent n) (fuel : Nat) (hf : 8 ≤ fuel) :
    compile cas fuel (exNamed n) = .panic ↔ ¬ BeginsWithLetter n := by
  constructor
  · intro h hb
    refine C85_no_panic hc fuel (exNamed n) ?_ h
    intro m hm
    have : m = .newLabel (.spanned false n 0) := by
      have hnames : (exNamed n).names = [.newLabel (.spanned false n 0)] := rfl
      rw [hnames] at hm; simpa using hm
    subst this
    exact ⟨hn, hb⟩
  · intro hb
    refine C43_panics_counterexample cas n ?_ fuel hf
    have := (C85_camel hc hn).1
    exact Classical.byContradiction fun h => hb (this.mp h)

/-- The names a program should not use for its rules, parameters and labels, in any case and with any underscores: those the compiler uses
for what has no name. -/
def defaultNames : List (List Char) :=
  ["lit".toList, "cat".toList, "alt".toList, "fix".toList, "branch".toList, "part".toList]

/-- A name that leads to no clash. -/
def CleanName (s : String) : Prop := AsciiIdent s ∧ ¬ EndsWithDigit s ∧ folded s ∉ defaultNames

theorem ast_clean : CleanName astName.content.hashed := by
  refine ⟨ast_ascii, ?_, ?_⟩
  · rintro ⟨c, h1, h2⟩
    rw [letters_ast] at h1
    cases h1
    revert h2; decide
  · unfold folded
    rw [letters_ast]
    decide +kernel

theorem clean_camel {cas : Casing} (hc : cas.LikeHeck) {s : String} (hs : CleanName s) {c : String} (h : cas.camel s = some c) :
    endsInDigit c = false ∧ c ∉ ["Lit", "Cat", "Alt", "Fix", "Branch"] := by
  obtain ⟨h1, h2, h3⟩ := hs
  obtain ⟨h4, -, -, h5⟩ := (C85_camel hc h1).2 c h
  refine ⟨Bool.eq_false_iff.mpr fun h => h2 (h5.mp h), ?_⟩
  intro hm
  simp only [List.mem_cons, List.not_mem_nil, or_false] at hm
  apply h3
  rw [← h4]
  rcases hm with rfl | rfl | rfl | rfl | rfl <;> decide +kernel

theorem clean_snake {cas : Casing} (hc : cas.LikeHeck) {s : String} (hs : CleanName s) {c : String} (h : cas.snake s = some c) :
    endsInDigit c = false ∧ c ≠ "part" := by
  obtain ⟨h1, h2, h3⟩ := hs
  obtain ⟨h4, -, -, -, h5⟩ := (C85_snake hc h1).2 c h
  refine ⟨Bool.eq_false_iff.mpr fun h => h2 (h5.mp h), ?_⟩
  rintro rfl
  apply h3
  rw [← h4]
  decide +kernel

theorem compile_emits {cas : Casing} {fuel : Nat} {s : Stmt} {te : TE} {id : Nat} {st : BState} {out : List Nat}
    (h : compile cas fuel s = .ok te id st out) : ∃ e c e', convStmt s [] = some (.ok e, c) ∧ reduce fuel e = .ok e' ∧
      Emits cas e' te st id (st.program none id out) := by
  obtain ⟨e, c, e', h1, h2, h3, h4⟩ := compile_ok h
  refine ⟨e, c, e', h1, h2, h3.typed, ?_, fuel, out, h4, rfl⟩
  unfold compile at h
  rw [h1] at h
  simp only [h2] at h
  split at h <;> try cases h
  rename_i te' hte
  split at h <;> try cases h
  rename_i id' st' hg
  split at h <;> try cases h
  exact hg

/-- **C85** (the emitted program compiles). If no name in the source ends, underscores apart, with a digit, and none is, up to case and underscores,
one of the six names the compiler uses itself, the emitted program has no clash of names: it compiles. -/
theorem C85_compiles {cas : Casing} (hc : cas.LikeHeck) {fuel : Nat} {s : Stmt} {te : TE} {id : Nat} {st : BState} {out : List Nat}
    (h : compile cas fuel s = .ok te id st out) (hs : ∀ n ∈ s.names, CleanName n.content.hashed) :
    (st.program none id out).Compiles := by
  obtain ⟨e, c, e', -, -, hE⟩ := compile_emits h
  have hn : ∀ n ∈ te.names, CleanName n.content.hashed := fun n hn => by
    rcases C52_names_from_source h n hn with h | rfl
    · exact hs n h
    · exact ast_clean
  exact C63_compiles_partial hE (fun n hn' c hcc => clean_camel hc (hn n hn') hcc) fun n hn' c hcc => clean_snake hc (hn n hn') hcc

/-- **C85** (end to end). Then a successful run of the compiler gives a program that compiles and accepts exactly the strings that the source
describes. -/
theorem C85_end_to_end {cas : Casing} (hc : cas.LikeHeck) {fuel : Nat} {s : Stmt} {te : TE} {id : Nat} {st : BState} {out : List Nat}
    (h : compile cas fuel s = .ok te id st out) (hs : ∀ n ∈ s.names, CleanName n.content.hashed) (hns : NoSharingConflict te) :
    (st.program none id out).Compiles ∧ ∃ (e : NE) (c : Ctx) (e' : NE) (g : Gram), convStmt s [] = some (.ok e, c) ∧
      Core.Steps e.erase e'.erase ∧ e'.grammar = some g ∧
      ∀ text, (∃ v, (st.program none id out).Parses text (.ok v)) ↔ g.language text :=
  have hp := C85_compiles hc h hs
  ⟨hp, C64_end_to_end h hns hp⟩

/-! ## The names in the emitted program -/

theorem numbered_ident {b : String} (hb : AsciiIdent b) (k : Nat) : AsciiIdent (b ++ digits k) := by
  unfold AsciiIdent at hb ⊢
  rw [String.toList_append]
  cases hl : b.toList with
  | nil => rw [hl] at hb; cases hb
  | cons c r =>
    rw [hl] at hb
    simp only [identText, List.cons_append, Bool.and_eq_true, List.all_eq_true, List.mem_append] at hb ⊢
    refine ⟨hb.1, ?_⟩
    rintro d (hd | hd)
    · exact hb.2 d hd
    · have := digits_toList_isDigit hd
      simp [identChar, Char.isAlphanum, this]

theorem made_not_keyword {x : String} (h : MadeName x) : x ∉ keywords := by
  intro hm
  have hall : ∀ k ∈ keywords, endsInDigit k = false ∧ k ≠ "Ast" := by decide +kernel
  obtain ⟨h1, h2⟩ := hall x hm
  rcases h with h | h
  · rw [h] at h1; cases h1
  · exact h2 h

theorem partNames_ident {conv : String → Option String} {dflt : String} (hd : AsciiIdent dflt) {names : List (Option Name)}
    (hc : ∀ n, some n ∈ names → ∀ c, conv n.content.hashed = some c → AsciiIdent c) {parts : List String}
    (h : partNames conv dflt 0 [] names = .ok parts) : ∀ x ∈ parts, AsciiIdent x := by
  obtain ⟨hl, hp⟩ := C40_names h
  intro x hx
  obtain ⟨i, hi, rfl⟩ := List.mem_iff_getElem.mp hx
  have h1 := hp i (by omega)
  rw [List.getElem?_eq_getElem hi] at h1
  rw [Option.some.inj h1]
  apply numbered_ident
  unfold partLabel
  split
  · rename_i c hcc
    rw [List.getElem?_map, Option.map_eq_some_iff] at hcc
    obtain ⟨nm, h2, h3⟩ := hcc
    cases nm with
    | none => cases h3
    | some n => exact hc n (List.mem_of_getElem? h2) c h3
  · exact hd

/-- **C85** (identifiers). If the names in a program are ASCII identifiers, every name of a type, field or variant in the emitted program is an
identifier and not a keyword. -/
theorem C85_identifiers {cas : Casing} (hc : cas.LikeHeck) {fuel : Nat} {s : Stmt} {te : TE} {id : Nat} {st : BState} {out : List Nat}
    (h : compile cas fuel s = .ok te id st out) (hs : ∀ n ∈ s.names, AsciiIdent n.content.hashed) :
    ∀ it ∈ st.program none id out, (AsciiIdent it.name ∧ it.name ∉ keywords) ∧
      ∀ x ∈ it.parts, AsciiIdent x ∧ x ∉ keywords := by
  obtain ⟨e, c, e', -, -, hE⟩ := compile_emits h
  have hn : ∀ n ∈ te.names, AsciiIdent n.content.hashed := fun n hn => by
    rcases C52_names_from_source h n hn with h | rfl
    · exact hs n h
    · exact ast_ascii
  obtain ⟨bases, -, hbn, hnm⟩ := C39_names hE.code
  intro it hit
  have hmade := hE.madeNames it hit
  obtain ⟨out', hout, -, ho⟩ := hE.program
  rw [hout] at hit
  rcases (mem_program ho).1 hit with ⟨i, en, he, hi⟩ | rfl
  · have hname : AsciiIdent en.name := by
      rw [hnm i en he (item_defines hi)]
      apply numbered_ident
      unfold typeLabel partLabel
      split
      · rename_i c hcc
        obtain ⟨n, h1, h2⟩ := hbn c (List.mem_of_getElem? hcc)
        exact ((C85_camel hc (hn n h1)).2 c h2).2.2.1
      · unfold NodeF.defaultBase AsciiIdent
        split
        · show identText "Lit".toList = true; decide +kernel
        · show identText "Cat".toList = true; decide +kernel
        · show identText "Alt".toList = true; decide +kernel
        · show identText "Fix".toList = true; decide +kernel
    have hf := hE.fields he
    have hnk : en.name ∉ keywords := made_not_keyword (.inl (gen_digits hE.code en (List.mem_of_getElem? he) (item_defines hi)))
    unfold BState.item at hi
    split at hi <;> try (cases hi; done)
    · cases hi; exact ⟨⟨hname, hnk⟩, fun x hx => by cases hx⟩
    · rename_i ids hnd
      have hF := hE.fields_made he (.inl ⟨ids, hnd⟩)
      simp only [Entry.FieldsOk, hnd] at hf
      obtain ⟨names, parts, hN, hnl, hpn, hfe⟩ := hf
      have hP := partNames_ident (by unfold AsciiIdent; decide +kernel) (fun n hm c hcc => ((C85_snake hc (hn n (hN n hm))).2 c hcc).2.2.2.1) hpn
      dsimp only at hi
      split at hi <;> cases hi
      · exact ⟨⟨hname, hnk⟩, fun x hx => by cases hx⟩
      · refine ⟨⟨hname, hnk⟩, fun x hx => ?_⟩
        obtain ⟨y, hy, rfl⟩ := List.mem_map.mp hx
        have hy' := (List.of_mem_zip hy).1
        refine ⟨?_, made_not_keyword (hF _ hy')⟩
        rw [hfe] at hy'
        split at hy'
        · exact hP _ hy'
        · cases hy'
    · rename_i tys ids hnd
      have hF := hE.fields_made he (.inr ⟨tys, ids, hnd⟩)
      simp only [Entry.FieldsOk, hnd] at hf
      obtain ⟨names, hN, hnl, -, -, hpn⟩ := hf
      have hP := partNames_ident (by unfold AsciiIdent; decide +kernel) (fun n hm c hcc => ((C85_camel hc (hn n (hN n hm))).2 c hcc).2.2.1) hpn
      cases hi
      refine ⟨⟨hname, hnk⟩, fun x hx => ?_⟩
      obtain ⟨y, hy, rfl⟩ := List.mem_map.mp hx
      have hy' := (List.of_mem_zip hy).1
      exact ⟨hP _ hy', made_not_keyword (hF _ hy')⟩
    · cases hi; exact ⟨⟨hname, hnk⟩, fun x hx => by cases hx⟩
  · exact ⟨⟨by show identText "Ast".toList = true; decide +kernel, made_not_keyword (.inr rfl)⟩, fun x hx => by cases hx⟩

/-! ## Examples -/

/-- What the conversions do, in the examples of the documentation of `heck` and with digits and underscores. -/
example : heckCamel "XMLHttpRequest".toList = "XmlHttpRequest".toList ∧ heckSnake "XMLHttpRequest".toList = "xml_http_request".toList ∧
    heckCamel "__foo_barBaz__".toList = "FooBarBaz".toList ∧ heckSnake "__foo_barBaz__".toList = "foo_bar_baz".toList ∧
    heckSnake "a1B2c".toList = "a1_b2c".toList ∧ heckCamel "_1".toList = "1".toList ∧ heckCamel "__".toList = [] := by
  decide +kernel

/-- Non-vacuity: `match "a" . "b" : my_Pair;` compiles to a program with the type `MyPair1`, and the hypotheses of the theorems hold. -/
example : ∃ te id st out, compile heckAscii 12 (exNamed "my_Pair") = .ok te id st out ∧
    (∀ n ∈ (exNamed "my_Pair").names, CleanName n.content.hashed ∧ BeginsWithLetter n.content.hashed) ∧
    (st.program none id out).map RItem.name = ["MyPair1", "Lit1", "Lit2", "Ast"] := by
  refine ⟨_, _, _, _, rfl, ?_, by decide +kernel⟩
  intro n hn
  have hnames : (exNamed "my_Pair").names = [.newLabel (.spanned false "my_Pair" 0)] := rfl
  rw [hnames] at hn
  have : n = .newLabel (.spanned false "my_Pair" 0) := by simpa using hn
  subst this
  have hl : letters "my_Pair" = "myPair".toList := by decide +kernel
  refine ⟨⟨by unfold AsciiIdent; decide +kernel, ?_, ?_⟩, 'm', _, hl, by decide⟩
  · rintro ⟨c, h1, h2⟩
    have : (letters "my_Pair").getLast? = some 'r' := by decide +kernel
    change (letters "my_Pair").getLast? = some c at h1
    rw [this] at h1; cases h1; revert h2; decide
  · show folded "my_Pair" ∉ defaultNames
    decide +kernel

end Chomp
