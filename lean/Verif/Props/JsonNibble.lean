import Verif.Bench.JsonUnique

/-! # C56, C57: the generated JSON parser, and whether the two JSON parsers agree

Documents, their texts and their values are defined in `Verif/Bench/JsonSpec.lean` without reference to a parser.
`Generates jsonToks st` says that `st` is the parser generated for the grammar in `chomp-bench/src/json/nibble.rs`; `F` stands for `f64`. -/

namespace Chomp

/-- `Ast::parse_str(text).map(Value::from)` with the generated parser `st`, and what comes out. -/
inductive GenJson (F : F64) (st : BState) (text : List Char) : ParseRes (JValue F) → Prop
  | value {t v} : Parses st 0 text (.ok t) → njAst F t = some v → GenJson F st text (.ok v)
  | panic {t} : Parses st 0 text (.ok t) → njAst F t = none → GenJson F st text .panic
  | reject {e} : Parses st 0 text (.err e) → GenJson F st text (.err e)

/-- Not vacuous: the grammar is compiled by the model, to one parser. -/
theorem C56_generated : ∃ st, Generates jsonToks st ∧ ∀ st', Generates jsonToks st' → st' = st := by
  cases hc : compileToks 60 jsonToks with
  | none => have := json_compiled; rw [hc] at this; cases this
  | some p => exact ⟨p.2, ⟨60, p.1, hc⟩, fun st' h => h.unique hc⟩

theorem gen_tree {st : BState} (hst : Generates jsonToks st) (text : List Char) (t : Tree) :
    Parses st 0 text (.ok t) ↔ JV 0 t ∧ t.display = text := ((generates_table json_compiled).2 st hst).2.1 text t

/-- **C56** (language). The parser accepts exactly the texts of documents of RFC 8259 whose strings contain only the characters
from space to `~` and escapes. -/
theorem C56_language {st : BState} (hst : Generates jsonToks st) (text : List Char) :
    (∃ t, Parses st 0 text (.ok t)) ↔ ∃ p : JPad, p.text = text ∧ p.Ok asciiRules := by
  constructor
  · rintro ⟨t, h⟩
    obtain ⟨h1, h2⟩ := (gen_tree hst text t).1 h
    obtain ⟨p, h3, h4, -⟩ := ast_pad t h1
    exact ⟨p, by rw [h4, ← h2, Tree.display_eq], h3⟩
  · rintro ⟨p, rfl, h⟩
    obtain ⟨t, h1, h2, -⟩ := pad_ast p h
    exact ⟨t, (gen_tree hst _ t).2 ⟨h1, by rw [Tree.display_eq, h2]⟩⟩

/-- **C56** (values). What the tree of an accepted text is converted to is the value of any document with that text. -/
theorem C56_value {st : BState} (hst : Generates jsonToks st) (p : JPad) (hp : p.Ok asciiRules) (t : Tree)
    (h : Parses st 0 p.text (.ok t)) (F : F64) : njAst F t = p.value F (decodeJson true) := by
  obtain ⟨u, h1, h2, h3⟩ := pad_ast p hp
  have := (gen_tree hst p.text u).2 ⟨h1, by rw [Tree.display_eq, h2]⟩
  cases h.unique this
  exact h3 F

/-- **C56** (termination). On every text there is exactly one outcome. -/
theorem C56_ends (F : F64) {st : BState} (hst : Generates jsonToks st) (text : List Char) :
    ∃ r, GenJson F st text r ∧ ∀ r', GenJson F st text r' → r' = r := by
  rcases ((generates_table json_compiled).2 st hst).2.2 text with ⟨t, h⟩ | ⟨e, h⟩
  · cases hv : njAst F t with
    | none =>
      refine ⟨_, .panic h hv, fun r' h' => ?_⟩
      cases h' with
      | value h1 h2 => cases h.unique h1; rw [hv] at h2; cases h2
      | panic => rfl
      | reject h1 => cases h.unique h1
    | some v =>
      refine ⟨_, .value h hv, fun r' h' => ?_⟩
      cases h' with
      | value h1 h2 => cases h.unique h1; rw [hv] at h2; cases h2; rfl
      | panic h1 h2 => cases h.unique h1; rw [hv] at h2; cases h2
      | reject h1 => cases h.unique h1
  · refine ⟨_, .reject h, fun r' h' => ?_⟩
    cases h' with
    | value h1 _ => cases h.unique h1
    | panic h1 _ => cases h.unique h1
    | reject h1 => cases h.unique h1; rfl

/-- **C56.** The value `v` comes out for exactly the texts of documents with value `v`, where the surrogates of a pair may come in
either order. -/
theorem C56_result (F : F64) {st : BState} (hst : Generates jsonToks st) (text : List Char) (v : JValue F) :
    GenJson F st text (.ok v) ↔ ∃ p : JPad, p.text = text ∧ p.Ok asciiRules ∧ p.value F (decodeJson true) = some v := by
  constructor
  · intro h
    cases h with
    | value h1 h2 =>
      obtain ⟨p, rfl, hp⟩ := (C56_language hst text).1 ⟨_, h1⟩
      exact ⟨p, rfl, hp, by rw [← C56_value hst p hp _ h1 F, h2]⟩
  · rintro ⟨p, rfl, hp, hv⟩
    obtain ⟨t, ht⟩ := (C56_language hst p.text).2 ⟨p, rfl, hp⟩
    exact .value ht (by rw [C56_value hst p hp t ht F, hv])

/-- **C56** (panics). A panic occurs for exactly the texts of documents without a value: with a surrogate outside a pair, or with a number
that is not an `f64`. -/
theorem C56_panics (F : F64) {st : BState} (hst : Generates jsonToks st) (text : List Char) :
    GenJson F st text .panic ↔ ∃ p : JPad, p.text = text ∧ p.Ok asciiRules ∧ p.value F (decodeJson true) = none := by
  constructor
  · intro h
    cases h with
    | panic h1 h2 =>
      obtain ⟨p, rfl, hp⟩ := (C56_language hst text).1 ⟨_, h1⟩
      exact ⟨p, rfl, hp, by rw [← C56_value hst p hp _ h1 F, h2]⟩
  · rintro ⟨p, rfl, hp, hv⟩
    obtain ⟨t, ht⟩ := (C56_language hst p.text).2 ⟨p, rfl, hp⟩
    exact .panic ht (by rw [C56_value hst p hp t ht F, hv])

/-- **C56** (errors). Every other text is rejected with an error. -/
theorem C56_rejects (F : F64) {st : BState} (hst : Generates jsonToks st) (text : List Char) :
    (∃ e, GenJson F st text (.err e)) ↔ ¬ ∃ p : JPad, p.text = text ∧ p.Ok asciiRules := by
  rw [← C56_language hst text]
  constructor
  · rintro ⟨e, h⟩ ⟨t, ht⟩
    cases h with
    | reject h => cases h.unique ht
  · intro h
    rcases ((generates_table json_compiled).2 st hst).2.2 text with h' | ⟨e, h'⟩
    · exact absurd h' h
    · exact ⟨e, .reject h'⟩

/-! ## RFC 8259 -/

/-- Where RFC 8259 gives a string, so does the decoding that also allows reversed pairs. -/
theorem decodeJson_rev : ∀ (s : List JChar) (l : List Char), decodeJson false s = some l → decodeJson true s = some l
  | [], _, h => h
  | .lit c :: r, l, h => by
    rw [decodeJson, Option.map_eq_some_iff] at h
    obtain ⟨x, hx, rfl⟩ := h
    rw [decodeJson, decodeJson_rev r x hx]; rfl
  | .esc c :: r, l, h => by
    rw [decodeJson, Option.map_eq_some_iff] at h
    obtain ⟨x, hx, rfl⟩ := h
    rw [decodeJson, decodeJson_rev r x hx]; rfl
  | [.uni a b c d], l, h => h
  | .uni a b c d :: x :: r, l, h => by
    by_cases hs : IsHigh (unitOf a b c d) ∨ IsLow (unitOf a b c d)
    · cases x with
      | lit => simp only [decodeJson, if_pos hs] at h; cases h
      | esc => simp only [decodeJson, if_pos hs] at h; cases h
      | uni a' b' c' d' =>
        simp only [decodeJson, if_pos hs] at h ⊢
        by_cases h1 : IsHigh (unitOf a b c d) ∧ IsLow (unitOf a' b' c' d')
        · rw [if_pos h1, Option.map_eq_some_iff] at h
          obtain ⟨y, hy, rfl⟩ := h
          rw [if_pos h1, decodeJson_rev r y hy]; rfl
        · rw [if_neg h1, if_neg (by simp)] at h
          cases h
    · have e : ∀ rev, decodeJson rev (.uni a b c d :: x :: r) = (decodeJson rev (x :: r)).map (Char.ofNat (unitOf a b c d) :: ·) := by
        intro rev
        cases x <;> simp only [decodeJson, if_neg hs]
      rw [e, Option.map_eq_some_iff] at h
      obtain ⟨y, hy, rfl⟩ := h
      rw [e, decodeJson_rev (x :: r) y hy]; rfl

mutual
theorem JDoc.value_rev (F : F64) : ∀ (d : JDoc) (v : JValue F), d.value F (decodeJson false) = some v → d.value F (decodeJson true) = some v
  | .null, _, h => h
  | .true, _, h => h
  | .false, _, h => h
  | .num _, _, h => h
  | .str s, v, h => by
    rw [JDoc.value, Option.map_eq_some_iff] at h
    obtain ⟨x, hx, rfl⟩ := h
    rw [JDoc.value, decodeJson_rev s x hx]; rfl
  | .arr0 _, _, h => h
  | .arr l, v, h => by
    rw [JDoc.value, Option.map_eq_some_iff] at h
    obtain ⟨x, hx, rfl⟩ := h
    rw [JDoc.value, JItems.value_rev F l x hx]; rfl
  | .obj0 _, _, h => h
  | .obj l, v, h => by
    rw [JDoc.value, Option.map_eq_some_iff] at h
    obtain ⟨x, hx, rfl⟩ := h
    rw [JDoc.value, JMembers.value_rev F l x hx]; rfl
theorem JPad.value_rev (F : F64) : ∀ (d : JPad) (v : JValue F), d.value F (decodeJson false) = some v → d.value F (decodeJson true) = some v
  | .mk _ d _, v, h => JDoc.value_rev F d v h
theorem JItems.value_rev (F : F64) : ∀ (d : JItems) (v : List (JValue F)), d.value F (decodeJson false) = some v →
    d.value F (decodeJson true) = some v
  | .one d, v, h => by
    rw [JItems.value, Option.map_eq_some_iff] at h
    obtain ⟨x, hx, rfl⟩ := h
    rw [JItems.value, JPad.value_rev F d x hx]; rfl
  | .cons d l, v, h => by
    rw [JItems.value, Option.bind_eq_some_iff] at h
    obtain ⟨x, hx, h⟩ := h
    rw [Option.map_eq_some_iff] at h
    obtain ⟨y, hy, rfl⟩ := h
    rw [JItems.value, JPad.value_rev F d x hx, JItems.value_rev F l y hy]; rfl
theorem JMembers.value_rev (F : F64) : ∀ (d : JMembers) (v : List (List Char × JValue F)), d.value F (decodeJson false) = some v →
    d.value F (decodeJson true) = some v
  | .one _ k _ d, v, h => by
    rw [JMembers.value, Option.bind_eq_some_iff] at h
    obtain ⟨s, hs, h⟩ := h
    rw [Option.map_eq_some_iff] at h
    obtain ⟨x, hx, rfl⟩ := h
    rw [JMembers.value, decodeJson_rev k s hs, JPad.value_rev F d x hx]; rfl
  | .cons _ k _ d l, v, h => by
    rw [JMembers.value, Option.bind_eq_some_iff] at h
    obtain ⟨s, hs, h⟩ := h
    rw [Option.bind_eq_some_iff] at h
    obtain ⟨x, hx, h⟩ := h
    rw [Option.map_eq_some_iff] at h
    obtain ⟨y, hy, rfl⟩ := h
    rw [JMembers.value, decodeJson_rev k s hs, Option.bind_some, JPad.value_rev F d x hx, Option.bind_some, JMembers.value_rev F l y hy]; rfl
end

/-- **C56** (RFC 8259). Every document of RFC 8259 whose strings contain only characters up to `~`, and that has a value, is accepted,
with its value. -/
theorem C56_rfc (F : F64) {st : BState} (hst : Generates jsonToks st) (p : JPad) (h : p.Ok asciiRules) (v : JValue F)
    (hv : p.value F (decodeJson false) = some v) : GenJson F st p.text (.ok v) :=
  (C56_result F hst p.text v).2 ⟨p, rfl, h, JPad.value_rev F p v hv⟩

theorem ascii_any {p : JPad} (h : p.Ok asciiRules) : p.Ok anyRules :=
  JPad.Ok.mono (R := asciiRules) (S := anyRules) (fun _ h => IsJsonNumber.hand h) (fun c h => by cases c <;> first | exact h.1 | exact h) (fun _ _ => trivial) h
theorem hand_any {p : JPad} (h : p.Ok handRules) : p.Ok anyRules :=
  JPad.Ok.mono (R := handRules) (S := anyRules) (fun _ h => h) (fun _ h => h) (fun _ _ => trivial) h

theorem ends_nil : Ends [] := fun c hc => by cases hc

/-- A text is the text of at most one document, whichever of the two grammars it comes from. -/
theorem C57_unambiguous (p q : JPad) (hp : p.Ok handRules ∨ p.Ok asciiRules) (hq : q.Ok handRules ∨ q.Ok asciiRules)
    (h : p.text = q.text) : p = q :=
  (pad_unique p q (hp.elim hand_any ascii_any) (hq.elim hand_any ascii_any) ends_nil ends_nil (by rw [List.append_nil, List.append_nil, h])).1

/-! ## C57: agreement -/

mutual
theorem JDoc.Ok.and {R S T : JRules} (h1 : ∀ l, R.num l → S.num l → T.num l) (h2 : ∀ c, R.chr c → S.chr c → T.chr c)
    (h3 : ∀ w, R.empty w → S.empty w → T.empty w) : ∀ {d : JDoc}, d.Ok R → d.Ok S → d.Ok T
  | .null, _, _ => trivial
  | .true, _, _ => trivial
  | .false, _, _ => trivial
  | .num _, h, h' => h1 _ h h'
  | .str _, h, h' => fun c hc => h2 c (h c hc) (h' c hc)
  | .arr0 _, h, h' => ⟨h.1, h3 _ h.2 h'.2⟩
  | .arr l, h, h' => JItems.Ok.and (d := l) h1 h2 h3 h h'
  | .obj0 _, h, h' => ⟨h.1, h3 _ h.2 h'.2⟩
  | .obj l, h, h' => JMembers.Ok.and (d := l) h1 h2 h3 h h'
theorem JPad.Ok.and {R S T : JRules} (h1 : ∀ l, R.num l → S.num l → T.num l) (h2 : ∀ c, R.chr c → S.chr c → T.chr c)
    (h3 : ∀ w, R.empty w → S.empty w → T.empty w) : ∀ {d : JPad}, d.Ok R → d.Ok S → d.Ok T
  | .mk _ v _, h, h' => ⟨h.1, JDoc.Ok.and (d := v) h1 h2 h3 h.2.1 h'.2.1, h.2.2⟩
theorem JItems.Ok.and {R S T : JRules} (h1 : ∀ l, R.num l → S.num l → T.num l) (h2 : ∀ c, R.chr c → S.chr c → T.chr c)
    (h3 : ∀ w, R.empty w → S.empty w → T.empty w) : ∀ {d : JItems}, d.Ok R → d.Ok S → d.Ok T
  | .one v, h, h' => JPad.Ok.and (d := v) h1 h2 h3 h h'
  | .cons v l, h, h' => ⟨JPad.Ok.and (d := v) h1 h2 h3 h.1 h'.1, JItems.Ok.and (d := l) h1 h2 h3 h.2 h'.2⟩
theorem JMembers.Ok.and {R S T : JRules} (h1 : ∀ l, R.num l → S.num l → T.num l) (h2 : ∀ c, R.chr c → S.chr c → T.chr c)
    (h3 : ∀ w, R.empty w → S.empty w → T.empty w) : ∀ {d : JMembers}, d.Ok R → d.Ok S → d.Ok T
  | .one _ _ _ v, h, h' => ⟨h.1, fun c hc => h2 c (h.2.1 c hc) (h'.2.1 c hc), h.2.2.1, JPad.Ok.and (d := v) h1 h2 h3 h.2.2.2 h'.2.2.2⟩
  | .cons _ _ _ v l, h, h' => ⟨h.1, fun c hc => h2 c (h.2.1 c hc) (h'.2.1 c hc), h.2.2.1, JPad.Ok.and (d := v) h1 h2 h3 h.2.2.2.1 h'.2.2.2.1,
    JMembers.Ok.and (d := l) h1 h2 h3 h.2.2.2.2 h'.2.2.2.2⟩
end

/-- The documents of both grammars: those of RFC 8259 with ASCII strings and without white space in empty arrays and objects. -/
def bothRules : JRules := ⟨IsJsonNumber, JChar.Ascii, fun ws => ws = []⟩

theorem both_ascii {p : JPad} (h : p.Ok bothRules) : p.Ok asciiRules :=
  JPad.Ok.mono (R := bothRules) (S := asciiRules) (fun _ h => h) (fun _ h => h) (fun _ _ => trivial) h
theorem both_hand {p : JPad} (h : p.Ok bothRules) : p.Ok handRules :=
  JPad.Ok.mono (R := bothRules) (S := handRules) (fun _ h => IsJsonNumber.hand h) (fun c h => by cases c <;> first | exact h.1 | exact h) (fun _ h => h) h

/-- **C57** (texts). The texts for which both parsers give a value are those of documents of RFC 8259 with ASCII strings, without white
space in empty arrays and objects, that have a value; each parser gives the value according to its own decoding of strings. -/
theorem C57_both (F : F64) (m : Ovf) {st : BState} (hst : Generates jsonToks st) (text : List Char) (v v' : JValue F) :
    HandJson F m text (.ok v) ∧ GenJson F st text (.ok v') ↔
      ∃ p : JPad, p.text = text ∧ p.Ok bothRules ∧ p.value F handDecode = some v ∧ p.value F (decodeJson true) = some v' := by
  rw [C54_language, C56_result F hst]
  constructor
  · rintro ⟨⟨p, rfl, hp, hv⟩, q, h, hq, hv'⟩
    cases C57_unambiguous p q (.inl hp) (.inr hq) h.symm
    exact ⟨p, rfl, JPad.Ok.and (R := handRules) (S := asciiRules) (T := bothRules) (fun _ _ h => h) (fun _ _ h => h) (fun _ h _ => h) hp hq, hv, hv'⟩
  · rintro ⟨p, rfl, hp, hv, hv'⟩
    exact ⟨⟨p, rfl, both_hand hp, hv⟩, p, rfl, both_ascii hp, hv'⟩

/-- The documents of both grammars without `\u` escapes. -/
def commonRules : JRules := ⟨IsJsonNumber, fun c => c.Ascii ∧ c.NoUni, fun ws => ws = []⟩

theorem common_both {p : JPad} (h : p.Ok commonRules) : p.Ok bothRules :=
  JPad.Ok.mono (R := commonRules) (S := bothRules) (fun _ h => h) (fun _ h => h.1) (fun _ h => h) h
theorem common_plain {p : JPad} (h : p.Ok commonRules) : p.Ok plainRules :=
  JPad.Ok.mono (R := commonRules) (S := plainRules) (fun _ h => h)
    (fun c h => ⟨by have := h.1; revert this; cases c <;> first | exact fun h => h.1 | exact fun h => h, h.2⟩) (fun _ h => h) h

/-- **C57** (partial). On the documents of both grammars without `\u` escapes both parsers give the same value. -/
theorem C57_agree_partial (F : F64) (m : Ovf) {st : BState} (hst : Generates jsonToks st) (p : JPad) (h : p.Ok commonRules) (v : JValue F) :
    HandJson F m p.text (.ok v) ↔ GenJson F st p.text (.ok v) := by
  have he := JPad.value_plain F true (common_plain h)
  rw [C54_language, C56_result F hst]
  constructor
  · rintro ⟨q, hq, hok, hv⟩
    cases C57_unambiguous q p (.inl hok) (.inl (both_hand (common_both h))) hq
    exact ⟨p, rfl, both_ascii (common_both h), by rw [← he, hv]⟩
  · rintro ⟨q, hq, hok, hv⟩
    cases C57_unambiguous q p (.inr hok) (.inl (both_hand (common_both h))) hq
    exact ⟨p, rfl, both_hand (common_both h), by rw [he, hv]⟩

section
set_option linter.unusedSectionVars false
variable {T : List Char} {R S : JRules} (hn : ∀ l, R.num l → S.num l) (hc : ∀ c : JChar, R.chr c → c.text <:+: T → S.chr c)
  (he : ∀ w, R.empty w → S.empty w)
include hn hc he

theorem chars_restrict {s : List JChar} (hs : JChar.textL s <:+: T) (h : ∀ c ∈ s, R.chr c) : ∀ c ∈ s, S.chr c := by
  intro c hm
  refine hc c (h c hm) (List.IsInfix.trans ?_ hs)
  obtain ⟨a, b, rfl⟩ := List.append_of_mem hm
  exact ⟨JChar.textL a, JChar.textL b, by simp [JChar.textL]⟩

mutual
/-- The rules for characters need only hold for those characters that occur in the text. -/
theorem JDoc.Ok.restrict : ∀ (d : JDoc), d.text <:+: T → d.Ok R → d.Ok S
  | .null, _, _ => trivial
  | .true, _, _ => trivial
  | .false, _, _ => trivial
  | .num l, _, h => hn l h
  | .str s, ht, h => chars_restrict hn hc he (List.IsInfix.trans ⟨['"'], ['"'], rfl⟩ ht) h
  | .arr0 _, _, h => ⟨h.1, he _ h.2⟩
  | .arr l, ht, h => JItems.Ok.restrict l (List.IsInfix.trans ⟨['['], [']'], rfl⟩ ht) h
  | .obj0 _, _, h => ⟨h.1, he _ h.2⟩
  | .obj l, ht, h => JMembers.Ok.restrict l (List.IsInfix.trans ⟨['{'], ['}'], rfl⟩ ht) h
theorem JPad.Ok.restrict : ∀ (d : JPad), d.text <:+: T → d.Ok R → d.Ok S
  | .mk a v b, ht, h => ⟨h.1, JDoc.Ok.restrict v (List.IsInfix.trans ⟨a, b, rfl⟩ ht) h.2.1, h.2.2⟩
theorem JItems.Ok.restrict : ∀ (d : JItems), d.text <:+: T → d.Ok R → d.Ok S
  | .one v, ht, h => JPad.Ok.restrict v ht h
  | .cons v l, ht, h => ⟨JPad.Ok.restrict v (List.IsInfix.trans ⟨[], ',' :: l.text, rfl⟩ ht) h.1,
      JItems.Ok.restrict l (List.IsInfix.trans ⟨v.text ++ [','], [], by simp [JItems.text]⟩ ht) h.2⟩
theorem JMembers.Ok.restrict : ∀ (d : JMembers), d.text <:+: T → d.Ok R → d.Ok S
  | .one a k b v, ht, h => ⟨h.1,
      chars_restrict hn hc he (List.IsInfix.trans ⟨a ++ ['"'], '"' :: b ++ ':' :: v.text, by simp [JMembers.text]⟩ ht) h.2.1, h.2.2.1,
      JPad.Ok.restrict v (List.IsInfix.trans ⟨a ++ '"' :: JChar.textL k ++ '"' :: b ++ [':'], [], by simp [JMembers.text]⟩ ht) h.2.2.2⟩
  | .cons a k b v l, ht, h => ⟨h.1,
      chars_restrict hn hc he (List.IsInfix.trans ⟨a ++ ['"'], '"' :: b ++ ':' :: v.text ++ ',' :: l.text, by simp [JMembers.text]⟩ ht) h.2.1, h.2.2.1,
      JPad.Ok.restrict v (List.IsInfix.trans ⟨a ++ '"' :: JChar.textL k ++ '"' :: b ++ [':'], ',' :: l.text, by simp [JMembers.text]⟩ ht) h.2.2.2.1,
      JMembers.Ok.restrict l (List.IsInfix.trans ⟨a ++ '"' :: JChar.textL k ++ '"' :: b ++ ':' :: v.text ++ [','], [], by simp [JMembers.text]⟩ ht) h.2.2.2.2⟩
end
end

/-- **C57** (partial). If a text does not contain `\u` and both parsers give a value, then they give the same value. -/
theorem C57_same_value_partial (F : F64) (m : Ovf) {st : BState} (hst : Generates jsonToks st) (text : List Char)
    (hu : ¬ ['\\', 'u'] <:+: text) (v v' : JValue F) (h : HandJson F m text (.ok v)) (h' : GenJson F st text (.ok v')) : v = v' := by
  obtain ⟨p, rfl, hp, hv, hv'⟩ := (C57_both F m hst text v v').1 ⟨h, h'⟩
  have hc : p.Ok commonRules := JPad.Ok.restrict (T := p.text) (R := bothRules) (S := commonRules) (fun _ h => h) (by
    intro c h1 h2
    refine ⟨h1, ?_⟩
    cases c with
    | uni a b c d => exact absurd (List.IsInfix.trans ⟨[], [a, b, c, d], rfl⟩ h2) hu
    | lit => trivial
    | esc => trivial) (fun _ h => h) p (List.infix_refl _) hp
  rw [JPad.value_plain F true (common_plain hc), hv'] at hv
  cases hv
  rfl

theorem not_number_00 : ∀ l, IsJsonNumber l → l ≠ ['0', '0'] := by
  rintro _ ⟨sign, int, frac, exp, h1, h2, h3, h4⟩ h
  have hs : sign = [] := by
    rcases h1 with rfl | rfl
    · rfl
    · simp at h
  subst hs
  rcases h2 with rfl | ⟨⟨h2, -⟩, h5⟩
  · simp only [List.nil_append, List.cons_append, List.cons.injEq, true_and] at h
    rcases h3 with rfl | ⟨d, rfl, -⟩
    · rcases h4 with rfl | ⟨e, s, d, rfl, h6, -⟩
      · simp at h
      · simp only [List.nil_append, List.cons_append, List.cons.injEq] at h
        rcases h6 with rfl | rfl
        · exact absurd h.1 (by decide)
        · exact absurd h.1 (by decide)
    · simp only [List.cons_append, List.cons.injEq] at h
      exact absurd h.1 (by decide)
  · cases int with
    | nil => exact h2 rfl
    | cons c r =>
      simp only [List.nil_append, List.cons_append, List.cons.injEq] at h
      exact h5 (by rw [h.1]; rfl)

/-- **C57** (fails in general). Non-ASCII characters are accepted only by the hand-written parser; white space in empty arrays only by the
generated one; numbers that are not RFC 8259, such as `00`, only by the hand-written one if `f64` accepts them; and `\u`
escapes are accepted by both, with different values. -/
theorem C57_counterexample (F : F64) (m : Ovf) {st : BState} (hst : Generates jsonToks st) :
    (HandJson F m "\"é\"".toList (.ok (.string ['é'])) ∧ ∃ e, GenJson F st "\"é\"".toList (.err e)) ∧
    ((∃ e, HandJson F m "[ ]".toList (.err e)) ∧ GenJson F st "[ ]".toList (.ok (.array []))) ∧
    (∀ x, F.parse "00".toList = some x → HandJson F m "00".toList (.ok (.number x)) ∧ ∃ e, GenJson F st "00".toList (.err e)) ∧
    (HandJson F m "\"\\u0041\"".toList (.ok (.string ['\x00'])) ∧ GenJson F st "\"\\u0041\"".toList (.ok (.string ['A']))) := by
  have w : IsWs [] := fun c hc => (List.not_mem_nil hc).elim
  have eq : ∀ (d : JDoc), d.Ok handRules → ∀ q : JPad, q.text = d.text → q.Ok asciiRules → d.Ok asciiRules := by
    intro d hd q hq hok
    have : q = .mk [] d [] := C57_unambiguous _ _ (.inr hok) (.inl ⟨w, hd, w⟩) (by rw [hq]; simp [JPad.text])
    subst this
    exact hok.2.1
  refine ⟨⟨?_, ?_⟩, ⟨(C51_counterexample F m).2.2.1, ?_⟩, fun x hx => ⟨?_, ?_⟩, (C49_counterexample F m).2.2, ?_⟩
  · refine handJson_of_doc m (p := .mk [] (.str [.lit 'é']) []) ⟨w, ?_, w⟩ rfl
    intro c hc
    simp at hc
    subst hc
    show JChar.Ok (.lit 'é')
    simp [JChar.Ok]
  · refine (C56_rejects F hst _).2 ?_
    rintro ⟨q, hq, hok⟩
    have := eq (.str [.lit 'é']) (by intro c hc; simp at hc; subst hc; show JChar.Ok (.lit 'é'); simp [JChar.Ok]) q hq hok
    have := (this (.lit 'é') (by simp)).2
    revert this
    decide
  · exact (C56_result F hst _ _).2 ⟨.mk [] (.arr0 [' ']) [], by decide, ⟨w, ⟨by intro c hc; simp at hc; exact .inl hc, trivial⟩, w⟩, rfl⟩
  · refine handJson_of_doc m (p := .mk [] (.num ['0', '0']) []) ⟨w, ⟨'0', ['0'], rfl, .inl (by decide), by decide⟩, w⟩ ?_
    show (F.parse ['0', '0']).map _ = _
    rw [show F.parse ['0', '0'] = some x from hx]
    rfl
  · refine (C56_rejects F hst _).2 ?_
    rintro ⟨q, hq, hok⟩
    have h : IsJsonNumber ['0', '0'] := eq (.num ['0', '0']) ⟨'0', ['0'], rfl, .inl (by decide), by decide⟩ q hq hok
    exact not_number_00 _ h rfl
  · refine (C56_result F hst _ _).2 ⟨.mk [] (.str [.uni '0' '0' '4' '1']) [], by decide, ⟨w, ?_, w⟩, rfl⟩
    intro c hc
    simp at hc
    subst hc
    show ∀ x ∈ ['0', '0', '4', '1'], (hexVal x).isSome = true
    decide

/-! ## Examples -/

/-- A document of the generated parser only: white space in an empty object, a pair of surrogates. -/
def exGen : JPad := .mk ['\n'] (.arr (.cons (.mk [] (.obj0 [' ']) [' ']) (.one (.mk [' '] (.str [.uni 'd' '8' '3' 'D', .uni 'd' 'e' '0' '0', .esc '/']) [])))) ['\t']

theorem exGen_ok : exGen.Ok asciiRules := by
  have w : IsWs [] := fun c hc => (List.not_mem_nil hc).elim
  have w1 : IsWs [' '] := by intro c hc; simp at hc; exact .inl hc
  refine ⟨by intro c hc; simp at hc; exact .inr (.inr (.inl hc)), ⟨⟨w, ⟨w1, trivial⟩, w1⟩, w1, ?_, w⟩, by intro c hc; simp at hc; exact .inr (.inl hc)⟩
  intro c hc
  simp at hc
  rcases hc with rfl | rfl | rfl
  · show ∀ x ∈ ['d', '8', '3', 'D'], (hexVal x).isSome = true
    decide
  · show ∀ x ∈ ['d', 'e', '0', '0'], (hexVal x).isSome = true
    decide
  · show '/' ∈ ['"', '\\', '/', 'b', 'f', 'n', 'r', 't']
    decide

example (F : F64) (st : BState) (hst : Generates jsonToks st) :
    GenJson F st "\n[{ } , \"\\ud83D\\ude00\\/\"]\t".toList (.ok (.array [.object [], .string ['😀', '/']])) :=
  (C56_result F hst _ _).2 ⟨exGen, by decide, exGen_ok, rfl⟩

/-- An unpaired surrogate. -/
example (F : F64) (st : BState) (hst : Generates jsonToks st) : GenJson F st "\"\\ud800\"".toList .panic := by
  refine (C56_panics F hst _).2 ⟨.mk [] (.str [.uni 'd' '8' '0' '0']) [], by decide, ⟨isWs_nil, ?_, isWs_nil⟩, rfl⟩
  intro c hc
  simp at hc
  subst hc
  show ∀ x ∈ ['d', '8', '0', '0'], (hexVal x).isSome = true
  decide

/-- A document of both parsers. -/
example : exDoc.Ok commonRules := by
  have w1 : IsWs [' '] := by intro c hc; simp at hc; exact .inl hc
  refine ⟨by intro c hc; simp at hc; exact .inr (.inr (.inl hc)), ⟨⟨w1, ?_, by intro c hc; simp at hc; exact .inr (.inl hc)⟩, isWs_nil,
    ⟨w1, ?_, w1, w1, ⟨isWs_nil, rfl⟩, w1⟩, isWs_nil⟩, w1⟩
  · exact IsJsonNumber.mk [] ['1'] [] [] (.inl rfl) (.inr ⟨⟨by simp, by decide⟩, by decide⟩) (.inl rfl) (.inl rfl)
  · intro c hc
    simp at hc
    subst hc
    exact ⟨⟨by simp [JChar.Ok], by decide⟩, trivial⟩

end Chomp
