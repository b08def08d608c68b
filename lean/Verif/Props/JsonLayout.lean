import Verif.Props.JsonLalr
import Verif.Props.JsonAgree

/-!
# C94: writing and reformatting JSON documents

What `Display` writes is read back by every one of the three parsers, and none of them minds how a document is laid out.
-/

namespace Chomp

/-! ## Specification -/

mutual
/-- Numbers are displayed as JSON numbers and read back, strings and keys can be displayed and have only characters that satisfy `A`. -/
def JValue.Printable {F : F64} (A : Char → Prop) : JValue F → Prop
  | .null => True
  | .bool _ => True
  | .number n => IsJsonNumber (F.display n) ∧ F.parse (F.display n) = some n
  | .string s => ∀ c ∈ s, Chomp.Displayable c ∧ A c
  | .array l => JValue.PrintableL A l
  | .object l => JValue.PrintableO A l
def JValue.PrintableL {F : F64} (A : Char → Prop) : List (JValue F) → Prop
  | [] => True
  | v :: l => v.Printable A ∧ JValue.PrintableL A l
def JValue.PrintableO {F : F64} (A : Char → Prop) : List (List Char × JValue F) → Prop
  | [] => True
  | (k, v) :: l => (∀ c ∈ k, Chomp.Displayable c ∧ A c) ∧ v.Printable A ∧ JValue.PrintableO A l
end

/-- The characters that the generated parser accepts in strings. -/
def AsciiChar (c : Char) : Prop := c.toNat ≤ 0x7E

/-! ## What is written -/

/-- The rules that written documents obey. -/
def printRules (A : Char → Prop) : JRules := ⟨IsJsonNumber, fun c => c.Ok ∧ c.NoUni ∧ ∀ x, c = .lit x → A x, fun ws => ws = []⟩

theorem charDoc_lit {c x : Char} (h : charDoc c = .lit x) : x = c := by
  unfold charDoc at h
  repeat' split at h
  all_goals first | cases h | skip
  rfl

theorem charDoc_noUni (c : Char) : (charDoc c).NoUni := by
  unfold charDoc
  repeat' split
  all_goals trivial

theorem charDoc_ascii {c : Char} (h : (charDoc c).Ascii) : AsciiChar c := by
  unfold charDoc at h
  unfold AsciiChar
  repeat' split at h
  all_goals first | (subst_vars; decide) | exact h.2

theorem chars_print {A : Char → Prop} {s : List Char} (h : ∀ c ∈ s, Displayable c ∧ A c) :
    ∀ c ∈ s.map charDoc, (printRules A).chr c := by
  intro x hx
  obtain ⟨c, hc, rfl⟩ := List.mem_map.1 hx
  exact ⟨(charDoc_spec .checked c (h c hc).1).2.1, charDoc_noUni c, fun x hx => charDoc_lit hx ▸ (h c hc).2⟩

theorem chars_ascii {A : Char → Prop} {s : List Char} (h : ∀ c ∈ s, Displayable c ∧ A c) (ha : ∀ c ∈ s.map charDoc, asciiRules.chr c) :
    ∀ c ∈ s, Displayable c ∧ AsciiChar c :=
  fun c hc => ⟨(h c hc).1, charDoc_ascii (ha _ (List.mem_map.2 ⟨c, hc, rfl⟩))⟩

/-- A way to decode strings that is right about strings without `\u` escapes. -/
def DecodesPlain (dec : List JChar → Option (List Char)) : Prop := ∀ s : List JChar, (∀ c ∈ s, c.NoUni) → dec s = some (decodeHand s)

theorem chars_decode {dec : List JChar → Option (List Char)} (hd : DecodesPlain dec) (m : Ovf) {s : List Char} (h : ∀ c ∈ s, Displayable c) :
    dec (s.map charDoc) = some s := by
  rw [hd _ (fun x hx => by obtain ⟨c, -, rfl⟩ := List.mem_map.1 hx; exact charDoc_noUni c), (writeChars_doc m s h).2.2]

mutual
theorem JValue.print_doc {F : F64} {A : Char → Prop} (m : Ovf) : ∀ v : JValue F, v.Printable A →
    ∃ d : JDoc, v.display m = some d.text ∧ d.Ok (printRules A) ∧ (∀ dec, DecodesPlain dec → d.value F dec = some v) ∧
      (d.Ok asciiRules → v.Printable AsciiChar)
  | .null, _ => ⟨.null, rfl, trivial, fun _ _ => rfl, fun _ => trivial⟩
  | .bool true, _ => ⟨.true, rfl, trivial, fun _ _ => rfl, fun _ => trivial⟩
  | .bool false, _ => ⟨.false, rfl, trivial, fun _ _ => rfl, fun _ => trivial⟩
  | .number n, h => ⟨.num (F.display n), rfl, h.1, fun _ _ => by rw [JDoc.value, h.2]; rfl, fun _ => h⟩
  | .string s, h => by
    have h' : ∀ c ∈ s, Chomp.Displayable c ∧ A c := h
    have hs : ∀ c ∈ s, Chomp.Displayable c := fun c hc => (h' c hc).1
    exact ⟨.str (s.map charDoc), by rw [JValue.display, writeStr_doc m s hs]; rfl, chars_print h',
      fun dec hd => by rw [JDoc.value, chars_decode hd m hs]; rfl, fun ha => chars_ascii h' ha⟩
  | .array [], _ => ⟨.arr0 [], rfl, ⟨isWs_nil, rfl⟩, fun _ _ => rfl, fun _ => trivial⟩
  | .array (v :: l), h => by
    obtain ⟨d, t, h1, h2, h3, h4, h5⟩ := JValue.printL_doc m (v :: l) (by simp) h [] isWs_nil
    exact ⟨.arr d, by rw [JValue.display, h1, JDoc.text, h2]; rfl, h3, fun dec hd => by rw [JDoc.value, h4 dec hd]; rfl, h5⟩
  | .object [], _ => ⟨.obj0 [], rfl, ⟨isWs_nil, rfl⟩, fun _ _ => rfl, fun _ => trivial⟩
  | .object (v :: l), h => by
    obtain ⟨d, t, h1, h2, h3, h4, h5⟩ := JValue.printO_doc m (v :: l) (by simp) h [] isWs_nil
    exact ⟨.obj d, by rw [JValue.display, h1, JDoc.text, h2]; rfl, h3, fun dec hd => by rw [JDoc.value, h4 dec hd]; rfl, h5⟩
theorem JValue.printL_doc {F : F64} {A : Char → Prop} (m : Ovf) : ∀ l : List (JValue F), l ≠ [] → JValue.PrintableL A l → ∀ ws, IsWs ws →
    ∃ (d : JItems) (t : List Char), JValue.displayL m l = some t ∧ d.text = ws ++ t ∧ d.Ok (printRules A) ∧
      (∀ dec, DecodesPlain dec → d.value F dec = some l) ∧ (d.Ok asciiRules → JValue.PrintableL AsciiChar l)
  | [], h, _, _, _ => absurd rfl h
  | v :: l, _, h, ws, hws => by
    obtain ⟨d, h1, h2, h3, ha⟩ := JValue.print_doc m v h.1
    have ih := JValue.printL_doc (A := A) m l
    cases l with
    | nil =>
      refine ⟨.one (.mk ws d []), _, by rw [JValue.displayL, h1]; rfl, ?_, ⟨hws, h2, isWs_nil⟩, fun dec hd => by
        rw [JItems.value, JPad.value, h3 dec hd]; rfl, fun hx => ⟨ha hx.2.1, trivial⟩⟩
      simp [JItems.text, JPad.text]
    | cons v' l' =>
      obtain ⟨d', t, h4, h5, h6, h7, hb⟩ := ih (by simp) h.2 [' '] isWs_space
      refine ⟨.cons (.mk ws d []) d', _, by rw [JValue.displayL, h1, h4]; rfl, ?_, ⟨⟨hws, h2, isWs_nil⟩, h6⟩, fun dec hd => by
        rw [JItems.value, JPad.value, h3 dec hd, h7 dec hd]; rfl, fun hx => ⟨ha hx.1.2.1, hb hx.2⟩⟩
      simp [JItems.text, JPad.text, h5]
theorem JValue.printO_doc {F : F64} {A : Char → Prop} (m : Ovf) : ∀ l : List (List Char × JValue F), l ≠ [] → JValue.PrintableO A l →
    ∀ ws, IsWs ws → ∃ (d : JMembers) (t : List Char), JValue.displayO m l = some t ∧ d.text = ws ++ t ∧ d.Ok (printRules A) ∧
      (∀ dec, DecodesPlain dec → d.value F dec = some l) ∧ (d.Ok asciiRules → JValue.PrintableO AsciiChar l)
  | [], h, _, _, _ => absurd rfl h
  | (k, v) :: l, _, h, ws, hws => by
    obtain ⟨d, h1, h2, h3, ha⟩ := JValue.print_doc m v h.2.1
    have hk : ∀ c ∈ k, Chomp.Displayable c := fun c hc => (h.1 c hc).1
    have hk2 := chars_print h.1
    have ih := JValue.printO_doc (A := A) m l
    cases l with
    | nil =>
      refine ⟨.one ws (k.map charDoc) [' '] (.mk [' '] d []), _, by rw [JValue.displayO, writeStr_doc m k hk, h1]; rfl, ?_,
        ⟨hws, hk2, isWs_space, isWs_space, h2, isWs_nil⟩, fun dec hd => by
          rw [JMembers.value, JPad.value, h3 dec hd, chars_decode hd m hk]; rfl,
        fun hx => ⟨chars_ascii h.1 hx.2.1, ha hx.2.2.2.2.1, trivial⟩⟩
      simp [JMembers.text, JPad.text]
    | cons v' l' =>
      obtain ⟨d', t, h4, h5, h6, h7, hb⟩ := ih (by simp) h.2.2 [' '] isWs_space
      refine ⟨.cons ws (k.map charDoc) [' '] (.mk [' '] d []) d', _, by rw [JValue.displayO, writeStr_doc m k hk, h1, h4]; rfl, ?_,
        ⟨hws, hk2, isWs_space, ⟨isWs_space, h2, isWs_nil⟩, h6⟩, fun dec hd => by
          rw [JMembers.value, JPad.value, h3 dec hd, h7 dec hd, chars_decode hd m hk]; rfl,
        fun hx => ⟨chars_ascii h.1 hx.2.1, ha hx.2.2.2.1.2.1, hb hx.2.2.2.2⟩⟩
      simp [JMembers.text, JPad.text, h5]
end

theorem decodes_json (rev : Bool) : DecodesPlain (decodeJson rev) := fun s h => decodeHand_plain rev s h
theorem decodes_hand : DecodesPlain handDecode := fun _ _ => rfl

theorem print_hand {A : Char → Prop} {d : JDoc} (h : d.Ok (printRules A)) : d.Ok handRules :=
  JDoc.Ok.mono (R := printRules A) (S := handRules) (fun _ h => IsJsonNumber.hand h) (fun _ h => h.1) (fun _ h => h) h
theorem print_rfc {A : Char → Prop} {d : JDoc} (h : d.Ok (printRules A)) : d.Ok rfcRules :=
  JDoc.Ok.mono (R := printRules A) (S := rfcRules) (fun _ h => h) (fun _ h => h.1) (fun _ _ => trivial) h
theorem print_ascii {d : JDoc} (h : d.Ok (printRules AsciiChar)) : d.Ok asciiRules :=
  JDoc.Ok.mono (R := printRules AsciiChar) (S := asciiRules) (fun _ h => h) (fun c h => by
    cases c with
    | lit x => exact ⟨h.1, h.2.2 x rfl⟩
    | esc _ => exact h.1
    | uni _ _ _ _ => exact h.1) (fun _ _ => trivial) h

/-! ## Layout -/

mutual
theorem JDoc.strip_ok' {R : JRules} (hR : R.empty []) : ∀ {d : JDoc}, d.Ok R → d.strip.Ok R
  | .null, _ => trivial
  | .true, _ => trivial
  | .false, _ => trivial
  | .num _, h => h
  | .str _, h => h
  | .arr0 _, _ => ⟨isWs_nil, hR⟩
  | .arr l, h => JItems.strip_ok' hR (d := l) h
  | .obj0 _, _ => ⟨isWs_nil, hR⟩
  | .obj l, h => JMembers.strip_ok' hR (d := l) h
theorem JPad.strip_ok' {R : JRules} (hR : R.empty []) : ∀ {d : JPad}, d.Ok R → d.strip.Ok R
  | .mk _ v _, h => ⟨isWs_nil, JDoc.strip_ok' hR (d := v) h.2.1, isWs_nil⟩
theorem JItems.strip_ok' {R : JRules} (hR : R.empty []) : ∀ {d : JItems}, d.Ok R → d.strip.Ok R
  | .one v, h => JPad.strip_ok' hR (d := v) h
  | .cons v l, h => ⟨JPad.strip_ok' hR (d := v) h.1, JItems.strip_ok' hR (d := l) h.2⟩
theorem JMembers.strip_ok' {R : JRules} (hR : R.empty []) : ∀ {d : JMembers}, d.Ok R → d.strip.Ok R
  | .one _ _ _ v, h => ⟨isWs_nil, h.2.1, isWs_nil, JPad.strip_ok' hR (d := v) h.2.2.2⟩
  | .cons _ _ _ v l, h => ⟨isWs_nil, h.2.1, isWs_nil, JPad.strip_ok' hR (d := v) h.2.2.2.1, JMembers.strip_ok' hR (d := l) h.2.2.2.2⟩
end

mutual
theorem JDoc.strip_strip : ∀ d : JDoc, d.strip.strip = d.strip
  | .null => rfl
  | .true => rfl
  | .false => rfl
  | .num _ => rfl
  | .str _ => rfl
  | .arr0 _ => rfl
  | .arr l => by rw [JDoc.strip, JDoc.strip, JItems.strip_strip l]
  | .obj0 _ => rfl
  | .obj l => by rw [JDoc.strip, JDoc.strip, JMembers.strip_strip l]
theorem JPad.strip_strip : ∀ d : JPad, d.strip.strip = d.strip
  | .mk _ v _ => by rw [JPad.strip, JPad.strip, JDoc.strip_strip v]
theorem JItems.strip_strip : ∀ d : JItems, d.strip.strip = d.strip
  | .one v => by rw [JItems.strip, JItems.strip, JPad.strip_strip v]
  | .cons v l => by rw [JItems.strip, JItems.strip, JPad.strip_strip v, JItems.strip_strip l]
theorem JMembers.strip_strip : ∀ d : JMembers, d.strip.strip = d.strip
  | .one _ _ _ v => by rw [JMembers.strip, JMembers.strip, JPad.strip_strip v]
  | .cons _ _ _ v l => by rw [JMembers.strip, JMembers.strip, JPad.strip_strip v, JMembers.strip_strip l]
end

theorem pad_ascii_rfc {p : JPad} (h : p.Ok asciiRules) : p.Ok rfcRules :=
  JPad.Ok.mono (R := asciiRules) (S := rfcRules) (fun _ h => h) (fun c h => by cases c <;> first | exact h.1 | exact h) (fun _ _ => trivial) h

/-! ## Statements -/

/-- **C94** (what is written is read back). A value whose numbers are displayed as JSON numbers and whose strings can be displayed is
written as a text that the hand-written and the LALRPOP parser read back; the generated parser reads it back exactly if the strings have
only the characters up to `~`, and rejects it otherwise. -/
theorem C94_written {F : F64} {st : BState} (hst : Generates jsonToks st) (m : Ovf) (v : JValue F) (h : v.Printable fun _ => True) :
    ∃ t, v.display m = some t ∧ HandJson F m t (.ok v) ∧ LalrJson F t (some v) ∧
      (v.Printable AsciiChar → GenJson F st t (.ok v)) ∧ (¬ v.Printable AsciiChar → ∃ e, GenJson F st t (.err e)) := by
  obtain ⟨d, h1, h2, h3, h4⟩ := v.print_doc m h
  have hp : (JPad.mk [] d []).text = d.text := by simp [JPad.text]
  have hok : ∀ R : JRules, d.Ok R → (JPad.mk [] d []).Ok R := fun R hR => ⟨isWs_nil, hR, isWs_nil⟩
  have hval : ∀ dec, DecodesPlain dec → (JPad.mk [] d []).value F dec = some v := fun dec hd => by rw [JPad.value]; exact h3 dec hd
  refine ⟨d.text, h1, ?_, ?_, ?_, ?_⟩
  · rw [← hp]
    exact handJson_of_doc m (hok _ (print_hand h2)) (hval _ decodes_hand)
  · rw [← hp]
    have := C62_document F (JPad.mk [] d []) (JPad.Ok.lalr (hok _ (print_rfc h2)))
    rwa [hval _ (decodes_json true)] at this
  · intro ha
    obtain ⟨d', h5, h6, h7, -⟩ := v.print_doc m ha
    have : d'.text = d.text := by rw [h1] at h5; exact (Option.some.inj h5).symm
    refine (C56_result F hst _ v).2 ⟨.mk [] d' [], by simp [JPad.text, this], ⟨isWs_nil, print_ascii h6, isWs_nil⟩, ?_⟩
    rw [JPad.value]
    exact h7 _ (decodes_json true)
  · intro ha
    refine (C56_rejects F hst _).2 ?_
    rintro ⟨p, hpt, hpo⟩
    have : p = .mk [] d [] := C57_unambiguous p _ (.inr hpo) (.inl (hok _ (print_hand h2))) (by rw [hpt, hp])
    subst this
    exact ha (h4 hpo.2.1)

/-- **C94** (the generated parser does not mind the layout). Two documents that are the same without white space have the same value, or
panic together. -/
theorem C94_layout_generated {F : F64} {st : BState} (hst : Generates jsonToks st) (p q : JPad) (hp : p.Ok asciiRules) (hq : q.Ok asciiRules)
    (h : p.strip = q.strip) :
    (∀ v, GenJson F st p.text (.ok v) ↔ GenJson F st q.text (.ok v)) ∧ (GenJson F st p.text .panic ↔ GenJson F st q.text .panic) := by
  have hv : p.value F (decodeJson true) = q.value F (decodeJson true) := by rw [← p.strip_value, h, q.strip_value]
  have h1 : ∀ (a : JPad), a.Ok asciiRules → ∀ v, GenJson F st a.text (.ok v) ↔ a.value F (decodeJson true) = some v := by
    intro a ha v
    rw [C56_result F hst]
    constructor
    · rintro ⟨b, h1, h2, h3⟩
      cases C57_unambiguous b a (.inr h2) (.inr ha) h1
      exact h3
    · exact fun h => ⟨a, rfl, ha, h⟩
  have h2 : ∀ (a : JPad), a.Ok asciiRules → (GenJson F st a.text .panic ↔ a.value F (decodeJson true) = none) := by
    intro a ha
    rw [C56_panics F hst]
    constructor
    · rintro ⟨b, h1, h2, h3⟩
      cases C57_unambiguous b a (.inr h2) (.inr ha) h1
      exact h3
    · exact fun h => ⟨a, rfl, ha, h⟩
  exact ⟨fun v => by rw [h1 p hp, h1 q hq, hv], by rw [h2 p hp, h2 q hq, hv]⟩

/-- **C94** (the LALRPOP parser does not mind the layout). -/
theorem C94_layout_lalr {F : F64} (p q : JPad) (hp : p.Lalr) (hq : q.Lalr) (h : p.strip = q.strip) (r : Option (JValue F)) :
    LalrJson F p.text r ↔ LalrJson F q.text r := by
  have hv : p.value F (decodeJson true) = q.value F (decodeJson true) := by rw [← p.strip_value, h, q.strip_value]
  have h1 := C62_document F p hp
  have h2 := C62_document F q hq
  rw [hv] at h1
  constructor
  · intro hr; cases C62_unique F _ _ _ hr h1; exact h2
  · intro hr; cases C62_unique F _ _ _ hr h2; exact h1

/-- **C94** (all white space can be removed). The generated parser accepts a document without its white space, with the same value; so does
LALRPOP's. -/
theorem C94_compact {F : F64} {st : BState} (hst : Generates jsonToks st) (p : JPad) (hp : p.Ok asciiRules) (v : JValue F) :
    (GenJson F st p.strip.text (.ok v) ↔ GenJson F st p.text (.ok v)) ∧ (LalrJson F p.strip.text (some v) ↔ LalrJson F p.text (some v)) := by
  have hs : p.strip.strip = p.strip := JPad.strip_strip p
  have h1 := JPad.strip_ok' (R := asciiRules) trivial hp
  exact ⟨(C94_layout_generated hst _ _ h1 hp hs).1 v, C94_layout_lalr _ _ (JPad.Ok.lalr (pad_ascii_rfc h1)) (JPad.Ok.lalr (pad_ascii_rfc hp)) hs _⟩

/-! ## Instances -/

/-- `["a\n", null, {"k": true}]` is written so that all parsers read it. -/
example (F : F64) : ∃ v : JValue F, v.Printable AsciiChar ∧ v.display .checked = some "[\"a\\n\", null, {\"k\" : true}]".toList := by
  refine ⟨.array [.string ['a', '\n'], .null, .object [(['k'], .bool true)]], ?_, rfl⟩
  refine ⟨?_, trivial, ⟨?_, trivial, trivial⟩, trivial⟩
  · show ∀ c ∈ ['a', '\n'], Displayable c ∧ AsciiChar c
    unfold Displayable AsciiChar
    decide
  · unfold Displayable AsciiChar
    decide

/-- `"é"` is written, and not read by the generated parser. -/
example (F : F64) : (JValue.string ['é'] : JValue F).Printable (fun _ => True) ∧ ¬ (JValue.string ['é'] : JValue F).Printable AsciiChar := by
  constructor
  · show ∀ c ∈ ['é'], Displayable c ∧ True
    unfold Displayable
    decide
  · show ¬ ∀ c ∈ ['é'], Displayable c ∧ AsciiChar c
    unfold Displayable AsciiChar
    decide

/-- `[ 1 ]` and `[1]` are the same document without white space. -/
example : (JPad.mk [] (.arr (.one (.mk [' '] (.num ['1']) [' ']))) []).strip = (JPad.mk [] (.arr (.one (.mk [] (.num ['1']) []))) []).strip ∧
    (JPad.mk [] (.arr (.one (.mk [' '] (.num ['1']) [' ']))) []).text = "[ 1 ]".toList := ⟨rfl, by decide⟩

end Chomp
