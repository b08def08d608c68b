import Verif.Driver.Text
import Verif.Props.Parser
import Verif.Props.EndToEnd
import Verif.Props.Errors
import Verif.Props.Order
import Verif.Props.Conflict

/-! # C65, C66: the texts of errors -/

namespace Chomp

/-! ## C65: parse errors -/

/-- The part of the text after the position, and that it starts with `:`. -/
def ParseError.rest (plain : Char → Bool) : ParseError → List Char
  | .take (.badBranch _ got expected) =>
    " Unexpected character ".toList ++ (debugChar plain got ++ (". ".toList ++ expectedText plain expected))
  | .take (.badString _ got expected) =>
    " Unexpected string ".toList ++ (debugStr plain got ++ (". Expected ".toList ++ debugStr plain expected))
  | .take (.endOfStream _) => " Unexpected end of input".toList
  | .inputContinues _ => " Expected end of input".toList

/-- The position of an error. -/
def ParseError.position : ParseError → LineCol
  | .take e => e.position
  | .inputContinues pos => pos

theorem lit_colon {s t : String} (h : s.toList = ':' :: t.toList) (p x : List Char) : p ++ (s.toList ++ x) = p ++ ':' :: (t.toList ++ x) := by
  rw [h]; rfl

theorem ParseError.text_eq (plain : Char → Bool) (e : ParseError) : e.text plain = e.position.text ++ ':' :: e.rest plain := by
  have h1 : ": Unexpected character ".toList = ':' :: " Unexpected character ".toList := by simp
  have h2 : ": Unexpected string ".toList = ':' :: " Unexpected string ".toList := by simp
  have h3 : ": Unexpected end of input".toList = ':' :: " Unexpected end of input".toList := by simp
  have h4 : ": Expected end of input".toList = ':' :: " Expected end of input".toList := by simp
  rcases e with (⟨p, g, l⟩ | ⟨p, g, l⟩ | p) | p
  · exact lit_colon h1 _ _
  · exact lit_colon h2 _ _
  · show _ ++ _ = _ ++ _; rw [h3]; rfl
  · show _ ++ _ = _ ++ _; rw [h4]; rfl

theorem lit_uc_us (x y : List Char) : " Unexpected character ".toList ++ x ≠ " Unexpected string ".toList ++ y := by simp
theorem lit_uc_ue (x : List Char) : " Unexpected character ".toList ++ x ≠ " Unexpected end of input".toList := by simp
theorem lit_uc_ee (x : List Char) : " Unexpected character ".toList ++ x ≠ " Expected end of input".toList := by simp
theorem lit_us_ue (x : List Char) : " Unexpected string ".toList ++ x ≠ " Unexpected end of input".toList := by simp
theorem lit_us_ee (x : List Char) : " Unexpected string ".toList ++ x ≠ " Expected end of input".toList := by simp
theorem lit_ue_ee : " Unexpected end of input".toList ≠ " Expected end of input".toList := by simp

/-- **C65.** The text of a parse error can be read back: different errors — of any kind, at any position, with any characters
and strings — have different texts, whichever characters the standard library prints unescaped. -/
theorem C65_text_unambiguous (plain : Char → Bool) (e e' : ParseError) (h : e.text plain = e'.text plain) : e = e' := by
  rw [e.text_eq, e'.text_eq] at h
  obtain ⟨hp, -, hr⟩ := LineCol.text_next (by decide) (by decide) h
  rcases e with (⟨p, g, l⟩ | ⟨p, g, l⟩ | p) | p <;> rcases e' with (⟨p', g', l'⟩ | ⟨p', g', l'⟩ | p') | p' <;>
    (have hp' : p = p' := hp) <;> subst hp'
  · obtain ⟨h1, h2⟩ := debugChar_decodes plain _ _ _ _ (List.append_cancel_left hr)
    rw [h1, expectedText_inj plain (List.append_cancel_left h2)]
  · exact absurd hr (lit_uc_us _ _)
  · exact absurd hr (lit_uc_ue _)
  · exact absurd hr (lit_uc_ee _)
  · exact absurd hr.symm (lit_uc_us _ _)
  · obtain ⟨h1, h2⟩ := debugStr_decodes plain _ _ _ _ (List.append_cancel_left hr)
    have := List.append_cancel_left h2
    obtain ⟨h3, -⟩ := debugStr_decodes plain l l' [] [] (by rw [this])
    rw [h1, h3]
  · exact absurd hr (lit_us_ue _)
  · exact absurd hr (lit_us_ee _)
  · exact absurd hr.symm (lit_uc_ue _)
  · exact absurd hr.symm (lit_us_ue _)
  · rfl
  · exact absurd hr lit_ue_ee
  · exact absurd hr.symm (lit_uc_ee _)
  · exact absurd hr.symm (lit_us_ee _)
  · exact absurd hr.symm lit_ue_ee
  · rfl

/-- **C65** (what the user sees). If the generated parser rejects a text, the message that is printed starts with the line and
the column, in decimal, of the end of a prefix `p` of the text; no sentence of the grammar starts with `p` and the
next character, an unexpected end of input is reported exactly at the end of the text, and an unexpected character is
the one after `p`. -/
theorem C65_printed_position {e : NE} {te : TE} {s : BState} {id : Nat} (h : Compiled e te s id) (hns : NoSharingConflict te)
    (plain : Char → Bool) (text : List Char) (err : ParseError) (hp : Parses s id text (.err err)) :
    ∃ p rest msg, text = p ++ rest ∧
      err.text plain = (toString (specLine text p.length)).toList ++ ":".toList ++ (toString (specCol text p.length)).toList ++ ": ".toList ++ msg ∧
      (∀ c r, rest = c :: r → ∀ v, te.gram.language v → ¬ (p ++ [c]) <+: v) ∧
      (rest = [] ↔ msg = "Unexpected end of input".toList) ∧
      (∀ c r, rest = c :: r → msg = "Expected end of input".toList ∨ "Unexpected character ".toList ++ debugChar plain c <+: msg ∨
        "Unexpected string ".toList <+: msg) := by
  have hn (n : Nat) : (toString n).toList = showNat n := by
    rw [Nat.toString_eq_ofList_toDigits, String.toList_ofList]; rfl
  have hshape (l c : Nat) (msg : List Char) : (toString l).toList ++ ":".toList ++ (toString c).toList ++ ": ".toList ++ msg =
      (LineCol.text ⟨l, c⟩) ++ ':' :: ' ' :: msg := by
    simp only [hn, LineCol.text, List.append_assoc, List.cons_append]
    simp
  have k1 : " Unexpected character ".toList = ' ' :: "Unexpected character ".toList := by simp
  have k2 : " Unexpected string ".toList = ' ' :: "Unexpected string ".toList := by simp
  have k3 : " Unexpected end of input".toList = ' ' :: "Unexpected end of input".toList := by simp
  have k4 : " Expected end of input".toList = ' ' :: "Expected end of input".toList := by simp
  have n1 (x : List Char) : "Unexpected character ".toList ++ x ≠ "Unexpected end of input".toList := by simp
  have n2 (x : List Char) : "Unexpected string ".toList ++ x ≠ "Unexpected end of input".toList := by simp
  have n3 : "Expected end of input".toList ≠ "Unexpected end of input".toList := by simp
  cases err with
  | inputContinues pos =>
    obtain ⟨p, c, r, h1, h2, -, h4⟩ := C35_input_continues h hns text pos hp
    refine ⟨p, c :: r, "Expected end of input".toList, h1, ?_, ?_, ?_, fun _ _ _ => .inl rfl⟩
    · rw [ParseError.text_eq, hshape]
      show LineCol.text pos ++ ':' :: " Expected end of input".toList = _
      rw [h2, k4]
    · intro c' r' hc
      cases hc
      exact h4
    · exact ⟨fun h => (nomatch h), fun h => absurd h n3⟩
  | take er =>
    obtain ⟨p, rest, h1, h2, h3, h4, h5⟩ := C35_error_position h hns text er hp
    have hpos : (ParseError.take er).position = ⟨specLine text p.length, specCol text p.length⟩ := h2
    have htext : (ParseError.take er).text plain =
        (LineCol.text ⟨specLine text p.length, specCol text p.length⟩) ++ ':' :: (ParseError.take er).rest plain := by
      rw [ParseError.text_eq, hpos]
    cases er with
    | badBranch pos got expected =>
      refine ⟨p, rest, "Unexpected character ".toList ++ (debugChar plain got ++ (". ".toList ++ expectedText plain expected)), h1, ?_, h4, ?_, ?_⟩
      · rw [hshape, htext]
        show _ ++ ':' :: (" Unexpected character ".toList ++ _) = _
        rw [k1]
        rfl
      · exact ⟨fun h => (by have := (h5 h).1; cases this), fun h => absurd h (n1 _)⟩
      · intro c r hc
        rw [hc] at h3
        cases (Option.some.inj h3 : got = c)
        exact .inr (.inl ⟨". ".toList ++ expectedText plain expected, by rw [List.append_assoc]⟩)
    | badString pos got expected =>
      refine ⟨p, rest, "Unexpected string ".toList ++ (debugStr plain got ++ (". Expected ".toList ++ debugStr plain expected)), h1, ?_, h4, ?_,
        fun _ _ _ => .inr (.inr ⟨_, rfl⟩)⟩
      · rw [hshape, htext]
        show _ ++ ':' :: (" Unexpected string ".toList ++ _) = _
        rw [k2]
        rfl
      · exact ⟨fun h => (by have := (h5 h).1; cases this), fun h => absurd h (n2 _)⟩
    | endOfStream pos =>
      refine ⟨p, rest, "Unexpected end of input".toList, h1, ?_, h4, ⟨fun _ => rfl, fun _ => ?_⟩, ?_⟩
      · rw [hshape, htext]
        show _ ++ ':' :: " Unexpected end of input".toList = _
        rw [k3]
      · cases rest with
        | nil => rfl
        | cons c r => exact absurd h3 (by simp [TakeError.offending])
      · intro c r hc
        rw [hc] at h3
        exact absurd h3 (by simp [TakeError.offending])

private def ti : Info := ⟨none, 0⟩

/-- Non-vacuity: the parser of `"a" . ("b" | "'")` on `ac` and on `a` and `abb`; the texts that the user sees. -/
example : ∃ e te s id, Compiled e te s id ∧ NoSharingConflict te ∧
    (∃ err, Parses s id "ac".toList (.err err) ∧
      err.text Char.isAlphanum = "1:1: Unexpected character 'c'. Expected one of 'b', '\\''".toList) ∧
    (∃ err, Parses s id "abb".toList (.err err) ∧ err.text Char.isAlphanum = "1:2: Expected end of input".toList) ∧
    (∃ err, Parses s id "a".toList (.err err) ∧ err.text Char.isAlphanum = "1:1: Unexpected end of input".toList) :=
  ⟨.cat ti (.lit ti ['a']) [(0, .alt ti (.lit ti ['b']) [(0, .lit ti ['\''])])], _, _, _, ⟨⟨8, rfl⟩, ⟨some, some⟩, rfl⟩,
    TE.shareSafe_sound (by decide), ⟨_, ⟨by simp, 20, rfl⟩, by decide +kernel⟩, ⟨_, ⟨by simp, 20, rfl⟩, by decide +kernel⟩,
    ⟨_, ⟨by simp, 20, rfl⟩, by decide +kernel⟩⟩

/-! ## C66: errors of the compiler -/

/-- What an error of the compiler is about: a small description of the kinds of errors, with the facts they state. -/
inductive Complaint where
  /-- a name that is not declared -/
  | undeclared (name : List Char)
  | emptyCat | emptyAlt | emptyCall
  | notAFunction
  /-- the numbers of parameters and arguments -/
  | argCount (params args : Nat)
  | firstNullable | firstFlastOverlap | bothNullable | firstOverlap
  /-- a variable, by its name or, if it has none, its index -/
  | unbound (name : List Char ⊕ Nat) | guarded (name : List Char ⊕ Nat)
  | expectedLambda | unexpectedCall | unexpectedLambda | unexpectedLet
deriving DecidableEq

def ConvErr.complaint : ConvErr → Complaint
  | .undeclaredName n => .undeclared n.text
  | .emptyCat _ => .emptyCat
  | .emptyAlt _ => .emptyAlt
  | .emptyCall _ => .emptyCall

def RErr.complaint : RErr → Complaint
  | .callNotAFunction _ _ => .notAFunction
  | .wrongArgCount f args _ => .argCount f.paramCount args.length

/-- How a variable is called. -/
def calledName (index : Nat) : Option Name → List Char ⊕ Nat
  | some n => .inl n.text
  | none => .inr index

def TErr.complaint : TErr → Complaint
  | .firstNullable _ _ => .firstNullable
  | .firstFlastOverlap _ _ _ => .firstFlastOverlap
  | .bothNullable _ _ _ => .bothNullable
  | .firstOverlap _ _ _ => .firstOverlap
  | .variable .free index _ name => .unbound (calledName index name)
  | .variable .guarded index _ name => .guarded (calledName index name)
  | .expectedLambda _ => .expectedLambda
  | .unexpectedCall _ => .unexpectedCall
  | .unexpectedLambda _ => .unexpectedLambda
  | .unexpectedLet _ => .unexpectedLet

/-- The message and the complaint of a failed compilation. -/
def Compile.error : Compile → Option (List Char × Complaint)
  | .convert e => some (e.text, e.complaint)
  | .reduce e => some (e.text, e.complaint)
  | .typing e => some (e.text, e.complaint)
  | _ => none

/-- The variable in a message. -/
def calledText : List Char ⊕ Nat → List Char
  | .inl n => '`' :: (n ++ ['`'])
  | .inr k => '\'' :: showNat k

/-- How a call with `k` arguments of a function with `m ≠ k` parameters is described. -/
def callWords (m k : Nat) : List Char :=
  "this function takes ".toList ++ (toString m).toList ++ (if m = 1 then " argument but ".toList else " arguments but ".toList) ++
    (toString k).toList ++ (if k = 1 then " was supplied".toList else " were supplied".toList)

/-- The wording of a complaint. -/
def Complaint.text : Complaint → List Char
  | .undeclared n => "undeclared name: `".toList ++ (n ++ ['`'])
  | .emptyCat => "concatenation has no elements".toList
  | .emptyAlt => "alternation has no elements".toList
  | .emptyCall => "call has no function".toList
  | .notAFunction => "call expected a function".toList
  | .argCount m n => argCountText m n
  | .firstNullable => "first part of concatenation is nullable".toList
  | .firstFlastOverlap => "first set overlaps with preceding flast set".toList
  | .bothNullable => "both branches are nullable".toList
  | .firstOverlap => "first sets of both branches overlap".toList
  | .unbound v => "unbound variable: ".toList ++ calledText v
  | .guarded v => "usage of guarded variable: ".toList ++ calledText v
  | .expectedLambda => "expected a lambda expression".toList
  | .unexpectedCall => "unexpected call".toList
  | .unexpectedLambda => "unexpected lambda".toList
  | .unexpectedLet => "unexpected let".toList

theorem ConvErr.text_complaint (e : ConvErr) : e.text = e.complaint.text := by cases e <;> rfl
theorem RErr.text_complaint (e : RErr) : e.text = e.complaint.text := by cases e <;> rfl
theorem TErr.text_complaint (e : TErr) : e.text = e.complaint.text := by
  cases e with
  | «variable» err k sp nm => cases err <;> cases nm <;> rfl
  | _ => rfl

/-- The number of a kind of complaint, and the first 14 characters of its texts. -/
def Complaint.tag : Complaint → Fin 16
  | .undeclared _ => 0 | .emptyCat => 1 | .emptyAlt => 2 | .emptyCall => 3 | .notAFunction => 4 | .argCount _ _ => 5
  | .firstNullable => 6 | .firstFlastOverlap => 7 | .bothNullable => 8 | .firstOverlap => 9 | .unbound _ => 10
  | .guarded _ => 11 | .expectedLambda => 12 | .unexpectedCall => 13 | .unexpectedLambda => 14 | .unexpectedLet => 15

def complaintHeads : List (List Char) :=
  [['u','n','d','e','c','l','a','r','e','d',' ','n','a','m'],
   ['c','o','n','c','a','t','e','n','a','t','i','o','n',' '],
   ['a','l','t','e','r','n','a','t','i','o','n',' ','h','a'],
   ['c','a','l','l',' ','h','a','s',' ','n','o',' ','f','u'],
   ['c','a','l','l',' ','e','x','p','e','c','t','e','d',' '],
   ['t','h','i','s',' ','f','u','n','c','t','i','o','n',' '],
   ['f','i','r','s','t',' ','p','a','r','t',' ','o','f',' '],
   ['f','i','r','s','t',' ','s','e','t',' ','o','v','e','r'],
   ['b','o','t','h',' ','b','r','a','n','c','h','e','s',' '],
   ['f','i','r','s','t',' ','s','e','t','s',' ','o','f',' '],
   ['u','n','b','o','u','n','d',' ','v','a','r','i','a','b'],
   ['u','s','a','g','e',' ','o','f',' ','g','u','a','r','d'],
   ['e','x','p','e','c','t','e','d',' ','a',' ','l','a','m'],
   ['u','n','e','x','p','e','c','t','e','d',' ','c','a','l'],
   ['u','n','e','x','p','e','c','t','e','d',' ','l','a','m'],
   ['u','n','e','x','p','e','c','t','e','d',' ','l','e','t']]

def complaintHead (k : Fin 16) : List Char := complaintHeads[k]'k.isLt

theorem complaintHead_inj : ∀ a b, complaintHead a = complaintHead b → a = b := by decide

/-- The text of the wrong number of arguments, by its parts. -/
theorem argCountText_eq (m n : Nat) : argCountText m n = "this function takes ".toList ++ (showNat m ++ ' ' ::
    ((if m = 1 then "argument but ".toList else "arguments but ".toList) ++ (showNat n ++ ' ' ::
      if m ≠ 1 ∧ n = 1 then "was supplied".toList else "were supplied".toList))) := by
  have h1 : showNat 1 = ['1'] := rfl
  unfold argCountText
  split
  · rename_i h; subst h
    simp [h1]
  · rename_i h
    split
    · rename_i h'; subst h'
      simp [h1, h]
    · rename_i h'
      simp [h, h']

/-- The literal text that a message starts with. -/
def Complaint.lit : Complaint → String
  | .undeclared _ => "undeclared name: `"
  | .emptyCat => "concatenation has no elements"
  | .emptyAlt => "alternation has no elements"
  | .emptyCall => "call has no function"
  | .notAFunction => "call expected a function"
  | .argCount _ _ => "this function takes "
  | .firstNullable => "first part of concatenation is nullable"
  | .firstFlastOverlap => "first set overlaps with preceding flast set"
  | .bothNullable => "both branches are nullable"
  | .firstOverlap => "first sets of both branches overlap"
  | .unbound _ => "unbound variable: "
  | .guarded _ => "usage of guarded variable: "
  | .expectedLambda => "expected a lambda expression"
  | .unexpectedCall => "unexpected call"
  | .unexpectedLambda => "unexpected lambda"
  | .unexpectedLet => "unexpected let"

theorem Complaint.text_lit (c : Complaint) : ∃ r, c.text = c.lit.toList ++ r := by
  cases c with
  | argCount m n => exact ⟨_, argCountText_eq m n⟩
  | undeclared n => exact ⟨_, rfl⟩
  | unbound v => exact ⟨_, rfl⟩
  | guarded v => exact ⟨_, rfl⟩
  | _ => exact ⟨[], (List.append_nil _).symm⟩

theorem Complaint.lit_head (c : Complaint) : 14 ≤ c.lit.toList.length ∧ c.lit.toList.take 14 = complaintHead c.tag := by
  cases c <;> dsimp only [Complaint.lit, Complaint.tag] <;> exact ⟨by decide +kernel, by decide +kernel⟩

theorem Complaint.text_head (c : Complaint) : c.text.take 14 = complaintHead c.tag := by
  obtain ⟨r, h⟩ := c.text_lit
  obtain ⟨h1, h2⟩ := c.lit_head
  rw [h, List.take_append_of_le_length h1, h2]

theorem calledText_inj {a b : List Char ⊕ Nat} (h : calledText a = calledText b) : a = b := by
  cases a <;> cases b <;> simp only [calledText, List.cons.injEq] at h
  · rw [List.append_cancel_right h.2]
  · exact absurd h.1 (by decide)
  · exact absurd h.1 (by decide)
  · rw [showNat_inj h.2]

theorem argCountText_inj {m n m' n' : Nat} (h : argCountText m n = argCountText m' n') : m = m' ∧ n = n' := by
  rw [argCountText_eq, argCountText_eq] at h
  obtain ⟨h1, -, h2⟩ := showNat_next (by decide) (by decide) (List.append_cancel_left h)
  subst h1
  obtain ⟨h3, -, -⟩ := showNat_next (by decide) (by decide) (List.append_cancel_left h2)
  exact ⟨rfl, h3⟩

theorem Complaint.text_inj {c d : Complaint} (h : c.text = d.text) : c = d := by
  have ht : c.tag = d.tag := complaintHead_inj _ _ (by rw [← text_head, ← text_head, h])
  cases c <;> cases d <;> first | rfl | (simp [Complaint.tag] at ht; done) | skip
  · rw [List.append_cancel_right (List.append_cancel_left h)]
  · obtain ⟨h1, h2⟩ := argCountText_inj h
    rw [h1, h2]
  · rw [calledText_inj (List.append_cancel_left h)]
  · rw [calledText_inj (List.append_cancel_left h)]

theorem Compile.error_text {r : Compile} {t : List Char} {c : Complaint} (h : r.error = some (t, c)) : t = c.text := by
  cases r <;> cases h
  · exact ConvErr.text_complaint _
  · exact RErr.text_complaint _
  · exact TErr.text_complaint _

/-- **C66** (wording). What is printed for an error is the wording of the complaint. -/
theorem C66_wording {r : Compile} {t : List Char} {c : Complaint} (h : r.error = some (t, c)) : t = c.text := Compile.error_text h

/-- **C66.** The message of a failed compilation tells what is wrong: whatever the two programs are and whichever stages reject
them, if the messages are the same then so are the kind of the error and the name, index or numbers it is about. -/
theorem C66_message_unambiguous {cas cas' : Casing} {fuel fuel' : Nat} {s s' : Stmt} {t : List Char} {c c' : Complaint}
    (h : (compile cas fuel s).error = some (t, c)) (h' : (compile cas' fuel' s').error = some (t, c')) : c = c' :=
  Complaint.text_inj (by rw [← Compile.error_text h, ← Compile.error_text h'])

/-- A part of a closed expression that is not below a fix point of a function with several parameters has only the variables of the
fix points around it. -/
theorem Part.closed {e : NE} (hc : e.erase.closed 0) (h1 : ∀ d i j as b, Part e d (.fix i (.lam j as b)) → as.length ≤ 1) :
    ∀ d x, Part e d x → x.erase.closed d := by
  intro d x h
  induction h with
  | whole => exact hc
  | cat d i f r x _ hx ih =>
    simp only [NE.erase, Core.closed, NE.eraseP_map, Core.closedL_iff] at ih
    refine ih _ ?_
    rcases List.mem_cons.1 hx with rfl | hx
    · exact List.mem_cons_self
    · obtain ⟨p, hp, rfl⟩ := List.mem_map.1 hx
      exact List.mem_cons_of_mem _ (List.mem_map.2 ⟨p, hp, rfl⟩)
  | alt d i f r x _ hx ih =>
    simp only [NE.erase, Core.closed, NE.eraseP_map, Core.closedL_iff] at ih
    refine ih _ ?_
    rcases List.mem_cons.1 hx with rfl | hx
    · exact List.mem_cons_self
    · obtain ⟨p, hp, rfl⟩ := List.mem_map.1 hx
      exact List.mem_cons_of_mem _ (List.mem_map.2 ⟨p, hp, rfl⟩)
  | fix d i j as b hp ih =>
    simp only [NE.erase, Core.closed] at ih
    have := Core.closed_sub _ _ (d + 1) Core.var (fun k hk => by
      have := h1 _ _ _ _ _ hp
      show k < d + 1
      omega) ih
    rwa [Core.sub_var] at this

theorem Part.settled {e : NE} (hs : e.erase.settled) : ∀ d x, Part e d x → x.erase.settled := by
  intro d x h
  induction h with
  | whole => exact hs
  | cat d i f r x _ hx ih =>
    simp only [NE.erase, Core.settled, NE.eraseP_map, Core.settledL_iff] at ih
    refine ih _ ?_
    rcases List.mem_cons.1 hx with rfl | hx
    · exact List.mem_cons_self
    · obtain ⟨p, hp, rfl⟩ := List.mem_map.1 hx
      exact List.mem_cons_of_mem _ (List.mem_map.2 ⟨p, hp, rfl⟩)
  | alt d i f r x _ hx ih =>
    simp only [NE.erase, Core.settled, NE.eraseP_map, Core.settledL_iff] at ih
    refine ih _ ?_
    rcases List.mem_cons.1 hx with rfl | hx
    · exact List.mem_cons_self
    · obtain ⟨p, hp, rfl⟩ := List.mem_map.1 hx
      exact List.mem_cons_of_mem _ (List.mem_map.2 ⟨p, hp, rfl⟩)
  | fix d i j as b _ ih => simpa only [NE.erase, Core.settled] using ih

/-- The stages before an error. -/
theorem compile_reduce {cas : Casing} {fuel : Nat} {s : Stmt} {x : RErr} (h : compile cas fuel s = .reduce x) :
    ∃ e c, convStmt s [] = some (.ok e, c) ∧ reduce fuel e = .err x := by
  unfold compile at h
  split at h
  · cases h
  · cases h
  · rename_i e c hc
    refine ⟨e, c, hc, ?_⟩
    split at h
    · cases h; assumption
    · cases h
    · cases h
    · split at h
      · cases h
      · cases h
      · cases h
      · split at h
        · cases h
        · split at h <;> cases h

theorem compile_typing {cas : Casing} {fuel : Nat} {s : Stmt} {x : TErr} (h : compile cas fuel s = .typing x) :
    ∃ e c e', convStmt s [] = some (.ok e, c) ∧ reduce fuel e = .ok e' ∧ (inferTop fuel e' ⟨[], []⟩).1 = .err x := by
  unfold compile at h
  split at h
  · cases h
  · cases h
  · rename_i e c hc
    split at h
    · cases h
    · cases h
    · cases h
    · rename_i e' hr
      refine ⟨e, c, e', hc, hr, ?_⟩
      split at h
      · cases h; assumption
      · cases h
      · cases h
      · split at h
        · cases h
        · split at h <;> cases h

theorem argCountText_words {m k : Nat} (h : m ≠ k) : argCountText m k = callWords m k := by
  have hn (n : Nat) : (toString n).toList = showNat n := by
    show (Nat.repr n).toList = _
    simp [Nat.repr, showNat]
  unfold argCountText callWords
  rw [hn, hn]
  have h1 : showNat 1 = ['1'] := rfl
  split
  · rename_i hm; subst hm
    rw [if_neg (fun hk => h hk.symm), h1]
    simp
  · split
    · rename_i hk; subst hk
      simp [h1]
    · simp

theorem RErr.text_count (i : Info) (ps : List Name) (b : NE) (args : List NE) (sp : Nat) :
    (RErr.wrongArgCount (.lam i ps b) args sp).text = argCountText ps.length args.length := rfl

/-- **C66** (the numbers are right). If a program is rejected because of a call, then evaluating it — contracting calls and lets, in
any order — one can arrive at a call that has to be evaluated and cannot be: of something that is not a function, if the message
says so; of a function of `m` parameters with `k` arguments if it says `m` and `k`, and then `m` and `k` differ. -/
theorem C66_call_message_true {cas : Casing} {fuel : Nat} {s : Stmt} {x : RErr} (h : compile cas fuel s = .reduce x) :
    ∃ e cx e1 on args, convStmt s [] = some (.ok e, cx) ∧ Core.Steps e.erase e1 ∧ Core.Active (.call on args) e1 ∧
      ((x.text = "call expected a function".toList ∧ (∀ m b, on ≠ .lam m b) ∧ (Core.call on args).stuckCall) ∨
       ∃ m b, on = .lam m b ∧ m ≠ args.length ∧ x.text = callWords m args.length) := by
  obtain ⟨e, cx, hc, hr⟩ := compile_reduce h
  obtain ⟨e1, c, h1, h2, h3, h4⟩ := C59_error_culprit _ _ _ hr
  cases x with
  | callNotAFunction on sp =>
    obtain ⟨hl, args, rfl⟩ := h4
    refine ⟨e, cx, e1, on.erase, args, hc, h1, h2, .inl ⟨rfl, ?_, h3⟩⟩
    intro m b hb
    cases on <;> cases hb
    exact hl _ _ _ rfl
  | wrongArgCount l args sp =>
    obtain ⟨⟨i, ps, b, hl, hn⟩, hcc⟩ := h4
    subst hl; subst hcc
    exact ⟨e, cx, e1, _, _, hc, h1, h2, .inr ⟨ps.length, b.erase, rfl, by rw [List.length_map]; exact hn,
      by rw [List.length_map, RErr.text_count i ps b args sp]; exact argCountText_words hn⟩⟩

/-- When a parsed program can be the cause of a complaint. -/
def Complaint.Possible (fuel : Nat) (s : Stmt) : Complaint → Prop
  | .undeclared n => ∃ p i l, flatStmt s = some p ∧ p.free [] = i :: l ∧ n = (if i.raw then "r#".toList else []) ++ i.sym.toList
  | .emptyCat | .emptyAlt | .emptyCall | .unexpectedCall | .unexpectedLet => False
  | .argCount m k => m ≠ k
  | .unbound _ => ∃ e cx e' d i j as b, convStmt s [] = some (.ok e, cx) ∧ reduce fuel e = .ok e' ∧
      Part e' d (.fix i (.lam j as b)) ∧ 2 ≤ as.length
  | _ => True

/-- **C66** (what can be complained about). The messages that a parsed program can cause: an undeclared name is the first identifier of
the program that is not declared where it is used; two numbers of arguments differ; no message is about an empty concatenation,
alternation or call, an unexpected call or an unexpected let; and an unbound variable is reported only below a fix point of a function
of several parameters (of which only one is bound, C29). -/
theorem C66_possible_messages (cas : Casing) (fuel : Nat) (ts : List Tok) (s : Stmt) (hs : parseProgram ts = .ok s) (t : List Char)
    (c : Complaint) (h : (compile cas fuel s).error = some (t, c)) :
    c.Possible fuel s := by
  cases hc : compile cas fuel s with
  | convert x =>
    rw [hc] at h
    obtain ⟨p, i, l, h1, h2, rfl⟩ := C43_parsed_errors cas fuel ts s hs x hc
    cases h
    refine ⟨p, i, l, h1, h2, ?_⟩
    obtain ⟨raw, sym, sp⟩ := i
    cases raw <;> rfl
  | reduce x =>
    rw [hc] at h
    obtain ⟨e, cx, -, hr⟩ := compile_reduce hc
    rcases C17_reduce_errors _ _ _ hr with ⟨on, sp, rfl, -⟩ | ⟨i, ps, b, args, sp, rfl, hn⟩
    · cases h; trivial
    · cases h; exact hn
  | typing x =>
    rw [hc] at h
    obtain ⟨e, cx, e', h1, h2, h3⟩ := compile_typing hc
    have hf := C58_form_errors _ _ _ _ h3
    have hset := Part.settled (C18_reduced_settled _ _ _ h2)
    cases x with
    | «variable» err k sp nm =>
      cases err with
      | guarded => cases h; trivial
      | free =>
        cases h
        refine Classical.byContradiction fun hno => ?_
        have hcl := Part.closed (C19_reduce_closed _ 0 _ _ h2 (C12_program_closed s cx e h1)) (fun d i j as b hp => by
          rcases Nat.lt_or_ge as.length 2 with hl | hl
          · omega
          · exact absurd ⟨e, cx, e', d, i, j, as, b, h1, h2, hp, hl⟩ hno)
        obtain ⟨d, i, hp, -, hk⟩ := hf
        have := hcl _ _ hp
        simp only [NE.erase, Core.closed] at this
        simp at hk
        omega
    | unexpectedCall sp =>
      obtain ⟨d, i, f, as, hp, -⟩ := hf
      exact absurd (hset _ _ hp) (by simp [NE.erase, Core.settled])
    | unexpectedLet sp =>
      obtain ⟨d, i, y, v, b, hp, -⟩ := hf
      exact absurd (hset _ _ hp) (by simp [NE.erase, Core.settled])
    | _ => cases h; trivial
  | _ => rw [hc] at h; cases h

/-! ## Examples -/

private def tid (s : String) : Ident := ⟨false, s, 0⟩
private def talt (l : List Call) : Alt := .mk 0 [(.mk 0 (.mk 0 (l.map fun c => (c, 0))) none, 0)]
private def tv (s : String) : Term := .ident (tid s)
private def tl (s : String) : Term := .lit 0 s.toList
private def tcall (l : List Term) : Alt := talt [.mk 0 l]
private def tgoal (l : List Term) : Stmt := .goal 0 (.alt (tcall l))
private def tcas : Casing := ⟨some, some⟩

/-- `let f x y = x . y; match f "a";` -/
example : (compile tcas 20 (.letS 0 (tid "f") [tid "x", tid "y"] (.alt (talt [.mk 0 [tv "x"], .mk 0 [tv "y"]])) (tgoal [tv "f", tl "a"]))).error =
    some ("this function takes 2 arguments but 1 was supplied".toList, .argCount 2 1) := by decide +kernel

/-- `let f x = x; match f "a" "b" "c";` -/
example : (compile tcas 20 (.letS 0 (tid "f") [tid "x"] (.alt (tcall [tv "x"])) (tgoal [tv "f", tl "a", tl "b", tl "c"]))).error =
    some ("this function takes 1 argument but 3 were supplied".toList, .argCount 1 3) := by decide +kernel

/-- `match y;` -/
example : (compile tcas 20 (tgoal [tv "y"])).error = some ("undeclared name: `y`".toList, .undeclared ['y']) := by decide +kernel

/-- `match !(/x y/ "a" . x);`: the one case in which a variable is called unbound. -/
example : (compile tcas 20 (tgoal [.fix 0 (.parens (.lam 0 [tid "x", tid "y"] (talt [.mk 0 [tl "a"], .mk 0 [tv "x"]])))])).error =
    some ("unbound variable: `x`".toList, .unbound (.inl ['x'])) := by decide +kernel

/-- **C66** (the name may be another). `let f = !(/x/ x); match f;`: the variable that is used too early is `x`, the message calls it
`f`. -/
theorem C66_guarded_name_counterexample : (compile tcas 20 (.letS 0 (tid "f") [] (.alt (tcall
      [.fix 0 (.parens (.lam 0 [tid "x"] (tcall [tv "x"])))])) (tgoal [tv "f"]))).error =
    some ("usage of guarded variable: `f`".toList, .guarded (.inl ['f'])) := by decide +kernel

end Chomp
