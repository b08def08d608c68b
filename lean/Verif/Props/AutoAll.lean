import Verif.Props.Auto
import Verif.Props.Alpha
import Verif.Props.Replace

/-!
# C90: what can be said in autonibble

The grammar of autonibble knows fewer identifiers than Rust does, no empty literals, and wants white space where Rust needs none.  Still
every program whose names autonibble can spell and whose literals are not empty can be laid out such that autonibble accepts it, and
every program at all has an equivalent one that autonibble accepts.
-/

namespace Chomp

/-! ## Specification -/

/-- An identifier that autonibble can spell: ASCII letters, digits and underscores, a letter first. -/
def Ident.Spelled (i : Ident) : Prop :=
  i.raw = false ∧ ∃ c r, i.sym.toList = c :: r ∧ c ∈ startChars ∧ ∀ d ∈ r, d ∈ startChars ∨ d ∈ otherChars

mutual
/-- All identifiers satisfy `P`, all literals `Q`. -/
def Term.Every (P : Ident → Prop) (Q : List Char → Prop) : Term → Prop
  | .eps _ => True
  | .ident i => P i
  | .lit _ s => Q s
  | .fix _ t => t.Every P Q
  | .parens e => e.Every P Q
def Call.Every (P : Ident → Prop) (Q : List Char → Prop) : Call → Prop
  | .mk _ l => Term.EveryL P Q l
def Term.EveryL (P : Ident → Prop) (Q : List Char → Prop) : List Term → Prop
  | [] => True
  | t :: l => t.Every P Q ∧ Term.EveryL P Q l
def Cat.Every (P : Ident → Prop) (Q : List Char → Prop) : Cat → Prop
  | .mk _ l => Call.EveryL P Q l
def Call.EveryL (P : Ident → Prop) (Q : List Char → Prop) : List (Call × Nat) → Prop
  | [] => True
  | (x, _) :: l => x.Every P Q ∧ Call.EveryL P Q l
def Labelled.Every (P : Ident → Prop) (Q : List Char → Prop) : Labelled → Prop
  | .mk _ cat label => cat.Every P Q ∧ ∀ i ∈ label, P i
def Alt.Every (P : Ident → Prop) (Q : List Char → Prop) : Alt → Prop
  | .mk _ l => Labelled.EveryL P Q l
def Labelled.EveryL (P : Ident → Prop) (Q : List Char → Prop) : List (Labelled × Nat) → Prop
  | [] => True
  | (x, _) :: l => x.Every P Q ∧ Labelled.EveryL P Q l
def Expr.Every (P : Ident → Prop) (Q : List Char → Prop) : Expr → Prop
  | .alt a => a.Every P Q
  | .lam _ args body => (∀ i ∈ args, P i) ∧ body.Every P Q
end

/-- All identifiers of a program satisfy `P`, all literals `Q`. -/
def Stmt.Every (P : Ident → Prop) (Q : List Char → Prop) : Stmt → Prop
  | .goal _ e => e.Every P Q
  | .letS _ x args e next => P x ∧ (∀ i ∈ args, P i) ∧ e.Every P Q ∧ next.Every P Q

/-- A program that autonibble can spell. -/
def Stmt.Sayable (s : Stmt) : Prop := s.Every Ident.Spelled (· ≠ [])

/-! ## Layout -/

theorem Pick.of_mem {cs : List Char} {c : Char} (h : c ∈ cs) : ∃ k : Pick cs, k.char = c := by
  obtain ⟨n, hn, rfl⟩ := List.getElem_of_mem h
  exact ⟨⟨n, hn⟩, rfl⟩

theorem Pick.char_mem {cs : List Char} (k : Pick cs) : k.char ∈ cs := List.getElem_mem _

/-- A blank. -/
def blank : Pick wsChars := ⟨5, by decide⟩

theorem Ident.Spelled.ident {i : Ident} (h : i.Spelled) (h0 : i.span = 0) : ∃ u : UIdent, u.ident = i := by
  obtain ⟨hr, c, r, hs, hc, hr'⟩ := h
  obtain ⟨k, hk⟩ := Pick.of_mem hc
  have : ∃ l : List UCont, l.map UCont.char = r := by
    clear hs
    induction r with
    | nil => exact ⟨[], rfl⟩
    | cons d r ih =>
      obtain ⟨l, hl⟩ := ih fun x hx => hr' x (List.mem_cons_of_mem _ hx)
      rcases hr' d (List.mem_cons_self ..) with hd | hd
      · obtain ⟨k, hk⟩ := Pick.of_mem hd
        exact ⟨.start k :: l, by simp [UCont.char, hk, hl]⟩
      · obtain ⟨k, hk⟩ := Pick.of_mem hd
        exact ⟨.other k :: l, by simp [UCont.char, hk, hl]⟩
  obtain ⟨l, hl⟩ := this
  refine ⟨⟨k, l⟩, ?_⟩
  obtain ⟨raw, sym, span⟩ := i
  subst hr h0
  simp only [UIdent.ident, UIdent.text, hk, hl, ← hs, String.ofList_toList]

theorem UIdent.spelled (u : UIdent) : u.ident.Spelled := by
  refine ⟨rfl, u.first.char, u.rest.map UCont.char, by simp [UIdent.ident, UIdent.text], u.first.char_mem, ?_⟩
  intro d hd
  obtain ⟨c, _, rfl⟩ := List.mem_map.1 hd
  cases c with
  | start k => exact .inl k.char_mem
  | other k => exact .inr k.char_mem

/-- The hexadecimal digit of a number. -/
def digitPick (n : Nat) : Pick hexChars := ⟨n % 16, by have : hexChars.length = 22 := rfl; omega⟩

theorem hexVal16_digitPick (n : Nat) : hexVal16 (digitPick n) = n % 16 := by
  have : n % 16 < 16 := by omega
  simp [hexVal16, digitPick, this]

/-- Every character can be written with an escape. -/
theorem UChar.ofChar (c : Char) : ∃ u : UChar, u.denotes = some c := by
  have hv : c.toNat.isValidChar := c.valid
  have hlt : c.toNat < 0x110000 := by
    unfold Nat.isValidChar at hv
    omega
  refine ⟨.unicode (digitPick (c.toNat / 16 ^ 5)) [digitPick (c.toNat / 16 ^ 4), digitPick (c.toNat / 16 ^ 3), digitPick (c.toNat / 16 ^ 2),
    digitPick (c.toNat / 16), digitPick c.toNat] (by simp), ?_⟩
  have : hexNum [digitPick (c.toNat / 16 ^ 5), digitPick (c.toNat / 16 ^ 4), digitPick (c.toNat / 16 ^ 3), digitPick (c.toNat / 16 ^ 2),
      digitPick (c.toNat / 16), digitPick c.toNat] = c.toNat := by
    simp only [hexNum, List.foldl_cons, List.foldl_nil, hexVal16_digitPick]
    omega
  rw [UChar.denotes, this, if_pos hv, Char.ofNat_toNat]

theorem UChar.ofChars : ∀ s : List Char, ∃ l : List UChar, l.map UChar.val = s ∧ l.all (fun c => c.denotes.isSome) = true
  | [] => ⟨[], rfl, rfl⟩
  | c :: s => by
    obtain ⟨u, hu⟩ := UChar.ofChar c
    obtain ⟨l, h1, h2⟩ := UChar.ofChars s
    exact ⟨u :: l, by simp [UChar.val, hu, h1], by simp [hu, h2]⟩

theorem UNames.ofIdents : ∀ l : List Ident, l ≠ [] → (∀ i ∈ l, i.Spelled) → (∀ i ∈ l, i.span = 0) → ∃ u : UNames, u.idents = l
  | [], h, _, _ => (h rfl).elim
  | [i], _, h1, h2 => by
    obtain ⟨u, hu⟩ := (h1 i (by simp)).ident (h2 i (by simp))
    exact ⟨.one u, by simp [UNames.idents, hu]⟩
  | i :: j :: l, _, h1, h2 => by
    obtain ⟨u, hu⟩ := (h1 i (by simp)).ident (h2 i (by simp))
    obtain ⟨v, hv⟩ := UNames.ofIdents (j :: l) (by simp) (fun x hx => h1 x (List.mem_cons_of_mem _ hx))
      fun x hx => h2 x (List.mem_cons_of_mem _ hx)
    exact ⟨.more u blank [] v, by simp [UNames.idents, hu, hv]⟩

theorem UNames.spelled : ∀ u : UNames, ∀ i ∈ u.idents, i.Spelled
  | .one u, i, h => by
    simp only [UNames.idents, List.mem_singleton] at h
    exact h ▸ u.spelled
  | .trail u _ _, i, h => by
    simp only [UNames.idents, List.mem_singleton] at h
    exact h ▸ u.spelled
  | .more u _ _ r, i, h => by
    simp only [UNames.idents, List.mem_cons] at h
    rcases h with h | h
    · exact h ▸ u.spelled
    · exact UNames.spelled r i h

mutual
theorem Term.layout : ∀ t : Term, t.wf → t.Every Ident.Spelled (· ≠ []) → ∃ u : UTerm, u.term = t ∧ u.ok = true
  | .eps sp, h, _ => ⟨.eps, by cases (show sp = 0 from h); rfl, rfl⟩
  | .ident i, h, h' => by
    obtain ⟨u, hu⟩ := Ident.Spelled.ident h' h.2
    exact ⟨.var u, by rw [UTerm.term, hu], rfl⟩
  | .lit sp [], _, h' => (h' rfl).elim
  | .lit sp (c :: s), h, _ => by
    cases (show sp = 0 from h)
    obtain ⟨u, hu⟩ := UChar.ofChar c
    obtain ⟨l, h1, h2⟩ := UChar.ofChars s
    exact ⟨.lit u l, by simp [UTerm.term, UChar.val, hu, h1], by simp [UTerm.ok, hu]; simpa using h2⟩
  | .fix sp t, h, h' => by
    obtain ⟨h1, h2⟩ := h
    subst h1
    obtain ⟨u, hu, ho⟩ := Term.layout t h2 h'
    exact ⟨.fix [] u, by rw [UTerm.term, hu], ho⟩
  | .parens e, h, h' => by
    obtain ⟨u, hu, ho⟩ := Expr.layout e h h'
    exact ⟨.parens [] u, by rw [UTerm.term, hu], ho⟩
theorem Call.layout : ∀ x : Call, x.wf → x.Every Ident.Spelled (· ≠ []) → ∃ u : UCall, .mk 0 u.terms = x ∧ u.ok = true
  | .mk sp l, h, h' => by
    obtain ⟨h1, h2, h3⟩ := h
    subst h1
    obtain ⟨u, hu, ho⟩ := Term.layoutL l h2 h3 h'
    exact ⟨u, by rw [hu], ho⟩
theorem Term.layoutL : ∀ l : List Term, l ≠ [] → Term.wfL l → Term.EveryL Ident.Spelled (· ≠ []) l → ∃ u : UCall, u.terms = l ∧ u.ok = true
  | [], h, _, _ => (h rfl).elim
  | [t], _, h, h' => by
    obtain ⟨u, hu, ho⟩ := Term.layout t h.1 h'.1
    exact ⟨.one u, by rw [UCall.terms, hu], ho⟩
  | t :: t' :: l, _, h, h' => by
    obtain ⟨u, hu, ho⟩ := Term.layout t h.1 h'.1
    obtain ⟨v, hv, ho'⟩ := Term.layoutL (t' :: l) (by simp) h.2 h'.2
    exact ⟨.more u blank [] v, by rw [UCall.terms, hu, hv], by rw [UCall.ok, ho, ho']; rfl⟩
theorem Call.layoutL : ∀ l : List (Call × Nat), l ≠ [] → Call.wfL l → Call.EveryL Ident.Spelled (· ≠ []) l →
    ∃ u : UCat, u.calls = l ∧ u.ok = true
  | [], h, _, _ => (h rfl).elim
  | [(t, sp)], _, h, h' => by
    obtain ⟨h1, h2, _⟩ := h
    subst h2
    obtain ⟨u, hu, ho⟩ := Call.layout t h1 h'.1
    exact ⟨.one u, by rw [UCat.calls, hu], ho⟩
  | (t, sp) :: t' :: l, _, h, h' => by
    obtain ⟨h1, h2, h3⟩ := h
    subst h2
    obtain ⟨u, hu, ho⟩ := Call.layout t h1 h'.1
    obtain ⟨v, hv, ho'⟩ := Call.layoutL (t' :: l) (by simp) h3 h'.2
    exact ⟨.more u [] v, by rw [UCat.calls, hu, hv], by rw [UCat.ok, ho, ho']; rfl⟩
theorem Cat.layout : ∀ x : Cat, x.wf → x.Every Ident.Spelled (· ≠ []) → ∃ u : UCat, .mk 0 u.calls = x ∧ u.ok = true
  | .mk sp l, h, h' => by
    obtain ⟨h1, h2, h3⟩ := h
    subst h1
    obtain ⟨u, hu, ho⟩ := Call.layoutL l h2 h3 h'
    exact ⟨u, by rw [hu], ho⟩
theorem Labelled.layout : ∀ x : Labelled, x.wf → x.Every Ident.Spelled (· ≠ []) → ∃ u : ULabelled, u.labelled = x ∧ u.ok = true
  | .mk sp cat label, h, h' => by
    obtain ⟨h1, h2, h3⟩ := h
    subst h1
    obtain ⟨u, hu, ho⟩ := Cat.layout cat h2 h'.1
    cases label with
    | none => exact ⟨.plain u, by rw [ULabelled.labelled, hu], ho⟩
    | some i =>
      obtain ⟨v, hv⟩ := (h'.2 i rfl).ident (h3 i rfl)
      exact ⟨.label u [] v [], by rw [ULabelled.labelled, hu, hv], ho⟩
theorem Labelled.layoutL : ∀ l : List (Labelled × Nat), l ≠ [] → Labelled.wfL l → Labelled.EveryL Ident.Spelled (· ≠ []) l →
    ∃ u : UAlt, u.labelleds = l ∧ u.ok = true
  | [], h, _, _ => (h rfl).elim
  | [(t, sp)], _, h, h' => by
    obtain ⟨h1, h2, _⟩ := h
    subst h2
    obtain ⟨u, hu, ho⟩ := Labelled.layout t h1 h'.1
    exact ⟨.one u, by rw [UAlt.labelleds, hu], ho⟩
  | (t, sp) :: t' :: l, _, h, h' => by
    obtain ⟨h1, h2, h3⟩ := h
    subst h2
    obtain ⟨u, hu, ho⟩ := Labelled.layout t h1 h'.1
    obtain ⟨v, hv, ho'⟩ := Labelled.layoutL (t' :: l) (by simp) h3 h'.2
    exact ⟨.more u [] v, by rw [UAlt.labelleds, hu, hv], by rw [UAlt.ok, ho, ho']; rfl⟩
theorem Alt.layout : ∀ x : Alt, x.wf → x.Every Ident.Spelled (· ≠ []) → ∃ u : UAlt, .mk 0 u.labelleds = x ∧ u.ok = true
  | .mk sp l, h, h' => by
    obtain ⟨h1, h2, h3⟩ := h
    subst h1
    obtain ⟨u, hu, ho⟩ := Labelled.layoutL l h2 h3 h'
    exact ⟨u, by rw [hu], ho⟩
theorem Expr.layout : ∀ x : Expr, x.wf → x.Every Ident.Spelled (· ≠ []) → ∃ u : UExpr, u.expr = x ∧ u.ok = true
  | .alt a, h, h' => by
    obtain ⟨u, hu, ho⟩ := Alt.layout a h h'
    exact ⟨.alt u, by rw [UExpr.expr, hu], ho⟩
  | .lam sp args body, h, h' => by
    obtain ⟨h1, h2, h3, h4⟩ := h
    subst h1
    obtain ⟨u, hu, ho⟩ := Alt.layout body h4 h'.2
    obtain ⟨v, hv⟩ := UNames.ofIdents args h2 h'.1 fun i hi => (h3 i hi).2
    exact ⟨.lam [] v [] u, by rw [UExpr.expr, hu, hv], ho⟩
end

theorem Stmt.layout : ∀ s : Stmt, s.wf → s.Sayable → ∃ u : UStmt, u.abs = s ∧ u.ok = true
  | .goal sp e, h, h' => by
    obtain ⟨h1, h2⟩ := h
    subst h1
    obtain ⟨u, hu, ho⟩ := Expr.layout e h2 h'
    exact ⟨.goal blank [] u [], by rw [UStmt.abs, hu], ho⟩
  | .letS sp x args e next, h, h' => by
    obtain ⟨h1, h2, h3, h4, h5⟩ := h
    obtain ⟨k1, k2, k3, k4⟩ := h'
    subst h1
    obtain ⟨u, hu, ho⟩ := Expr.layout e h4 k3
    obtain ⟨v, hv, ho'⟩ := Stmt.layout next h5 k4
    obtain ⟨w, hw⟩ := UNames.ofIdents (x :: args) (by simp) (by simpa using ⟨k1, k2⟩) (by
      intro i hi
      rcases List.mem_cons.1 hi with rfl | hi
      · exact h2
      · exact (h3 i hi).2)
    exact ⟨.letS blank [] w [] u [] v, by rw [UStmt.abs, hu, hv, hw]; rfl, by rw [UStmt.ok, ho, ho']; rfl⟩

/-! ## What the grammar knows -/

mutual
theorem UTerm.every : ∀ u : UTerm, u.term.Every Ident.Spelled (· ≠ [])
  | .eps => trivial
  | .lit c r => by rw [UTerm.term]; exact List.cons_ne_nil _ _
  | .parens _ e => e.every
  | .fix _ t => t.every
  | .var i => i.spelled
theorem UCall.every : ∀ u : UCall, Term.EveryL Ident.Spelled (· ≠ []) u.terms
  | .one t => ⟨t.every, trivial⟩
  | .trail t _ _ => ⟨t.every, trivial⟩
  | .more t _ _ r => ⟨t.every, r.every⟩
theorem UCat.every : ∀ u : UCat, Call.EveryL Ident.Spelled (· ≠ []) u.calls
  | .one t => ⟨t.every, trivial⟩
  | .more t _ r => ⟨t.every, r.every⟩
theorem ULabelled.every : ∀ u : ULabelled, u.labelled.Every Ident.Spelled (· ≠ [])
  | .plain t => ⟨t.every, fun i hi => by cases hi⟩
  | .label t _ i _ => ⟨t.every, fun j hj => by cases hj; exact i.spelled⟩
theorem UAlt.every : ∀ u : UAlt, Labelled.EveryL Ident.Spelled (· ≠ []) u.labelleds
  | .one t => ⟨t.every, trivial⟩
  | .more t _ r => ⟨t.every, r.every⟩
theorem UExpr.every : ∀ u : UExpr, u.expr.Every Ident.Spelled (· ≠ [])
  | .alt a => a.every
  | .lam _ args _ a => ⟨args.spelled, a.every⟩
end

theorem UNames.idents_cons : ∀ u : UNames, ∃ i l, u.idents = i :: l
  | .one _ => ⟨_, _, rfl⟩
  | .trail _ _ _ => ⟨_, _, rfl⟩
  | .more _ _ _ _ => ⟨_, _, rfl⟩

theorem UStmt.sayable : ∀ u : UStmt, u.abs.Sayable
  | .goal _ _ e _ => e.every
  | .letS _ _ names _ e _ next => by
    obtain ⟨i, l, hn⟩ := names.idents_cons
    have hs := names.spelled
    rw [UStmt.abs]
    rw [hn] at hs ⊢
    exact ⟨hs i (by simp), fun j hj => hs j (List.mem_cons_of_mem _ hj), e.every, next.sayable⟩

/-! ## Statements -/

/-- **C90** (layout). A program, as a list of tokens that chomp parses, can be written as a text that autonibble accepts, exactly if its
identifiers consist of ASCII letters, digits and underscores, a letter first, and its literals are not empty. -/
theorem C90_layout {st : BState} (h : Generates autoToks st) {ts : List Tok} {s : Stmt} (hs : parseProgram ts = .ok s) :
    (∃ text t, Parses st 0 text (.ok t) ∧ lex text = .ok ts) ↔ s.Sayable := by
  obtain ⟨h1, h2⟩ := C14_print_parse ts s hs
  constructor
  · rintro ⟨text, t, ht, hl⟩
    obtain ⟨p, rfl, rfl⟩ := (auto_parses h _ _).1 ht
    rw [lex_prog] at hl
    split at hl
    · cases hl
      rw [parse_uprog hs]
      exact p.stmt.sayable
    · cases hl
  · intro hsay
    obtain ⟨u, hu, ho⟩ := s.layout h2 hsay
    refine ⟨(⟨[], u⟩ : UProg).text, _, (auto_parses h _ _).2 ⟨_, rfl, rfl⟩, ?_⟩
    rw [lex_prog]
    show (if u.ok = true then _ else _) = _
    rw [if_pos ho]
    show Except.ok u.abs.toks = _
    rw [hu, h1]

/-! ## Spelling names differently -/

/-- Texts in two letters, one for each sequence of characters: every character is as many `p` as its number, and a `q`. -/
def spellChars (s : List Char) : List Char := s.flatMap fun c => List.replicate c.toNat 'p' ++ ['q']

/-- A name that autonibble can spell, a different one for each name. -/
def Ident.spell (i : Ident) : Ident := ⟨false, String.ofList ((if i.raw then 'p' else 'q') :: spellChars i.sym.toList), 0⟩

theorem replicate_sep : ∀ {n m : Nat} {x y : List Char}, List.replicate n 'p' ++ 'q' :: x = List.replicate m 'p' ++ 'q' :: y → n = m ∧ x = y
  | 0, 0, _, _, h => ⟨rfl, (List.cons.inj h).2⟩
  | 0, m + 1, _, _, h => by
    rw [List.replicate_succ] at h
    cases (List.cons.inj h).1
  | n + 1, 0, _, _, h => by
    rw [List.replicate_succ] at h
    cases (List.cons.inj h).1
  | n + 1, m + 1, x, y, h => by
    rw [List.replicate_succ, List.replicate_succ] at h
    obtain ⟨h1, h2⟩ := replicate_sep (List.cons.inj h).2
    exact ⟨by rw [h1], h2⟩

theorem spellChars_inj : ∀ {a b : List Char}, spellChars a = spellChars b → a = b
  | [], [], _ => rfl
  | [], c :: b, h => by simp [spellChars] at h
  | c :: a, [], h => by simp [spellChars] at h
  | c :: a, d :: b, h => by
    simp only [spellChars, List.flatMap_cons, List.append_assoc, List.singleton_append] at h
    obtain ⟨h1, h2⟩ := replicate_sep h
    rw [Char.toNat_inj.1 h1, spellChars_inj h2]

theorem spellChars_mem {s : List Char} {c : Char} (h : c ∈ spellChars s) : c = 'p' ∨ c = 'q' := by
  unfold spellChars at h
  obtain ⟨d, _, h⟩ := List.mem_flatMap.1 h
  rcases List.mem_append.1 h with h | h
  · exact .inl (List.mem_replicate.1 h).2
  · exact .inr (List.mem_singleton.1 h)

theorem Ident.spell_mem (i : Ident) {c : Char} (h : c ∈ i.spell.sym.toList) : c = 'p' ∨ c = 'q' := by
  simp only [Ident.spell, String.toList_ofList, List.mem_cons] at h
  rcases h with rfl | h
  · split
    · exact .inl rfl
    · exact .inr rfl
  · exact spellChars_mem h

theorem Ident.spell_same (a b : Ident) : a.spell.Same b.spell ↔ a.Same b := by
  constructor
  · rintro ⟨_, h⟩
    have h := congrArg String.toList h
    simp only [Ident.spell, String.toList_ofList] at h
    obtain ⟨h1, h2⟩ := List.cons.inj h
    refine ⟨?_, String.toList_inj.1 (spellChars_inj h2)⟩
    cases ha : a.raw <;> cases hb : b.raw <;> simp [ha, hb] at h1 ⊢
  · rintro ⟨h1, h2⟩
    exact ⟨rfl, by simp only [Ident.spell, h1, h2]⟩

theorem Ident.spell_spelled (i : Ident) : i.spell.Spelled := by
  refine ⟨rfl, _, _, by simp only [Ident.spell, String.toList_ofList]; rfl, ?_, fun d hd => .inl ?_⟩
  · split <;> decide
  · rcases spellChars_mem hd with rfl | rfl <;> decide

theorem Ident.spell_not_keyword (i : Ident) : i.spell.sym ∉ keywords := by
  intro h
  have : ∀ k ∈ keywords, ∃ c ∈ k.toList, ¬ (c = 'p' ∨ c = 'q') := by decide
  obtain ⟨c, hc, hn⟩ := this _ h
  exact hn (i.spell_mem hc)

theorem Ident.spell_plain (i : Ident) : i.spell.plain := ⟨.inr i.spell_not_keyword, rfl⟩

mutual
/-- The program with other names, and with `_` for empty literals. -/
def Term.spell : Term → Term
  | .eps sp => .eps sp
  | .ident i => .ident i.spell
  | .lit sp s => if s = [] then .eps sp else .lit sp s
  | .fix sp t => .fix sp t.spell
  | .parens e => .parens e.spell
def Call.spell : Call → Call
  | .mk sp l => .mk sp (Term.spellL l)
def Term.spellL : List Term → List Term
  | [] => []
  | t :: l => t.spell :: Term.spellL l
def Cat.spell : Cat → Cat
  | .mk sp l => .mk sp (Call.spellL l)
def Call.spellL : List (Call × Nat) → List (Call × Nat)
  | [] => []
  | (x, sp) :: l => (x.spell, sp) :: Call.spellL l
def Labelled.spell : Labelled → Labelled
  | .mk sp cat label => .mk sp cat.spell (label.map Ident.spell)
def Alt.spell : Alt → Alt
  | .mk sp l => .mk sp (Labelled.spellL l)
def Labelled.spellL : List (Labelled × Nat) → List (Labelled × Nat)
  | [] => []
  | (x, sp) :: l => (x.spell, sp) :: Labelled.spellL l
def Expr.spell : Expr → Expr
  | .alt a => .alt a.spell
  | .lam sp args body => .lam sp (args.map Ident.spell) body.spell
end

/-- The same for programs. -/
def Stmt.spell : Stmt → Stmt
  | .goal sp e => .goal sp e.spell
  | .letS sp x args e next => .letS sp x.spell (args.map Ident.spell) e.spell next.spell

mutual
/-- The same for named expressions. -/
def NCore.spell : NCore → NCore
  | .eps => .eps
  | .lit s => if s = [] then .eps else .lit s
  | .cat l => .cat (NCore.spellL l)
  | .alt l => .alt (NCore.spellL l)
  | .fix b => .fix b.spell
  | .id i => .id i.spell
  | .call o a => .call o.spell (NCore.spellL a)
  | .lam ps b => .lam (ps.map Ident.spell) b.spell
  | .letE x b c => .letE x.spell b.spell c.spell
def NCore.spellL : List NCore → List NCore
  | [] => []
  | e :: l => e.spell :: NCore.spellL l
end

theorem NCore.spell_mkCall (e : NCore) (l : List NCore) : (NCore.mkCall e l).spell = NCore.mkCall e.spell (NCore.spellL l) := by
  cases l <;> rfl
theorem NCore.spell_mkCat (e : NCore) (l : List NCore) : (NCore.mkCat e l).spell = NCore.mkCat e.spell (NCore.spellL l) := by
  cases l <;> rfl
theorem NCore.spell_mkAlt (e : NCore) (l : List NCore) : (NCore.mkAlt e l).spell = NCore.mkAlt e.spell (NCore.spellL l) := by
  cases l <;> rfl
theorem NCore.spell_mkLam (ps : List Ident) (e : NCore) : (NCore.mkLam ps e).spell = NCore.mkLam (ps.map Ident.spell) e.spell := by
  cases ps <;> rfl

mutual
theorem Term.spell_ok : ∀ t : Term, @Term.wf ⟨[]⟩ t →
    t.spell.wf ∧ t.spell.Every Ident.Spelled (· ≠ []) ∧ flatTerm t.spell = (flatTerm t).map NCore.spell
  | .eps sp, h => ⟨h, trivial, rfl⟩
  | .ident i, _ => ⟨⟨.inr fun h => i.spell_not_keyword (by rw [h]; decide), rfl⟩, i.spell_spelled, rfl⟩
  | .lit sp s, h => by
    by_cases hs : s = []
    · simp only [Term.spell, hs, if_true]
      exact ⟨h, trivial, rfl⟩
    · simp only [Term.spell, if_neg hs]
      exact ⟨h, hs, by simp [flatTerm, NCore.spell, hs]⟩
  | .fix sp t, h => by
    obtain ⟨h1, h2, h3⟩ := Term.spell_ok t h.2
    exact ⟨⟨h.1, h1⟩, h2, by rw [Term.spell, flatTerm, h3, flatTerm]; cases flatTerm t <;> rfl⟩
  | .parens e, h => by
    obtain ⟨h1, h2, h3⟩ := Expr.spell_ok e h
    exact ⟨h1, h2, by rw [Term.spell, flatTerm, h3, flatTerm]⟩
theorem Call.spell_ok : ∀ t : Call, @Call.wf ⟨[]⟩ t →
    t.spell.wf ∧ t.spell.Every Ident.Spelled (· ≠ []) ∧ flatCall t.spell = (flatCall t).map NCore.spell
  | .mk sp [], h => (h.2.1 rfl).elim
  | .mk sp (t :: l), h => by
    obtain ⟨h1, h2, h3⟩ := Term.spell_ok t h.2.2.1
    obtain ⟨k1, k2, k3⟩ := Term.spellL_ok l h.2.2.2
    refine ⟨⟨h.1, by rw [Term.spellL]; simp, by rw [Term.spellL]; exact ⟨h1, k1⟩⟩, by rw [Call.spell, Term.spellL]; exact ⟨h2, k2⟩, ?_⟩
    rw [Call.spell, Term.spellL, flatCall, h3, k3, flatCall]
    cases flatTerm t <;> cases flatTerms l <;> simp [NCore.spell_mkCall]
theorem Term.spellL_ok : ∀ t : List Term, @Term.wfL ⟨[]⟩ t →
    Term.wfL (Term.spellL t) ∧ Term.EveryL Ident.Spelled (· ≠ []) (Term.spellL t) ∧ flatTerms (Term.spellL t) = (flatTerms t).map NCore.spellL
  | [], _ => ⟨trivial, trivial, rfl⟩
  | t :: l, h => by
    obtain ⟨h1, h2, h3⟩ := Term.spell_ok t h.1
    obtain ⟨k1, k2, k3⟩ := Term.spellL_ok l h.2
    refine ⟨⟨h1, k1⟩, ⟨h2, k2⟩, ?_⟩
    rw [Term.spellL, flatTerms, h3, k3, flatTerms]
    cases flatTerm t <;> cases flatTerms l <;> rfl
theorem Cat.spell_ok : ∀ t : Cat, @Cat.wf ⟨[]⟩ t →
    t.spell.wf ∧ t.spell.Every Ident.Spelled (· ≠ []) ∧ flatCat t.spell = (flatCat t).map NCore.spell
  | .mk sp [], h => (h.2.1 rfl).elim
  | .mk sp ((t, p) :: l), h => by
    obtain ⟨h1, h2, h3⟩ := Call.spell_ok t h.2.2.1
    obtain ⟨k1, k2, k3⟩ := Call.spellL_ok l h.2.2.2.2
    refine ⟨⟨h.1, by rw [Call.spellL]; simp, by rw [Call.spellL]; exact ⟨h1, h.2.2.2.1, k1⟩⟩,
      by rw [Cat.spell, Call.spellL]; exact ⟨h2, k2⟩, ?_⟩
    rw [Cat.spell, Call.spellL, flatCat, h3, k3, flatCat]
    cases flatCall t <;> cases flatCalls l <;> simp [NCore.spell_mkCat]
theorem Call.spellL_ok : ∀ t : List (Call × Nat), @Call.wfL ⟨[]⟩ t →
    Call.wfL (Call.spellL t) ∧ Call.EveryL Ident.Spelled (· ≠ []) (Call.spellL t) ∧ flatCalls (Call.spellL t) = (flatCalls t).map NCore.spellL
  | [], _ => ⟨trivial, trivial, rfl⟩
  | (t, p) :: l, h => by
    obtain ⟨h1, h2, h3⟩ := Call.spell_ok t h.1
    obtain ⟨k1, k2, k3⟩ := Call.spellL_ok l h.2.2
    refine ⟨⟨h1, h.2.1, k1⟩, ⟨h2, k2⟩, ?_⟩
    rw [Call.spellL, flatCalls, h3, k3, flatCalls]
    cases flatCall t <;> cases flatCalls l <;> rfl
theorem Labelled.spell_ok : ∀ t : Labelled, @Labelled.wf ⟨[]⟩ t →
    t.spell.wf ∧ t.spell.Every Ident.Spelled (· ≠ []) ∧ flatLabelled t.spell = (flatLabelled t).map NCore.spell
  | .mk sp cat label, h => by
    obtain ⟨h1, h2, h3⟩ := Cat.spell_ok cat h.2.1
    refine ⟨⟨h.1, h1, fun i hi => ?_⟩, ⟨h2, fun i hi => ?_⟩, by rw [Labelled.spell, flatLabelled, h3, flatLabelled]⟩
    · cases label with
      | none => cases hi
      | some j => cases hi; rfl
    · cases label with
      | none => cases hi
      | some j => cases hi; exact j.spell_spelled
theorem Alt.spell_ok : ∀ t : Alt, @Alt.wf ⟨[]⟩ t →
    t.spell.wf ∧ t.spell.Every Ident.Spelled (· ≠ []) ∧ flatAlt t.spell = (flatAlt t).map NCore.spell
  | .mk sp [], h => (h.2.1 rfl).elim
  | .mk sp ((t, p) :: l), h => by
    obtain ⟨h1, h2, h3⟩ := Labelled.spell_ok t h.2.2.1
    obtain ⟨k1, k2, k3⟩ := Labelled.spellL_ok l h.2.2.2.2
    refine ⟨⟨h.1, by rw [Labelled.spellL]; simp, by rw [Labelled.spellL]; exact ⟨h1, h.2.2.2.1, k1⟩⟩,
      by rw [Alt.spell, Labelled.spellL]; exact ⟨h2, k2⟩, ?_⟩
    rw [Alt.spell, Labelled.spellL, flatAlt, h3, k3, flatAlt]
    cases flatLabelled t <;> cases flatLabelleds l <;> simp [NCore.spell_mkAlt]
theorem Labelled.spellL_ok : ∀ t : List (Labelled × Nat), @Labelled.wfL ⟨[]⟩ t →
    Labelled.wfL (Labelled.spellL t) ∧ Labelled.EveryL Ident.Spelled (· ≠ []) (Labelled.spellL t) ∧
      flatLabelleds (Labelled.spellL t) = (flatLabelleds t).map NCore.spellL
  | [], _ => ⟨trivial, trivial, rfl⟩
  | (t, p) :: l, h => by
    obtain ⟨h1, h2, h3⟩ := Labelled.spell_ok t h.1
    obtain ⟨k1, k2, k3⟩ := Labelled.spellL_ok l h.2.2
    refine ⟨⟨h1, h.2.1, k1⟩, ⟨h2, k2⟩, ?_⟩
    rw [Labelled.spellL, flatLabelleds, h3, k3, flatLabelleds]
    cases flatLabelled t <;> cases flatLabelleds l <;> rfl
theorem Expr.spell_ok : ∀ t : Expr, @Expr.wf ⟨[]⟩ t →
    t.spell.wf ∧ t.spell.Every Ident.Spelled (· ≠ []) ∧ flatExpr t.spell = (flatExpr t).map NCore.spell
  | .alt a, h => by
    obtain ⟨h1, h2, h3⟩ := Alt.spell_ok a h
    exact ⟨h1, h2, by rw [Expr.spell, flatExpr, h3, flatExpr]⟩
  | .lam sp args body, h => by
    obtain ⟨h1, h2, h3⟩ := Alt.spell_ok body h.2.2.2
    refine ⟨⟨h.1, by simpa using h.2.1, ?_, h1⟩, ⟨?_, h2⟩, ?_⟩
    · intro i hi
      obtain ⟨j, _, rfl⟩ := List.mem_map.1 hi
      exact j.spell_plain
    · intro i hi
      obtain ⟨j, _, rfl⟩ := List.mem_map.1 hi
      exact j.spell_spelled
    · rw [Expr.spell, flatExpr, h3, flatExpr]
      cases flatAlt body <;> rfl
end

theorem Stmt.spell_ok : ∀ s : Stmt, @Stmt.wf ⟨[]⟩ s → s.spell.wf ∧ s.spell.Sayable ∧ flatStmt s.spell = (flatStmt s).map NCore.spell
  | .goal sp e, h => by
    obtain ⟨h1, h2, h3⟩ := Expr.spell_ok e h.2
    exact ⟨⟨h.1, h1⟩, h2, h3⟩
  | .letS sp x args e next, h => by
    obtain ⟨h1, h2, h3⟩ := Expr.spell_ok e h.2.2.2.1
    obtain ⟨k1, k2, k3⟩ := Stmt.spell_ok next h.2.2.2.2
    refine ⟨⟨h.1, rfl, ?_, h1, k1⟩, ⟨x.spell_spelled, ?_, h2, k2⟩, ?_⟩
    · intro i hi
      obtain ⟨j, _, rfl⟩ := List.mem_map.1 hi
      exact j.spell_plain
    · intro i hi
      obtain ⟨j, _, rfl⟩ := List.mem_map.1 hi
      exact j.spell_spelled
    · rw [Stmt.spell, flatStmt, h3, k3, flatStmt]
      cases flatExpr e <;> cases flatStmt next <;> simp [NCore.spell_mkLam, NCore.spell]

/-! ### The meaning is the same -/

theorem sameWords_empty : Core.SameWords (.lit []) .eps :=
  ⟨.lit ⟨none, 0⟩ [], .eps ⟨none, 0⟩, _, _, rfl, rfl, ⟨1, 1, _, rfl, rfl, rfl⟩, ⟨1, 1, _, rfl, rfl, rfl⟩, by simp [Gram.NoEmptyParts, TE.gram, Gram.NoEmpty],
    by simp [Gram.NoEmptyParts, TE.gram, Gram.NoEmpty], fun _ => Iff.rfl⟩

mutual
/-- Filling in `_` for empty literals in a program with other names. -/
theorem NCore.spell_swap : ∀ (n : NCore) (c : Ctx), Core.Swap Core.SameWords ((n.rename Ident.spell).core c) (n.spell.core c)
  | .eps, _ => .eps
  | .lit s, c => by
    by_cases hs : s = []
    · simp only [NCore.spell, hs, if_true]
      exact .part _ _ sameWords_empty
    · simp only [NCore.spell, if_neg hs]
      exact .lit s
  | .cat l, c => .cat _ _ (NCore.spell_swapL l c)
  | .alt l, c => .alt _ _ (NCore.spell_swapL l c)
  | .fix b, c => .fix _ _ (NCore.spell_swap b c)
  | .id i, c => .var _
  | .call o a, c => .call _ _ _ _ (NCore.spell_swap o c) (NCore.spell_swapL a c)
  | .lam ps b, c => .lam _ _ _ (NCore.spell_swap b _)
  | .letE x b d, c => .letE _ _ _ _ (NCore.spell_swap b c) (NCore.spell_swap d _)
theorem NCore.spell_swapL : ∀ (n : List NCore) (c : Ctx),
    Core.SwapL Core.SameWords (NCore.coreL c (NCore.renameL Ident.spell n)) (NCore.coreL c (NCore.spellL n))
  | [], _ => .nil
  | n :: l, c => .cons _ _ _ _ (NCore.spell_swap n c) (NCore.spell_swapL l c)
end

mutual
theorem NCore.spell_free : ∀ (n : NCore) (c : Ctx), n.spell.free c = (n.rename Ident.spell).free c
  | .eps, _ => rfl
  | .lit s, c => by
    by_cases hs : s = []
    · simp [NCore.spell, NCore.rename, NCore.free, hs]
    · simp [NCore.spell, NCore.rename, NCore.free, hs]
  | .cat l, c => NCore.spell_freeL l c
  | .alt l, c => NCore.spell_freeL l c
  | .fix b, c => NCore.spell_free b c
  | .id i, c => rfl
  | .call o a, c => by simp only [NCore.spell, NCore.rename, NCore.free, NCore.spell_free o, NCore.spell_freeL a]
  | .lam ps b, c => by simp only [NCore.spell, NCore.rename, NCore.free, NCore.spell_free b]
  | .letE x b d, c => by simp only [NCore.spell, NCore.rename, NCore.free, NCore.spell_free b, NCore.spell_free d]
theorem NCore.spell_freeL : ∀ (n : List NCore) (c : Ctx), NCore.freeL c (NCore.spellL n) = NCore.freeL c (NCore.renameL Ident.spell n)
  | [], _ => rfl
  | n :: l, c => by simp only [NCore.spellL, NCore.renameL, NCore.freeL, NCore.spell_free n, NCore.spell_freeL l]
end

/-- A program that converts, converts with other names and `_` for empty literals, and keeps its meaning. -/
theorem convStmt_spell {s : Stmt} (hw : @Stmt.wf ⟨[]⟩ s) {e : NE} {c : Ctx} (h : convStmt s [] = some (.ok e, c)) :
    ∃ e' c', convStmt s.spell [] = some (.ok e', c') ∧ Core.Swap Core.SameWords e.erase e'.erase := by
  have g := conv_stmt s []
  unfold GoodStmt at g
  cases hf : flatStmt s with
  | none => rw [hf] at g; obtain ⟨_, _, g⟩ := g; rw [g] at h; cases h
  | some n =>
    rw [hf] at g
    simp only at g
    cases hn : n.free [] with
    | cons i l => rw [hn] at g; obtain ⟨k, g⟩ := g; rw [g] at h; cases h
    | nil =>
      rw [hn] at g
      obtain ⟨ne, g1, g2⟩ := g
      rw [g1] at h
      cases h
      have hal : NCore.Alpha [] n (n.rename Ident.spell) := NCore.rename_alpha Ident.spell_same n [] hn
      have hfree : n.spell.free [] = [] := by
        rw [NCore.spell_free]
        have hff : All2 Ident.Same (n.free []) ((n.rename Ident.spell).free []) := hal.free
        rw [hn] at hff
        generalize (n.rename Ident.spell).free [] = l at hff ⊢
        cases hff
        rfl
      have g' := conv_stmt s.spell []
      unfold GoodStmt at g'
      rw [(s.spell_ok hw).2.2, hf] at g'
      simp only [Option.map_some, hfree] at g'
      obtain ⟨e', k1, k2⟩ := g'
      refine ⟨e', _, k1, ?_⟩
      have hcore : n.core [] = (n.rename Ident.spell).core [] := hal.core
      rw [g2, k2, hcore]
      exact NCore.spell_swap n []

/-- **C90** (autonibble is as expressive as chomp). For every program that chomp accepts there is a text that autonibble accepts and that
describes the same language. -/
theorem C90_as_expressive {st : BState} (h : Generates autoToks st) {ts : List Tok} {s : Stmt} {e : NE} {c : Ctx} {te : TE}
    (hs : parseProgram ts = .ok s) (hc : convStmt s [] = some (.ok e, c)) (ha : Accepted e te) :
    ∃ text t e' c' te', Parses st 0 text (.ok t) ∧ autoAst t [] = some (.ok e', c') ∧ Accepted e' te' ∧
      ∀ w, te'.gram.language w ↔ te.gram.language w := by
  have hw := Stmt.wf_weaken s (C14_print_parse ts s hs).2
  obtain ⟨h1, h2, -⟩ := s.spell_ok hw
  obtain ⟨e1, c1, h3, h4⟩ := convStmt_spell hw hc
  have hp := C14_parse_print s.spell h1
  obtain ⟨text, t, h5, h6⟩ := (C90_layout h hp).2 h2
  obtain ⟨e2, c2, h7, h8⟩ := (C44_same_meaning h h5 h6 hp).1 e1 c1 h3
  rw [← h8] at h4
  obtain ⟨te', h9, h10, -⟩ := C78_replace e e2 te h4 ha
  exact ⟨text, t, e2, c2, te', h5, h7, h9, h10⟩

/-- **C90** (and not more). For every text that autonibble accepts and that describes a language, chomp accepts a program for that
language, also if the text has parameters that are keywords. -/
theorem C90_not_more {st : BState} (h : Generates autoToks st) {text : List Char} {t : Tree} {e : NE} {c : Ctx} {te : TE}
    (ht : Parses st 0 text (.ok t)) (hc : autoAst t [] = some (.ok e, c)) (ha : Accepted e te) :
    ∃ ts s e' c' te', parseProgram ts = .ok s ∧ convStmt s [] = some (.ok e', c') ∧ Accepted e' te' ∧
      ∀ w, te'.gram.language w ↔ te.gram.language w := by
  obtain ⟨p, rfl, rfl⟩ := (auto_parses h _ _).1 ht
  have hok : p.stmt.ok = true := by
    cases ho : p.stmt.ok with
    | true => rfl
    | false => exact (fails_uprog p ho [] e c hc).elim
  have hw : @Stmt.wf ⟨[]⟩ p.stmt.abs := (@wf_ustmt ⟨[]⟩ p.stmt).2 (by intro n _; show n ∉ []; simp)
  rcases agree_uprog p hok with ⟨a, b, d, k1, k2, k3, k4⟩ | ⟨x, d, k1, k2⟩
  · rw [k2] at hc
    cases hc
    obtain ⟨e1, c1, h3, h4⟩ := convStmt_spell hw k1
    have her : a.erase = e.erase := by
      have hu : a.unspan = e.nameGoal.unspan := by rw [← k3, NE.unspan_unspan]
      rw [← NE.unspan_erase a, hu, NE.unspan_erase, NE.nameGoal_erase]
    rw [her] at h4
    obtain ⟨te', h9, h10, -⟩ := C78_replace e e1 te h4 ha
    exact ⟨_, _, e1, c1, te', C14_parse_print _ (p.stmt.abs.spell_ok hw).1, h3, h9, h10⟩
  · rw [k2] at hc
    cases hc

/-! ## Examples -/

/-- `let _x r#if = r#if . "" | "a"; match _x "b";` -/
def shyProgram : List Tok :=
  [.ident false "let", .ident false "_x", .ident true "if", .punct '=', .ident true "if", .punct '.', .str [], .punct '|', .str ['a'],
   .punct ';', .ident false "match", .ident false "_x", .str ['b'], .punct ';']

/-- The hypotheses of `C90_as_expressive` hold of a program that autonibble cannot spell. -/
example : ∃ s e c te, parseProgram shyProgram = .ok s ∧ convStmt s [] = some (.ok e, c) ∧ Accepted e te ∧ ¬ s.Sayable :=
  ⟨_, _, _, _, rfl, rfl, ⟨20, 20, _, rfl, rfl, rfl⟩, fun h => by
    obtain ⟨⟨_, x, r, h1, h2, _⟩, _⟩ := h
    revert h2
    have : x = '_' := by
      have h3 : ("_x" : String).toList = x :: r := h1
      have h4 : ("_x" : String).toList = ['_', 'x'] := by decide
      rw [h4] at h3
      cases h3
      rfl
    rw [this]
    decide⟩

/-- And so for one that it can: `match x1 . "b";`. -/
example : ∃ s, parseProgram [.ident false "match", .ident false "x1", .punct '.', .str ['b'], .punct ';'] = .ok s ∧ s.Sayable := by
  refine ⟨_, rfl, ?_⟩
  refine ⟨⟨⟨⟨⟨rfl, 'x', ['1'], by decide, by decide, by decide⟩, trivial⟩, ⟨(by decide : [('b' : Char)] ≠ []), trivial⟩, trivial⟩, by simp⟩, trivial⟩

end Chomp
