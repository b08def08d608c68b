import Verif.Nibble.Syntax
import Verif.Ast.CoreLemmas
import Verif.Ast.ReduceLemmas
import Verif.Props.EndToEnd

/-! # C14: printing and parsing nibble syntax trees -/

namespace Chomp

section
variable [Reserved]

/-! ## What has been parsed is what gets printed -/

theorem parseIdent_ok {ts r : List Tok} {i : Ident} (h : parseIdent ts = .ok (i, r)) :
    ts = i.toks ++ r ∧ (i.raw = true ∨ i.sym ∉ Reserved.words) ∧ i.span = 0 := by
  unfold parseIdent at h
  split at h
  · split at h
    · rename_i hk
      cases h
      refine ⟨rfl, ?_, rfl⟩
      simpa using hk
    · cases h
  · cases h

theorem parseAnyIdent_ok {ts r : List Tok} {i : Ident} (h : parseAnyIdent ts = .ok (i, r)) :
    ts = i.toks ++ r ∧ i.span = 0 := by
  unfold parseAnyIdent at h
  split at h
  · cases h; exact ⟨rfl, rfl⟩
  · cases h

theorem parsePunct_ok {c : Char} {ts r : List Tok} {u : Unit} (h : parsePunct c ts = .ok (u, r)) :
    ts = .punct c :: r := by
  unfold parsePunct at h
  split at h
  · split at h
    · rename_i hc; cases h; simp at hc; rw [hc]
    · cases h
  · cases h

/-- An identifier `syn` parses as `Ident`. -/
def Ident.plain (i : Ident) : Prop := (i.raw = true ∨ i.sym ∉ Reserved.words) ∧ i.span = 0

theorem parseLamArgs_ok : ∀ (n : Nat) {ts r : List Tok} {l : List Ident}, parseLamArgs n ts = .ok (l, r) →
    ts = l.flatMap Ident.toks ++ r ∧ l ≠ [] ∧ (∀ i ∈ l, i.plain) ∧ peekPunct '/' r = true
  | 0, _, _, _, h => by cases h
  | n + 1, ts, r, l, h => by
    simp only [parseLamArgs] at h
    obtain ⟨⟨i, r1⟩, h1, h⟩ := Out.bind_ok h
    try simp only at h
    obtain ⟨h1, h2⟩ := parseIdent_ok h1
    split at h
    · rename_i hp; cases h; exact ⟨by simp [h1], by simp, by simpa [Ident.plain] using h2, hp⟩
    · split at h
      · obtain ⟨⟨l', r2⟩, h3, h⟩ := Out.bind_ok h
        try simp only at h
        cases h
        obtain ⟨h4, _, h5, h6⟩ := parseLamArgs_ok n h3
        exact ⟨by simp [h1, h4], by simp, by simpa [Ident.plain, h2] using h5, h6⟩
      · cases h

theorem parseLetArgs_ok : ∀ (n : Nat) {ts r : List Tok} {l : List Ident}, parseLetArgs n ts = .ok (l, r) →
    ts = l.flatMap Ident.toks ++ r ∧ (∀ i ∈ l, i.plain) ∧ peekPunct '=' r = true
  | 0, _, _, _, h => by cases h
  | n + 1, ts, r, l, h => by
    simp only [parseLetArgs] at h
    split at h
    · rename_i hp; cases h; exact ⟨by simp, by simp, hp⟩
    · split at h
      · obtain ⟨⟨i, r1⟩, h1, h⟩ := Out.bind_ok h
        try simp only at h
        obtain ⟨h1, h2⟩ := parseIdent_ok h1
        obtain ⟨⟨l', r2⟩, h3, h⟩ := Out.bind_ok h
        try simp only at h
        cases h
        obtain ⟨h4, h5, h6⟩ := parseLetArgs_ok n h3
        exact ⟨by simp [h1, h4], by simpa [Ident.plain, h2] using h5, h6⟩
      · cases h

mutual
/-- The trees the parser can produce (the spans of the model are all 0). -/
def Term.wf : Term → Prop
  | .eps sp => sp = 0
  | .ident i => (i.raw = true ∨ i.sym ≠ "_") ∧ i.span = 0
  | .lit sp _ => sp = 0
  | .fix sp t => sp = 0 ∧ t.wf
  | .parens e => e.wf
def Call.wf : Call → Prop
  | .mk sp l => sp = 0 ∧ l ≠ [] ∧ Term.wfL l
def Term.wfL : List Term → Prop
  | [] => True
  | t :: l => t.wf ∧ Term.wfL l
def Cat.wf : Cat → Prop
  | .mk sp l => sp = 0 ∧ l ≠ [] ∧ Call.wfL l
def Call.wfL : List (Call × Nat) → Prop
  | [] => True
  | (x, sp) :: l => x.wf ∧ sp = 0 ∧ Call.wfL l
def Labelled.wf : Labelled → Prop
  | .mk sp cat label => sp = 0 ∧ cat.wf ∧ ∀ i ∈ label, i.span = 0
def Alt.wf : Alt → Prop
  | .mk sp l => sp = 0 ∧ l ≠ [] ∧ Labelled.wfL l
def Labelled.wfL : List (Labelled × Nat) → Prop
  | [] => True
  | (x, sp) :: l => x.wf ∧ sp = 0 ∧ Labelled.wfL l
def Expr.wf : Expr → Prop
  | .alt a => a.wf
  | .lam sp args body => sp = 0 ∧ args ≠ [] ∧ (∀ i ∈ args, i.plain) ∧ body.wf
end
def Stmt.wf : Stmt → Prop
  | .goal sp e => sp = 0 ∧ e.wf
  | .letS sp x args e next => sp = 0 ∧ x.span = 0 ∧ (∀ i ∈ args, i.plain) ∧ e.wf ∧ next.wf

theorem Call.toksL_cons (x : Call) (sp : Nat) (l : List (Call × Nat)) (h : l ≠ []) :
    Call.toksL ((x, sp) :: l) = x.toks ++ .punct '.' :: Call.toksL l := by
  cases l with
  | nil => exact absurd rfl h
  | cons => rfl

theorem Labelled.toksL_cons (x : Labelled) (sp : Nat) (l : List (Labelled × Nat)) (h : l ≠ []) :
    Labelled.toksL ((x, sp) :: l) = x.toks ++ .punct '|' :: Labelled.toksL l := by
  cases l with
  | nil => exact absurd rfl h
  | cons => rfl

structure ParseSound (n : Nat) : Prop where
  term : ∀ {ts r t}, parseTerm n ts = .ok (t, r) → ts = t.toks ++ r ∧ t.wf
  terms : ∀ {ts r l}, parseTerms n ts = .ok (l, r) → ts = Term.toksL l ++ r ∧ Term.wfL l
  call : ∀ {ts r x}, parseCall n ts = .ok (x, r) → ts = x.toks ++ r ∧ x.wf
  cat : ∀ {ts r l}, parseCatItems n ts = .ok (l, r) → ts = Call.toksL l ++ r ∧ l ≠ [] ∧ Call.wfL l
  labelled : ∀ {ts r x}, parseLabelled n ts = .ok (x, r) → ts = x.toks ++ r ∧ x.wf
  alt : ∀ {ts r l}, parseAltItems n ts = .ok (l, r) → ts = Labelled.toksL l ++ r ∧ l ≠ [] ∧ Labelled.wfL l
  expr : ∀ {ts r e}, parseExpr n ts = .ok (e, r) → ts = e.toks ++ r ∧ e.wf

theorem parse_sound : ∀ n, ParseSound n
  | 0 => by constructor <;> (intro ts r x h; simp only [parseTerm, parseTerms, parseCall, parseCatItems, parseLabelled, parseAltItems, parseExpr] at h; cases h)
  | n + 1 => by
    have ih := parse_sound n
    constructor
    · intro ts r t h
      simp only [parseTerm] at h
      split at h
      · cases h; exact ⟨rfl, rfl⟩
      · cases h; exact ⟨rfl, rfl⟩
      · obtain ⟨⟨t', r1⟩, h1, h⟩ := Out.bind_ok h
        try simp only at h
        cases h
        obtain ⟨h1, h2⟩ := ih.term h1
        exact ⟨by simp [Term.toks, h1], rfl, h2⟩
      · obtain ⟨⟨e, l'⟩, h1, h⟩ := Out.bind_ok h
        try simp only at h
        obtain ⟨h1, h2⟩ := ih.expr h1
        split at h
        · cases h; exact ⟨by simp [Term.toks, h1], h2⟩
        · cases h
      · rename_i hne
        cases h
        refine ⟨rfl, ?_, rfl⟩
        rename_i raw sym
        cases raw with
        | true => exact .inl rfl
        | false => exact .inr fun hs => hne rfl hs
      · cases h
    · intro ts r l h
      simp only [parseTerms] at h
      split at h
      · obtain ⟨⟨t, r1⟩, h1, h⟩ := Out.bind_ok h
        try simp only at h
        obtain ⟨⟨l', r2⟩, h2, h⟩ := Out.bind_ok h
        cases h
        obtain ⟨h1, h3⟩ := ih.term h1
        obtain ⟨h2, h4⟩ := ih.terms h2
        exact ⟨by simp [Term.toksL, h1, h2], h3, h4⟩
      · cases h; exact ⟨rfl, trivial⟩
    · intro ts r x h
      simp only [parseCall] at h
      obtain ⟨⟨t, r1⟩, h1, h⟩ := Out.bind_ok h
      try simp only at h
      obtain ⟨⟨l', r2⟩, h2, h⟩ := Out.bind_ok h
      cases h
      obtain ⟨h1, h3⟩ := ih.term h1
      obtain ⟨h2, h4⟩ := ih.terms h2
      exact ⟨by simp [Call.toks, Term.toksL, h1, h2], rfl, by simp, h3, h4⟩
    · intro ts r l h
      simp only [parseCatItems] at h
      obtain ⟨⟨x, r1⟩, h1, h⟩ := Out.bind_ok h
      try simp only at h
      obtain ⟨h1, h3⟩ := ih.call h1
      split at h
      · obtain ⟨⟨l', r2⟩, h2, h⟩ := Out.bind_ok h
        try simp only at h
        cases h
        obtain ⟨h2, h4, h5⟩ := ih.cat h2
        exact ⟨by simp [Call.toksL_cons _ _ _ h4, h1, h2], by simp, h3, rfl, h5⟩
      · cases h
        exact ⟨h1, by simp, h3, rfl, trivial⟩
    · intro ts r x h
      simp only [parseLabelled] at h
      obtain ⟨⟨l, r1⟩, h1, h⟩ := Out.bind_ok h
      try simp only at h
      obtain ⟨h1, h3, h4⟩ := ih.cat h1
      split at h
      · obtain ⟨⟨i, r2⟩, h2, h⟩ := Out.bind_ok h
        try simp only at h
        cases h
        obtain ⟨h2, h5⟩ := parseAnyIdent_ok h2
        exact ⟨by simp [Labelled.toks, Cat.toks, h1, h2], rfl, ⟨rfl, h3, h4⟩, by simpa using h5⟩
      · cases h
        exact ⟨h1, rfl, ⟨rfl, h3, h4⟩, by simp⟩
    · intro ts r l h
      simp only [parseAltItems] at h
      obtain ⟨⟨x, r1⟩, h1, h⟩ := Out.bind_ok h
      try simp only at h
      obtain ⟨h1, h3⟩ := ih.labelled h1
      split at h
      · obtain ⟨⟨l', r2⟩, h2, h⟩ := Out.bind_ok h
        try simp only at h
        cases h
        obtain ⟨h2, h4, h5⟩ := ih.alt h2
        exact ⟨by simp [Labelled.toksL_cons _ _ _ h4, h1, h2], by simp, h3, rfl, h5⟩
      · cases h
        exact ⟨h1, by simp, h3, rfl, trivial⟩
    · intro ts r e h
      simp only [parseExpr] at h
      split at h
      · obtain ⟨⟨args, r1⟩, h1, h⟩ := Out.bind_ok h
        try simp only at h
        obtain ⟨h1, h2, h3, _⟩ := parseLamArgs_ok n h1
        obtain ⟨⟨u, r2⟩, h4, h⟩ := Out.bind_ok h
        try simp only at h
        have h4 := parsePunct_ok h4
        obtain ⟨⟨l, r3⟩, h5, h⟩ := Out.bind_ok h
        try simp only at h
        cases h
        obtain ⟨h5, h6, h7⟩ := ih.alt h5
        exact ⟨by simp [Expr.toks, Alt.toks, h1, h4, h5], rfl, h2, h3, rfl, h6, h7⟩
      · obtain ⟨⟨l, r3⟩, h5, h⟩ := Out.bind_ok h
        try simp only at h
        cases h
        obtain ⟨h5, h6, h7⟩ := ih.alt h5
        exact ⟨h5, rfl, h6, h7⟩

theorem parseStmt_ok : ∀ (n : Nat) {ts r : List Tok} {s : Stmt}, parseStmt n ts = .ok (s, r) →
    ts = s.toks ++ r ∧ s.wf
  | 0, _, _, _, h => by cases h
  | n + 1, ts, r, s, h => by
    simp only [parseStmt] at h
    split at h
    · obtain ⟨⟨x, r1⟩, h1, h⟩ := Out.bind_ok h
      try simp only at h
      obtain ⟨h1, h2⟩ := parseAnyIdent_ok h1
      obtain ⟨⟨args, r3⟩, h3, h⟩ := Out.bind_ok h
      try simp only at h
      obtain ⟨h3, h4, _⟩ := parseLetArgs_ok n h3
      obtain ⟨⟨u, r5⟩, h5, h⟩ := Out.bind_ok h
      try simp only at h
      have h5 := parsePunct_ok h5
      obtain ⟨⟨e, r6⟩, h6, h⟩ := Out.bind_ok h
      try simp only at h
      obtain ⟨h6, h7⟩ := (parse_sound n).expr h6
      obtain ⟨⟨u, r8⟩, h8, h⟩ := Out.bind_ok h
      try simp only at h
      have h8 := parsePunct_ok h8
      obtain ⟨⟨next, r9⟩, h9, h⟩ := Out.bind_ok h
      try simp only at h
      obtain ⟨h9, h10⟩ := parseStmt_ok n h9
      cases h
      exact ⟨by simp [Stmt.toks, h1, h3, h5, h6, h8, h9], rfl, h2, h4, h7, h10⟩
    · obtain ⟨⟨e, r6⟩, h6, h⟩ := Out.bind_ok h
      try simp only at h
      obtain ⟨h6, h7⟩ := (parse_sound n).expr h6
      obtain ⟨⟨u, r8⟩, h8, h⟩ := Out.bind_ok h
      try simp only at h
      have h8 := parsePunct_ok h8
      cases h
      exact ⟨by simp [Stmt.toks, h6, h8], rfl, h7⟩
    · cases h

/-! ## Printed trees are parsed -/

theorem Term.peek (t : Term) (r : List Tok) : peekTerm (t.toks ++ r) = true := by
  cases t <;> simp [Term.toks, Ident.toks, peekTerm]

theorem Call.peek {x : Call} (h : x.wf) (r : List Tok) : peekTerm (x.toks ++ r) = true := by
  obtain ⟨sp, l⟩ := x
  obtain ⟨_, h2, _⟩ := h
  cases l with
  | nil => exact absurd rfl h2
  | cons t l => simp only [Call.toks, Term.toksL, List.append_assoc]; exact t.peek _

theorem Call.peekL {l : List (Call × Nat)} (h : Call.wfL l) (hl : l ≠ []) (r : List Tok) :
    peekTerm (Call.toksL l ++ r) = true := by
  cases l with
  | nil => exact absurd rfl hl
  | cons p l =>
    obtain ⟨x, sp⟩ := p
    cases l with
    | nil => exact Call.peek h.1 r
    | cons q l =>
      rw [Call.toksL_cons _ _ _ (by simp), List.append_assoc]
      exact Call.peek h.1 _

theorem Labelled.peek {x : Labelled} (h : x.wf) (r : List Tok) : peekTerm (x.toks ++ r) = true := by
  obtain ⟨sp, ⟨sp', l⟩, label⟩ := x
  obtain ⟨_, ⟨_, h2, h3⟩, _⟩ := h
  cases label with
  | none => exact Call.peekL h3 h2 r
  | some i => simp only [Labelled.toks, Cat.toks, List.append_assoc]; exact Call.peekL h3 h2 _

theorem Labelled.peekL {l : List (Labelled × Nat)} (h : Labelled.wfL l) (hl : l ≠ []) (r : List Tok) :
    peekTerm (Labelled.toksL l ++ r) = true := by
  cases l with
  | nil => exact absurd rfl hl
  | cons p l =>
    obtain ⟨x, sp⟩ := p
    cases l with
    | nil => exact Labelled.peek h.1 r
    | cons q l =>
      rw [Labelled.toksL_cons _ _ _ (by simp), List.append_assoc]
      exact Labelled.peek h.1 _

/-- No term and none of the given punctuation follows. -/
def Stop (cs : List Char) (r : List Tok) : Prop := peekTerm r = false ∧ ∀ c ∈ cs, ∀ r', r ≠ .punct c :: r'

theorem parseIdent_toks {i : Ident} (h : i.plain) (r : List Tok) : parseIdent (i.toks ++ r) = .ok (i, r) := by
  obtain ⟨raw, sym, span⟩ := i
  obtain ⟨h1, h2⟩ := h
  simp only at h1 h2
  subst h2
  simp only [Ident.toks, List.cons_append, List.nil_append, parseIdent]
  rw [if_pos (by simpa using h1)]

theorem parseAnyIdent_toks {i : Ident} (h : i.span = 0) (r : List Tok) : parseAnyIdent (i.toks ++ r) = .ok (i, r) := by
  obtain ⟨raw, sym, span⟩ := i
  simp only at h
  subst h
  rfl

theorem parseLamArgs_toks : ∀ (l : List Ident) (r : List Tok), l ≠ [] → (∀ i ∈ l, i.plain) →
    ∀ n, l.length ≤ n → parseLamArgs n (l.flatMap Ident.toks ++ .punct '/' :: r) = .ok (l, .punct '/' :: r)
  | [], _, h, _, _, _ => absurd rfl h
  | i :: l, r, _, hl, 0, hn => by simp at hn
  | i :: l, r, _, hl, n + 1, hn => by
    rw [parseLamArgs, List.flatMap_cons, List.append_assoc, parseIdent_toks (hl i (by simp))]
    cases l with
    | nil => rfl
    | cons j l =>
      have := parseLamArgs_toks (j :: l) r (by simp) (fun k hk => hl k (List.mem_cons_of_mem _ hk)) n (by simpa using hn)
      have hp : peekPunct '/' ((j :: l).flatMap Ident.toks ++ .punct '/' :: r) = false := rfl
      have hi : peekIdent ((j :: l).flatMap Ident.toks ++ .punct '/' :: r) = true := rfl
      simp only [Out.bind, hp, hi, this, if_true, Bool.false_eq_true, if_false]

theorem parseLetArgs_toks : ∀ (l : List Ident) (r : List Tok), (∀ i ∈ l, i.plain) →
    ∀ n, l.length < n → parseLetArgs n (l.flatMap Ident.toks ++ .punct '=' :: r) = .ok (l, .punct '=' :: r)
  | _, _, _, 0, hn => by simp at hn
  | [], r, _, n + 1, _ => rfl
  | i :: l, r, hl, n + 1, hn => by
    have := parseLetArgs_toks l r (fun k hk => hl k (List.mem_cons_of_mem _ hk)) n (by simpa using hn)
    have hp : peekPunct '=' ((i :: l).flatMap Ident.toks ++ .punct '=' :: r) = false := rfl
    have hi : peekIdent ((i :: l).flatMap Ident.toks ++ .punct '=' :: r) = true := rfl
    rw [parseLetArgs, hp, hi]
    rw [List.flatMap_cons, List.append_assoc, parseIdent_toks (hl i (by simp))]
    simp only [Out.bind, this, if_true, Bool.false_eq_true, if_false]

mutual
theorem Term.parses : ∀ (t : Term) (r : List Tok), t.wf → ∃ N, ∀ n, N ≤ n → parseTerm n (t.toks ++ r) = .ok (t, r)
  | .eps sp, r, h => ⟨1, fun n hn => by
      obtain ⟨m, rfl⟩ := Nat.exists_eq_add_of_le' hn
      simp only [Term.wf] at h
      subst h
      rfl⟩
  | .ident ⟨raw, sym, sp⟩, r, h => ⟨1, fun n hn => by
      obtain ⟨m, rfl⟩ := Nat.exists_eq_add_of_le' hn
      simp only [Term.wf] at h
      obtain ⟨h1, rfl⟩ := h
      simp only [Term.toks, Ident.toks, List.cons_append, List.nil_append, parseTerm]
      split
      · rename_i heq; cases heq; simp at h1
      · rename_i heq; cases heq
      · rename_i heq; cases heq
      · rename_i heq; cases heq
      · rename_i heq; cases heq; rfl
      · rename_i h2; exact absurd rfl (h2 _ _ _)⟩
  | .lit sp s, r, h => ⟨1, fun n hn => by
      obtain ⟨m, rfl⟩ := Nat.exists_eq_add_of_le' hn
      simp only [Term.wf] at h
      subst h
      rfl⟩
  | .fix sp t, r, h => by
    simp only [Term.wf] at h
    obtain ⟨rfl, h⟩ := h
    obtain ⟨N, hN⟩ := Term.parses t r h
    refine ⟨N + 1, fun n hn => ?_⟩
    obtain ⟨m, rfl⟩ := Nat.exists_eq_add_of_le' (Nat.le_trans (Nat.le_add_left 1 N) hn)
    simp only [Term.toks, List.cons_append, parseTerm, hN m (by omega), Out.bind]
  | .parens e, r, h => by
    simp only [Term.wf] at h
    obtain ⟨N, hN⟩ := Expr.parses e [] h ⟨rfl, by simp⟩
    refine ⟨N + 1, fun n hn => ?_⟩
    obtain ⟨m, rfl⟩ := Nat.exists_eq_add_of_le' (Nat.le_trans (Nat.le_add_left 1 N) hn)
    have := hN m (by omega)
    rw [List.append_nil] at this
    simp only [Term.toks, List.cons_append, List.nil_append, parseTerm, this, Out.bind]
theorem Term.parsesL : ∀ (l : List Term) (r : List Tok), Term.wfL l → peekTerm r = false →
    ∃ N, ∀ n, N ≤ n → parseTerms n (Term.toksL l ++ r) = .ok (l, r)
  | [], r, h, hr => ⟨1, fun n hn => by
      obtain ⟨m, rfl⟩ := Nat.exists_eq_add_of_le' hn
      simp [Term.toksL, parseTerms, hr]⟩
  | t :: l, r, h, hr => by
    simp only [Term.wfL] at h
    obtain ⟨N, hN⟩ := Term.parses t (Term.toksL l ++ r) h.1
    obtain ⟨M, hM⟩ := Term.parsesL l r h.2 hr
    refine ⟨max N M + 1, fun n hn => ?_⟩
    obtain ⟨m, rfl⟩ := Nat.exists_eq_add_of_le' (Nat.le_trans (Nat.le_add_left 1 _) hn)
    have hp := t.peek (Term.toksL l ++ r)
    simp only [Term.toksL, List.append_assoc, parseTerms, hp, if_true, hN m (by omega), hM m (by omega), Out.bind]
theorem Call.parses : ∀ (x : Call) (r : List Tok), x.wf → peekTerm r = false →
    ∃ N, ∀ n, N ≤ n → parseCall n (x.toks ++ r) = .ok (x, r)
  | .mk sp [], r, h, hr => absurd rfl h.2.1
  | .mk sp (t :: l), r, h, hr => by
    simp only [Call.wf, Term.wfL] at h
    obtain ⟨rfl, -, h⟩ := h
    obtain ⟨N, hN⟩ := Term.parses t (Term.toksL l ++ r) h.1
    obtain ⟨M, hM⟩ := Term.parsesL l r h.2 hr
    refine ⟨max N M + 1, fun n hn => ?_⟩
    obtain ⟨m, rfl⟩ := Nat.exists_eq_add_of_le' (Nat.le_trans (Nat.le_add_left 1 _) hn)
    simp only [Call.toks, Term.toksL, List.append_assoc, parseCall, hN m (by omega), hM m (by omega), Out.bind]
theorem Call.parsesL : ∀ (l : List (Call × Nat)) (r : List Tok), Call.wfL l → l ≠ [] → Stop ['.'] r →
    ∃ N, ∀ n, N ≤ n → parseCatItems n (Call.toksL l ++ r) = .ok (l, r)
  | [], r, h, hl, hr => absurd rfl hl
  | [(x, sp)], r, h, hl, hr => by
    simp only [Call.wfL] at h
    obtain ⟨h1, rfl, -⟩ := h
    obtain ⟨N, hN⟩ := Call.parses x r h1 hr.1
    refine ⟨N + 1, fun n hn => ?_⟩
    obtain ⟨m, rfl⟩ := Nat.exists_eq_add_of_le' (Nat.le_trans (Nat.le_add_left 1 _) hn)
    simp only [Call.toksL, parseCatItems, hN m (by omega), Out.bind]
    split
    · rename_i r'; exact absurd rfl (hr.2 '.' (by simp) r')
    · rfl
  | (x, sp) :: p :: l, r, h, hl, hr => by
    simp only [Call.wfL] at h
    obtain ⟨h1, rfl, h2⟩ := h
    obtain ⟨N, hN⟩ := Call.parses x (.punct '.' :: (Call.toksL (p :: l) ++ r)) h1 rfl
    obtain ⟨M, hM⟩ := Call.parsesL (p :: l) r (by simpa only [Call.wfL] using h2) (by simp) hr
    refine ⟨max N M + 1, fun n hn => ?_⟩
    obtain ⟨m, rfl⟩ := Nat.exists_eq_add_of_le' (Nat.le_trans (Nat.le_add_left 1 _) hn)
    rw [Call.toksL_cons _ _ _ (by simp), List.append_assoc, List.cons_append]
    simp only [parseCatItems, hN m (by omega), hM m (by omega), Out.bind]
theorem Labelled.parses : ∀ (x : Labelled) (r : List Tok), x.wf → Stop ['.', ':'] r →
    ∃ N, ∀ n, N ≤ n → parseLabelled n (x.toks ++ r) = .ok (x, r)
  | .mk sp (.mk sp' l) none, r, h, hr => by
    simp only [Labelled.wf, Cat.wf] at h
    obtain ⟨rfl, ⟨rfl, h2, h3⟩, -⟩ := h
    obtain ⟨N, hN⟩ := Call.parsesL l r h3 h2 ⟨hr.1, fun c hc => hr.2 c (by simp at hc; simp [hc])⟩
    refine ⟨N + 1, fun n hn => ?_⟩
    obtain ⟨m, rfl⟩ := Nat.exists_eq_add_of_le' (Nat.le_trans (Nat.le_add_left 1 _) hn)
    simp only [Labelled.toks, Cat.toks, parseLabelled, hN m (by omega), Out.bind]
    split
    · rename_i r'; exact absurd rfl (hr.2 ':' (by simp) r')
    · rfl
  | .mk sp (.mk sp' l) (some i), r, h, hr => by
    simp only [Labelled.wf, Cat.wf] at h
    obtain ⟨rfl, ⟨rfl, h2, h3⟩, h4⟩ := h
    obtain ⟨N, hN⟩ := Call.parsesL l (.punct ':' :: (i.toks ++ r)) h3 h2 ⟨rfl, by
      intro c hc r' hr'; simp at hc; subst hc; simp at hr'⟩
    refine ⟨N + 1, fun n hn => ?_⟩
    obtain ⟨m, rfl⟩ := Nat.exists_eq_add_of_le' (Nat.le_trans (Nat.le_add_left 1 _) hn)
    simp only [Labelled.toks, Cat.toks, List.append_assoc, List.cons_append, parseLabelled, hN m (by omega), Out.bind,
      parseAnyIdent_toks (h4 i rfl)]
theorem Labelled.parsesL : ∀ (l : List (Labelled × Nat)) (r : List Tok), Labelled.wfL l → l ≠ [] → Stop ['.', ':', '|'] r →
    ∃ N, ∀ n, N ≤ n → parseAltItems n (Labelled.toksL l ++ r) = .ok (l, r)
  | [], r, h, hl, hr => absurd rfl hl
  | [(x, sp)], r, h, hl, hr => by
    simp only [Labelled.wfL] at h
    obtain ⟨h1, rfl, -⟩ := h
    obtain ⟨N, hN⟩ := Labelled.parses x r h1 ⟨hr.1, fun c hc => hr.2 c (by simp at hc; rcases hc with rfl | rfl <;> simp)⟩
    refine ⟨N + 1, fun n hn => ?_⟩
    obtain ⟨m, rfl⟩ := Nat.exists_eq_add_of_le' (Nat.le_trans (Nat.le_add_left 1 _) hn)
    simp only [Labelled.toksL, parseAltItems, hN m (by omega), Out.bind]
    split
    · rename_i r'; exact absurd rfl (hr.2 '|' (by simp) r')
    · rfl
  | (x, sp) :: p :: l, r, h, hl, hr => by
    simp only [Labelled.wfL] at h
    obtain ⟨h1, rfl, h2⟩ := h
    obtain ⟨N, hN⟩ := Labelled.parses x (.punct '|' :: (Labelled.toksL (p :: l) ++ r)) h1 ⟨rfl, by
      intro c hc r' hr'; simp at hc; rcases hc with rfl | rfl <;> simp at hr'⟩
    obtain ⟨M, hM⟩ := Labelled.parsesL (p :: l) r (by simpa only [Labelled.wfL] using h2) (by simp) hr
    refine ⟨max N M + 1, fun n hn => ?_⟩
    obtain ⟨m, rfl⟩ := Nat.exists_eq_add_of_le' (Nat.le_trans (Nat.le_add_left 1 _) hn)
    rw [Labelled.toksL_cons _ _ _ (by simp), List.append_assoc, List.cons_append]
    simp only [parseAltItems, hN m (by omega), hM m (by omega), Out.bind]
theorem Expr.parses : ∀ (e : Expr) (r : List Tok), e.wf → Stop ['.', ':', '|'] r →
    ∃ N, ∀ n, N ≤ n → parseExpr n (e.toks ++ r) = .ok (e, r)
  | .alt (.mk sp l), r, h, hr => by
    simp only [Expr.wf, Alt.wf] at h
    obtain ⟨rfl, h1, h2⟩ := h
    obtain ⟨N, hN⟩ := Labelled.parsesL l r h2 h1 hr
    refine ⟨N + 1, fun n hn => ?_⟩
    obtain ⟨m, rfl⟩ := Nat.exists_eq_add_of_le' (Nat.le_trans (Nat.le_add_left 1 _) hn)
    simp only [Expr.toks, Alt.toks, parseExpr]
    have hp := Labelled.peekL h2 h1 r
    split
    · rename_i heq; rw [heq] at hp; cases hp
    · simp only [hN m (by omega), Out.bind]
  | .lam sp args (.mk sp' l), r, h, hr => by
    simp only [Expr.wf, Alt.wf] at h
    obtain ⟨rfl, h1, h2, rfl, h3, h4⟩ := h
    obtain ⟨N, hN⟩ := Labelled.parsesL l r h4 h3 hr
    refine ⟨max N args.length + 1, fun n hn => ?_⟩
    obtain ⟨m, rfl⟩ := Nat.exists_eq_add_of_le' (Nat.le_trans (Nat.le_add_left 1 _) hn)
    simp only [Expr.toks, Alt.toks, List.cons_append, List.append_assoc, parseExpr, hN m (by omega), Out.bind,
      parseLamArgs_toks args _ h1 h2 m (by omega), parsePunct, BEq.rfl, if_true]
end

theorem Stmt.parses : ∀ (s : Stmt) (r : List Tok), s.wf → ∃ N, ∀ n, N ≤ n → parseStmt n (s.toks ++ r) = .ok (s, r)
  | .goal sp e, r, h => by
    simp only [Stmt.wf] at h
    obtain ⟨rfl, h⟩ := h
    obtain ⟨N, hN⟩ := Expr.parses e (.punct ';' :: r) h ⟨rfl, by
      intro c hc r' hr'; simp at hc; rcases hc with rfl | rfl | rfl <;> simp at hr'⟩
    refine ⟨N + 1, fun n hn => ?_⟩
    obtain ⟨m, rfl⟩ := Nat.exists_eq_add_of_le' (Nat.le_trans (Nat.le_add_left 1 _) hn)
    simp only [Stmt.toks, List.cons_append, List.nil_append, List.append_assoc, parseStmt, hN m (by omega), Out.bind, parsePunct, BEq.rfl,
      if_true]
  | .letS sp x args e next, r, h => by
    simp only [Stmt.wf] at h
    obtain ⟨rfl, h1, h2, h3, h4⟩ := h
    obtain ⟨N, hN⟩ := Expr.parses e (.punct ';' :: (next.toks ++ r)) h3 ⟨rfl, by
      intro c hc r' hr'; simp at hc; rcases hc with rfl | rfl | rfl <;> simp at hr'⟩
    obtain ⟨M, hM⟩ := Stmt.parses next r h4
    refine ⟨max (max N M) (args.length + 1) + 1, fun n hn => ?_⟩
    obtain ⟨m, rfl⟩ := Nat.exists_eq_add_of_le' (Nat.le_trans (Nat.le_add_left 1 _) hn)
    simp only [Stmt.toks, List.cons_append, List.append_assoc, parseStmt, hN m (by omega), hM m (by omega), Out.bind,
      parseAnyIdent_toks h1, parseLetArgs_toks args _ h2 m (by omega), parsePunct, BEq.rfl, if_true]

/-! ## The parser terminates -/

theorem Out.bind_ne {ε α β : Type} {x : Out ε α} {f : α → Out ε β} (h1 : x ≠ .oof) (h2 : ∀ a, x = .ok a → f a ≠ .oof) :
    x.bind f ≠ .oof := by
  cases x with
  | ok a => exact h2 a rfl
  | oof => exact absurd rfl h1
  | _ => simp [Out.bind]

theorem Tok.sizeL_append (a b : List Tok) : Tok.sizeL (a ++ b) = Tok.sizeL a + Tok.sizeL b := by
  induction a with
  | nil => simp [Tok.sizeL]
  | cons t a ih => simp [Tok.sizeL, ih, Nat.add_assoc]

theorem Tok.size_pos (t : Tok) : 1 ≤ t.size := by cases t <;> simp [Tok.size]

theorem Term.size_pos (t : Term) : 1 ≤ Tok.sizeL t.toks := by
  have := t.peek []
  rw [List.append_nil] at this
  cases h : t.toks with
  | nil => rw [h] at this; cases this
  | cons a l => simp only [Tok.sizeL]; have := a.size_pos; omega

theorem parseIdent_ne (ts : List Tok) : parseIdent ts ≠ .oof := by
  unfold parseIdent
  split
  · split <;> simp
  · simp

theorem parseAnyIdent_ne (ts : List Tok) : parseAnyIdent ts ≠ .oof := by
  unfold parseAnyIdent
  split <;> simp

theorem parsePunct_ne (c : Char) (ts : List Tok) : parsePunct c ts ≠ .oof := by
  unfold parsePunct
  split
  · split <;> simp
  · simp

theorem parseLamArgs_ne : ∀ (n : Nat) (ts : List Tok), Tok.sizeL ts < n → parseLamArgs n ts ≠ .oof
  | 0, _, h => by simp at h
  | n + 1, ts, h => by
    simp only [parseLamArgs]
    refine Out.bind_ne (parseIdent_ne ts) fun ⟨i, r⟩ h1 => ?_
    obtain ⟨rfl, _⟩ := parseIdent_ok h1
    simp only [Tok.sizeL_append, Ident.toks, Tok.sizeL, Tok.size] at h
    simp only
    split
    · simp
    · split
      · exact Out.bind_ne (parseLamArgs_ne n r (by omega)) fun _ _ => by simp
      · simp

theorem parseLetArgs_ne : ∀ (n : Nat) (ts : List Tok), Tok.sizeL ts < n → parseLetArgs n ts ≠ .oof
  | 0, _, h => by simp at h
  | n + 1, ts, h => by
    simp only [parseLetArgs]
    split
    · simp
    · split
      · refine Out.bind_ne (parseIdent_ne ts) fun ⟨i, r⟩ h1 => ?_
        obtain ⟨rfl, _⟩ := parseIdent_ok h1
        simp only [Tok.sizeL_append, Ident.toks, Tok.sizeL, Tok.size] at h
        exact Out.bind_ne (parseLetArgs_ne n r (by omega)) fun _ _ => by simp
      · simp

structure ParseEnds (n : Nat) : Prop where
  term : ∀ ts, 8 * Tok.sizeL ts + 1 ≤ n → parseTerm n ts ≠ .oof
  terms : ∀ ts, 8 * Tok.sizeL ts + 2 ≤ n → parseTerms n ts ≠ .oof
  call : ∀ ts, 8 * Tok.sizeL ts + 3 ≤ n → parseCall n ts ≠ .oof
  cat : ∀ ts, 8 * Tok.sizeL ts + 4 ≤ n → parseCatItems n ts ≠ .oof
  labelled : ∀ ts, 8 * Tok.sizeL ts + 5 ≤ n → parseLabelled n ts ≠ .oof
  alt : ∀ ts, 8 * Tok.sizeL ts + 6 ≤ n → parseAltItems n ts ≠ .oof
  expr : ∀ ts, 8 * Tok.sizeL ts + 7 ≤ n → parseExpr n ts ≠ .oof

theorem parse_ends : ∀ n, ParseEnds n
  | 0 => by constructor <;> (intro ts h; omega)
  | n + 1 => by
    have ih := parse_ends n
    have is := parse_sound n
    constructor
    · intro ts h
      simp only [parseTerm]
      split
      · simp
      · simp
      · simp only [Tok.sizeL, Tok.size] at h
        exact Out.bind_ne (ih.term _ (by omega)) fun _ _ => by simp
      · simp only [Tok.sizeL, Tok.size] at h
        refine Out.bind_ne (ih.expr _ (by omega)) fun ⟨e, l'⟩ _ => ?_
        simp only
        split <;> simp
      · simp
      · simp
    · intro ts h
      simp only [parseTerms]
      split
      · refine Out.bind_ne (ih.term _ (by omega)) fun ⟨t, r⟩ h1 => ?_
        obtain ⟨rfl, _⟩ := is.term h1
        have := t.size_pos
        rw [Tok.sizeL_append] at h
        exact Out.bind_ne (ih.terms _ (by simp only; omega)) fun _ _ => by simp
      · simp
    · intro ts h
      simp only [parseCall]
      refine Out.bind_ne (ih.term _ (by omega)) fun ⟨t, r⟩ h1 => ?_
      obtain ⟨rfl, _⟩ := is.term h1
      have := t.size_pos
      rw [Tok.sizeL_append] at h
      exact Out.bind_ne (ih.terms _ (by simp only; omega)) fun _ _ => by simp
    · intro ts h
      simp only [parseCatItems]
      refine Out.bind_ne (ih.call _ (by omega)) fun ⟨x, r⟩ h1 => ?_
      obtain ⟨rfl, _⟩ := is.call h1
      rw [Tok.sizeL_append] at h
      simp only
      split
      · simp only [Tok.sizeL, Tok.size] at h
        exact Out.bind_ne (ih.cat _ (by omega)) fun _ _ => by simp
      · simp
    · intro ts h
      simp only [parseLabelled]
      refine Out.bind_ne (ih.cat _ (by omega)) fun ⟨l, r⟩ h1 => ?_
      simp only
      split
      · exact Out.bind_ne (parseAnyIdent_ne _) fun _ _ => by simp
      · simp
    · intro ts h
      simp only [parseAltItems]
      refine Out.bind_ne (ih.labelled _ (by omega)) fun ⟨x, r⟩ h1 => ?_
      obtain ⟨rfl, _⟩ := is.labelled h1
      rw [Tok.sizeL_append] at h
      simp only
      split
      · simp only [Tok.sizeL, Tok.size] at h
        exact Out.bind_ne (ih.alt _ (by omega)) fun _ _ => by simp
      · simp
    · intro ts h
      simp only [parseExpr]
      split
      · simp only [Tok.sizeL, Tok.size] at h
        refine Out.bind_ne (parseLamArgs_ne n _ (by omega)) fun ⟨args, r⟩ h1 => ?_
        obtain ⟨rfl, _⟩ := parseLamArgs_ok n h1
        rw [Tok.sizeL_append] at h
        refine Out.bind_ne (parsePunct_ne _ _) fun ⟨_, r'⟩ h2 => ?_
        simp only at h2
        have h2 := parsePunct_ok h2
        subst h2
        simp only [Tok.sizeL, Tok.size] at h
        exact Out.bind_ne (ih.alt _ (by simp only; omega)) fun _ _ => by simp
      · exact Out.bind_ne (ih.alt _ (by omega)) fun _ _ => by simp

theorem parseStmt_ne : ∀ (n : Nat) (ts : List Tok), 8 * Tok.sizeL ts + 8 ≤ n → parseStmt n ts ≠ .oof
  | 0, _, h => by omega
  | n + 1, ts, h => by
    simp only [parseStmt]
    split
    · simp only [Tok.sizeL, Tok.size] at h
      refine Out.bind_ne (parseAnyIdent_ne _) fun ⟨x, r⟩ h1 => ?_
      obtain ⟨rfl, _⟩ := parseAnyIdent_ok h1
      rw [Tok.sizeL_append] at h
      refine Out.bind_ne (parseLetArgs_ne n _ (by simp only; omega)) fun ⟨args, r⟩ h1 => ?_
      obtain ⟨heq, _⟩ := parseLetArgs_ok n h1
      simp only at heq
      subst heq
      rw [Tok.sizeL_append] at h
      refine Out.bind_ne (parsePunct_ne _ _) fun ⟨_, r⟩ h2 => ?_
      have h2 := parsePunct_ok h2
      simp only at h2
      subst h2
      simp only [Tok.sizeL, Tok.size] at h
      refine Out.bind_ne ((parse_ends n).expr _ (by simp only; omega)) fun ⟨e, r⟩ h2 => ?_
      obtain ⟨heq, _⟩ := (parse_sound n).expr h2
      simp only at heq
      subst heq
      rw [Tok.sizeL_append] at h
      refine Out.bind_ne (parsePunct_ne _ _) fun ⟨_, r⟩ h2 => ?_
      have h2 := parsePunct_ok h2
      simp only at h2
      subst h2
      simp only [Tok.sizeL, Tok.size] at h
      exact Out.bind_ne (parseStmt_ne n _ (by simp only; omega)) fun _ _ => by simp
    · simp only [Tok.sizeL, Tok.size] at h
      refine Out.bind_ne ((parse_ends n).expr _ (by omega)) fun ⟨e, r⟩ h2 => ?_
      exact Out.bind_ne (parsePunct_ne _ _) fun _ _ => by simp
    · simp

/-! ## Fuel does not matter -/

theorem parseLamArgs_succ : ∀ (n : Nat) (ts : List Tok), parseLamArgs n ts ≠ .oof → parseLamArgs (n + 1) ts = parseLamArgs n ts
  | 0, _, h => absurd rfl h
  | n + 1, ts, h => by
    rw [parseLamArgs] at h
    rw [parseLamArgs, parseLamArgs]
    refine Out.bind_congr_ne h fun ⟨i, r⟩ ha => ?_
    simp only at ha ⊢
    split
    · rfl
    · rename_i hp
      rw [if_neg hp] at ha
      split
      · rename_i hi
        rw [if_pos hi] at ha
        rw [parseLamArgs_succ n r (Out.bind_ne_oof ha)]
      · rfl

theorem parseLetArgs_succ : ∀ (n : Nat) (ts : List Tok), parseLetArgs n ts ≠ .oof → parseLetArgs (n + 1) ts = parseLetArgs n ts
  | 0, _, h => absurd rfl h
  | n + 1, ts, h => by
    rw [parseLetArgs] at h
    rw [parseLetArgs, parseLetArgs]
    split
    · rfl
    · rename_i hp
      rw [if_neg hp] at h
      split
      · rename_i hi
        rw [if_pos hi] at h
        refine Out.bind_congr_ne h fun ⟨i, r⟩ ha => ?_
        simp only at ha ⊢
        rw [parseLetArgs_succ n r (Out.bind_ne_oof ha)]
      · rfl

structure ParseMono (n : Nat) : Prop where
  term : ∀ ts, parseTerm n ts ≠ .oof → parseTerm (n + 1) ts = parseTerm n ts
  terms : ∀ ts, parseTerms n ts ≠ .oof → parseTerms (n + 1) ts = parseTerms n ts
  call : ∀ ts, parseCall n ts ≠ .oof → parseCall (n + 1) ts = parseCall n ts
  cat : ∀ ts, parseCatItems n ts ≠ .oof → parseCatItems (n + 1) ts = parseCatItems n ts
  labelled : ∀ ts, parseLabelled n ts ≠ .oof → parseLabelled (n + 1) ts = parseLabelled n ts
  alt : ∀ ts, parseAltItems n ts ≠ .oof → parseAltItems (n + 1) ts = parseAltItems n ts
  expr : ∀ ts, parseExpr n ts ≠ .oof → parseExpr (n + 1) ts = parseExpr n ts

theorem parse_mono : ∀ n, ParseMono n
  | 0 => by constructor <;> (intro ts h; exact absurd (by simp only [parseTerm, parseTerms, parseCall, parseCatItems, parseLabelled, parseAltItems, parseExpr]) h)
  | n + 1 => by
    have ih := parse_mono n
    constructor
    · intro ts h
      rw [parseTerm.eq_def] at h
      rw [parseTerm.eq_def, parseTerm.eq_def (n + 1)]
      simp only at h ⊢
      split <;> try rfl
      · simp only at h; rw [ih.term _ (Out.bind_ne_oof h)]
      · simp only at h; rw [ih.expr _ (Out.bind_ne_oof h)]
    · intro ts h
      rw [parseTerms] at h
      rw [parseTerms, parseTerms]
      split
      · rename_i hp
        rw [if_pos hp] at h
        rw [ih.term _ (Out.bind_ne_oof h)]
        refine Out.bind_congr_ne h fun ⟨t, r⟩ ha => ?_
        simp only at ha ⊢
        rw [ih.terms _ (Out.bind_ne_oof ha)]
      · rfl
    · intro ts h
      rw [parseCall] at h
      rw [parseCall, parseCall, ih.term _ (Out.bind_ne_oof h)]
      refine Out.bind_congr_ne h fun ⟨t, r⟩ ha => ?_
      simp only at ha ⊢
      rw [ih.terms _ (Out.bind_ne_oof ha)]
    · intro ts h
      rw [parseCatItems] at h
      rw [parseCatItems, parseCatItems, ih.call _ (Out.bind_ne_oof h)]
      refine Out.bind_congr_ne h fun ⟨t, r⟩ ha => ?_
      simp only at ha ⊢
      split
      · simp only at ha; rw [ih.cat _ (Out.bind_ne_oof ha)]
      · rfl
    · intro ts h
      rw [parseLabelled] at h
      rw [parseLabelled, parseLabelled, ih.cat _ (Out.bind_ne_oof h)]
    · intro ts h
      rw [parseAltItems] at h
      rw [parseAltItems, parseAltItems, ih.labelled _ (Out.bind_ne_oof h)]
      refine Out.bind_congr_ne h fun ⟨t, r⟩ ha => ?_
      simp only at ha ⊢
      split
      · simp only at ha; rw [ih.alt _ (Out.bind_ne_oof ha)]
      · rfl
    · intro ts h
      rw [parseExpr.eq_def] at h
      rw [parseExpr.eq_def, parseExpr.eq_def (n + 1)]
      simp only at h ⊢
      split
      · simp only at h
        rw [parseLamArgs_succ _ _ (Out.bind_ne_oof h)]
        refine Out.bind_congr_ne h fun ⟨a, r⟩ ha => ?_
        simp only at ha ⊢
        refine Out.bind_congr_ne ha fun ⟨_, r⟩ ha => ?_
        simp only at ha ⊢
        rw [ih.alt _ (Out.bind_ne_oof ha)]
      · rename_i hne
        split at h
        · exact absurd rfl (hne _)
        · rw [ih.alt _ (Out.bind_ne_oof h)]

theorem parseStmt_succ : ∀ (n : Nat) (ts : List Tok), parseStmt n ts ≠ .oof → parseStmt (n + 1) ts = parseStmt n ts
  | 0, _, h => absurd rfl h
  | n + 1, ts, h => by
    rw [parseStmt.eq_def] at h
    rw [parseStmt.eq_def, parseStmt.eq_def (n + 1)]
    simp only at h ⊢
    split
    · simp only at h
      refine Out.bind_congr_ne h fun ⟨x, r⟩ ha => ?_
      simp only at ha ⊢
      rw [parseLetArgs_succ _ _ (Out.bind_ne_oof ha)]
      refine Out.bind_congr_ne ha fun ⟨a, r⟩ ha => ?_
      simp only at ha ⊢
      refine Out.bind_congr_ne ha fun ⟨_, r⟩ ha => ?_
      simp only at ha ⊢
      rw [(parse_mono n).expr _ (Out.bind_ne_oof ha)]
      refine Out.bind_congr_ne ha fun ⟨e, r⟩ ha => ?_
      simp only at ha ⊢
      refine Out.bind_congr_ne ha fun ⟨_, r⟩ ha => ?_
      simp only at ha ⊢
      rw [parseStmt_succ n _ (Out.bind_ne_oof ha)]
    · simp only at h
      rw [(parse_mono n).expr _ (Out.bind_ne_oof h)]
    · rfl

theorem parseStmt_mono {n m : Nat} (hnm : n ≤ m) (ts : List Tok) (h : parseStmt n ts ≠ .oof) :
    parseStmt m ts = parseStmt n ts := by
  induction hnm with
  | refl => rfl
  | step _ ih => rw [parseStmt_succ _ _ (by rw [ih]; exact h), ih]

/-! ## C14 -/

/-- The parser always ends: the fuel of the model suffices for every sequence of tokens. -/
theorem C14_parser_terminates (ts : List Tok) : parseProgram ts ≠ .oof := by
  refine Out.bind_ne (parseStmt_ne _ ts (by omega)) fun ⟨s, r⟩ _ => ?_
  simp only
  split <;> simp

/-- **C14.** Printing a parsed program gives back the tokens it was parsed from; nothing is lost or
invented. -/
theorem C14_print_parse (ts : List Tok) (s : Stmt) (h : parseProgram ts = .ok s) : s.toks = ts ∧ s.wf := by
  obtain ⟨⟨s', r⟩, h1, h2⟩ := Out.bind_ok h
  simp only at h2
  split at h2
  · cases h2
    obtain ⟨h3, h4⟩ := parseStmt_ok _ h1
    exact ⟨by simp [h3], h4⟩
  · cases h2

/-- **C14.** Parsing the tokens of any well-formed tree gives back the tree, with all input consumed. -/
theorem C14_parse_print (s : Stmt) (h : s.wf) : parseProgram s.toks = .ok s := by
  obtain ⟨N, hN⟩ := Stmt.parses s [] h
  have h1 := hN (max N (8 * Tok.sizeL s.toks + 9)) (by omega)
  rw [List.append_nil, parseStmt_mono (Nat.le_max_right _ _) _ (parseStmt_ne _ _ (by omega))] at h1
  simp only [parseProgram, h1, Out.bind]

/-- **C14.** The trees the parser can produce are the well-formed ones: no list is empty, no name is
`_`, and no parameter is a keyword. -/
theorem C14_parser_produces (s : Stmt) : (∃ ts, parseProgram ts = .ok s) ↔ s.wf :=
  ⟨fun ⟨ts, h⟩ => (C14_print_parse ts s h).2, fun h => ⟨s.toks, C14_parse_print s h⟩⟩

/-- **C14.** Hence every tree the parser can produce survives printing and parsing. -/
theorem C14_round_trip (ts : List Tok) (s : Stmt) (h : parseProgram ts = .ok s) : parseProgram s.toks = .ok s :=
  C14_parse_print s (C14_print_parse ts s h).2

end

/-- `let f x = !(/y/ "a" . y : L | _); match f b;` -/
private def exToks : List Tok :=
  [.ident false "let", .ident false "f", .ident false "x", .punct '=', .punct '!',
   .group true [.punct '/', .ident false "y", .punct '/', .str ['a'], .punct '.', .ident false "y", .punct ':',
     .ident false "L", .punct '|', .ident false "_"], .punct ';',
   .ident false "match", .ident false "f", .ident false "b", .punct ';']

example : ∃ s, parseProgram exToks = .ok s ∧ s.toks = exToks := ⟨_, rfl, rfl⟩

/-- Keywords are refused as parameters, though not as names. -/
example : parseProgram [.ident false "match", .punct '/', .ident false "let", .punct '/', .ident false "let", .punct ';']
    = .err () := rfl
example : ∃ s, parseProgram [.ident false "match", .ident false "let", .punct ';'] = .ok s := ⟨_, rfl⟩

/-! ## C10 and C43 for parsed programs -/

mutual
theorem Term.wf_flat : ∀ t : Term, t.wf → ∃ n, flatTerm t = some n
  | .eps _, _ => ⟨_, rfl⟩
  | .ident _, _ => ⟨_, rfl⟩
  | .lit _ _, _ => ⟨_, rfl⟩
  | .fix _ t, h => by
    obtain ⟨n, hn⟩ := Term.wf_flat t h.2
    exact ⟨.fix n, by simp [flatTerm, hn]⟩
  | .parens e, h => Expr.wf_flat e h
theorem Term.wf_flatL : ∀ l : List Term, Term.wfL l → ∃ n, flatTerms l = some n
  | [], _ => ⟨_, rfl⟩
  | t :: l, h => by
    obtain ⟨n, hn⟩ := Term.wf_flat t h.1
    obtain ⟨m, hm⟩ := Term.wf_flatL l h.2
    exact ⟨n :: m, by simp [flatTerms, hn, hm]⟩
theorem Call.wf_flat : ∀ x : Call, x.wf → ∃ n, flatCall x = some n
  | .mk _ [], h => absurd rfl h.2.1
  | .mk _ (t :: l), h => by
    obtain ⟨n, hn⟩ := Term.wf_flat t h.2.2.1
    obtain ⟨m, hm⟩ := Term.wf_flatL l h.2.2.2
    simp [flatCall, hn, hm]
theorem Call.wf_flatL : ∀ l : List (Call × Nat), Call.wfL l → ∃ n, flatCalls l = some n
  | [], _ => ⟨_, rfl⟩
  | (x, _) :: l, h => by
    obtain ⟨n, hn⟩ := Call.wf_flat x h.1
    obtain ⟨m, hm⟩ := Call.wf_flatL l h.2.2
    exact ⟨n :: m, by simp [flatCalls, hn, hm]⟩
theorem Cat.wf_flat : ∀ x : Cat, x.wf → ∃ n, flatCat x = some n
  | .mk _ [], h => absurd rfl h.2.1
  | .mk _ ((x, _) :: l), h => by
    obtain ⟨n, hn⟩ := Call.wf_flat x h.2.2.1
    obtain ⟨m, hm⟩ := Call.wf_flatL l h.2.2.2.2
    simp [flatCat, hn, hm]
theorem Labelled.wf_flat : ∀ x : Labelled, x.wf → ∃ n, flatLabelled x = some n
  | .mk _ cat _, h => Cat.wf_flat cat h.2.1
theorem Labelled.wf_flatL : ∀ l : List (Labelled × Nat), Labelled.wfL l → ∃ n, flatLabelleds l = some n
  | [], _ => ⟨_, rfl⟩
  | (x, _) :: l, h => by
    obtain ⟨n, hn⟩ := Labelled.wf_flat x h.1
    obtain ⟨m, hm⟩ := Labelled.wf_flatL l h.2.2
    exact ⟨n :: m, by simp [flatLabelleds, hn, hm]⟩
theorem Alt.wf_flat : ∀ x : Alt, x.wf → ∃ n, flatAlt x = some n
  | .mk _ [], h => absurd rfl h.2.1
  | .mk _ ((x, _) :: l), h => by
    obtain ⟨n, hn⟩ := Labelled.wf_flat x h.2.2.1
    obtain ⟨m, hm⟩ := Labelled.wf_flatL l h.2.2.2.2
    simp [flatAlt, hn, hm]
theorem Expr.wf_flat : ∀ e : Expr, e.wf → ∃ n, flatExpr e = some n
  | .alt a, h => Alt.wf_flat a h
  | .lam _ args body, h => by
    obtain ⟨n, hn⟩ := Alt.wf_flat body h.2.2.2
    simp [flatExpr, hn]
end

theorem Stmt.wf_flat : ∀ s : Stmt, s.wf → ∃ n, flatStmt s = some n
  | .goal _ e, h => Expr.wf_flat e h.2
  | .letS _ x args e next, h => by
    obtain ⟨n, hn⟩ := Expr.wf_flat e h.2.2.2.1
    obtain ⟨m, hm⟩ := Stmt.wf_flat next h.2.2.2.2
    simp [flatStmt, hn, hm]

/-- **C10** (parsed programs). A program that comes out of the parser converts, unless it uses an
undeclared identifier: then conversion fails with the first one in source order, and with no other
error. -/
theorem C10_parsed_program (ts : List Tok) (s : Stmt) (h : parseProgram ts = .ok s) :
    ∃ n, flatStmt s = some n ∧
      ((n.free [] = [] ∧ ∃ e c, convStmt s [] = some (.ok e, c)) ∨
       ∃ i l c, n.free [] = i :: l ∧ convStmt s [] = some (.error (.undeclaredName (.newVariable i.content)), c)) := by
  obtain ⟨n, hn⟩ := s.wf_flat (C14_print_parse ts s h).2
  refine ⟨n, hn, ?_⟩
  cases hf : n.free [] with
  | nil => exact .inl ⟨rfl, (C10_convert_succeeds_iff s).2.2 ⟨n, hn, hf⟩⟩
  | cons i l =>
    obtain ⟨c, hc⟩ := C10_convert_error s n i l hn hf
    exact .inr ⟨i, l, c, rfl, hc⟩

example : ∃ s n, parseProgram exToks = .ok s ∧ flatStmt s = some n ∧ (n.free []).map (·.sym) = ["b"] :=
  ⟨_, _, rfl, rfl, by decide⟩

end Chomp
