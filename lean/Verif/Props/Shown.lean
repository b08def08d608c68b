import Verif.Ast.Display
import Verif.Ast.Lemmas
import Verif.Props.Errors

/-!
# C79: the text of an expression

What the text of an expression tells: the tree `Shown` of its words, brackets and separators.
-/

namespace Chomp

/-! ## Specification -/

/-- Characters that end a word. -/
def endsWord (c : Char) : Bool := c ∈ [' ', '(', ')', '!', '\'', '/', ';', ',']

/-- A word that cannot be taken for something else in the text of an expression. -/
def PlainWord (s : List Char) : Prop :=
  s ≠ [] ∧ (∀ c ∈ s, endsWord c = false) ∧ s ≠ "_".toList ∧ s ≠ "let".toList ∧ s ≠ ".".toList ∧ s ≠ "|".toList ∧ s ≠ ":".toList

/-- Names can be used as they are; nothing else can be written for a name. -/
def PlainNames (N : List Char → Prop) (i : Info) : Prop := ∀ n ∈ i.name, PlainWord n.text ∧ N n.text

mutual
/-- Names and literals are plain words; the texts of the names are in `N`, those of the literals are not; concatenations, alternations
and calls have at least two parts (as `convert` makes them, `C79_programs_have_parts`). -/
def NE.Legible (N : List Char → Prop) : NE → Prop
  | .eps i => PlainNames N i
  | .lit i s => PlainNames N i ∧ PlainWord s ∧ ¬ N s
  | .cat i f r => PlainNames N i ∧ f.Legible N ∧ r ≠ [] ∧ NE.LegibleP N r
  | .alt i f r => PlainNames N i ∧ f.Legible N ∧ r ≠ [] ∧ NE.LegibleP N r
  | .fix i b => PlainNames N i ∧ b.Legible N
  | .var i _ => PlainNames N i
  | .call i o a => PlainNames N i ∧ o.Legible N ∧ a ≠ [] ∧ NE.LegibleL N a
  | .lam i ps b => PlainNames N i ∧ (∀ p ∈ ps, PlainWord p.text ∧ N p.text) ∧ b.Legible N
  | .letE i n b c => PlainNames N i ∧ (PlainWord n.text ∧ N n.text) ∧ b.Legible N ∧ c.Legible N
def NE.LegibleP (N : List Char → Prop) : List (Nat × NE) → Prop
  | [] => True
  | (_, e) :: l => e.Legible N ∧ NE.LegibleP N l
def NE.LegibleL (N : List Char → Prop) : List NE → Prop
  | [] => True
  | e :: l => e.Legible N ∧ NE.LegibleL N l
end

mutual
/-- Every variable with a name is called as its binder, and no binder in between is called so; `env` lists the texts of the names of the
binders around, innermost first. -/
def NE.Resolved (env : List (List Char)) : NE → Prop
  | .eps _ => True
  | .lit _ _ => True
  | .cat _ f r => f.Resolved env ∧ NE.ResolvedP env r
  | .alt _ f r => f.Resolved env ∧ NE.ResolvedP env r
  | .fix _ b => b.Resolved env
  | .var i k => ∀ n ∈ i.name, env[k]? = some n.text ∧ ∀ j, j < k → env[j]? ≠ some n.text
  | .call _ o a => o.Resolved env ∧ NE.ResolvedL env a
  | .lam _ ps b => b.Resolved ((ps.map Name.text).reverse ++ env)
  | .letE _ n b c => b.Resolved env ∧ c.Resolved (n.text :: env)
def NE.ResolvedP (env : List (List Char)) : List (Nat × NE) → Prop
  | [] => True
  | (_, e) :: l => e.Resolved env ∧ NE.ResolvedP env l
def NE.ResolvedL (env : List (List Char)) : List NE → Prop
  | [] => True
  | e :: l => e.Resolved env ∧ NE.ResolvedL env l
end

mutual
/-- The same expression up to spans, kinds of names, and the indices of variables that have names. -/
def NE.LooksLike : NE → NE → Prop
  | .eps i, .eps i' => i.name.map Name.text = i'.name.map Name.text
  | .lit i s, .lit i' s' => i.name.map Name.text = i'.name.map Name.text ∧ s = s'
  | .cat i f r, .cat i' f' r' => i.name.map Name.text = i'.name.map Name.text ∧ f.LooksLike f' ∧ NE.LooksLikeP r r'
  | .alt i f r, .alt i' f' r' => i.name.map Name.text = i'.name.map Name.text ∧ f.LooksLike f' ∧ NE.LooksLikeP r r'
  | .fix i b, .fix i' b' => i.name.map Name.text = i'.name.map Name.text ∧ b.LooksLike b'
  | .var i k, .var i' k' => i.name.map Name.text = i'.name.map Name.text ∧ (i.name = none → k = k')
  | .call i o a, .call i' o' a' => i.name.map Name.text = i'.name.map Name.text ∧ o.LooksLike o' ∧ NE.LooksLikeL a a'
  | .lam i ps b, .lam i' ps' b' =>
    i.name.map Name.text = i'.name.map Name.text ∧ ps.map Name.text = ps'.map Name.text ∧ b.LooksLike b'
  | .letE i n b c, .letE i' n' b' c' =>
    i.name.map Name.text = i'.name.map Name.text ∧ n.text = n'.text ∧ b.LooksLike b' ∧ c.LooksLike c'
  | _, _ => False
def NE.LooksLikeP : List (Nat × NE) → List (Nat × NE) → Prop
  | [], [] => True
  | (_, e) :: l, (_, e') :: l' => e.LooksLike e' ∧ NE.LooksLikeP l l'
  | _, _ => False
def NE.LooksLikeL : List NE → List NE → Prop
  | [], [] => True
  | e :: l, e' :: l' => e.LooksLike e' ∧ NE.LooksLikeL l l'
  | _, _ => False
end

/-! ## Words, brackets and separators -/

inductive Sep where
  | dot | bar | colon | space
deriving DecidableEq

def Sep.text : Sep → List Char
  | .dot => [' ', '.', ' ']
  | .bar => [' ', '|', ' ']
  | .colon => [' ', ':', ' ']
  | .space => [' ']

inductive Shown where
  | word (s : List Char)
  | index (k : Nat)
  | bang (t : Shown)
  | lam (ps : List (List Char)) (t : Shown)
  | letS (n : List Char) (b c : Shown)
  | group (h : Shown) (sep : Sep) (l : List Shown)

def commaWords : List (List Char) → List Char
  | [] => []
  | [n] => n
  | n :: l => n ++ ([',', ' '] ++ commaWords l)

mutual
def Shown.text : Shown → List Char
  | .word s => s
  | .index k => '\'' :: showNat k
  | .bang t => '!' :: t.text
  | .lam ps t => '/' :: (commaWords ps ++ ('/' :: ' ' :: t.text))
  | .letS n b c => 'l' :: 'e' :: 't' :: ' ' :: (n ++ (' ' :: '=' :: ' ' :: (b.text ++ (';' :: ' ' :: c.text))))
  | .group h sep l => '(' :: (h.text ++ (Shown.textL sep l ++ [')']))
def Shown.textL (sep : Sep) : List Shown → List Char
  | [] => []
  | t :: l => sep.text ++ (t.text ++ Shown.textL sep l)
end

def WordOk (s : List Char) : Prop :=
  s ≠ [] ∧ (∀ c ∈ s, endsWord c = false) ∧ s ≠ "let".toList ∧ s ≠ ".".toList ∧ s ≠ "|".toList ∧ s ≠ ":".toList

mutual
def Shown.Ok : Shown → Prop
  | .word s => WordOk s
  | .index _ => True
  | .bang t => t.Ok
  | .lam ps t => (∀ p ∈ ps, WordOk p) ∧ t.Ok
  | .letS n b c => WordOk n ∧ b.Ok ∧ c.Ok
  | .group h _ l => h.Ok ∧ l ≠ [] ∧ Shown.OkL l
def Shown.OkL : List Shown → Prop
  | [] => True
  | t :: l => t.Ok ∧ Shown.OkL l
end

/-- What may follow an expression in a text. -/
def After (r : List Char) : Prop := r = [] ∨ ∃ c x, r = c :: x ∧ (c = ' ' ∨ c = ')' ∨ c = ';')

theorem After.ends {c : Char} {x : List Char} (h : After (c :: x)) : endsWord c = true := by
  rcases h with h | ⟨_, _, h, h'⟩
  · cases h
  · cases h
    rcases h' with rfl | rfl | rfl <;> decide

theorem After.digit {c : Char} {x : List Char} (h : After (c :: x)) : c.isDigit = false := by
  rcases h with h | ⟨_, _, h, h'⟩
  · cases h
  · cases h
    rcases h' with rfl | rfl | rfl <;> decide

/-- Splitting after a run of characters. -/
theorem split_run {P : Char → Prop} : ∀ {l m x y : List Char}, (∀ c ∈ l, P c) → (∀ c ∈ m, P c) → (∀ c x', x = c :: x' → ¬ P c) →
    (∀ c y', y = c :: y' → ¬ P c) → l ++ x = m ++ y → l = m ∧ x = y
  | [], [], _, _, _, _, _, _, h => ⟨rfl, h⟩
  | [], c :: m, _, _, _, hm, hx, _, h => absurd (hm c (by simp)) (hx c _ h)
  | c :: l, [], _, _, hl, _, _, hy, h => absurd (hl c (by simp)) (hy c _ h.symm)
  | c :: l, d :: m, _, _, hl, hm, hx, hy, h => by
    simp only [List.cons_append, List.cons.injEq] at h
    obtain ⟨h1, h2⟩ := h
    have := split_run (fun c hc => hl c (by simp [hc])) (fun c hc => hm c (by simp [hc])) hx hy h2
    exact ⟨by rw [h1, this.1], this.2⟩

theorem word_split {s s' r r' : List Char} (h : ∀ c ∈ s, endsWord c = false) (h' : ∀ c ∈ s', endsWord c = false)
    (hr : ∀ c x, r = c :: x → endsWord c = true) (hr' : ∀ c x, r' = c :: x → endsWord c = true) (e : s ++ r = s' ++ r') : s = s' ∧ r = r' :=
  split_run (P := fun c => endsWord c = false) h h' (fun c x hx => by simp [hr c x hx]) (fun c x hx => by simp [hr' c x hx]) e

theorem After.end' {r : List Char} (h : After r) : ∀ c x, r = c :: x → endsWord c = true := by
  rintro c x rfl
  exact h.ends

theorem textL_after {sep : Sep} {l : List Shown} {r : List Char} : After (Shown.textL sep l ++ (')' :: r)) := by
  cases l with
  | nil => exact .inr ⟨_, _, rfl, by simp⟩
  | cons t l => cases sep <;> exact .inr ⟨_, _, rfl, by simp⟩

theorem commaWords_split : ∀ {ps ps' : List (List Char)} {r r' : List Char}, (∀ p ∈ ps, WordOk p) → (∀ p ∈ ps', WordOk p) →
    commaWords ps ++ ('/' :: r) = commaWords ps' ++ ('/' :: r') → ps = ps' ∧ r = r'
  | [], [], _, _, _, _, h => by simpa [commaWords] using h
  | [], [p], _, _, _, h', h => by
    have hp := h' p (by simp)
    obtain ⟨c, p', rfl⟩ := List.exists_cons_of_ne_nil hp.1
    simp only [commaWords, List.nil_append, List.cons_append, List.cons.injEq] at h
    have := hp.2.1 c (by simp)
    rw [← h.1] at this
    exact absurd this (by decide)
  | [], p :: q :: ps, _, _, _, h', h => by
    have hp := h' p (by simp)
    obtain ⟨c, p', rfl⟩ := List.exists_cons_of_ne_nil hp.1
    simp only [commaWords, List.nil_append, List.cons_append, List.cons.injEq] at h
    have := hp.2.1 c (by simp)
    rw [← h.1] at this
    exact absurd this (by decide)
  | [p], [], _, _, h', _, h => by
    have hp := h' p (by simp)
    obtain ⟨c, p', rfl⟩ := List.exists_cons_of_ne_nil hp.1
    simp only [commaWords, List.nil_append, List.cons_append, List.cons.injEq] at h
    have := hp.2.1 c (by simp)
    rw [h.1] at this
    exact absurd this (by decide)
  | p :: q :: ps, [], _, _, h', _, h => by
    have hp := h' p (by simp)
    obtain ⟨c, p', rfl⟩ := List.exists_cons_of_ne_nil hp.1
    simp only [commaWords, List.nil_append, List.cons_append, List.cons.injEq] at h
    have := hp.2.1 c (by simp)
    rw [h.1] at this
    exact absurd this (by decide)
  | [p], [p'], r, r', h1, h2, h => by
    simp only [commaWords] at h
    obtain ⟨e1, e2⟩ := word_split (h1 p (by simp)).2.1 (h2 p' (by simp)).2.1 (by rintro c x ⟨⟩; decide) (by rintro c x ⟨⟩; decide) h
    cases e2
    exact ⟨by rw [e1], rfl⟩
  | [p], p' :: q :: ps, r, r', h1, h2, h => by
    simp only [commaWords, List.append_assoc, List.cons_append] at h
    obtain ⟨_, e2⟩ := word_split (h1 p (by simp)).2.1 (h2 p' (by simp)).2.1 (by rintro c x ⟨⟩; decide) (by rintro c x ⟨⟩; decide) h
    simp at e2
  | p :: q :: ps, [p'], r, r', h1, h2, h => by
    simp only [commaWords, List.append_assoc, List.cons_append] at h
    obtain ⟨_, e2⟩ := word_split (h1 p (by simp)).2.1 (h2 p' (by simp)).2.1 (by rintro c x ⟨⟩; decide) (by rintro c x ⟨⟩; decide) h
    simp at e2
  | p :: q :: ps, p' :: q' :: ps', r, r', h1, h2, h => by
    change p ++ ([',', ' '] ++ commaWords (q :: ps)) ++ ('/' :: r) = p' ++ ([',', ' '] ++ commaWords (q' :: ps')) ++ ('/' :: r') at h
    simp only [List.append_assoc, List.cons_append, List.nil_append] at h
    obtain ⟨e1, e2⟩ := word_split (h1 p (by simp)).2.1 (h2 p' (by simp)).2.1 (by rintro c x ⟨⟩; decide) (by rintro c x ⟨⟩; decide) h
    simp only [List.cons.injEq, true_and] at e2
    obtain ⟨e3, e4⟩ := commaWords_split (fun x hx => h1 x (by simp [hx])) (fun x hx => h2 x (by simp [hx])) e2
    exact ⟨by rw [e1, e3], e4⟩

/-- The text of a word is different from that of other things. -/
theorem Shown.word_text {t : Shown} {s r r' : List Char} (hs : WordOk s) (ht : t.Ok) (hr : After r) (hr' : After r')
    (h : s ++ r = t.text ++ r') : t = .word s ∧ r = r' := by
  obtain ⟨c, s', rfl⟩ := List.exists_cons_of_ne_nil hs.1
  have hc := hs.2.1 c (by simp)
  cases t with
  | word s2 =>
    obtain ⟨rfl, rfl⟩ := word_split hs.2.1 ht.2.1 hr.end' hr'.end' h
    exact ⟨rfl, rfl⟩
  | letS n b c2 =>
    simp only [Shown.text] at h
    obtain ⟨h1, _⟩ := word_split (s' := ['l', 'e', 't']) (r' := ' ' :: (n ++ (' ' :: '=' :: ' ' :: (b.text ++ (';' :: ' ' :: c2.text)))) ++ r')
      hs.2.1 (by decide) hr.end' (by rintro c x ⟨⟩; decide) (by simpa using h)
    exact absurd h1 hs.2.2.1
  | index k | bang t | lam ps t | group h0 sep l =>
    simp only [Shown.text, List.cons_append, List.cons.injEq] at h
    rw [h.1] at hc
    exact absurd hc (by decide)

theorem Shown.no_let {t : Shown} (ht : t.Ok) {r r' : List Char} (hr' : After r') (h : 'l' :: 'e' :: 't' :: ' ' :: r = t.text ++ r') :
    ∃ n b c, t = .letS n b c := by
  cases t with
  | word s =>
    obtain ⟨h1, _⟩ := word_split (s := ['l', 'e', 't']) (r := ' ' :: r) (by decide) ht.2.1 (by rintro c x ⟨⟩; decide) hr'.end' h
    exact absurd h1.symm ht.2.2.1
  | letS n b c => exact ⟨n, b, c, rfl⟩
  | index k | bang t | lam ps t | group h0 sep l => simp [Shown.text] at h

/-- A single mark is no expression. -/
theorem Shown.no_mark {t : Shown} (ht : t.Ok) {m : Char} (hm : m = '.' ∨ m = '|' ∨ m = ':') {r r' : List Char} (hr' : After r')
    (h : m :: ' ' :: r = t.text ++ r') : False := by
  have he : endsWord m = false := by rcases hm with rfl | rfl | rfl <;> decide
  cases t with
  | word s =>
    obtain ⟨h1, _⟩ := word_split (s := [m]) (r := ' ' :: r) (by simpa using he) ht.2.1 (by rintro c x ⟨⟩; decide) hr'.end' h
    rcases hm with rfl | rfl | rfl
    · exact ht.2.2.2.1 h1.symm
    · exact ht.2.2.2.2.1 h1.symm
    · exact ht.2.2.2.2.2 h1.symm
  | letS n b c | index k | bang t | lam ps t | group h0 sep l =>
    simp only [Shown.text, List.cons_append, List.cons.injEq] at h
    rw [h.1] at hm
    revert hm
    decide

theorem Sep.of_text {sep sep' : Sep} {t t' : Shown} {l l' : List Shown} (ht : t.Ok) (ht' : t'.Ok) {r r' : List Char}
    (h : Shown.textL sep (t :: l) ++ (')' :: r) = Shown.textL sep' (t' :: l') ++ (')' :: r')) : sep = sep' := by
  have a1 : After (Shown.textL sep l ++ (')' :: r)) := textL_after
  have a2 : After (Shown.textL sep' l' ++ (')' :: r')) := textL_after
  cases sep <;> cases sep' <;> first | rfl | skip
  all_goals
    exfalso
    simp [Shown.textL, Sep.text] at h
  · exact Shown.no_mark ht' (.inl rfl) a2 h
  · exact Shown.no_mark ht' (.inr (.inl rfl)) a2 h
  · exact Shown.no_mark ht' (.inr (.inr rfl)) a2 h
  · exact Shown.no_mark ht (.inl rfl) a1 h.symm
  · exact Shown.no_mark ht (.inr (.inl rfl)) a1 h.symm
  · exact Shown.no_mark ht (.inr (.inr rfl)) a1 h.symm

mutual
/-- Unique readability. -/
theorem Shown.read : ∀ (t t' : Shown) (r r' : List Char), t.Ok → t'.Ok → After r → After r' → t.text ++ r = t'.text ++ r' → t = t' ∧ r = r'
  | .word s, t', r, r', ht, ht', hr, hr', h => by
    obtain ⟨h1, h2⟩ := Shown.word_text ht ht' hr hr' h
    exact ⟨h1.symm, h2⟩
  | .index k, t', r, r', ht, ht', hr, hr', h => by
    cases t' with
    | index k' =>
      simp only [Shown.text, List.cons_append, List.cons.injEq, true_and] at h
      obtain ⟨h1, h2⟩ := split_run (P := fun c => c.isDigit = true) (fun c => showNat_digit) (fun c => showNat_digit)
        (by rintro c x rfl; simp [hr.digit]) (by rintro c x rfl; simp [hr'.digit]) h
      exact ⟨by rw [showNat_inj h1], h2⟩
    | word s =>
      obtain ⟨h1, h2⟩ := Shown.word_text ht' ht hr' hr h.symm
      exact ⟨h1, h2.symm⟩
    | _ => simp [Shown.text] at h
  | .bang t, t', r, r', ht, ht', hr, hr', h => by
    cases t' with
    | bang t' =>
      simp only [Shown.text, List.cons_append, List.cons.injEq, true_and] at h
      obtain ⟨h1, h2⟩ := Shown.read t t' r r' ht ht' hr hr' h
      exact ⟨by rw [h1], h2⟩
    | word s =>
      obtain ⟨h1, h2⟩ := Shown.word_text ht' ht hr' hr h.symm
      exact ⟨h1, h2.symm⟩
    | _ => simp [Shown.text] at h
  | .lam ps t, t', r, r', ht, ht', hr, hr', h => by
    cases t' with
    | lam ps' t' =>
      simp only [Shown.text, List.cons_append, List.cons.injEq, true_and, List.append_assoc] at h
      obtain ⟨h1, h2⟩ := commaWords_split ht.1 ht'.1 h
      simp only [List.cons.injEq, true_and] at h2
      obtain ⟨h3, h4⟩ := Shown.read t t' r r' ht.2 ht'.2 hr hr' h2
      exact ⟨by rw [h1, h3], h4⟩
    | word s =>
      obtain ⟨h1, h2⟩ := Shown.word_text ht' ht hr' hr h.symm
      exact ⟨h1, h2.symm⟩
    | _ => simp [Shown.text] at h
  | .letS n b c, t', r, r', ht, ht', hr, hr', h => by
    obtain ⟨n', b', c', rfl⟩ := Shown.no_let ht' hr' h
    simp only [Shown.text, List.cons_append, List.cons.injEq, true_and, List.append_assoc] at h
    obtain ⟨h1, h2⟩ := word_split ht.1.2.1 ht'.1.2.1 (by rintro c x ⟨⟩; decide) (by rintro c x ⟨⟩; decide) h
    simp only [List.cons.injEq, true_and] at h2
    obtain ⟨h3, h4⟩ := Shown.read b b' _ _ ht.2.1 ht'.2.1 (.inr ⟨_, _, rfl, by simp⟩) (.inr ⟨_, _, rfl, by simp⟩) h2
    simp only [List.cons.injEq, true_and] at h4
    obtain ⟨h5, h6⟩ := Shown.read c c' r r' ht.2.2 ht'.2.2 hr hr' h4
    exact ⟨by rw [h1, h3, h5], h6⟩
  | .group h0 sep l, t', r, r', ht, ht', hr, hr', h => by
    cases t' with
    | group h0' sep' l' =>
      simp only [Shown.text, List.cons_append, List.cons.injEq, true_and, List.append_assoc] at h
      obtain ⟨h1, h2⟩ := Shown.read h0 h0' _ _ ht.1 ht'.1 textL_after textL_after h
      obtain ⟨t, l, rfl⟩ := List.exists_cons_of_ne_nil ht.2.1
      obtain ⟨t', l', rfl⟩ := List.exists_cons_of_ne_nil ht'.2.1
      obtain rfl := Sep.of_text ht.2.2.1 ht'.2.2.1 h2
      obtain ⟨h3, h4⟩ := Shown.readL sep (t :: l) (t' :: l') r r' ht.2.2 ht'.2.2 h2
      exact ⟨by rw [h1, h3], h4⟩
    | word s =>
      obtain ⟨h1, h2⟩ := Shown.word_text ht' ht hr' hr h.symm
      exact ⟨h1, h2.symm⟩
    | _ => simp [Shown.text] at h
theorem Shown.readL (sep : Sep) : ∀ (l l' : List Shown) (r r' : List Char), Shown.OkL l → Shown.OkL l' →
    Shown.textL sep l ++ (')' :: r) = Shown.textL sep l' ++ (')' :: r') → l = l' ∧ r = r'
  | [], [], r, r', _, _, h => by simpa [Shown.textL] using h
  | [], t :: l, r, r', _, _, h => by cases sep <;> simp [Shown.textL, Sep.text] at h
  | t :: l, [], r, r', _, _, h => by cases sep <;> simp [Shown.textL, Sep.text] at h
  | t :: l, t' :: l', r, r', ht, ht', h => by
    simp only [Shown.textL, List.append_assoc] at h
    obtain ⟨h1, h2⟩ := Shown.read t t' _ _ ht.1 ht'.1 textL_after textL_after (List.append_cancel_left h)
    obtain ⟨h3, h4⟩ := Shown.readL sep l l' r r' ht.2 ht'.2 h2
    exact ⟨by rw [h1, h3], h4⟩
end

/-! ## Expressions as trees of words -/

def Info.shown (i : Info) (t : Shown) : Shown :=
  match i.name with
  | some n => .group t .colon [.word n.text]
  | none => t

mutual
def NE.shown : NE → Shown
  | .eps i => i.shown (.word ['_'])
  | .lit i s => i.shown (.word s)
  | .cat i f r => i.shown (.group f.shown .dot (NE.shownP r))
  | .alt i f r => i.shown (.group f.shown .bar (NE.shownP r))
  | .fix i b => i.shown (.bang b.shown)
  | .var i k =>
    match i.name with
    | some n => .word n.text
    | none => .index k
  | .call i o a => i.shown (.group o.shown .space (NE.shownL a))
  | .lam i ps b => i.shown (.lam (ps.map Name.text) b.shown)
  | .letE i n b c => i.shown (.letS n.text b.shown c.shown)
def NE.shownP : List (Nat × NE) → List Shown
  | [] => []
  | (_, e) :: l => e.shown :: NE.shownP l
def NE.shownL : List NE → List Shown
  | [] => []
  | e :: l => e.shown :: NE.shownL l
end

theorem Info.shown_text (i : Info) (t : Shown) : (i.shown t).text = i.wrap t.text := by
  obtain ⟨n, s⟩ := i
  cases n <;> simp [Info.shown, Info.wrap, Shown.text, Shown.textL, Sep.text]

theorem commaWords_names : ∀ ps : List Name, commaWords (ps.map Name.text) = commaNames ps
  | [] => rfl
  | [_] => rfl
  | p :: q :: ps => by
    have := commaWords_names (q :: ps)
    rw [List.map_cons] at this
    rw [List.map_cons, List.map_cons, commaWords, commaNames, this]
    · rfl
    all_goals simp

mutual
theorem NE.shown_text : ∀ e : NE, e.shown.text = e.display
  | .eps i => by simp [NE.shown, NE.display, Info.shown_text, Shown.text]
  | .lit i s => by simp [NE.shown, NE.display, Info.shown_text, Shown.text]
  | .cat i f r => by simp [NE.shown, NE.display, Info.shown_text, Shown.text, NE.shown_text f, NE.shownP_dot r]
  | .alt i f r => by simp [NE.shown, NE.display, Info.shown_text, Shown.text, NE.shown_text f, NE.shownP_bar r]
  | .fix i b => by simp [NE.shown, NE.display, Info.shown_text, Shown.text, NE.shown_text b]
  | .var ⟨n, s⟩ k => by cases n <;> simp [NE.shown, NE.display, Shown.text]
  | .call i o a => by simp [NE.shown, NE.display, Info.shown_text, Shown.text, NE.shown_text o, NE.shownL_text a]
  | .lam i ps b => by simp [NE.shown, NE.display, Info.shown_text, Shown.text, NE.shown_text b, commaWords_names]
  | .letE i n b c => by simp [NE.shown, NE.display, Info.shown_text, Shown.text, NE.shown_text b, NE.shown_text c]
theorem NE.shownP_dot : ∀ l : List (Nat × NE), Shown.textL .dot (NE.shownP l) = NE.displayP " . ".toList l
  | [] => rfl
  | (_, e) :: l => by simp [NE.shownP, Shown.textL, NE.displayP, NE.shown_text e, NE.shownP_dot l, Sep.text]
theorem NE.shownP_bar : ∀ l : List (Nat × NE), Shown.textL .bar (NE.shownP l) = NE.displayP " | ".toList l
  | [] => rfl
  | (_, e) :: l => by simp [NE.shownP, Shown.textL, NE.displayP, NE.shown_text e, NE.shownP_bar l, Sep.text]
theorem NE.shownL_text : ∀ l : List NE, Shown.textL .space (NE.shownL l) = NE.displayL l
  | [] => rfl
  | e :: l => by simp [NE.shownL, Shown.textL, NE.displayL, NE.shown_text e, NE.shownL_text l, Sep.text]
end

theorem PlainWord.ok {s : List Char} (h : PlainWord s) : WordOk s := ⟨h.1, h.2.1, h.2.2.2⟩

theorem Info.shown_ok {N : List Char → Prop} {i : Info} {t : Shown} (hi : PlainNames N i) (ht : t.Ok) : (i.shown t).Ok := by
  obtain ⟨n, s⟩ := i
  cases n with
  | none => exact ht
  | some n => exact ⟨ht, by simp, (hi n rfl).1.ok, trivial⟩

theorem NE.shownP_ne {r : List (Nat × NE)} (h : r ≠ []) : NE.shownP r ≠ [] := by
  cases r with
  | nil => exact absurd rfl h
  | cons p r => simp [NE.shownP]

theorem NE.shownL_ne {r : List NE} (h : r ≠ []) : NE.shownL r ≠ [] := by
  cases r with
  | nil => exact absurd rfl h
  | cons p r => simp [NE.shownL]

variable {N : List Char → Prop}

mutual
theorem NE.shown_ok : ∀ e : NE, e.Legible N → e.shown.Ok
  | .eps i, h => Info.shown_ok h (by exact ⟨by simp, by decide, by decide, by decide, by decide, by decide⟩)
  | .lit i s, h => Info.shown_ok h.1 h.2.1.ok
  | .cat i f r, h => Info.shown_ok h.1 ⟨NE.shown_ok f h.2.1, NE.shownP_ne h.2.2.1, NE.shownP_ok r h.2.2.2⟩
  | .alt i f r, h => Info.shown_ok h.1 ⟨NE.shown_ok f h.2.1, NE.shownP_ne h.2.2.1, NE.shownP_ok r h.2.2.2⟩
  | .fix i b, h => Info.shown_ok h.1 (NE.shown_ok b h.2)
  | .var ⟨n, s⟩ k, h => by
    cases n with
    | none => exact trivial
    | some n => exact (h n rfl).1.ok
  | .call i o a, h => Info.shown_ok h.1 ⟨NE.shown_ok o h.2.1, NE.shownL_ne h.2.2.1, NE.shownL_ok a h.2.2.2⟩
  | .lam i ps b, h => Info.shown_ok h.1 ⟨by
      intro p hp
      obtain ⟨q, hq, rfl⟩ := List.mem_map.1 hp
      exact (h.2.1 q hq).1.ok, NE.shown_ok b h.2.2⟩
  | .letE i n b c, h => Info.shown_ok h.1 ⟨h.2.1.1.ok, NE.shown_ok b h.2.2.1, NE.shown_ok c h.2.2.2⟩
theorem NE.shownP_ok : ∀ l : List (Nat × NE), NE.LegibleP N l → Shown.OkL (NE.shownP l)
  | [], _ => trivial
  | (_, e) :: l, h => ⟨NE.shown_ok e h.1, NE.shownP_ok l h.2⟩
theorem NE.shownL_ok : ∀ l : List NE, NE.LegibleL N l → Shown.OkL (NE.shownL l)
  | [], _ => trivial
  | e :: l, h => ⟨NE.shown_ok e h.1, NE.shownL_ok l h.2⟩
end

/-- Bare expressions: no `… : …`. -/
def Shown.bare : Shown → Prop
  | .group _ .colon _ => False
  | _ => True

theorem Info.shown_inj {i i' : Info} {t t' : Shown} (ht : t.bare) (ht' : t'.bare) (h : i.shown t = i'.shown t') :
    i.name.map Name.text = i'.name.map Name.text ∧ t = t' := by
  obtain ⟨n, s⟩ := i
  obtain ⟨n', s'⟩ := i'
  cases n <;> cases n' <;> simp only [Info.shown] at h
  · exact ⟨rfl, h⟩
  · rw [h] at ht
    exact ht.elim
  · rw [← h] at ht'
    exact ht'.elim
  · simp only [Shown.group.injEq, true_and, List.cons.injEq, Shown.word.injEq, and_true] at h
    exact ⟨by simp [h.2], h.1⟩

/-- The name of an expression and the tree of its text without it. -/
def NE.bareShown : NE → Shown
  | .eps _ => .word ['_']
  | .lit _ s => .word s
  | .cat _ f r => .group f.shown .dot (NE.shownP r)
  | .alt _ f r => .group f.shown .bar (NE.shownP r)
  | .fix _ b => .bang b.shown
  | .var i k =>
    match i.name with
    | some n => .word n.text
    | none => .index k
  | .call _ o a => .group o.shown .space (NE.shownL a)
  | .lam _ ps b => .lam (ps.map Name.text) b.shown
  | .letE _ n b c => .letS n.text b.shown c.shown

theorem NE.bareShown_bare (e : NE) : e.bareShown.bare := by
  cases e with
  | var i k =>
    obtain ⟨n, s⟩ := i
    cases n <;> trivial
  | _ => trivial

def NE.shownName : NE → Info
  | .var i _ => ⟨none, i.span⟩
  | e => e.info

theorem NE.shown_eq (e : NE) : e.shown = e.shownName.shown e.bareShown := by
  cases e <;> rfl

theorem NE.shown_split {e e' : NE} (h : e.shown = e'.shown) :
    e.shownName.name.map Name.text = e'.shownName.name.map Name.text ∧ e.bareShown = e'.bareShown :=
  Info.shown_inj e.bareShown_bare e'.bareShown_bare (by rw [← NE.shown_eq, ← NE.shown_eq, h])

mutual
theorem NE.shown_looks : ∀ e e' : NE, e.Legible N → e'.Legible N → e.shown = e'.shown → e.LooksLike e'
  | .eps i, e', h, h', he => by
    obtain ⟨h1, h2⟩ := NE.shown_split he
    cases e' with
    | eps i' => exact h1
    | lit i' s => exact absurd (Shown.word.inj h2).symm h'.2.1.2.2.1
    | var i' k =>
      obtain ⟨n, s⟩ := i'
      cases n with
      | none => cases h2
      | some n => exact absurd (Shown.word.inj h2).symm (h' n rfl).1.2.2.1
    | _ => simp [NE.bareShown] at h2
  | .lit i s, e', h, h', he => by
    obtain ⟨h1, h2⟩ := NE.shown_split he
    cases e' with
    | eps i' => exact absurd (Shown.word.inj h2) h.2.1.2.2.1
    | lit i' s => exact ⟨h1, Shown.word.inj h2⟩
    | var i' k =>
      obtain ⟨n, s⟩ := i'
      cases n with
      | none => cases h2
      | some n => exact absurd (h' n rfl).2 (Shown.word.inj h2 ▸ h.2.2)
    | _ => simp [NE.bareShown] at h2
  | .cat i f r, e', h, h', he => by
    obtain ⟨h1, h2⟩ := NE.shown_split he
    cases e' with
    | cat i' f' r' =>
      simp only [NE.bareShown, Shown.group.injEq, true_and] at h2
      exact ⟨h1, NE.shown_looks f f' h.2.1 h'.2.1 h2.1, NE.shownP_looks r r' h.2.2.2 h'.2.2.2 h2.2⟩
    | var i' k => obtain ⟨_ | n, s⟩ := i' <;> cases h2
    | _ => simp [NE.bareShown] at h2
  | .alt i f r, e', h, h', he => by
    obtain ⟨h1, h2⟩ := NE.shown_split he
    cases e' with
    | alt i' f' r' =>
      simp only [NE.bareShown, Shown.group.injEq, true_and] at h2
      exact ⟨h1, NE.shown_looks f f' h.2.1 h'.2.1 h2.1, NE.shownP_looks r r' h.2.2.2 h'.2.2.2 h2.2⟩
    | var i' k => obtain ⟨_ | n, s⟩ := i' <;> cases h2
    | _ => simp [NE.bareShown] at h2
  | .fix i b, e', h, h', he => by
    obtain ⟨h1, h2⟩ := NE.shown_split he
    cases e' with
    | fix i' b' => exact ⟨h1, NE.shown_looks b b' h.2 h'.2 (Shown.bang.inj h2)⟩
    | var i' k => obtain ⟨_ | n, s⟩ := i' <;> cases h2
    | _ => simp [NE.bareShown] at h2
  | .var ⟨n, s⟩ k, e', h, h', he => by
    obtain ⟨h1, h2⟩ := NE.shown_split he
    cases n with
    | none =>
      cases e' with
      | var i' k' =>
        obtain ⟨_ | n', s'⟩ := i'
        · exact ⟨rfl, fun _ => Shown.index.inj h2⟩
        · cases h2
      | _ => simp [NE.bareShown] at h2
    | some n =>
      cases e' with
      | var i' k' =>
        obtain ⟨_ | n', s'⟩ := i'
        · cases h2
        · exact ⟨congrArg some (Shown.word.inj h2), nofun⟩
      | eps i' => exact absurd (Shown.word.inj h2) (h n rfl).1.2.2.1
      | lit i' s' => exact absurd (h n rfl).2 (Shown.word.inj h2 ▸ h'.2.2)
      | _ => simp [NE.bareShown] at h2
  | .call i f r, e', h, h', he => by
    obtain ⟨h1, h2⟩ := NE.shown_split he
    cases e' with
    | call i' f' r' =>
      simp only [NE.bareShown, Shown.group.injEq, true_and] at h2
      exact ⟨h1, NE.shown_looks f f' h.2.1 h'.2.1 h2.1, NE.shownL_looks r r' h.2.2.2 h'.2.2.2 h2.2⟩
    | var i' k => obtain ⟨_ | n, s⟩ := i' <;> cases h2
    | _ => simp [NE.bareShown] at h2
  | .lam i ps b, e', h, h', he => by
    obtain ⟨h1, h2⟩ := NE.shown_split he
    cases e' with
    | lam i' ps' b' =>
      simp only [NE.bareShown, Shown.lam.injEq] at h2
      exact ⟨h1, h2.1, NE.shown_looks b b' h.2.2 h'.2.2 h2.2⟩
    | var i' k => obtain ⟨_ | n, s⟩ := i' <;> cases h2
    | _ => simp [NE.bareShown] at h2
  | .letE i n b c, e', h, h', he => by
    obtain ⟨h1, h2⟩ := NE.shown_split he
    cases e' with
    | letE i' n' b' c' =>
      simp only [NE.bareShown, Shown.letS.injEq] at h2
      exact ⟨h1, h2.1, NE.shown_looks b b' h.2.2.1 h'.2.2.1 h2.2.1, NE.shown_looks c c' h.2.2.2 h'.2.2.2 h2.2.2⟩
    | var i' k => obtain ⟨_ | n, s⟩ := i' <;> cases h2
    | _ => simp [NE.bareShown] at h2
theorem NE.shownP_looks : ∀ l l' : List (Nat × NE), NE.LegibleP N l → NE.LegibleP N l' → NE.shownP l = NE.shownP l' → NE.LooksLikeP l l'
  | [], [], _, _, _ => trivial
  | [], _ :: _, _, _, h => by cases h
  | _ :: _, [], _, _, h => by cases h
  | (_, e) :: l, (_, e') :: l', h, h', he => by
    simp only [NE.shownP, List.cons.injEq] at he
    exact ⟨NE.shown_looks e e' h.1 h'.1 he.1, NE.shownP_looks l l' h.2 h'.2 he.2⟩
theorem NE.shownL_looks : ∀ l l' : List NE, NE.LegibleL N l → NE.LegibleL N l' → NE.shownL l = NE.shownL l' → NE.LooksLikeL l l'
  | [], [], _, _, _ => trivial
  | [], _ :: _, _, _, h => by cases h
  | _ :: _, [], _, _, h => by cases h
  | e :: l, e' :: l', h, h', he => by
    simp only [NE.shownL, List.cons.injEq] at he
    exact ⟨NE.shown_looks e e' h.1 h'.1 he.1, NE.shownL_looks l l' h.2 h'.2 he.2⟩
end

theorem Info.shown_congr {i i' : Info} {t t' : Shown} (hi : i.name.map Name.text = i'.name.map Name.text) (ht : t = t') :
    i.shown t = i'.shown t' := by
  obtain ⟨n, s⟩ := i
  obtain ⟨n', s'⟩ := i'
  cases n <;> cases n' <;> simp_all [Info.shown]

/-! ## Theorems -/

/-- C79: the text of an expression tells everything about it but the spans and which variables the names are. -/
theorem C79_text_tells (N : List Char → Prop) (e e' : NE) (h : e.Legible N) (h' : e'.Legible N) (ht : e.display = e'.display) :
    e.LooksLike e' := by
  rw [← NE.shown_text, ← NE.shown_text] at ht
  exact NE.shown_looks e e' h h' (Shown.read _ _ [] [] (NE.shown_ok e h) (NE.shown_ok e' h') (.inl rfl) (.inl rfl) (by simpa using ht)).1

mutual
/-- Expressions that look alike have the same text. -/
theorem NE.LooksLike.text : ∀ e e' : NE, e.LooksLike e' → e.shown = e'.shown
  | .eps i, .eps i', h => Info.shown_congr h rfl
  | .lit i s, .lit i' s', h => Info.shown_congr h.1 (by rw [h.2])
  | .cat i f r, .cat i' f' r', h => Info.shown_congr h.1 (by rw [NE.LooksLike.text f f' h.2.1, NE.LooksLikeP.text r r' h.2.2])
  | .alt i f r, .alt i' f' r', h => Info.shown_congr h.1 (by rw [NE.LooksLike.text f f' h.2.1, NE.LooksLikeP.text r r' h.2.2])
  | .fix i b, .fix i' b', h => Info.shown_congr h.1 (by rw [NE.LooksLike.text b b' h.2])
  | .var ⟨n, s⟩ k, .var ⟨n', s'⟩ k', h => by
    obtain ⟨h1, h2⟩ := h
    cases n <;> cases n' <;> simp_all [NE.shown]
  | .call i f r, .call i' f' r', h => Info.shown_congr h.1 (by rw [NE.LooksLike.text f f' h.2.1, NE.LooksLikeL.text r r' h.2.2])
  | .lam i ps b, .lam i' ps' b', h => Info.shown_congr h.1 (by rw [h.2.1, NE.LooksLike.text b b' h.2.2])
  | .letE i n b c, .letE i' n' b' c', h =>
    Info.shown_congr h.1 (by rw [h.2.1, NE.LooksLike.text b b' h.2.2.1, NE.LooksLike.text c c' h.2.2.2])
theorem NE.LooksLikeP.text : ∀ l l' : List (Nat × NE), NE.LooksLikeP l l' → NE.shownP l = NE.shownP l'
  | [], [], _ => rfl
  | (_, e) :: l, (_, e') :: l', h => by simp [NE.shownP, NE.LooksLike.text e e' h.1, NE.LooksLikeP.text l l' h.2]
theorem NE.LooksLikeL.text : ∀ l l' : List NE, NE.LooksLikeL l l' → NE.shownL l = NE.shownL l'
  | [], [], _ => rfl
  | e :: l, e' :: l', h => by simp [NE.shownL, NE.LooksLike.text e e' h.1, NE.LooksLikeL.text l l' h.2]
end

/-- C79, exactly: two expressions have the same text if and only if they look alike. -/
theorem C79_same_text_iff (N : List Char → Prop) (e e' : NE) (h : e.Legible N) (h' : e'.Legible N) :
    e.display = e'.display ↔ e.LooksLike e' :=
  ⟨C79_text_tells N e e' h h', fun hl => by rw [← NE.shown_text, ← NE.shown_text, NE.LooksLike.text e e' hl]⟩

theorem map_text_none {a b : Option Name} (h : a.map Name.text = b.map Name.text) : a = none ↔ b = none := by
  cases a <;> cases b <;> simp_all

mutual
theorem NE.LooksLike.resolve : ∀ (e e' : NE) (env : List (List Char)), e.LooksLike e' → e.Resolved env → e'.Resolved env → e.erase = e'.erase
  | .eps i, .eps i', _, _, _, _ => rfl
  | .lit i s, .lit i' s', _, h, _, _ => by rw [NE.erase, NE.erase, h.2]
  | .cat i f r, .cat i' f' r', env, h, hr, hr' => by
    rw [NE.erase, NE.erase, NE.LooksLike.resolve f f' env h.2.1 hr.1 hr'.1, NE.LooksLikeP.resolve r r' env h.2.2 hr.2 hr'.2]
  | .alt i f r, .alt i' f' r', env, h, hr, hr' => by
    rw [NE.erase, NE.erase, NE.LooksLike.resolve f f' env h.2.1 hr.1 hr'.1, NE.LooksLikeP.resolve r r' env h.2.2 hr.2 hr'.2]
  | .fix i b, .fix i' b', env, h, hr, hr' => by rw [NE.erase, NE.erase, NE.LooksLike.resolve b b' env h.2 hr hr']
  | .var ⟨n, s⟩ k, .var ⟨n', s'⟩ k', env, h, hr, hr' => by
    obtain ⟨h1, h2⟩ := h
    cases n with
    | none => rw [NE.erase, NE.erase, h2 rfl]
    | some n =>
      cases n' with
      | none => cases h1
      | some n' =>
        have hn : n.text = n'.text := Option.some.inj h1
        obtain ⟨a1, a2⟩ := hr n rfl
        obtain ⟨b1, b2⟩ := hr' n' rfl
        rw [hn] at a1 a2
        have : k = k' := by
          rcases Nat.lt_trichotomy k k' with hk | hk | hk
          · exact absurd a1 (b2 k hk)
          · exact hk
          · exact absurd b1 (a2 k' hk)
        rw [NE.erase, NE.erase, this]
  | .call i f r, .call i' f' r', env, h, hr, hr' => by
    rw [NE.erase, NE.erase, NE.LooksLike.resolve f f' env h.2.1 hr.1 hr'.1, NE.LooksLikeL.resolve r r' env h.2.2 hr.2 hr'.2]
  | .lam i ps b, .lam i' ps' b', env, h, hr, hr' => by
    have hl : ps.length = ps'.length := by simpa using congrArg List.length h.2.1
    have hr2 : b'.Resolved ((ps.map Name.text).reverse ++ env) := by rw [h.2.1]; exact hr'
    rw [NE.erase, NE.erase, NE.LooksLike.resolve b b' _ h.2.2 hr hr2, hl]
  | .letE i n b c, .letE i' n' b' c', env, h, hr, hr' => by
    have hr2 : c'.Resolved (n.text :: env) := by rw [h.2.1]; exact hr'.2
    rw [NE.erase, NE.erase, NE.LooksLike.resolve b b' _ h.2.2.1 hr.1 hr'.1, NE.LooksLike.resolve c c' _ h.2.2.2 hr.2 hr2]
theorem NE.LooksLikeP.resolve : ∀ (l l' : List (Nat × NE)) (env : List (List Char)), NE.LooksLikeP l l' → NE.ResolvedP env l →
    NE.ResolvedP env l' → NE.eraseP l = NE.eraseP l'
  | [], [], _, _, _, _ => rfl
  | (_, e) :: l, (_, e') :: l', env, h, hr, hr' => by
    rw [NE.eraseP, NE.eraseP, NE.LooksLike.resolve e e' env h.1 hr.1 hr'.1, NE.LooksLikeP.resolve l l' env h.2 hr.2 hr'.2]
theorem NE.LooksLikeL.resolve : ∀ (l l' : List NE) (env : List (List Char)), NE.LooksLikeL l l' → NE.ResolvedL env l →
    NE.ResolvedL env l' → NE.eraseL l = NE.eraseL l'
  | [], [], _, _, _, _ => rfl
  | e :: l, e' :: l', env, h, hr, hr' => by
    rw [NE.eraseL, NE.eraseL, NE.LooksLike.resolve e e' env h.1 hr.1 hr'.1, NE.LooksLikeL.resolve l l' env h.2 hr.2 hr'.2]
end

/-- C79: the text of an expression in which names mean what they say determines the grammar. -/
theorem C79_text_determines (N : List Char → Prop) (env : List (List Char)) (e e' : NE) (h : e.Legible N) (h' : e'.Legible N)
    (hr : e.Resolved env) (hr' : e'.Resolved env) (ht : e.display = e'.display) : e.erase = e'.erase :=
  NE.LooksLike.resolve e e' env (C79_text_tells N e e' h h' ht) hr hr'

/-! ## Programs -/

/-- The text of an identifier. -/
def Ident.text (i : Ident) : List Char := i.content.text

/-- Identifiers as Rust has them: `#` occurs only in the prefix `r#`. -/
def ClearIdent (N : List Char → Prop) (i : Ident) : Prop := '#' ∉ i.sym.toList ∧ PlainWord i.text ∧ N i.text

mutual
/-- Names and literals are plain words and no literal is a name; no label stands on an expression that is only a name. -/
def Term.Clear (N : List Char → Prop) : Term → Prop
  | .eps _ => True
  | .ident i => ClearIdent N i
  | .lit _ s => PlainWord s ∧ ¬ N s
  | .fix _ t => t.Clear N
  | .parens e => e.Clear N
def Call.Clear (N : List Char → Prop) : Call → Prop
  | .mk _ ts => Term.ClearL N ts
def Term.ClearL (N : List Char → Prop) : List Term → Prop
  | [] => True
  | t :: ts => t.Clear N ∧ Term.ClearL N ts
def Cat.Clear (N : List Char → Prop) : Cat → Prop
  | .mk _ l => Call.ClearL N l
def Call.ClearL (N : List Char → Prop) : List (Call × Nat) → Prop
  | [] => True
  | (x, _) :: l => x.Clear N ∧ Call.ClearL N l
def Labelled.Clear (N : List Char → Prop) : Labelled → Prop
  | .mk _ cat label => cat.Clear N ∧ ∀ l ∈ label, ClearIdent N l ∧ ∀ i, flatCat cat ≠ some (.id i)
def Alt.Clear (N : List Char → Prop) : Alt → Prop
  | .mk _ l => Labelled.ClearL N l
def Labelled.ClearL (N : List Char → Prop) : List (Labelled × Nat) → Prop
  | [] => True
  | (x, _) :: l => x.Clear N ∧ Labelled.ClearL N l
def Expr.Clear (N : List Char → Prop) : Expr → Prop
  | .alt a => a.Clear N
  | .lam _ ps a => (∀ p ∈ ps, ClearIdent N p) ∧ a.Clear N
end

/-- Further, no definition is only another name. -/
def Stmt.Clear (N : List Char → Prop) : Stmt → Prop
  | .goal _ e => e.Clear N
  | .letS _ x ps e next =>
    ClearIdent N x ∧ (∀ p ∈ ps, ClearIdent N p) ∧ e.Clear N ∧ (ps = [] → ∀ i, flatExpr e ≠ some (.id i)) ∧ next.Clear N

/-- Contexts of identifiers. -/
def Ctx.Clear (c : Ctx) : Prop := ∀ m ∈ c, ∃ i : Ident, m = i.content ∧ '#' ∉ i.sym.toList

def Ctx.texts (c : Ctx) : List (List Char) := c.reverse.map Content.text

theorem ident_text_eq {i j : Ident} (hi : '#' ∉ i.sym.toList) (hj : '#' ∉ j.sym.toList) :
    i.content.eqv j.content = true ↔ i.content.text = j.content.text := by
  obtain ⟨r, s, sp⟩ := i
  obtain ⟨r', s', sp'⟩ := j
  simp only [Ident.content, Content.eqv, Bool.and_eq_true, beq_iff_eq]
  constructor
  · rintro ⟨rfl, rfl⟩
    cases r <;> rfl
  · cases r <;> cases r' <;> intro h <;> simp [Content.text] at h <;> simp
    · exact String.toList_inj.1 h
    · rw [h] at hi
      simp at hi
    · rw [← h] at hj
      simp at hj
    · exact String.toList_inj.1 h

theorem lookup_resolved {c : Ctx} (hc : c.Clear) {i : Ident} (hi : '#' ∉ i.sym.toList) {k : Nat}
    (h : c.lookup (.newVariable i.content) = some k) : c.texts[k]? = some i.text ∧ ∀ j, j < k → c.texts[j]? ≠ some i.text := by
  obtain ⟨⟨a, h1, h2⟩, h3⟩ := findIdx_some.1 h
  have key : ∀ (j : Nat) (m : Content), c.reverse[j]? = some m → (m.eqv i.content = true ↔ m.text = i.text) := by
    intro j m hm
    obtain ⟨x, rfl, hx⟩ := hc m (List.mem_reverse.1 (List.mem_of_getElem? hm))
    exact ident_text_eq hx hi
  refine ⟨?_, fun j hj => ?_⟩
  · rw [Ctx.texts, List.getElem?_map, h1]
    exact congrArg some ((key k a h1).1 h2)
  · rw [Ctx.texts, List.getElem?_map]
    cases hm : c.reverse[j]? with
    | none => simp
    | some m =>
      intro he
      have := (key j m hm).2 (Option.some.inj he)
      rw [show Name.newVariable i.content = ⟨i.content, .variable⟩ from rfl] at h3
      rw [h3 j hj m hm] at this
      cases this

/-- A variable has a name. -/
def NE.Called : NE → Prop
  | .var i _ => i.name.isSome
  | _ => True

structure NE.Nice (N : List Char → Prop) (c : Ctx) (e : NE) : Prop where
  legible : e.Legible N
  resolved : e.Resolved c.texts
  called : e.Called
def NE.NiceP (N : List Char → Prop) (c : Ctx) (e : List (Nat × NE)) : Prop := NE.LegibleP N e ∧ NE.ResolvedP c.texts e
def NE.NiceL (N : List Char → Prop) (c : Ctx) (e : List NE) : Prop := NE.LegibleL N e ∧ NE.ResolvedL c.texts e

theorem noNames {N : List Char → Prop} {sp : Nat} : PlainNames N ⟨none, sp⟩ := by simp [PlainNames]

/-- Giving another name to an expression that is no variable. -/
theorem NE.Nice.setInfo {c : Ctx} {e : NE} (h : e.Nice N c) {i : Info} (hi : PlainNames N i) (hv : ∀ k, e.erase ≠ .var k) :
    (e.setInfo i).Nice N c := by
  cases e with
  | var i' k => exact absurd rfl (hv k)
  | eps i' => exact ⟨hi, trivial, trivial⟩
  | lit i' s => exact ⟨⟨hi, h.legible.2⟩, trivial, trivial⟩
  | cat i' f r => exact ⟨⟨hi, h.legible.2⟩, h.resolved, trivial⟩
  | alt i' f r => exact ⟨⟨hi, h.legible.2⟩, h.resolved, trivial⟩
  | fix i' b => exact ⟨⟨hi, h.legible.2⟩, h.resolved, trivial⟩
  | call i' f r => exact ⟨⟨hi, h.legible.2⟩, h.resolved, trivial⟩
  | lam i' ps b => exact ⟨⟨hi, h.legible.2⟩, h.resolved, trivial⟩
  | letE i' n b d => exact ⟨⟨hi, h.legible.2⟩, h.resolved, trivial⟩

/-- Keeping the name. -/
theorem NE.Nice.keep {c : Ctx} {e : NE} (h : e.Nice N c) {i : Info} (hi : i.name = e.info.name) : (e.setInfo i).Nice N c := by
  obtain ⟨nm, sp⟩ := i
  subst hi
  cases e with
  | var i' k => exact ⟨h.1, h.2, h.3⟩
  | eps i' => exact ⟨h.1, h.2, h.3⟩
  | lit i' s => exact ⟨h.1, h.2, h.3⟩
  | cat i' f r => exact ⟨h.1, h.2, h.3⟩
  | alt i' f r => exact ⟨h.1, h.2, h.3⟩
  | fix i' b => exact ⟨h.1, h.2, h.3⟩
  | call i' f r => exact ⟨h.1, h.2, h.3⟩
  | lam i' ps b => exact ⟨h.1, h.2, h.3⟩
  | letE i' n b d => exact ⟨h.1, h.2, h.3⟩

theorem NE.Legible.plain {e : NE} (h : e.Legible N) : PlainNames N e.info := by
  cases e with
  | eps i => exact h
  | var i k => exact h
  | _ => exact h.1

theorem core_var {n : NCore} {c : Ctx} {k : Nat} (h : n.core c = .var k) : ∃ i, n = .id i := by
  cases n <;> simp [NCore.core] at h
  exact ⟨_, rfl⟩

/-- The expression of a tree that is not only a name is no variable. -/
theorem good_not_var {x : Conv NE} {c c' : Ctx} {f : Option NCore} {e : NE} (hg : Good x c f) (hx : x = some (.ok e, c'))
    (hf : ∀ i, f ≠ some (.id i)) : ∀ k, e.erase ≠ .var k := by
  intro k hk
  subst hx
  cases f with
  | none => obtain ⟨_, hg⟩ := hg; cases hg
  | some n =>
    simp only [Good] at hg
    split at hg
    · obtain ⟨ne, h1, h2⟩ := hg
      cases h1
      obtain ⟨i, rfl⟩ := core_var (h2.symm.trans hk)
      exact hf i rfl
    · cases hg

theorem good_ctx {x : Conv NE} {c c' : Ctx} {f : Option NCore} {e : NE} (hg : Good x c f) (hx : x = some (.ok e, c')) : c' = c := by
  subst hx
  cases f with
  | none => obtain ⟨_, hg⟩ := hg; cases hg
  | some n =>
    simp only [Good] at hg
    split at hg
    · obtain ⟨ne, h1, h2⟩ := hg
      cases h1
      rfl
    · cases hg

theorem withVariables_body {α : Type} {c c' : Ctx} {names : List Name} {f : Ctx → Conv α} {a : α}
    (h : c.withVariables names f = some (.ok a, c')) : ∃ d', f (c ++ names.map (·.content)) = some (.ok a, d') := by
  rw [Ctx.withVariables] at h
  split at h
  · cases h
  · split at h
    · cases h
    · rename_i r d' hf _
      cases h
      exact ⟨d', hf⟩

theorem Ctx.Clear.append {c : Ctx} (hc : c.Clear) {ps : List Ident} (hp : ∀ p ∈ ps, ClearIdent N p) :
    Ctx.Clear (c ++ (ps.map fun i => Name.newVariable i.content).map (·.content)) := by
  intro m hm
  rcases List.mem_append.1 hm with hm | hm
  · exact hc m hm
  · simp only [List.map_map, List.mem_map, Function.comp] at hm
    obtain ⟨i, hi, rfl⟩ := hm
    exact ⟨i, rfl, (hp i hi).1⟩

theorem texts_append (c : Ctx) (ps : List Name) : Ctx.texts (c ++ ps.map (·.content)) = (ps.map Name.text).reverse ++ c.texts := by
  simp [Ctx.texts, Name.text, List.map_reverse, Function.comp_def]

theorem lam_nice {c : Ctx} {ps : List Ident} (hp : ∀ p ∈ ps, ClearIdent N p) {sp : Nat} {e : NE}
    (h : e.Nice N (c ++ (ps.map fun i => Name.newVariable i.content).map (·.content))) :
    NE.Nice N c (.lam ⟨none, sp⟩ (ps.map fun i => Name.newVariable i.content) e) := by
  refine ⟨⟨noNames, ?_, h.legible⟩, ?_, trivial⟩
  · intro p h'
    obtain ⟨i, hi, rfl⟩ := List.mem_map.1 h'
    exact (hp i hi).2
  · have := h.resolved
    rw [texts_append] at this
    exact this

mutual
theorem convTerm_nice : ∀ (t : Term) (c c' : Ctx) (e : NE), t.Clear N → c.Clear → convTerm t c = some (.ok e, c') → e.Nice N c
  | .eps sp, c, c', e, h, hc, he => by simp only [convTerm] at he; cases he; exact ⟨noNames, trivial, trivial⟩
  | .ident i, c, c', e, h, hc, he => by
    simp only [convTerm, convIdent] at he
    split at he
    · cases he
    · rename_i k hk
      cases he
      refine ⟨?_, ?_, ?_⟩
      · intro n hn
        cases hn
        exact h.2
      · intro n hn
        cases hn
        exact lookup_resolved hc h.1 hk
      · rfl
  | .lit sp s, c, c', e, h, hc, he => by simp only [convTerm] at he; cases he; exact ⟨⟨noNames, h⟩, trivial, trivial⟩
  | .fix sp t, c, c', e, h, hc, he => by
    simp only [convTerm] at he
    obtain ⟨a, c1, h1, he⟩ := Conv.bind_ok he
    cases he
    have := convTerm_nice t _ _ _ h hc h1
    exact ⟨⟨noNames, this.legible⟩, this.resolved, trivial⟩
  | .parens x, c, c', e, h, hc, he => convExpr_nice x c c' e h hc he
theorem convCall_nice : ∀ (t : Call) (c c' : Ctx) (e : NE), t.Clear N → c.Clear → convCall t c = some (.ok e, c') → e.Nice N c
  | .mk sp [], c, c', e, h, hc, he => by simp only [convCall] at he; cases he
  | .mk sp (t :: ts), c, c', e, h, hc, he => by
    simp only [convCall] at he
    obtain ⟨a, c1, h1, he⟩ := Conv.bind_ok he
    obtain ⟨l, c2, h2, he⟩ := Conv.bind_ok he
    rw [good_ctx (conv_term t c) h1] at h2
    have ha := convTerm_nice t _ _ _ h.1 hc h1
    have hl := convTerms_nice ts _ _ _ h.2 hc h2
    split at he
    · cases he; exact ha
    · rename_i hne
      cases he
      exact ⟨⟨noNames, ha.legible, fun h0 => hne h0, hl.1⟩, ⟨ha.resolved, hl.2⟩, trivial⟩
theorem convTerms_nice : ∀ (t : List Term) (c c' : Ctx) (e : List NE), Term.ClearL N t → c.Clear →
    convTerms t c = some (.ok e, c') → NE.NiceL N c e
  | [], c, c', e, h, hc, he => by simp only [convTerms] at he; cases he; exact ⟨trivial, trivial⟩
  | t :: ts, c, c', e, h, hc, he => by
    simp only [convTerms] at he
    obtain ⟨a, c1, h1, he⟩ := Conv.bind_ok he
    obtain ⟨l, c2, h2, he⟩ := Conv.bind_ok he
    cases he
    rw [good_ctx (conv_term t c) h1] at h2
    have ha := convTerm_nice t _ _ _ h.1 hc h1
    have hl := convTerms_nice ts _ _ _ h.2 hc h2
    exact ⟨⟨ha.legible, hl.1⟩, ha.resolved, hl.2⟩
theorem convCat_nice : ∀ (t : Cat) (c c' : Ctx) (e : NE), t.Clear N → c.Clear → convCat t c = some (.ok e, c') → e.Nice N c
  | .mk sp [], c, c', e, h, hc, he => by simp only [convCat] at he; cases he
  | .mk sp ((t, p) :: ts), c, c', e, h, hc, he => by
    simp only [convCat] at he
    obtain ⟨a, c1, h1, he⟩ := Conv.bind_ok he
    obtain ⟨l, c2, h2, he⟩ := Conv.bind_ok he
    rw [good_ctx (conv_call t c) h1] at h2
    have ha := convCall_nice t _ _ _ h.1 hc h1
    have hl := convCalls_nice ts _ _ _ _ h.2 hc h2
    split at he
    · cases he; exact ha
    · rename_i hne
      cases he
      exact ⟨⟨noNames, ha.legible, fun h0 => hne h0, hl.1⟩, ⟨ha.resolved, hl.2⟩, trivial⟩
theorem convCalls_nice : ∀ (t : List (Call × Nat)) (p : Nat) (c c' : Ctx) (e : List (Nat × NE)), Call.ClearL N t → c.Clear →
    convCalls p t c = some (.ok e, c') → NE.NiceP N c e
  | [], p, c, c', e, h, hc, he => by simp only [convCalls] at he; cases he; exact ⟨trivial, trivial⟩
  | (t, q) :: ts, p, c, c', e, h, hc, he => by
    simp only [convCalls] at he
    obtain ⟨a, c1, h1, he⟩ := Conv.bind_ok he
    obtain ⟨l, c2, h2, he⟩ := Conv.bind_ok he
    cases he
    rw [good_ctx (conv_call t c) h1] at h2
    have ha := convCall_nice t _ _ _ h.1 hc h1
    have hl := convCalls_nice ts _ _ _ _ h.2 hc h2
    exact ⟨⟨ha.legible, hl.1⟩, ha.resolved, hl.2⟩
theorem convLabelled_nice : ∀ (t : Labelled) (c c' : Ctx) (e : NE), t.Clear N → c.Clear →
    convLabelled t c = some (.ok e, c') → e.Nice N c
  | .mk sp cat label, c, c', e, h, hc, he => by
    simp only [convLabelled] at he
    obtain ⟨a, c1, h1, he⟩ := Conv.bind_ok he
    cases he
    have ha := convCat_nice cat _ _ _ h.1 hc h1
    cases label with
    | none => exact ha.keep rfl
    | some l =>
      obtain ⟨h2, h3⟩ := h.2 l rfl
      refine ha.setInfo ?_ (good_not_var (conv_cat cat c) h1 h3)
      intro n hn
      have hm : n = Name.newLabel l.content ∨ n ∈ a.info.name := by
        change n ∈ Name.merge (some (Name.newLabel l.content)) a.info.name at hn
        cases ho : a.info.name with
        | none => rw [ho] at hn; cases hn; exact .inl rfl
        | some m =>
          rw [ho, Name.merge] at hn
          split at hn <;> cases hn
          · exact .inl rfl
          · exact .inr rfl
      rcases hm with rfl | hm
      · exact h2.2
      · exact ha.legible.plain n hm
theorem convAlt_nice : ∀ (t : Alt) (c c' : Ctx) (e : NE), t.Clear N → c.Clear → convAlt t c = some (.ok e, c') → e.Nice N c
  | .mk sp [], c, c', e, h, hc, he => by simp only [convAlt] at he; cases he
  | .mk sp ((t, p) :: ts), c, c', e, h, hc, he => by
    simp only [convAlt] at he
    obtain ⟨a, c1, h1, he⟩ := Conv.bind_ok he
    obtain ⟨l, c2, h2, he⟩ := Conv.bind_ok he
    rw [good_ctx (conv_labelled t c) h1] at h2
    have ha := convLabelled_nice t _ _ _ h.1 hc h1
    have hl := convLabelleds_nice ts _ _ _ _ h.2 hc h2
    split at he
    · cases he; exact ha
    · rename_i hne
      cases he
      exact ⟨⟨noNames, ha.legible, fun h0 => hne h0, hl.1⟩, ⟨ha.resolved, hl.2⟩, trivial⟩
theorem convLabelleds_nice : ∀ (t : List (Labelled × Nat)) (p : Nat) (c c' : Ctx) (e : List (Nat × NE)),
    Labelled.ClearL N t → c.Clear → convLabelleds p t c = some (.ok e, c') → NE.NiceP N c e
  | [], p, c, c', e, h, hc, he => by simp only [convLabelleds] at he; cases he; exact ⟨trivial, trivial⟩
  | (t, q) :: ts, p, c, c', e, h, hc, he => by
    simp only [convLabelleds] at he
    obtain ⟨a, c1, h1, he⟩ := Conv.bind_ok he
    obtain ⟨l, c2, h2, he⟩ := Conv.bind_ok he
    cases he
    rw [good_ctx (conv_labelled t c) h1] at h2
    have ha := convLabelled_nice t _ _ _ h.1 hc h1
    have hl := convLabelleds_nice ts _ _ _ _ h.2 hc h2
    exact ⟨⟨ha.legible, hl.1⟩, ha.resolved, hl.2⟩
theorem convExpr_nice : ∀ (t : Expr) (c c' : Ctx) (e : NE), t.Clear N → c.Clear → convExpr t c = some (.ok e, c') → e.Nice N c
  | .alt a, c, c', e, h, hc, he => convAlt_nice a c c' e h hc he
  | .lam sp args body, c, c', e, h, hc, he => by
    simp only [convExpr] at he
    obtain ⟨a, c1, h1, he⟩ := Conv.bind_ok he
    cases he
    obtain ⟨d', h2⟩ := withVariables_body h1
    exact lam_nice h.1 (convAlt_nice body _ _ _ h.2 (hc.append h.1) h2)
end

theorem convBound_nice {sp : Nat} {args : List Ident} {x : Expr} {c c' : Ctx} {e : NE} (ha : ∀ p ∈ args, ClearIdent N p) (h : x.Clear N)
    (hc : c.Clear) (he : convBound sp args x c = some (.ok e, c')) : e.Nice N c := by
  cases args with
  | nil => exact convExpr_nice x c c' e h hc he
  | cons p args =>
    rw [convBound] at he
    · obtain ⟨a, c1, h1, he⟩ := Conv.bind_ok he
      cases he
      obtain ⟨d', h2⟩ := withVariables_body h1
      exact lam_nice ha (convExpr_nice x _ _ _ h (hc.append ha) h2)
    · simp

theorem convStmt_nice (hast : N "Ast".toList) : ∀ (s : Stmt) (c c' : Ctx) (e : NE), s.Clear N → c.Clear → convStmt s c = some (.ok e, c') →
    e.Nice N c
  | .goal sp x, c, c', e, h, hc, he => by
    rw [convStmt] at he
    obtain ⟨a, c1, h1, he⟩ := Conv.bind_ok he
    cases he
    have ha := convExpr_nice x _ _ _ h hc h1
    cases ho : a.info.name with
    | some m =>
      refine ha.keep ?_
      rw [Name.merge, if_pos (by cases m with | mk c k => cases k <;> rfl)]
      exact ho.symm
    | none =>
      refine ha.setInfo ?_ ?_
      · intro n hn
        cases hn
        exact ⟨⟨by decide, by decide, by decide, by decide, by decide, by decide, by decide⟩, hast⟩
      · intro k hk
        cases a with
        | var i k =>
          have := ha.called
          rw [NE.Called, show i.name = none from ho] at this
          cases this
        | _ => cases hk
  | .letS sp x args b next, c, c', e, h, hc, he => by
    rw [convStmt] at he
    obtain ⟨a, c1, h1, he⟩ := Conv.bind_ok he
    obtain ⟨d, c2, h2, he⟩ := Conv.bind_ok he
    cases he
    obtain ⟨hx, hp, hb, hn, hnext⟩ := h
    have ha := convBound_nice hp hb hc h1
    have hg := conv_bound sp args b c
    rw [good_ctx hg h1] at h2
    have hv : ∀ k, a.erase ≠ .var k := by
      refine good_not_var hg h1 fun i hi => ?_
      cases args with
      | nil =>
        cases hf : flatExpr b with
        | none => rw [hf] at hi; cases hi
        | some m =>
          rw [hf] at hi
          exact hn rfl i (by rw [hf]; exact hi)
      | cons p args =>
        cases hf : flatExpr b <;> rw [hf] at hi <;> cases hi
    have hs : (a.setName (some (Name.newLet x.content))).Nice N c := by
      refine ha.setInfo ?_ hv
      intro n hn
      cases hn
      exact hx.2
    have hc' : Ctx.Clear (c.push (Name.newLet x.content)) := by
      intro m hm
      rcases List.mem_append.1 hm with hm | hm
      · exact hc m hm
      · rw [List.mem_singleton.1 hm]
        exact ⟨x, rfl, hx.1⟩
    have hd := convStmt_nice hast next _ _ _ hnext hc' h2
    have ht : (c.push (Name.newLet x.content)).texts = x.text :: c.texts := by simp [Ctx.texts, Ctx.push, Ident.text, Name.newLet]
    refine ⟨⟨noNames, hx.2, hs.legible, hd.legible⟩, ⟨hs.resolved, ?_⟩, trivial⟩
    have := hd.resolved
    rw [ht] at this
    exact this

/-- C79: concatenations, alternations and calls of programs have at least two parts, variables carry names that are those of their
binders, and so the text of a program determines the grammar, if its words are plain and no label or definition stands on a name alone. -/
theorem C79_program_text (N : List Char → Prop) (hast : N "Ast".toList) (s s' : Stmt) (h : s.Clear N) (h' : s'.Clear N) (e e' : NE) (c c' : Ctx)
    (he : convStmt s [] = some (.ok e, c)) (he' : convStmt s' [] = some (.ok e', c')) (ht : e.display = e'.display) : e.erase = e'.erase := by
  have h1 := convStmt_nice hast s [] c e h (by intro m hm; cases hm) he
  have h2 := convStmt_nice hast s' [] c' e' h' (by intro m hm; cases hm) he'
  exact C79_text_determines N _ e e' h1.legible h2.legible h1.resolved h2.resolved ht

section Examples

instance (s : List Char) : Decidable (PlainWord s) := by unfold PlainWord; infer_instance

/-- `let f p = p . y; match (f x) : l;`, with a name or a literal as `y`. -/
def exShown (x : List Char) (y : Term) : Stmt :=
  .letS 0 ⟨false, "f", 0⟩ [⟨false, "p", 0⟩] (.alt (.mk 0 [(.mk 0 (.mk 0 [(.mk 0 [.ident ⟨false, "p", 0⟩], 0), (.mk 0 [y], 0)]) none, 0)]))
    (.goal 0 (.alt (.mk 0 [(.mk 0 (.mk 0 [(.mk 0 [.ident ⟨false, "f", 0⟩, .lit 0 x], 0)]) (some ⟨false, "l", 0⟩), 0)])))

/-- The names of `exShown`. -/
def exShownNames (s : List Char) : Prop := s ∈ ["f".toList, "p".toList, "l".toList, "Ast".toList]

instance (s : List Char) : Decidable (exShownNames s) := by unfold exShownNames; infer_instance
instance (i : Ident) : Decidable (ClearIdent exShownNames i) := by unfold ClearIdent; infer_instance

/-- The hypotheses of `C79_program_text` hold. -/
example : (exShown "hello".toList (.lit 0 "world".toList)).Clear exShownNames := by
  refine ⟨by decide +kernel, ?_, ?_, ?_, ?_⟩
  · intro p hp
    cases List.mem_singleton.1 hp
    decide +kernel
  · refine ⟨⟨⟨⟨show ClearIdent _ _ by decide +kernel, trivial⟩, ⟨⟨by decide +kernel, by decide +kernel⟩, trivial⟩, trivial⟩, by simp⟩, trivial⟩
  · intro h; cases h
  · refine ⟨⟨⟨⟨show ClearIdent _ _ by decide +kernel, ⟨by decide +kernel, by decide +kernel⟩, trivial⟩, trivial⟩, ?_⟩, trivial⟩
    intro l hl
    cases hl
    refine ⟨by decide +kernel, fun i hi => ?_⟩
    simp [flatCat, flatCall, flatTerm, flatTerms, flatCalls, NCore.mkCat, NCore.mkCall] at hi

/-- Its text. -/
example : ∃ e c, convStmt (exShown "hello".toList (.lit 0 "world".toList)) [] = some (.ok e, c) ∧
    e.display = "let f = (/p/ (p . world) : f); ((f hello) : l)".toList :=
  ⟨_, _, rfl, by decide +kernel⟩

/-- **C79.** A literal is written as it is: the texts of `match "a" . "b";` and `match "(a . b)";` are the same. -/
theorem C79_literals_are_not_quoted : ∃ (s s' : Stmt) (e e' : NE) (c c' : Ctx), convStmt s [] = some (.ok e, c) ∧
    convStmt s' [] = some (.ok e', c') ∧ e.display = e'.display ∧ e.display = "((a . b) : Ast)".toList ∧ e.erase ≠ e'.erase :=
  ⟨.goal 0 (.alt (.mk 0 [(.mk 0 (.mk 0 [(.mk 0 [.lit 0 "a".toList], 0), (.mk 0 [.lit 0 "b".toList], 0)]) none, 0)])),
   .goal 0 (.alt (.mk 0 [(.mk 0 (.mk 0 [(.mk 0 [.lit 0 "(a . b)".toList], 0)]) none, 0)])),
   _, _, _, _, rfl, rfl, by decide +kernel, by decide +kernel, by simp [NE.erase, NE.setInfo]⟩

/-- `let a = "x"; let b = "y"; let c = <v>; match c;` -/
def exHidden (v : String) : Stmt :=
  .letS 0 ⟨false, "a", 0⟩ [] (.alt (.mk 0 [(.mk 0 (.mk 0 [(.mk 0 [.lit 0 "x".toList], 0)]) none, 0)]))
    (.letS 0 ⟨false, "b", 0⟩ [] (.alt (.mk 0 [(.mk 0 (.mk 0 [(.mk 0 [.lit 0 "y".toList], 0)]) none, 0)]))
      (.letS 0 ⟨false, "c", 0⟩ [] (.alt (.mk 0 [(.mk 0 (.mk 0 [(.mk 0 [.ident ⟨false, v, 0⟩], 0)]) none, 0)]))
        (.goal 0 (.alt (.mk 0 [(.mk 0 (.mk 0 [(.mk 0 [.ident ⟨false, "c", 0⟩], 0)]) none, 0)])))))

/-- **C79.** A variable that is given another name is written as that name: the texts of `… let c = a; match c;` and
`… let c = b; match c;` are the same. -/
theorem C79_definitions_hide_names : ∃ (e e' : NE) (c c' : Ctx), convStmt (exHidden "a") [] = some (.ok e, c) ∧
    convStmt (exHidden "b") [] = some (.ok e', c') ∧ e.display = e'.display ∧
    e.display = "let a = (x : a); let b = (y : b); let c = c; c".toList ∧ e.erase ≠ e'.erase :=
  ⟨_, _, _, _, rfl, rfl, by decide +kernel, by decide +kernel, by simp [NE.erase, NE.setInfo, NE.setName]⟩

end Examples

end Chomp
