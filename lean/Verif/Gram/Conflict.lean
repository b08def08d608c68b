import Verif.Props.Typed
import Verif.Gram.Exact

/-!
# Specification layer: conflicts, and type errors against them

What makes an expression unsuitable for a predictive parser, in terms of the strings its parts match.
-/

namespace Chomp

/-! ## Places and conflicts -/

/-- `Place e ρ e'`: `e'` is a part of `e` that is to be matched, and `ρ` lists the grammars of the bodies
of the fix points around it, innermost first. -/
inductive Place (e : NE) : List Gram → NE → Prop
  | whole : Place e [] e
  | cat (ρ : List Gram) (i : Info) (f : NE) (r : List (Nat × NE)) (x : NE) : Place e ρ (.cat i f r) →
      x ∈ f :: r.map (·.2) → Place e ρ x
  | alt (ρ : List Gram) (i : Info) (f : NE) (r : List (Nat × NE)) (x : NE) : Place e ρ (.alt i f r) →
      x ∈ f :: r.map (·.2) → Place e ρ x
  | fix (ρ : List Gram) (i j : Info) (as : List Name) (b : NE) (g : Gram) : Place e ρ (.fix i (.lam j as b)) →
      b.grammar = some g → Place e (g :: ρ) b

/-- A part matches a string. -/
def Means (ρ : List Gram) (e : NE) (w : List Char) : Prop := ∃ g, e.grammar = some g ∧ Words ρ g w

/-- Several parts in sequence match a string. -/
def MeansSeq (ρ : List Gram) : List NE → List Char → Prop
  | [], w => w = []
  | e :: l, w => ∃ u v, w = u ++ v ∧ Means ρ e u ∧ MeansSeq ρ l v

/-- The first part of a concatenation, whose first operator is at `punct`, matches the empty string. -/
def EmptyFirst (e : NE) (punct : Nat) (x : NE) : Prop :=
  ∃ ρ i r, Place e ρ (.cat i x r) ∧ (r.head?.map (·.1)).getD 0 = punct ∧ Means ρ x []

/-- In a concatenation, a string `u` matched by what precedes the operator at `punct` can be continued
with a character with which the part `x` behind it can start, too. -/
def OpenEnd (e : NE) (punct : Nat) (x : NE) : Prop :=
  ∃ ρ i f r r', Place e ρ (.cat i f (r ++ (punct, x) :: r')) ∧ ∃ u c w v, u ≠ [] ∧
    MeansSeq ρ (f :: r.map (·.2)) u ∧ MeansSeq ρ (f :: r.map (·.2)) (u ++ c :: w) ∧ Means ρ x (c :: v)

/-- The branch `x` of an alternation, behind the operator at `punct`, and an earlier one match the empty
string. -/
def TwoEmpty (e : NE) (punct : Nat) (x : NE) : Prop :=
  ∃ ρ i f r r' y, Place e ρ (.alt i f (r ++ (punct, x) :: r')) ∧ y ∈ f :: r.map (·.2) ∧ Means ρ y [] ∧ Means ρ x []

/-- The branch `x` of an alternation, behind the operator at `punct`, and an earlier one match strings
with the same first character. -/
def SameStart (e : NE) (punct : Nat) (x : NE) : Prop :=
  ∃ ρ i f r r' y, Place e ρ (.alt i f (r ++ (punct, x) :: r')) ∧ y ∈ f :: r.map (·.2) ∧
    ∃ c v w, Means ρ y (c :: v) ∧ Means ρ x (c :: w)

/-- The variable number `k` at `span` is not bound. -/
def FreeVar (e : NE) (k span : Nat) : Prop := ∃ ρ i, Place e ρ (.var i k) ∧ i.span = span ∧ ρ.length ≤ k

/-- The body of the fix point of variable number `k` at `span` can get to this very place without having
consumed a character. -/
def LeftVar (e : NE) (k span : Nat) : Prop :=
  ∃ ρ i b ρ', Place e ρ (.var i k) ∧ i.span = span ∧ ρ.drop k = b :: ρ' ∧ LeftSteps (b :: ρ', b) (ρ, .var k)

/-- There is a conflict somewhere in the expression. -/
def Conflict (e : NE) : Prop :=
  (∃ p x, EmptyFirst e p x) ∨ (∃ p x, OpenEnd e p x) ∨ (∃ p x, TwoEmpty e p x) ∨ (∃ p x, SameStart e p x) ∨
    (∃ k s, FreeVar e k s) ∨ ∃ k s, LeftVar e k s

/-- Every fix point matches some string. -/
def Productive (e : NE) : Prop := ∀ ρ i j as b, Place e ρ (.fix i (.lam j as b)) → ∃ w, Means ρ (.fix i (.lam j as b)) w

/-- No variable is free. -/
def Bound (e : NE) : Prop := ∀ ρ i k, Place e ρ (.var i k) → k < ρ.length

/-- What an error says about the expression. -/
def TErr.Truth (e : NE) : TErr → Prop
  | .firstNullable te p => ∃ x, x.grammar = some te.gram ∧ EmptyFirst e p x
  | .firstFlastOverlap _ p te => ∃ x, x.grammar = some te.gram ∧ OpenEnd e p x
  | .bothNullable _ p te => ∃ x, x.grammar = some te.gram ∧ TwoEmpty e p x
  | .firstOverlap _ p te => ∃ x, x.grammar = some te.gram ∧ SameStart e p x
  | .variable .free k s _ => FreeVar e k s
  | .variable .guarded k s _ => LeftVar e k s
  | .expectedLambda _ => False
  | .unexpectedCall _ => False
  | .unexpectedLambda _ => False
  | .unexpectedLet _ => False

/-! ## Grammars of parts -/

/-- The grammars of a list of parts. -/
def NE.grammarP (l : List (Nat × NE)) : Option (List Gram) := Core.gramL (fun _ => true) (NE.eraseP l)

theorem grammar_cat {i : Info} {f : NE} {r : List (Nat × NE)} {g : Gram} (h : (NE.cat i f r).grammar = some g) :
    ∃ g1 gs, f.grammar = some g1 ∧ NE.grammarP r = some gs ∧ g = .cat (g1 :: gs) := by
  simp only [NE.grammar, NE.erase, Core.gram, Core.gramL] at h
  rw [Option.map_eq_some_iff] at h
  obtain ⟨gs, hg, rfl⟩ := h
  rw [Option.bind_eq_some_iff] at hg
  obtain ⟨g, hg1, hg⟩ := hg
  rw [Option.map_eq_some_iff] at hg
  obtain ⟨gs, hg2, rfl⟩ := hg
  exact ⟨g, gs, hg1, hg2, rfl⟩

theorem grammar_alt {i : Info} {f : NE} {r : List (Nat × NE)} {g : Gram} (h : (NE.alt i f r).grammar = some g) :
    ∃ g1 gs, f.grammar = some g1 ∧ NE.grammarP r = some gs ∧ g = .alt (g1 :: gs) := by
  simp only [NE.grammar, NE.erase, Core.gram, Core.gramL] at h
  rw [Option.map_eq_some_iff] at h
  obtain ⟨gs, hg, rfl⟩ := h
  rw [Option.bind_eq_some_iff] at hg
  obtain ⟨g, hg1, hg⟩ := hg
  rw [Option.map_eq_some_iff] at hg
  obtain ⟨gs, hg2, rfl⟩ := hg
  exact ⟨g, gs, hg1, hg2, rfl⟩

theorem grammar_fix {i j : Info} {as : List Name} {b : NE} {g : Gram} (h : (NE.fix i (.lam j as b)).grammar = some g) :
    ∃ g', b.grammar = some g' ∧ g = .fix g' := by
  simp only [NE.grammar, NE.erase] at h
  obtain ⟨_, _, g', heq, _, hg1, rfl⟩ := gram_fix_eq h
  cases heq
  exact ⟨g', hg1, rfl⟩

theorem grammarP_cons {p : Nat} {e : NE} {l : List (Nat × NE)} {gs : List Gram} (h : NE.grammarP ((p, e) :: l) = some gs) :
    ∃ g gs', e.grammar = some g ∧ NE.grammarP l = some gs' ∧ gs = g :: gs' := by
  simp only [NE.grammarP, NE.eraseP, Core.gramL] at h
  rw [Option.bind_eq_some_iff] at h
  obtain ⟨g, hg1, hg⟩ := h
  rw [Option.map_eq_some_iff] at hg
  obtain ⟨gs, hg2, rfl⟩ := hg
  exact ⟨g, gs, hg1, hg2, rfl⟩

theorem grammarP_append : ∀ {l l' : List (Nat × NE)} {gs : List Gram}, NE.grammarP (l ++ l') = some gs →
    ∃ g1 g2, NE.grammarP l = some g1 ∧ NE.grammarP l' = some g2 ∧ gs = g1 ++ g2
  | [], l', gs, h => ⟨[], gs, rfl, h, rfl⟩
  | (p, e) :: l, l', gs, h => by
    obtain ⟨g, gs', h1, h2, rfl⟩ := grammarP_cons h
    obtain ⟨g1, g2, h3, h4, rfl⟩ := grammarP_append h2
    refine ⟨g :: g1, g2, ?_, h4, rfl⟩
    simp only [NE.grammarP, NE.eraseP, Core.gramL]
    simp only [NE.grammar] at h1
    simp only [NE.grammarP] at h3
    rw [h1, h3]
    rfl

theorem grammarP_mem : ∀ {l : List (Nat × NE)} {gs : List Gram}, NE.grammarP l = some gs → ∀ x ∈ l.map (·.2),
    ∃ (k : Nat) (g : Gram), gs[k]? = some g ∧ x.grammar = some g
  | [], _, _, x, hx => by simp at hx
  | (p, e) :: l, gs, h, x, hx => by
    obtain ⟨g, gs', h1, h2, rfl⟩ := grammarP_cons h
    rcases List.mem_cons.1 hx with rfl | hx
    · exact ⟨0, g, rfl, h1⟩
    · obtain ⟨k, g', h3, h4⟩ := grammarP_mem h2 x hx
      exact ⟨k + 1, g', by simpa using h3, h4⟩

theorem Means.words {ρ : List Gram} {e : NE} {w : List Char} {g : Gram} (h : Means ρ e w) (hg : e.grammar = some g) :
    Words ρ g w := by
  obtain ⟨g', h1, h2⟩ := h
  rw [hg] at h1
  cases h1
  exact h2

theorem MeansSeq.derL {ρ : List Gram} : ∀ {l : List (Nat × NE)} {gs : List Gram} {w : List Char},
    MeansSeq ρ (l.map (·.2)) w → NE.grammarP l = some gs → ∃ ts, DerL ρ gs ts ∧ Tree.textL ts = w
  | [], gs, w, h, hg => by
    simp only [NE.grammarP, NE.eraseP, Core.gramL] at hg
    cases hg
    simp only [List.map_nil, MeansSeq] at h
    exact ⟨[], .nil ρ, by simp [Tree.textL, h]⟩
  | (p, e) :: l, gs, w, h, hg => by
    obtain ⟨g, gs', h1, h2, rfl⟩ := grammarP_cons hg
    obtain ⟨u, v, rfl, h3, h4⟩ := h
    obtain ⟨t, h5, rfl⟩ := h3.words h1
    obtain ⟨ts, h6, rfl⟩ := MeansSeq.derL h4 h2
    exact ⟨t :: ts, .cons ρ g gs' t ts h5 h6, by simp [Tree.textL]⟩

theorem MeansSeq.cat {ρ : List Gram} {f : NE} {r : List (Nat × NE)} {g : Gram} {gs : List Gram} {w : List Char}
    (h : MeansSeq ρ (f :: r.map (·.2)) w) (hf : f.grammar = some g) (hr : NE.grammarP r = some gs) :
    Words ρ (.cat (g :: gs)) w := by
  obtain ⟨u, v, rfl, h1, h2⟩ := h
  obtain ⟨t, h5, rfl⟩ := h1.words hf
  obtain ⟨ts, h6, rfl⟩ := h2.derL hr
  exact ⟨.cat (t :: ts), .cat ρ _ _ (.cons ρ g gs t ts h5 h6), by simp [Tree.text, Tree.textL]⟩

theorem MeansSeq.snoc {ρ : List Gram} {x : NE} : ∀ {l : List NE} {u v : List Char}, MeansSeq ρ l u → Means ρ x v →
    MeansSeq ρ (l ++ [x]) (u ++ v)
  | [], u, v, h, hx => by
    simp only [MeansSeq] at h
    subst h
    exact ⟨v, [], by simp, hx, rfl⟩
  | e :: l, _, v, ⟨u, u', rfl, h1, h2⟩, hx => ⟨u, u' ++ v, by simp, h1, h2.snoc hx⟩

/-! ## Productive expressions -/

theorem words_var_push {ρ : List Gram} {b : Gram} {i : Nat} {w : List Char} (h : Words ρ (.var i) w) :
    Words (b :: ρ) (.var (i + 1)) w := by
  obtain ⟨x, h1, h2⟩ := h
  cases h1 with
  | var _ _ b' ρ' y hd hy => exact ⟨.box y, .var _ (i + 1) b' ρ' y (by simpa using hd) hy, h2⟩

theorem words_fix {ρ : List Gram} {b : Gram} {w : List Char} : Words ρ (.fix b) w ↔ Words (b :: ρ) b w := by
  constructor
  · rintro ⟨x, h1, h2⟩
    cases h1 with
    | fix _ _ _ h => exact ⟨x, h, h2⟩
  · rintro ⟨x, h1, h2⟩
    exact ⟨x, .fix ρ b x h1, h2⟩

theorem words_zero {ρ : List Gram} {b : Gram} {w : List Char} (h : Words (b :: ρ) b w) : Words (b :: ρ) (.var 0) w := by
  obtain ⟨x, h1, h2⟩ := h
  exact ⟨.box x, .var _ 0 b ρ x rfl h1, by simpa [Tree.text] using h2⟩

/-- In a productive expression all variables match something. -/
theorem place_env {e : NE} (hP : Productive e) : ∀ {ρ : List Gram} {e' : NE}, Place e ρ e' → ∀ i, i < ρ.length →
    ∃ w, Words ρ (.var i) w := by
  intro ρ e' h
  induction h with
  | whole => intro i hi; simp at hi
  | cat _ _ _ _ _ _ _ ih => exact ih
  | alt _ _ _ _ _ _ _ ih => exact ih
  | fix ρ i j as b g h hg ih =>
    intro k hk
    cases k with
    | zero =>
      obtain ⟨w, g', h1, h2⟩ := hP _ _ _ _ _ h
      obtain ⟨g'', h3, rfl⟩ := grammar_fix h1
      rw [hg] at h3
      cases h3
      exact ⟨w, words_zero (words_fix.1 h2)⟩
    | succ k =>
      obtain ⟨w, hw⟩ := ih k (by simpa using hk)
      exact ⟨w, words_var_push hw⟩

mutual
/-- In a productive expression without free variables every part matches something. -/
theorem place_words {e : NE} (hP : Productive e) (hB : Bound e) : ∀ (x : NE) (ρ : List Gram) (g : Gram), Place e ρ x →
    x.grammar = some g → ∃ w, Words ρ g w
  | .eps _, ρ, g, hx, hg => by
    simp only [NE.grammar, NE.erase, Core.gram] at hg; cases hg
    exact ⟨[], .eps, .eps ρ, rfl⟩
  | .lit _ s, ρ, g, hx, hg => by
    simp only [NE.grammar, NE.erase, Core.gram] at hg; cases hg
    exact ⟨s, .lit s, .lit ρ s, rfl⟩
  | .cat i f r, ρ, g, hx, hg => by
    obtain ⟨g1, gs, h1, h2, rfl⟩ := grammar_cat hg
    obtain ⟨w, t, h3, rfl⟩ := place_words hP hB f ρ g1 (.cat ρ i f r f hx (by simp)) h1
    obtain ⟨ts, h4⟩ := place_wordsP hP hB r ρ gs (fun y hy => .cat ρ i f r y hx (List.mem_cons_of_mem _ hy)) h2
    exact ⟨_, .cat (t :: ts), .cat ρ _ _ (.cons ρ g1 gs t ts h3 h4), rfl⟩
  | .alt i f r, ρ, g, hx, hg => by
    obtain ⟨g1, gs, h1, h2, rfl⟩ := grammar_alt hg
    obtain ⟨w, t, h3, rfl⟩ := place_words hP hB f ρ g1 (.alt ρ i f r f hx (by simp)) h1
    exact ⟨_, .alt 0 t, .alt ρ _ 0 g1 t rfl h3, rfl⟩
  | .fix i (.lam j as b), ρ, g, hx, hg => by
    obtain ⟨w, g', h1, h2⟩ := hP _ _ _ _ _ hx
    rw [hg] at h1
    cases h1
    exact ⟨w, h2⟩
  | .var i k, ρ, g, hx, hg => by
    simp only [NE.grammar, NE.erase, Core.gram] at hg; cases hg
    exact place_env hP hx k (hB _ _ _ hx)
  | .call _ _ _, _, _, _, h | .lam _ _ _, _, _, _, h | .letE _ _ _ _, _, _, _, h => by
    simp only [NE.grammar, NE.erase, Core.gram] at h; cases h
  | .fix _ (.eps _), _, _, _, h | .fix _ (.lit _ _), _, _, _, h | .fix _ (.cat _ _ _), _, _, _, h
  | .fix _ (.alt _ _ _), _, _, _, h | .fix _ (.fix _ _), _, _, _, h | .fix _ (.var _ _), _, _, _, h
  | .fix _ (.call _ _ _), _, _, _, h | .fix _ (.letE _ _ _ _), _, _, _, h => by
    simp only [NE.grammar, NE.erase, Core.gram] at h; cases h
theorem place_wordsP {e : NE} (hP : Productive e) (hB : Bound e) : ∀ (l : List (Nat × NE)) (ρ : List Gram) (gs : List Gram),
    (∀ x ∈ l.map (·.2), Place e ρ x) → NE.grammarP l = some gs → ∃ ts, DerL ρ gs ts
  | [], ρ, gs, _, h => by
    simp only [NE.grammarP, NE.eraseP, Core.gramL] at h; cases h
    exact ⟨[], .nil ρ⟩
  | (p, x) :: l, ρ, gs, hx, h => by
    obtain ⟨g, gs', h1, h2, rfl⟩ := grammarP_cons h
    obtain ⟨w, t, h3, rfl⟩ := place_words hP hB x ρ g (hx x (by simp)) h1
    obtain ⟨ts, h4⟩ := place_wordsP hP hB l ρ gs' (fun y hy => hx y (List.mem_cons_of_mem _ hy)) h2
    exact ⟨t :: ts, .cons ρ g gs' t ts h3 h4⟩
end

/-! ## Errors are truthful -/

/-- Matches a non-empty string. -/
def Long (ρ : List Gram) (g : Gram) : Prop := ∃ w, w ≠ [] ∧ Words ρ g w

/-- What is known when inference gets to a place. -/
structure At (c : TCtx) (ρ : List Gram) (g : Gram) : Prop where
  ok : c.ok
  len : c.vars.length = ρ.length
  under : VarsUnder c ρ
  usable : ∀ i, c.guard ≤ i → i < ρ.length → Long ρ (.var i)
  plug : Long ρ g → ∀ i, i < ρ.length → Long ρ (.var i)
  left : ∀ i, i < c.guard → ∀ b ρ', ρ.drop i = b :: ρ' → LeftSteps (b :: ρ', b) (ρ, g)

/-- An outcome that says nothing wrong. -/
def Fair (e : NE) {α : Type} (r : Out TErr α) (P : α → Prop) : Prop :=
  match r with
  | .ok a => P a
  | .err x => x.Truth e
  | _ => True

theorem Fair.bind {e : NE} {α β : Type} {r : Out TErr α} {f : α → Out TErr β} {P : α → Prop} {Q : β → Prop}
    (h : Fair e r P) (hf : ∀ a, r = .ok a → P a → Fair e (f a) Q) : Fair e (r.bind f) Q := by
  cases r with
  | ok a => exact hf a rfl h
  | err x => exact h
  | panic => trivial
  | oof => trivial

theorem fixLoop_fair {e : NE} {f : Ty → TCtx → Inf TE} (hf : ∀ t c, (f t c).2 = c) {c : TCtx} {P : Ty → Prop}
    (h : ∀ t : Ty, P t → Fair e (f t c).1 fun te => P te.ty) :
    ∀ (n : Nat) (t : Ty), P t → Fair e (fixLoop f n t c).1 fun te => P te.ty ∧ ∃ t', P t' ∧ (f t' c).1 = .ok te
  | 0, _, _ => trivial
  | n + 1, t, ht => by
    simp only [fixLoop]
    rw [Inf.bind_fst (hf t c)]
    refine (h t ht).bind fun te h1 hte => ?_
    split
    · exact ⟨hte, t, ht, h1⟩
    · exact fixLoop_fair hf h n _ hte

theorem At.push {c : TCtx} {ρ : List Gram} {g : Gram} (h : At c ρ (.fix g)) {t : Ty} (ht : Under t (Words (g :: ρ) g)) :
    At ⟨c.vars ++ [t], c.unguard⟩ (g :: ρ) g where
  ok := TCtx.ok_push t h.ok
  len := by simp [h.len]
  under := h.under.push ht
  usable i hi hl := by
    rw [TCtx.guard_push t h.ok] at hi
    cases i with
    | zero => omega
    | succ i =>
      obtain ⟨w, h1, h2⟩ := h.usable i (by omega) (by simpa using hl)
      exact ⟨w, h1, words_var_push h2⟩
  plug := by
    rintro ⟨w, h1, h2⟩ i hi
    cases i with
    | zero => exact ⟨w, h1, words_zero h2⟩
    | succ i =>
      obtain ⟨w', h3, h4⟩ := h.plug ⟨w, h1, words_fix.2 h2⟩ i (by simpa using hi)
      exact ⟨w', h3, words_var_push h4⟩
  left i hi b ρ' hd := by
    rw [TCtx.guard_push t h.ok] at hi
    cases i with
    | zero =>
      simp only [List.drop_zero, List.cons.injEq] at hd
      obtain ⟨rfl, rfl⟩ := hd
      exact .refl _
    | succ i => exact .tail (h.left i (by omega) b ρ' (by simpa using hd)) (.fix ρ g)

theorem words_alt {ρ : List Gram} {l : List Gram} {k : Nat} {g : Gram} {w : List Char} (hk : l[k]? = some g)
    (h : Words ρ g w) : Words ρ (.alt l) w := by
  obtain ⟨t, h1, rfl⟩ := h
  exact ⟨.alt k t, .alt ρ l k g t hk h1, by simp [Tree.text]⟩

theorem infer_grammar {n : Nat} {nm : Option Name} {e : NE} {c : TCtx} {te : TE} (hc : c.ok)
    (h : (infer n nm e c).1 = .ok te) : e.grammar = some te.gram := (infer_sound n nm e c te hc h).2

mutual
/-- What inference says of a part of a productive expression without free variables is true. -/
theorem infer_fair (n : Nat) {e : NE} (hP : Productive e) (hB : Bound e) : ∀ (nm : Option Name) (x : NE) (c : TCtx)
    (ρ : List Gram) (g : Gram), Place e ρ x → x.grammar = some g → At c ρ g →
    Fair e (infer n nm x c).1 fun te => Under te.ty (Words ρ g) ∧ (te.ty.nullable = false → Long ρ g)
  | nm, .eps _, c, ρ, g, hx, hg, hA => by
    simp only [NE.grammar, NE.erase, Core.gram] at hg; cases hg
    refine ⟨⟨fun _ => ⟨.eps, .eps ρ, rfl⟩, fun c h => ?_, fun c h => ?_⟩, fun h => ?_⟩ <;> simp [TE.ty, Ty.eps] at h
  | nm, .lit _ s, c, ρ, g, hx, hg, hA => by
    simp only [NE.grammar, NE.erase, Core.gram] at hg; cases hg
    have hw : Words ρ (.lit s) s := ⟨.lit s, .lit ρ s, rfl⟩
    refine ⟨⟨fun h => ?_, fun c h => ?_, fun c h => ?_⟩, fun h => ⟨s, ?_, hw⟩⟩
    · simp only [TE.ty, Ty.ofStr] at h
      rw [List.isEmpty_iff] at h
      rw [h] at hw ⊢; exact hw
    · simp only [TE.ty, Ty.ofStr] at h
      rw [CharSet.mem_ofStr] at h
      cases s with
      | nil => cases h
      | cons a s => cases h; exact ⟨s, hw⟩
    · simp [TE.ty, Ty.ofStr] at h
    · rintro rfl
      simp [TE.ty, Ty.ofStr] at h
  | nm, .cat i f r, c, ρ, g, hx, hg, hA => by
    obtain ⟨g1, gs, h1, h2, rfl⟩ := grammar_cat hg
    have hf : Place e ρ f := .cat ρ i f r f hx (by simp)
    obtain ⟨ts, hts⟩ := place_wordsP hP hB r ρ gs (fun y hy => .cat ρ i f r y hx (List.mem_cons_of_mem _ hy)) h2
    have hlong : Long ρ g1 → Long ρ (.cat (g1 :: gs)) := by
      rintro ⟨w, h3, t, h4, rfl⟩
      exact ⟨_, by simp [Tree.text, Tree.textL, h3], .cat (t :: ts), .cat ρ _ _ (.cons ρ g1 gs t ts h4 hts), rfl⟩
    simp only [infer]
    rw [Inf.bind_fst (infer_snd n _ f c)]
    have hAf : At c ρ g1 := ⟨hA.ok, hA.len, hA.under, hA.usable, fun h => hA.plug (hlong h), fun j hj b ρ' hd =>
      .tail (hA.left j hj b ρ' hd) (.cat ρ _ 0 g1 rfl (by intro j _ h; omega))⟩
    refine (infer_fair n hP hB _ f c ρ g1 hf h1 hAf).bind fun t ht ⟨i1, i2⟩ => ?_
    split
    · rename_i hn
      exact ⟨f, infer_grammar hA.ok ht, ρ, i, r, hx, rfl, g1, h1, i1.null hn⟩
    · rename_i hn
      have hl := i2 (by simpa using hn)
      rw [Inf.bind_fst (withUnguard_snd fun c => inferCat_snd n _ r c), withUnguard_fst]
      have hall := hA.plug (hlong hl)
      have hmean : ∀ w, Words ρ g1 w → MeansSeq ρ (f :: ([] : List (Nat × NE)).map (·.2)) w := fun w hw =>
        ⟨w, [], by simp, ⟨g1, h1, hw⟩, rfl⟩
      refine (inferCat_fair n hP hB _ r _ ρ i f [] gs hx h2 (TCtx.ok_unguard c) (TCtx.guard_unguard c) hA.len hA.under
        hall (i1.mono hmean) ?_).bind fun ⟨ts', υ⟩ _ hυ => ?_
      · obtain ⟨w, h3, h4⟩ := hl
        exact ⟨w, hmean w h4, h3⟩
      · exact ⟨hυ.mono fun w hw => hw.cat h1 (by simpa using h2), fun _ => hlong hl⟩
  | nm, .alt i f r, c, ρ, g, hx, hg, hA => by
    obtain ⟨g1, gs, h1, h2, rfl⟩ := grammar_alt hg
    have hf : Place e ρ f := .alt ρ i f r f hx (by simp)
    have hlong : ∀ (k : Nat) (g' : Gram), (g1 :: gs)[k]? = some g' → Long ρ g' → Long ρ (.alt (g1 :: gs)) := by
      rintro k g' hk ⟨w, h3, h4⟩
      exact ⟨w, h3, words_alt hk h4⟩
    have hAt : ∀ (k : Nat) (g' : Gram), (g1 :: gs)[k]? = some g' → At c ρ g' := fun k g' hk =>
      ⟨hA.ok, hA.len, hA.under, hA.usable, fun h => hA.plug (hlong k g' hk h), fun j hj b ρ' hd =>
        .tail (hA.left j hj b ρ' hd) (.alt ρ _ g' (List.mem_of_getElem? hk))⟩
    simp only [infer]
    rw [Inf.bind_fst (infer_snd n _ f c)]
    refine (infer_fair n hP hB _ f c ρ g1 hf h1 (hAt 0 g1 rfl)).bind fun t ht ⟨i1, i2⟩ => ?_
    rw [Inf.bind_fst (inferAlt_snd n _ r c)]
    refine (inferAlt_fair n hP hB _ r c ρ i f [] gs hx h2 hA.ok (fun k g' hk => hAt (k + 1) g' (by simpa using hk))
      (i1.mono fun w hw => ⟨f, by simp, g1, h1, hw⟩)).bind fun ⟨ts', υ⟩ _ ⟨hυ, hnull⟩ => ?_
    refine ⟨hυ.mono ?_, fun hn => hlong 0 g1 rfl (i2 ?_)⟩
    · rintro w ⟨y, hy, hw⟩
      rcases List.mem_cons.1 hy with rfl | hy
      · exact words_alt (k := 0) rfl (hw.words h1)
      · obtain ⟨k, g', h3, h4⟩ := grammarP_mem h2 y (by simpa using hy)
        exact words_alt (k := k + 1) (by simpa using h3) (hw.words h4)
    · cases hv : t.ty.nullable with
      | false => rfl
      | true =>
        have := hnull hv
        simp only [TE.ty] at hn
        rw [hn] at this; cases this
  | nm, .fix i (.lam j as b), c, ρ, g, hx, hg, hA => by
    obtain ⟨g', h1, rfl⟩ := grammar_fix hg
    have hb : Place e (g' :: ρ) b := .fix ρ i j as b g' hx h1
    simp only [infer]
    rw [Inf.bind_fst (fixLoop_snd (fun t c => withVar_snd fun c => infer_snd n _ b c) _ _ _)]
    have key : ∀ t : Ty, Under t (Words (g' :: ρ) g') →
        Fair e (c.withVar t (infer n (Name.mergeAll [j.name, b.info.name, nm]) b)).1 fun te =>
          Under te.ty (Words (g' :: ρ) g') ∧ (te.ty.nullable = false → Long (g' :: ρ) g') := by
      intro t ht
      rw [withVar_fst]
      exact infer_fair n hP hB _ b _ (g' :: ρ) g' hb h1 (hA.push ht)
    refine (fixLoop_fair (P := fun t => Under t (Words (g' :: ρ) g')) (fun t c => withVar_snd fun c => infer_snd n _ b c)
      (fun t ht => ?_) n _ (Under.default _)).bind fun te _ h2 => ?_
    · have := key t ht
      revert this
      cases (c.withVar t (infer n (Name.mergeAll [j.name, b.info.name, nm]) b)).1 with
      | ok a => exact fun h => h.1
      | err x => exact id
      | panic => exact id
      | oof => exact id
    · obtain ⟨h3, t', h4, h5⟩ := h2
      have := key t' h4
      rw [h5] at this
      refine ⟨this.1.mono fun w hw => words_fix.2 hw, fun hn => ?_⟩
      obtain ⟨w, h6, h7⟩ := this.2 hn
      exact ⟨w, h6, words_fix.2 h7⟩
  | nm, .var i k, c, ρ, g, hx, hg, hA => by
    simp only [NE.grammar, NE.erase, Core.gram] at hg; cases hg
    have hk := hB _ _ _ hx
    simp only [infer]
    split
    · rename_i ty h1
      obtain ⟨h2, h3⟩ := TCtx.getVar_ok.1 h1
      exact ⟨hA.under k ty h2, fun _ => hA.usable k h3 hk⟩
    · rename_i er h1
      simp only [TCtx.getVar] at h1
      split at h1
      · rename_i h2
        rw [List.getElem?_eq_none_iff] at h2
        rw [List.length_reverse, hA.len] at h2
        omega
      · split at h1
        · cases h1
        · cases h1
          rename_i h2
          have hlt : k < c.guard := by simp only [TCtx.guard]; omega
          cases hd : ρ.drop k with
          | nil => rw [List.drop_eq_nil_iff] at hd; omega
          | cons b ρ' => exact ⟨ρ, i, b, ρ', hx, rfl, hd, hA.left k hlt b ρ' hd⟩
  | _, .call _ _ _, _, _, _, _, h, _ | _, .lam _ _ _, _, _, _, _, h, _ | _, .letE _ _ _ _, _, _, _, _, h, _ => by
    simp only [NE.grammar, NE.erase, Core.gram] at h; cases h
  | _, .fix _ (.eps _), _, _, _, _, h, _ | _, .fix _ (.lit _ _), _, _, _, _, h, _ | _, .fix _ (.cat _ _ _), _, _, _, _, h, _
  | _, .fix _ (.alt _ _ _), _, _, _, _, h, _ | _, .fix _ (.fix _ _), _, _, _, _, h, _ | _, .fix _ (.var _ _), _, _, _, _, h, _
  | _, .fix _ (.call _ _ _), _, _, _, _, h, _ | _, .fix _ (.letE _ _ _ _), _, _, _, _, h, _ => by
    simp only [NE.grammar, NE.erase, Core.gram] at h; cases h
theorem inferCat_fair (n : Nat) {e : NE} (hP : Productive e) (hB : Bound e) : ∀ (ty : Ty) (l : List (Nat × NE)) (c : TCtx)
    (ρ : List Gram) (i : Info) (f : NE) (r : List (Nat × NE)) (gs : List Gram), Place e ρ (.cat i f (r ++ l)) →
    NE.grammarP l = some gs → c.ok → c.guard = 0 → c.vars.length = ρ.length → VarsUnder c ρ →
    (∀ k, k < ρ.length → Long ρ (.var k)) → Under ty (MeansSeq ρ (f :: r.map (·.2))) →
    (∃ u, MeansSeq ρ (f :: r.map (·.2)) u ∧ u ≠ []) →
    Fair e (inferCat n ty l c).1 fun x => Under x.2 (MeansSeq ρ (f :: (r ++ l).map (·.2)))
  | ty, [], c, ρ, i, f, r, gs, hx, hg, hc, h0, hlen, hV, hall, hU, hne => by
    simp only [inferCat, List.append_nil]
    exact hU
  | ty, (p, x) :: l, c, ρ, i, f, r, gs, hx, hg, hc, h0, hlen, hV, hall, hU, hne => by
    obtain ⟨g, gs', h1, h2, rfl⟩ := grammarP_cons hg
    have hp : Place e ρ x := .cat ρ i f _ x hx (by simp)
    simp only [inferCat]
    rw [Inf.bind_fst (infer_snd n _ x c)]
    refine (infer_fair n hP hB _ x c ρ g hp h1 ⟨hc, hlen, hV, fun k _ hk => hall k hk, fun _ => hall, fun k hk => by omega⟩).bind
      fun t ht ⟨i1, i2⟩ => ?_
    split
    · rw [Inf.bind_fst (inferCat_snd n _ l c)]
      obtain ⟨w, hw⟩ := place_words hP hB x ρ g hp h1
      have hstep : ∀ u v, MeansSeq ρ (f :: r.map (·.2)) u → Words ρ g v → MeansSeq ρ (f :: (r ++ [(p, x)]).map (·.2)) (u ++ v) := by
        intro u v hu hv
        have := hu.snoc (x := x) ⟨g, h1, hv⟩
        simpa using this
      have hrec := inferCat_fair n hP hB (ty.cat t.ty) l c ρ i f (r ++ [(p, x)]) gs' (by simpa using hx) h2 hc h0 hlen hV hall
        ((hU.cat i1 hne ⟨w, hw⟩).mono (by rintro _ ⟨u, v, hu, hv, rfl⟩; exact hstep u v hu hv)) (by
          obtain ⟨u, h4, h5⟩ := hne
          exact ⟨u ++ w, hstep u w h4 hw, by simp [h5]⟩)
      refine hrec.bind fun ⟨ts, υ⟩ _ hυ => ?_
      simpa [Fair] using hυ
    · rename_i hd
      have : ¬ ∀ ch, ch ∈ ty.flast → ch ∉ t.ty.first := fun h => hd (CharSet.disjoint_iff.2 h)
      refine ⟨x, infer_grammar hc ht, ρ, i, f, r, l, hx, ?_⟩
      refine Classical.byContradiction fun hno => this fun ch hch hch' => hno ?_
      obtain ⟨u, w, h3, h4, h5⟩ := hU.flast ch hch
      obtain ⟨v, hv⟩ := i1.first ch hch'
      exact ⟨u, ch, w, v, h3, h4, h5, g, h1, hv⟩
theorem inferAlt_fair (n : Nat) {e : NE} (hP : Productive e) (hB : Bound e) : ∀ (ty : Ty) (l : List (Nat × NE)) (c : TCtx)
    (ρ : List Gram) (i : Info) (f : NE) (r : List (Nat × NE)) (gs : List Gram),
    Place e ρ (.alt i f (r ++ l)) →
    NE.grammarP l = some gs → c.ok → (∀ (k : Nat) (g' : Gram), gs[k]? = some g' → At c ρ g') →
    Under ty (fun w => ∃ y, y ∈ f :: r.map (·.2) ∧ Means ρ y w) →
    Fair e (inferAlt n ty l c).1 fun x => Under x.2 (fun w => ∃ y, y ∈ f :: (r ++ l).map (·.2) ∧ Means ρ y w) ∧
      (ty.nullable = true → x.2.nullable = true)
  | ty, [], c, ρ, i, f, r, gs, hx, hg, hc, hA, hU => by
    simp only [inferAlt, List.append_nil]
    exact ⟨hU, id⟩
  | ty, (p, x) :: l, c, ρ, i, f, r, gs, hx, hg, hc, hA, hU => by
    obtain ⟨g, gs', h1, h2, rfl⟩ := grammarP_cons hg
    have hp : Place e ρ x := .alt ρ i f _ x hx (by simp)
    simp only [inferAlt]
    rw [Inf.bind_fst (infer_snd n _ x c)]
    refine (infer_fair n hP hB _ x c ρ g hp h1 (hA 0 g rfl)).bind fun t ht ⟨i1, i2⟩ => ?_
    split
    · rename_i hn
      rw [Bool.and_eq_true] at hn
      obtain ⟨y, hy, hw⟩ := hU.null hn.1
      exact ⟨x, infer_grammar hc ht, ρ, i, f, r, l, y, hx, hy, hw, g, h1, i1.null hn.2⟩
    · split
      · rw [Inf.bind_fst (inferAlt_snd n _ l c)]
        have hrec := inferAlt_fair n hP hB (ty.alt t.ty) l c ρ i f (r ++ [(p, x)]) gs' (by simpa using hx) h2 hc
          (fun k g' hk => hA (k + 1) g' (by simpa using hk)) (Under.alt
            (hU.mono (by rintro w ⟨y, hy, hw⟩; exact ⟨y, by rw [List.map_append]; rcases List.mem_cons.1 hy with rfl | hy <;> simp_all, hw⟩))
            (i1.mono fun w hw => ⟨x, by simp, g, h1, hw⟩))
        refine hrec.bind fun ⟨ts, υ⟩ _ hυ => ?_
        refine ⟨by simpa using hυ.1, fun hn => hυ.2 (by simp [Ty.alt, hn])⟩
      · rename_i hd
        have : ¬ ∀ ch, ch ∈ ty.first → ch ∉ t.ty.first := fun h => hd (CharSet.disjoint_iff.2 h)
        refine ⟨x, infer_grammar hc ht, ?_⟩
        refine Classical.byContradiction fun hno => this fun ch hch hch' => hno ?_
        obtain ⟨u, y, hy, hw⟩ := hU.first ch hch
        obtain ⟨v, hv⟩ := i1.first ch hch'
        exact ⟨ρ, i, f, r, l, y, hx, hy, ch, u, v, hw, g, h1, hv⟩
end

end Chomp
