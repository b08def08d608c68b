import Verif.Props.Regular

/-!
# C98: every regular expression has a parser

Regular expressions with a star, over any characters, can be rewritten as accepted expressions.
-/

namespace Chomp

/-! ## Specification: regular expressions -/

/-- Regular expressions. -/
inductive Re where
  | none
  | eps
  | char (c : Char)
  | alt (r s : Re)
  | cat (r s : Re)
  | star (r : Re)
  deriving DecidableEq

/-- The words that a regular expression matches. -/
inductive Re.Matches : Re → List Char → Prop
  | eps : Matches .eps []
  | char (c : Char) : Matches (.char c) [c]
  | left {r s w} : Matches r w → Matches (.alt r s) w
  | right {r s w} : Matches s w → Matches (.alt r s) w
  | cat {r s u v} : Matches r u → Matches s v → Matches (.cat r s) (u ++ v)
  | stop {r} : Matches (.star r) []
  | more {r u v} : Matches r u → Matches (.star r) v → Matches (.star r) (u ++ v)

/-! ## Partial derivatives -/

/-- Does the expression match the empty word? -/
def Re.nullable : Re → Bool
  | .none => false
  | .eps => true
  | .char _ => false
  | .alt r s => r.nullable || s.nullable
  | .cat r s => r.nullable && s.nullable
  | .star _ => true

theorem Re.nullable_iff : ∀ (r : Re), r.nullable = true ↔ r.Matches []
  | .none => ⟨fun h => by simp [Re.nullable] at h, fun h => by cases h⟩
  | .eps => ⟨fun _ => .eps, fun _ => rfl⟩
  | .char c => ⟨fun h => by simp [Re.nullable] at h, fun h => by cases h⟩
  | .alt r s => by
    rw [Re.nullable, Bool.or_eq_true, r.nullable_iff, s.nullable_iff]
    exact ⟨fun h => h.elim .left .right, fun h => by cases h with | left h => exact .inl h | right h => exact .inr h⟩
  | .cat r s => by
    rw [Re.nullable, Bool.and_eq_true, r.nullable_iff, s.nullable_iff]
    refine ⟨fun h => .cat h.1 h.2, fun h => ?_⟩
    generalize hw : ([] : List Char) = w at h
    cases h with
    | cat h1 h2 =>
      obtain ⟨rfl, rfl⟩ := List.append_eq_nil_iff.1 hw.symm
      exact ⟨h1, h2⟩
  | .star r => ⟨fun _ => .stop, fun _ => rfl⟩

/-- The partial derivatives of an expression by a character. -/
def Re.pd (c : Char) : Re → List Re
  | .none => []
  | .eps => []
  | .char d => if d = c then [.eps] else []
  | .alt r s => r.pd c ++ s.pd c
  | .cat r s => (r.pd c).map (.cat · s) ++ if r.nullable then s.pd c else []
  | .star r => (r.pd c).map (.cat · (.star r))

theorem Re.star_cons {r : Re} {c : Char} {w : List Char} (h : (Re.star r).Matches (c :: w)) :
    ∃ u v, w = u ++ v ∧ r.Matches (c :: u) ∧ (Re.star r).Matches v := by
  generalize hr : Re.star r = q at h
  generalize hx : c :: w = x at h
  induction h with
  | eps => cases hr
  | char => cases hr
  | left => cases hr
  | right => cases hr
  | cat => cases hr
  | stop => cases hx
  | @more r' u v h1 h2 _ ih2 =>
    cases hr
    cases u with
    | nil => exact ih2 rfl hx
    | cons d u =>
      simp only [List.cons_append, List.cons.injEq] at hx
      obtain ⟨rfl, rfl⟩ := hx
      exact ⟨u, v, rfl, h1, h2⟩

theorem Re.pd_iff (c : Char) : ∀ (r : Re) (w : List Char), r.Matches (c :: w) ↔ ∃ p ∈ r.pd c, p.Matches w
  | .none, w => ⟨fun h => (by cases h), fun h => by simp [Re.pd] at h⟩
  | .eps, w => ⟨fun h => (by cases h), fun h => by simp [Re.pd] at h⟩
  | .char d, w => by
    rw [Re.pd]
    constructor
    · intro h
      cases h
      exact ⟨.eps, by simp, .eps⟩
    · rintro ⟨p, hp, h⟩
      split at hp
      · rename_i e
        subst e
        simp only [List.mem_singleton] at hp
        subst hp
        cases h
        exact .char _
      · simp at hp
  | .alt r s, w => by
    rw [Re.pd]
    constructor
    · intro h
      cases h with
      | left h =>
        obtain ⟨p, hp, h⟩ := (Re.pd_iff c r w).1 h
        exact ⟨p, List.mem_append_left _ hp, h⟩
      | right h =>
        obtain ⟨p, hp, h⟩ := (Re.pd_iff c s w).1 h
        exact ⟨p, List.mem_append_right _ hp, h⟩
    · rintro ⟨p, hp, h⟩
      rcases List.mem_append.1 hp with hp | hp
      · exact .left ((Re.pd_iff c r w).2 ⟨p, hp, h⟩)
      · exact .right ((Re.pd_iff c s w).2 ⟨p, hp, h⟩)
  | .cat r s, w => by
    rw [Re.pd]
    constructor
    · intro h
      generalize hx : c :: w = x at h
      cases h with
      | @cat _ _ u v h1 h2 =>
        cases u with
        | nil =>
          rw [List.nil_append] at hx
          subst hx
          obtain ⟨p, hp, h⟩ := (Re.pd_iff c s w).1 h2
          exact ⟨p, List.mem_append_right _ (by rw [if_pos (r.nullable_iff.2 h1)]; exact hp), h⟩
        | cons d u =>
          simp only [List.cons_append, List.cons.injEq] at hx
          obtain ⟨rfl, rfl⟩ := hx
          obtain ⟨p, hp, h⟩ := (Re.pd_iff c r u).1 h1
          exact ⟨.cat p s, List.mem_append_left _ (List.mem_map.2 ⟨p, hp, rfl⟩), .cat h h2⟩
    · rintro ⟨p, hp, h⟩
      rcases List.mem_append.1 hp with hp | hp
      · obtain ⟨q, hq, rfl⟩ := List.mem_map.1 hp
        cases h with
        | @cat _ _ u v h1 h2 => exact .cat (u := c :: u) ((Re.pd_iff c r u).2 ⟨q, hq, h1⟩) h2
      · split at hp
        · rename_i hn
          exact .cat (u := []) (r.nullable_iff.1 hn) ((Re.pd_iff c s w).2 ⟨p, hp, h⟩)
        · simp at hp
  | .star r, w => by
    rw [Re.pd]
    constructor
    · intro h
      obtain ⟨u, v, rfl, h1, h2⟩ := Re.star_cons h
      obtain ⟨p, hp, h⟩ := (Re.pd_iff c r u).1 h1
      exact ⟨.cat p (.star r), List.mem_map.2 ⟨p, hp, rfl⟩, .cat h h2⟩
    · rintro ⟨p, hp, h⟩
      obtain ⟨q, hq, rfl⟩ := List.mem_map.1 hp
      cases h with
      | @cat _ _ u v h1 h2 => exact .more (u := c :: u) ((Re.pd_iff c r u).2 ⟨q, hq, h1⟩) h2

/-- All the partial derivatives of an expression by words that are not empty are among these. -/
def Re.univ : Re → List Re
  | .none => []
  | .eps => []
  | .char _ => [.eps]
  | .alt r s => r.univ ++ s.univ
  | .cat r s => r.univ.map (.cat · s) ++ s.univ
  | .star r => r.univ.map (.cat · (.star r))

theorem Re.pd_univ (c : Char) : ∀ (r p : Re), p ∈ r.pd c → p ∈ r.univ
  | .none, p, h => by simp [Re.pd] at h
  | .eps, p, h => by simp [Re.pd] at h
  | .char d, p, h => by
    rw [Re.pd] at h
    split at h
    · exact h
    · simp at h
  | .alt r s, p, h => by
    rw [Re.pd] at h
    rw [Re.univ]
    rcases List.mem_append.1 h with h | h
    · exact List.mem_append_left _ (Re.pd_univ c r p h)
    · exact List.mem_append_right _ (Re.pd_univ c s p h)
  | .cat r s, p, h => by
    rw [Re.pd] at h
    rw [Re.univ]
    rcases List.mem_append.1 h with h | h
    · obtain ⟨q, hq, rfl⟩ := List.mem_map.1 h
      exact List.mem_append_left _ (List.mem_map.2 ⟨q, Re.pd_univ c r q hq, rfl⟩)
    · split at h
      · exact List.mem_append_right _ (Re.pd_univ c s p h)
      · simp at h
  | .star r, p, h => by
    rw [Re.pd] at h
    obtain ⟨q, hq, rfl⟩ := List.mem_map.1 h
    exact List.mem_map.2 ⟨q, Re.pd_univ c r q hq, rfl⟩

theorem Re.univ_pd (c : Char) : ∀ (r q p : Re), q ∈ r.univ → p ∈ q.pd c → p ∈ r.univ
  | .none, q, p, h, _ => by simp [Re.univ] at h
  | .eps, q, p, h, _ => by simp [Re.univ] at h
  | .char d, q, p, h, hp => by
    simp only [Re.univ, List.mem_singleton] at h
    subst h
    simp [Re.pd] at hp
  | .alt r s, q, p, h, hp => by
    rw [Re.univ] at h ⊢
    rcases List.mem_append.1 h with h | h
    · exact List.mem_append_left _ (Re.univ_pd c r q p h hp)
    · exact List.mem_append_right _ (Re.univ_pd c s q p h hp)
  | .cat r s, q, p, h, hp => by
    rw [Re.univ] at h ⊢
    rcases List.mem_append.1 h with h | h
    · obtain ⟨q', hq, rfl⟩ := List.mem_map.1 h
      rw [Re.pd] at hp
      rcases List.mem_append.1 hp with hp | hp
      · obtain ⟨p', hp', rfl⟩ := List.mem_map.1 hp
        exact List.mem_append_left _ (List.mem_map.2 ⟨p', Re.univ_pd c r q' p' hq hp', rfl⟩)
      · split at hp
        · exact List.mem_append_right _ (Re.pd_univ c s p hp)
        · simp at hp
    · exact List.mem_append_right _ (Re.univ_pd c s q p h hp)
  | .star r, q, p, h, hp => by
    rw [Re.univ] at h ⊢
    obtain ⟨q', hq, rfl⟩ := List.mem_map.1 h
    rw [Re.pd] at hp
    rcases List.mem_append.1 hp with hp | hp
    · obtain ⟨p', hp', rfl⟩ := List.mem_map.1 hp
      exact List.mem_map.2 ⟨p', Re.univ_pd c r q' p' hq hp', rfl⟩
    · split at hp
      · rw [Re.pd] at hp
        obtain ⟨p', hp', rfl⟩ := List.mem_map.1 hp
        exact List.mem_map.2 ⟨p', Re.pd_univ c r p' hp', rfl⟩
      · simp at hp

/-- The characters of an expression. -/
def Re.chars : Re → List Char
  | .none => []
  | .eps => []
  | .char c => [c]
  | .alt r s => r.chars ++ s.chars
  | .cat r s => r.chars ++ s.chars
  | .star r => r.chars

theorem Re.chars_of {r : Re} {w : List Char} (h : r.Matches w) : ∀ c ∈ w, c ∈ r.chars := by
  induction h with
  | eps => simp
  | char c => simp [Re.chars]
  | left _ ih => exact fun c hc => List.mem_append_left _ (ih c hc)
  | right _ ih => exact fun c hc => List.mem_append_right _ (ih c hc)
  | cat _ _ ih1 ih2 =>
    intro c hc
    rcases List.mem_append.1 hc with hc | hc
    · exact List.mem_append_left _ (ih1 c hc)
    · exact List.mem_append_right _ (ih2 c hc)
  | stop => simp
  | more _ _ ih1 ih2 =>
    intro c hc
    rcases List.mem_append.1 hc with hc | hc
    · exact ih1 c hc
    · exact ih2 c hc

/-! ## The automaton of sets of partial derivatives -/

/-- All the selections from a list. -/
def selections {α : Type} : List α → List (List α)
  | [] => [[]]
  | x :: l => selections l ++ (selections l).map (x :: ·)

theorem filter_selections {α : Type} (p : α → Bool) : ∀ l : List α, l.filter p ∈ selections l
  | [] => by simp [selections]
  | x :: l => by
    rw [selections, List.filter_cons]
    split
    · exact List.mem_append_right _ (List.mem_map.2 ⟨_, filter_selections p l, rfl⟩)
    · exact List.mem_append_left _ (filter_selections p l)

theorem mem_of_selections {α : Type} {S : List α} {x : α} : ∀ {l : List α}, S ∈ selections l → x ∈ S → x ∈ l
  | [], h, hx => by
    simp only [selections, List.mem_singleton] at h
    subst h
    exact hx
  | y :: l, h, hx => by
    rcases List.mem_append.1 h with h | h
    · exact List.mem_cons_of_mem _ (mem_of_selections h hx)
    · obtain ⟨S', h', rfl⟩ := List.mem_map.1 h
      rcases List.mem_cons.1 hx with rfl | hx
      · exact List.mem_cons_self
      · exact List.mem_cons_of_mem _ (mem_of_selections h' hx)

/-- A list without repetitions. -/
def noDups : List Char → List Char
  | [] => []
  | c :: l => if c ∈ l then noDups l else c :: noDups l

theorem mem_noDups {c : Char} : ∀ {l : List Char}, c ∈ noDups l ↔ c ∈ l
  | [] => by simp [noDups]
  | d :: l => by
    rw [noDups]
    split
    · rename_i h
      rw [mem_noDups (l := l)]
      exact ⟨List.mem_cons_of_mem _, fun h' => (List.mem_cons.1 h').elim (fun e => e ▸ h) id⟩
    · rw [List.mem_cons, List.mem_cons, mem_noDups (l := l)]

theorem noDups_nodup : ∀ l : List Char, (noDups l).Nodup
  | [] => by simp [noDups]
  | c :: l => by
    rw [noDups]
    split
    · exact noDups_nodup l
    · rename_i h
      exact List.nodup_cons.2 ⟨fun h' => h (mem_noDups.1 h'), noDups_nodup l⟩

/-- The expressions that the states of the automaton are made of. -/
def Re.parts (r : Re) : List Re := r :: r.univ

/-- The automaton: its states are sets of partial derivatives. -/
def Re.dfa (r : Re) : Dfa {S : List Re // S ∈ selections r.parts} where
  states := (selections r.parts).attach
  sigma := noDups ('a' :: 'b' :: r.chars)
  start := ⟨r.parts.filter fun x => decide (x = r), filter_selections _ _⟩
  acc S := S.1.any Re.nullable
  next S c := ⟨r.parts.filter fun x => decide (x ∈ S.1.flatMap (Re.pd c)), filter_selections _ _⟩

theorem Re.parts_pd {r q p : Re} {c : Char} (hq : q ∈ r.parts) (hp : p ∈ q.pd c) : p ∈ r.parts := by
  rcases List.mem_cons.1 hq with rfl | hq
  · exact List.mem_cons_of_mem _ (Re.pd_univ c _ _ hp)
  · exact List.mem_cons_of_mem _ (Re.univ_pd c _ _ _ hq hp)

theorem Re.dfa_accepts (r : Re) : ∀ (w : List Char) (S : {S : List Re // S ∈ selections r.parts}),
    r.dfa.Accepts S w ↔ (∀ c ∈ w, c ∈ r.dfa.sigma) ∧ ∃ q ∈ S.1, q.Matches w
  | [], S => by
    rw [Dfa.Accepts]
    show S.1.any Re.nullable = true ↔ _
    rw [List.any_eq_true]
    simp [Re.nullable_iff]
  | c :: w, S => by
    rw [Dfa.Accepts, Re.dfa_accepts r w]
    have hnext : (∃ q ∈ (r.dfa.next S c).1, q.Matches w) ↔ ∃ q ∈ S.1, q.Matches (c :: w) := by
      show (∃ q ∈ r.parts.filter fun x => decide (x ∈ S.1.flatMap (Re.pd c)), q.Matches w) ↔ _
      constructor
      · rintro ⟨q, hq, h⟩
        obtain ⟨q', h1, h2⟩ := List.mem_flatMap.1 (of_decide_eq_true (List.mem_filter.1 hq).2)
        exact ⟨q', h1, (Re.pd_iff c q' w).2 ⟨q, h2, h⟩⟩
      · rintro ⟨q, hq, h⟩
        obtain ⟨p, hp, h⟩ := (Re.pd_iff c q w).1 h
        exact ⟨p, List.mem_filter.2 ⟨Re.parts_pd (mem_of_selections S.2 hq) hp,
          decide_eq_true (List.mem_flatMap.2 ⟨q, hq, hp⟩)⟩, h⟩
    rw [hnext]
    simp only [List.mem_cons, forall_eq_or_imp, and_assoc]

/-! ## The theorem -/

theorem Re.dfa_sigma (r : Re) : 2 ≤ r.dfa.sigma.length := by
  have ha : 'a' ∈ r.dfa.sigma := mem_noDups.2 List.mem_cons_self
  have hb : 'b' ∈ r.dfa.sigma := mem_noDups.2 (List.mem_cons_of_mem _ List.mem_cons_self)
  generalize r.dfa.sigma = l at ha hb
  match l with
  | [] => cases ha
  | [x] =>
    rw [List.mem_singleton] at ha hb
    rw [← hb] at ha
    exact absurd ha (by decide)
  | _ :: _ :: l => simp

theorem Re.dfa_start (r : Re) (w : List Char) : r.dfa.Accepts r.dfa.start w ↔ r.Matches w := by
  rw [Re.dfa_accepts]
  constructor
  · rintro ⟨_, q, hq, h⟩
    rw [← of_decide_eq_true (List.mem_filter.1 hq).2]
    exact h
  · intro h
    exact ⟨fun c hc => mem_noDups.2 (List.mem_cons_of_mem _ (List.mem_cons_of_mem _ (Re.chars_of h c hc))), r,
      List.mem_filter.2 ⟨List.mem_cons_self, decide_eq_true rfl⟩, h⟩

/-- **C98.** Every regular expression has a parser: there is an expression that type inference accepts and that is
compiled, whose generated parser accepts exactly the words that the regular expression matches. -/
theorem C98_regular_expressions (r : Re) :
    ∃ e te s id, Compiled e te s id ∧ ∀ text, (∃ t, Parses s id text (.ok t)) ↔ r.Matches text := by
  obtain ⟨e, te, s, id, hc, h⟩ := C97_regular_languages r.dfa (fun q => List.mem_attach _ q) (noDups_nodup _) (by
    intro h
    have := r.dfa_sigma
    simp [h] at this)
  exact ⟨e, te, s, id, hc, fun w => by rw [h w, Re.dfa_start]⟩

/-- Non-vacuity: the parser of `(a|b)*a` accepts `ba` and rejects `ab`. -/
example : ∃ e te s id, Compiled e te s id ∧
    (∃ t, Parses s id ['b', 'a'] (.ok t)) ∧ ¬ ∃ t, Parses s id ['a', 'b'] (.ok t) := by
  obtain ⟨e, te, s, id, hc, h⟩ := C98_regular_expressions
    (.cat (.star (.alt (.char 'a') (.char 'b'))) (.char 'a'))
  refine ⟨e, te, s, id, hc, (h _).2 ?_, fun hp => ?_⟩
  · exact .cat (u := ['b']) (.more (u := ['b']) (.right (.char _)) .stop) (.char _)
  · obtain ⟨p, hp1, hp2⟩ := (Re.pd_iff 'a' _ _).1 ((h _).1 hp)
    obtain ⟨q, hq1, hq2⟩ := (Re.pd_iff 'b' _ _).1 hp2
    simp [Re.pd, Re.nullable] at hp1
    rcases hp1 with rfl | rfl
    · simp [Re.pd, Re.nullable] at hq1
      subst hq1
      have := (Re.nullable_iff _).2 hq2
      simp [Re.nullable] at this
    · simp [Re.pd] at hq1

end Chomp
