import Verif.Props.Munch
import Verif.Props.Chewed

/-!
# C93: several values on one input

`take` of a generated type may be called again and again on the same input, and it may be used as the item parser of
`chewed::Parser::iter_strict`.
-/

namespace Chomp

/-! ## Specification -/

/-- Calling `take` of the generated type `id` once for every tree of the list returns these trees; `w'` is the input after the last call. -/
inductive TakesEach (s : BState) (id : Nat) : IW → List Tree → IW → Prop where
  | nil (w : IW) : TakesEach s id w [] w
  | cons (w w1 w' : IW) (t : Tree) (ts : List Tree) : Takes s id w (.ok t w1) → TakesEach s id w1 ts w' → TakesEach s id w (t :: ts) w'

/-- The texts are in the language, and none of them, continued by the first character behind it, is the beginning of a longer one. -/
def Munches (L : List Char → Prop) (rest : List Char) : List (List Char) → Prop
  | [] => True
  | u :: us => L u ∧ (∀ c r v, us.flatten ++ rest = c :: r → ¬ L (u ++ c :: v)) ∧ Munches L rest us

/-! ## One value -/

theorem Compiled.take_iff {e : NE} {te : TE} {s : BState} {id : Nat} (h : Compiled e te s id) (hns : NoSharingConflict te)
    (hne : te.gram.NoEmptyParts) (w : IW) (t : Tree) (rest : List Char) :
    (∃ w', Takes s id w (.ok t w') ∧ w'.rem = rest) ↔
      w.rem = t.text ++ rest ∧ Der [] te.gram t ∧ ∀ c r v, rest = c :: r → ¬ te.gram.language (t.text ++ c :: v) := by
  constructor
  · rintro ⟨w', h1, h2⟩
    obtain ⟨u, h3, h4, h5, h6, -⟩ := C34_take_sound h hns w w' t h1
    obtain ⟨-, -, h8⟩ := (C76_take_root h hns hne w t.display rest).1 ⟨t, w', h1, rfl, h2⟩
    rw [Tree.display_eq] at h8
    exact ⟨by rw [h3, h6, h2], h5, h8⟩
  · rintro ⟨h1, h2, h3⟩
    have hl : te.gram.language t.text := (language_iff_der _ _).2 ⟨t, h2, rfl⟩
    obtain ⟨t', w', h4, h5, h6⟩ := (C76_take_root h hns hne w t.text rest).2 ⟨h1, hl, h3⟩
    obtain ⟨u, h7, h8, h9, h10, -⟩ := C34_take_sound h hns w w' t' h4
    obtain ⟨n, hn⟩ := h.typed
    have ht : t' = t := C28_unambiguous n e te hn t' t h9 h2 (by rw [← h5, Tree.display_eq])
    exact ⟨w', ht ▸ h4, h6⟩

/-! ## Statements -/

/-- **C93** (repeated calls). Calling `take` again and again returns a list of trees and leaves `rest` exactly if the input is the texts of
the trees, one after the other, followed by `rest`, and `take` could not have gone on behind any of the texts: none of them, continued
by the character behind it, is the beginning of a longer text of the language. -/
theorem C93_repeated {e : NE} {te : TE} {s : BState} {id : Nat} (h : Compiled e te s id) (hns : NoSharingConflict te)
    (hne : te.gram.NoEmptyParts) (ts : List Tree) (rest : List Char) : ∀ w : IW, (∃ w', TakesEach s id w ts w' ∧ w'.rem = rest) ↔
      w.rem = (ts.map Tree.text).flatten ++ rest ∧ (∀ t ∈ ts, Der [] te.gram t) ∧
        Munches te.gram.language rest (ts.map Tree.text) := by
  induction ts with
  | nil =>
    intro w
    constructor
    · rintro ⟨w', h1, h2⟩
      cases h1
      exact ⟨h2, by simp, trivial⟩
    · rintro ⟨h1, -, -⟩
      exact ⟨w, .nil w, h1⟩
  | cons t ts ih =>
    intro w
    constructor
    · rintro ⟨w', h1, h2⟩
      cases h1 with
      | cons _ w1 _ _ _ h3 h4 =>
        obtain ⟨h5, h6, h7⟩ := (ih w1).1 ⟨w', h4, h2⟩
        obtain ⟨h8, h9, h10⟩ := (h.take_iff hns hne w t w1.rem).1 ⟨w1, h3, rfl⟩
        refine ⟨by rw [h8, h5]; simp, ?_, (language_iff_der _ _).2 ⟨t, h9, rfl⟩, ?_, h7⟩
        · intro x hx
          rcases List.mem_cons.1 hx with rfl | hx
          · exact h9
          · exact h6 x hx
        · rw [h5] at h10; exact h10
    · rintro ⟨h1, h2, h3, h4, h5⟩
      obtain ⟨w1, h6, h7⟩ := (h.take_iff hns hne w t ((ts.map Tree.text).flatten ++ rest)).2
        ⟨by rw [h1]; simp, h2 t (by simp), h4⟩
      obtain ⟨w', h8, h9⟩ := (ih w1).2 ⟨h7, fun x hx => h2 x (List.mem_cons_of_mem _ hx), h5⟩
      exact ⟨w', .cons _ _ _ _ _ h6 h8, h9⟩

/-- The condition on the texts holds for all lists of words if no word goes on with the beginning of another one. -/
theorem munches_of_words {L : List Char → Prop} (hε : ¬ L []) (hL : ∀ u c r v, L u → L (c :: r) → ¬ L (u ++ c :: v)) :
    ∀ us : List (List Char), (∀ u ∈ us, L u) → Munches L [] us
  | [], _ => trivial
  | u :: us, h => by
    refine ⟨h u (by simp), ?_, munches_of_words hε hL us fun x hx => h x (List.mem_cons_of_mem _ hx)⟩
    intro c r v hr hv
    cases us with
    | nil => cases hr
    | cons x xs =>
      have hx := h x (by simp)
      cases x with
      | nil => exact hε hx
      | cons d x =>
        simp only [List.flatten_cons, List.append_nil, List.cons_append, List.cons.injEq] at hr
        obtain ⟨rfl, -⟩ := hr
        exact hL u d x v (h u (by simp)) hx hv

/-- **C93** (all of the input). If the empty text is not in the language and no text of the language can be continued by the first
character of another one, then calling `take` until the end of the input returns a list of trees exactly if the input is the texts of
these trees, one after the other. -/
theorem C93_until_end {e : NE} {te : TE} {s : BState} {id : Nat} (h : Compiled e te s id) (hns : NoSharingConflict te)
    (hne : te.gram.NoEmptyParts) (hε : ¬ te.gram.language [])
    (hL : ∀ u c r v, te.gram.language u → te.gram.language (c :: r) → ¬ te.gram.language (u ++ c :: v)) (ts : List Tree) (w : IW) :
    (∃ w', TakesEach s id w ts w' ∧ w'.rem = []) ↔ w.rem = (ts.map Tree.text).flatten ∧ ∀ t ∈ ts, Der [] te.gram t := by
  rw [C93_repeated h hns hne ts [] w, List.append_nil]
  constructor
  · rintro ⟨h1, h2, -⟩
    exact ⟨h1, h2⟩
  · rintro ⟨h1, h2⟩
    refine ⟨h1, h2, munches_of_words hε hL _ ?_⟩
    intro u hu
    obtain ⟨t, ht, rfl⟩ := List.mem_map.1 hu
    exact (language_iff_der _ _).2 ⟨t, h2 t ht, rfl⟩

/-- The trees that repeated calls return are determined by the input and their number. -/
theorem TakesEach.unique {s : BState} {id : Nat} {w w1 w2 : IW} {ts us : List Tree} (h : TakesEach s id w ts w1)
    (h' : TakesEach s id w us w2) (hl : ts.length = us.length) : ts = us ∧ w1 = w2 := by
  induction h generalizing us with
  | nil w =>
    cases h' with
    | nil => exact ⟨rfl, rfl⟩
    | cons => cases hl
  | cons w wa wb t ts ht hts ih =>
    cases h' with
    | nil => cases hl
    | cons _ wc _ u us hu hus =>
      have := ht.unique hu
      cases this
      obtain ⟨rfl, rfl⟩ := ih hus (by simpa using hl)
      exact ⟨rfl, rfl⟩

theorem TakesEach.comparable {s : BState} {id : Nat} {w w1 w2 : IW} {ts us : List Tree} (h : TakesEach s id w ts w1)
    (h' : TakesEach s id w us w2) : (∃ x, us = ts ++ x ∧ TakesEach s id w1 x w2) ∨ ∃ x, ts = us ++ x ∧ TakesEach s id w2 x w1 := by
  induction h generalizing us with
  | nil w => exact .inl ⟨us, rfl, h'⟩
  | cons w wa wb t ts ht hts ih =>
    cases h' with
    | nil => exact .inr ⟨t :: ts, rfl, .cons _ _ _ _ _ ht hts⟩
    | cons _ wc _ u us hu hus =>
      have := ht.unique hu
      cases this
      rcases ih hus with ⟨x, rfl, h1⟩ | ⟨x, rfl, h1⟩
      · exact .inl ⟨x, rfl, h1⟩
      · exact .inr ⟨x, rfl, h1⟩

/-- **C93** (one way to split). Under the conditions of `C93_until_end` a text is in at most one way a sequence of words. -/
theorem C93_one_way {e : NE} {te : TE} {s : BState} {id : Nat} (h : Compiled e te s id) (hns : NoSharingConflict te)
    (hne : te.gram.NoEmptyParts) (hε : ¬ te.gram.language [])
    (hL : ∀ u c r v, te.gram.language u → te.gram.language (c :: r) → ¬ te.gram.language (u ++ c :: v)) (ts us : List Tree)
    (ht : ∀ t ∈ ts, Der [] te.gram t) (hu : ∀ t ∈ us, Der [] te.gram t) (heq : (ts.map Tree.text).flatten = (us.map Tree.text).flatten) :
    ts = us := by
  have hnil : ∀ (w w' : IW) (x : List Tree), w.rem = [] → TakesEach s id w x w' → x = [] := by
    intro w w' x hw hx
    cases hx with
    | nil => rfl
    | cons _ w1 _ t ts h1 h2 =>
      obtain ⟨u, h3, h4, -⟩ := C34_take_sound h hns w w1 t h1
      rw [hw] at h3
      have : u = [] := (List.append_eq_nil_iff.1 h3.symm).1
      exact absurd (this ▸ h4) hε
  obtain ⟨w1, h1, h2⟩ := (C93_until_end h hns hne hε hL ts (IW.new (ts.map Tree.text).flatten)).2 ⟨by simp, ht⟩
  obtain ⟨w2, h3, h4⟩ := (C93_until_end h hns hne hε hL us (IW.new (ts.map Tree.text).flatten)).2 ⟨by simp [heq], hu⟩
  rcases h1.comparable h3 with ⟨x, rfl, h5⟩ | ⟨x, rfl, h5⟩
  · rw [hnil _ _ _ h2 h5, List.append_nil]
  · rw [hnil _ _ _ h4 h5, List.append_nil]

/-- **C93** (lists). `iter_strict` with `take` of a generated type as its item parser, where `first` contains the first characters of
the language but not the stop character, and no text of the language can be continued by the separator or the stop character: it
returns a list of trees exactly if the input is their texts with one separator between any two, followed by the stop character, or if
the list is empty and the input is at its end or at the stop character. It leaves the stop character on the input. -/
theorem C93_list {e : NE} {te : TE} {s : BState} {id : Nat} (h : Compiled e te s id) (hns : NoSharingConflict te)
    (hne : te.gram.NoEmptyParts) (hε : ¬ te.gram.language []) (item : IW → Res Tree) (hi : ∀ w, Takes s id w (item w)) (cfg : IterCfg)
    (hfirst : ∀ c r, te.gram.language (c :: r) → c ∈ cfg.first) (hstop : cfg.stop ∉ cfg.first) (hss : cfg.sep ≠ cfg.stop)
    (hsep : ∀ u v, te.gram.language u → ¬ te.gram.language (u ++ cfg.sep :: v))
    (hend : ∀ u v, te.gram.language u → ¬ te.gram.language (u ++ cfg.stop :: v)) (w : IW) (ts : List Tree) (rest : List Char) :
    (∃ n w', collectIter cfg item n w = .ok ts w' ∧ w'.rem = rest) ↔
      (ts ≠ [] ∧ (∀ t ∈ ts, Der [] te.gram t) ∧ w.rem = List.intercalate [cfg.sep] (ts.map Tree.text) ++ rest ∧ rest.head? = some cfg.stop) ∨
      ts = [] ∧ w.rem = rest ∧ (rest = [] ∨ rest.head? = some cfg.stop) := by
  constructor
  · rintro ⟨n, w', h1, rfl⟩
    obtain ⟨us, h2, h3, h4, h5⟩ := C07_iter_strict_sound cfg item (fun u t => Der [] te.gram t ∧ t.text = u) (by
      intro w a w' hw
      have := hi w
      rw [hw] at this
      obtain ⟨u, h3, h4, h5, h6, -⟩ := C34_take_sound h hns w w' a this
      exact ⟨u, h3, h5, h6⟩) hstop n w w' ts h1
    have h6 : us = ts.map Tree.text ∧ ∀ t ∈ ts, Der [] te.gram t := by
      clear h1 h4 h5
      induction us generalizing ts with
      | nil =>
        cases ts with
        | nil => exact ⟨rfl, by simp⟩
        | cons t ts => cases h2
      | cons u us ih =>
        cases ts with
        | nil => cases h2
        | cons t ts =>
          obtain ⟨h7, h8⟩ := ih ts (by simpa using h2) (fun p hp => h3 p (by simp [hp]))
          have h9 := h3 (u, t) (by simp)
          refine ⟨by rw [h7, List.map_cons, h9.2], ?_⟩
          intro x hx
          rcases List.mem_cons.1 hx with rfl | hx
          · exact h9.1
          · exact h8 x hx
    obtain ⟨rfl, h7⟩ := h6
    cases ts with
    | nil =>
      right
      simp only [List.map_nil, List.intercalate_nil, List.nil_append] at h4
      refine ⟨rfl, h4, ?_⟩
      rcases h5 with h5 | ⟨-, h5⟩
      · exact .inr h5
      · exact .inl (by rw [← h4, h5])
    | cons t ts =>
      left
      refine ⟨by simp, h7, h4, ?_⟩
      rcases h5 with h5 | ⟨h5, -⟩
      · exact h5
      · cases h5
  · rintro (⟨h1, h2, h3, h4⟩ | ⟨rfl, h2, h3⟩)
    · cases rest with
      | nil => cases h4
      | cons d rest =>
        injection h4 with h4
        subst h4
        have hlang : ∀ t ∈ ts, te.gram.language t.text := fun t ht => (language_iff_der _ _).2 ⟨t, h2 t ht, rfl⟩
        obtain ⟨w', h5, h6⟩ := C07_iter_strict_complete cfg item hss (ts.map fun t => (t.text, t)) (by simpa using h1) (by
          intro p hp w r d hw hd
          obtain ⟨t, ht, rfl⟩ := List.mem_map.1 hp
          obtain ⟨w', h5, h6⟩ := (h.take_iff hns hne w t (d :: r)).2 ⟨hw, h2 t ht, by
            rintro c r' v hc hv
            cases hc
            rcases hd with rfl | rfl
            · exact hsep _ _ (hlang t ht) hv
            · exact hend _ _ (hlang t ht) hv⟩
          exact ⟨w', (hi w).unique h5, h6⟩) (by
          intro p hp
          obtain ⟨t, ht, rfl⟩ := List.mem_map.1 hp
          have hl := hlang t ht
          cases hx : t.text with
          | nil => exact absurd (hx ▸ hl) hε
          | cons c r =>
            have := hfirst c r (hx ▸ hl)
            exact ⟨c, r, rfl, this, fun hc => hstop (hc ▸ this)⟩) w rest (by
          rw [h3, List.map_map]
          congr 2)
        refine ⟨(ts.map fun t => (t.text, t)).length + 1, w', ?_, h6⟩
        rw [h5, List.map_map]
        congr 1
        exact List.map_id _
    · refine ⟨1, w.peek.2, ?_, by rw [IW.peek_rem, h2]⟩
      rw [collectIter, iterNext, IW.peek_eq, h2]
      rcases h3 with rfl | h3
      · rfl
      · rw [h3]
        simp

/-- What is behind an item: the item is returned, or an error. -/
theorem iterAfter_cases {α : Type} (cfg : IterCfg) (res : Except TakeError α) (w : IW) :
    (∃ w', iterAfter cfg res w = .item res w' ∧ w'.rem.length ≤ w.rem.length) ∨ ∃ err w', iterAfter cfg res w = .item (.error err) w' := by
  rw [iterAfter, IW.peek_eq]
  cases hr : w.rem.head? with
  | none => exact .inr ⟨_, _, rfl⟩
  | some c =>
    dsimp only
    by_cases hc : c = cfg.sep
    · rw [if_pos hc, IW.peek_eq]
      have hlen : w.peek.2.advance.2.peek.2.rem.length ≤ w.rem.length := by
        rw [IW.peek_rem, IW.advance_rem, IW.peek_rem]
        simp
      cases h2 : w.peek.2.advance.2.rem.head? with
      | none => exact .inr ⟨_, _, rfl⟩
      | some d =>
        dsimp only
        split
        · exact .inl ⟨_, rfl, hlen⟩
        · exact .inr ⟨_, _, rfl⟩
    · rw [if_neg hc]
      split
      · exact .inl ⟨_, rfl, by rw [IW.peek_rem]; exact Nat.le_refl _⟩
      · exact .inr ⟨_, _, rfl⟩

/-- **C93** (lists; errors). In all other cases an error is returned: `iter_strict` always ends, after at most as many items as there
are characters, and it does not panic. -/
theorem C93_list_ends {e : NE} {te : TE} {s : BState} {id : Nat} (h : Compiled e te s id) (hns : NoSharingConflict te)
    (hε : ¬ te.gram.language []) (hl : ∀ l ∈ te.lits, AsciiButLast l) (item : IW → Res Tree) (hi : ∀ w, Takes s id w (item w))
    (cfg : IterCfg) : ∀ (n : Nat) (w : IW), w.rem.length < n →
      (∃ ts w', collectIter cfg item n w = .ok ts w') ∨ ∃ err w', collectIter cfg item n w = .err err w'
  | 0, _, hn => absurd hn (Nat.not_lt_zero _)
  | n + 1, w, hn => by
    rw [collectIter, iterNext, IW.peek_eq]
    cases hr : w.rem.head? with
    | none => exact .inl ⟨[], _, rfl⟩
    | some c =>
      dsimp only
      by_cases hc : c = cfg.stop
      · rw [if_pos hc]; exact .inl ⟨[], _, rfl⟩
      · rw [if_neg hc]
        have h1 := hi w.peek.2
        cases hit : item w.peek.2 with
        | panic => rw [hit] at h1; exact absurd h1 (C33_no_panic h hl _)
        | oof => rw [hit] at h1; exact absurd rfl h1.1
        | err e1 w1 =>
          dsimp only
          right
          rcases iterAfter_cases cfg (.error e1 : Except TakeError Tree) w1 with ⟨w2, h2, -⟩ | ⟨e2, w2, h2⟩
          · rw [h2]; exact ⟨_, _, rfl⟩
          · rw [h2]; exact ⟨_, _, rfl⟩
        | ok t w1 =>
          dsimp only
          rw [hit] at h1
          obtain ⟨u, h3, h4, -⟩ := C34_take_sound h hns _ _ _ h1
          rw [IW.peek_rem] at h3
          have h5 : w1.rem.length < n := by
            cases u with
            | nil => exact absurd h4 hε
            | cons d u => rw [h3] at hn; simp at hn; omega
          rcases iterAfter_cases cfg (.ok t) w1 with ⟨w2, h2, h6⟩ | ⟨e2, w2, h2⟩
          · rw [h2]
            dsimp only
            rcases C93_list_ends h hns hε hl item hi cfg n w2 (Nat.lt_of_le_of_lt h6 h5) with ⟨ts, w3, h7⟩ | ⟨e3, w3, h7⟩
            · rw [h7]; exact .inl ⟨_, _, rfl⟩
            · rw [h7]; exact .inr ⟨_, _, rfl⟩
          · rw [h2]; exact .inr ⟨_, _, rfl⟩

/-- **C93** (lists; the item parser exists). `take` always returns, so that it is a function of the state of the input. -/
theorem C93_item {e : NE} {te : TE} {s : BState} {id : Nat} (h : Compiled e te s id) :
    ∃ item : IW → Res Tree, ∀ w, Takes s id w (item w) :=
  ⟨fun w => Classical.choose (C33_parser_terminates h w).1, fun w => (Classical.choose_spec (C33_parser_terminates h w).1).1⟩

/-! ## Instances -/

private def si : Info := ⟨none, 0⟩
private def sl (s : List Char) : NE := .lit si s

/-- `"a" . ("b" | "c")` -/
private def exStream : NE := .cat si (sl ['a']) [(0, .alt si (sl ['b']) [(0, sl ['c'])])]

private theorem exStream_language (w : List Char) {te : TE} (h : te.gram = .cat [.lit ['a'], .alt [.lit ['b'], .lit ['c']]]) :
    te.gram.language w ↔ w = ['a', 'b'] ∨ w = ['a', 'c'] := by
  rw [h]
  constructor
  · rintro ⟨x, y, rfl, h1, x2, y2, rfl, h2, h3⟩
    cases h1
    cases h3
    rcases h2 with h2 | h2 | h2
    · cases h2; exact .inl rfl
    · cases h2; exact .inr rfl
    · cases h2
  · rintro (rfl | rfl)
    · exact ⟨['a'], ['b'], rfl, rfl, ['b'], [], rfl, .inl rfl, rfl⟩
    · exact ⟨['a'], ['c'], rfl, rfl, ['c'], [], rfl, .inr (.inl rfl), rfl⟩

/-- The theorems apply: `abacab` is read by three calls of `take`, and `ab,ac]` by `iter_strict`, which leaves `]`. -/
example : ∃ te s id, Compiled exStream te s id ∧ NoSharingConflict te ∧ te.gram.NoEmptyParts ∧ ¬ te.gram.language [] ∧
    (∀ u c r v, te.gram.language u → te.gram.language (c :: r) → ¬ te.gram.language (u ++ c :: v)) ∧
    (∃ ts w', ts.length = 3 ∧ TakesEach s id (IW.new "abacab".toList) ts w' ∧ w'.rem = []) ∧
    ∃ item : IW → Res Tree, (∀ w, Takes s id w (item w)) ∧
      ∃ n w' ts, collectIter ⟨',', ']', [',', ']'], ['a']⟩ item n (IW.new "ab,ac]".toList) = .ok ts w' ∧ w'.rem = [']'] ∧ ts.length = 2 := by
  have hc : ∃ te s id, Compiled exStream te s id ∧ NoSharingConflict te ∧ te.gram.NoEmptyParts ∧
      te.gram = .cat [.lit ['a'], .alt [.lit ['b'], .lit ['c']]] := by
    refine ⟨_, _, _, ⟨⟨8, rfl⟩, ⟨some, some⟩, rfl⟩, TE.shareSafe_sound (by decide), ?_, rfl⟩
    simp [Gram.NoEmptyParts, TE.gram, TE.gramL, Gram.NoEmpty, Gram.NoEmptyL]
  obtain ⟨te, s, id, h, hns, hne, hg⟩ := hc
  have hL := fun w => exStream_language w hg
  have hε : ¬ te.gram.language [] := by rw [hL]; simp
  have hext : ∀ (u : List Char) (c : Char) (v : List Char), te.gram.language u → ¬ te.gram.language (u ++ c :: v) := by
    intro u c v hu hv
    rw [hL] at hu hv
    rcases hu with rfl | rfl <;> simp at hv
  have htree : ∀ u, te.gram.language u → ∃ t, Der [] te.gram t ∧ t.text = u := fun u hu => (language_iff_der _ _).1 hu
  obtain ⟨t1, d1, x1⟩ := htree ['a', 'b'] ((hL _).2 (.inl rfl))
  obtain ⟨t2, d2, x2⟩ := htree ['a', 'c'] ((hL _).2 (.inr rfl))
  refine ⟨te, s, id, h, hns, hne, hε, fun u c r v hu _ => hext u c v hu, ?_, ?_⟩
  · obtain ⟨w', h1, h2⟩ := (C93_until_end h hns hne hε (fun u c r v hu _ => hext u c v hu) [t1, t2, t1] (IW.new "abacab".toList)).2
      ⟨by simp [x1, x2], by simp [d1, d2]⟩
    exact ⟨_, w', rfl, h1, h2⟩
  · obtain ⟨item, hi⟩ := C93_item h
    refine ⟨item, hi, ?_⟩
    obtain ⟨n, w', h1, h2⟩ := (C93_list h hns hne hε item hi ⟨',', ']', [',', ']'], ['a']⟩ (by
      intro c r hr
      rw [hL] at hr
      rcases hr with hr | hr <;> (cases hr; simp)) (by decide) (by decide) (fun u v => hext u _ v) (fun u v => hext u _ v)
      (IW.new "ab,ac]".toList) [t1, t2] [']']).2 (.inl ⟨by simp, by simp [d1, d2], by simp [x1, x2], rfl⟩)
    exact ⟨n, w', _, h1, h2, rfl⟩

end Chomp
