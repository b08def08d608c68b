import Verif.Lower.TableWf
import Verif.Lower.Reach
import Verif.Props.Parser

/-! # C81: what generated parsers guarantee whatever has been shared

`C36_counterexample` shows that sharing fix points by their bodies can make the parser of a grammar accept other
strings than the grammar describes.  The theorems here say what holds of the emitted types even then: everything
claimed in C31–C35, with "the values of the emitted type" in place of "the syntax trees of the grammar".  They need no
hypothesis on the sharing, and they hold for every type of the emitted program, not only for the root. -/

namespace Chomp

/-- A successful match with the input left over. -/
theorem Parses.ok_iff {s : BState} {id : Nat} {text : List Char} {t : Tree} :
    Parses s id text (.ok t) ↔ ∃ w', Takes s id (IW.new text) (.ok t w') ∧ w'.rem = [] := by
  rw [Parses.takes]
  constructor
  · rintro ⟨q, h1, h2⟩
    cases q with
    | ok t' w' =>
      simp only [parseWith] at h2
      rcases hpk : w'.peek with ⟨_ | c, w''⟩
      · rw [hpk] at h2
        cases h2
        refine ⟨w', h1, ?_⟩
        rw [IW.peek_eq] at hpk
        cases hr : w'.rem with
        | nil => rfl
        | cons c r => rw [hr] at hpk; cases hpk
      · rw [hpk] at h2; cases h2
    | err e w' => cases h2
    | panic => cases h2
    | oof => cases h2
  · rintro ⟨w', h1, h2⟩
    refine ⟨_, h1, ?_⟩
    have := IW.peek_ok h2
    simp only [parseWith]
    rcases hp : w'.peek with ⟨_ | _, _⟩
    · rfl
    · rw [hp] at this; cases this

/-- The types `gen` leaves in the table. -/
theorem Compiled.sys {e : NE} {te : TE} {s : BState} {id : Nat} (h : Compiled e te s id) :
    ∃ τ, TySys s.step (· < s.data.length) (tyFun τ) ∧ (∃ rk, Ranked s.step (· < s.data.length) (s.data.length - 1) s.maxParts s.maxLit rk) ∧
      tyFun τ id = te.ty ∧ id < s.data.length := by
  obtain ⟨cas, hc⟩ := h.code
  obtain ⟨τ, h1, h2, h3⟩ := gen_final h.ann hc
  refine ⟨τ, h1.sys h2, h1.ranked h2, tyFun_eq h3, ?_⟩
  have := (gen_reach cas te _ _ _ hc .empty (by simp)).1
  exact this

theorem Compiled.root_lt {e : NE} {te : TE} {s : BState} {id : Nat} (h : Compiled e te s id) : id < s.data.length := by
  obtain ⟨_, _, _, _, h⟩ := h.sys
  exact h

/-! ## Literals of the table -/

mutual
theorem gen_lits {cas : Casing} {P : List Char → Prop} : ∀ (te : TE) (s s' : BState) (id : Nat), gen cas te s = .ok (id, s') →
    (∀ l ∈ te.lits, P l) → (∀ e ∈ s.data, ∀ l, e.node = .lit l → P l) → ∀ e ∈ s'.data, ∀ l, e.node = .lit l → P l
  | .eps _, s, s', id, h, hP, hs => by
    simp only [gen, genEps] at h
    split at h <;> cases h
    · exact hs
    · intro e he l hl
      rcases List.mem_append.1 he with he | he
      · exact hs e he l hl
      · cases List.mem_singleton.1 he; cases hl
  | .lit nm str, s, s', id, h, hP, hs => by
    simp only [gen, genLit] at h
    split at h
    · cases h; exact hs
    · obtain ⟨⟨name, s1⟩, h1, h2⟩ := except_map_ok h
      obtain ⟨m, rfl⟩ := newTypeName_state h1
      cases h2
      intro e he l hl
      rcases List.mem_append.1 he with he | he
      · exact hs e he l hl
      · cases List.mem_singleton.1 he
        cases hl
        exact hP str (by simp [TE.lits])
  | .cat nm ty l, s, s', id, h, hP, hs => by
    simp only [gen] at h
    obtain ⟨⟨ids, s1⟩, h1, h2⟩ := except_bind_ok h
    have h3 := genL_lits l s s1 ids h1 (by simpa [TE.lits] using hP) hs
    simp only [genCat] at h2
    split at h2
    · cases h2; exact h3
    · obtain ⟨⟨name, s2⟩, h4, h5⟩ := except_bind_ok h2
      obtain ⟨m, rfl⟩ := newTypeName_state h4
      obtain ⟨_, _, h6⟩ := except_bind_ok h5
      obtain ⟨_, _, h7⟩ := except_map_ok h6
      cases h7
      intro e he l hl
      rcases List.mem_append.1 he with he | he
      · exact h3 e he l hl
      · cases List.mem_singleton.1 he; cases hl
  | .alt nm ty l, s, s', id, h, hP, hs => by
    simp only [gen] at h
    obtain ⟨⟨ids, s1⟩, h1, h2⟩ := except_bind_ok h
    have h3 := genL_lits l s s1 ids h1 (by simpa [TE.lits] using hP) hs
    simp only [genAlt] at h2
    split at h2
    · cases h2; exact h3
    · obtain ⟨⟨name, s2⟩, h4, h5⟩ := except_bind_ok h2
      obtain ⟨m, rfl⟩ := newTypeName_state h4
      obtain ⟨_, _, h6⟩ := except_bind_ok h5
      obtain ⟨_, _, h7⟩ := except_map_ok h6
      cases h7
      intro e he l hl
      rcases List.mem_append.1 he with he | he
      · exact h3 e he l hl
      · cases List.mem_singleton.1 he; cases hl
  | .fix nm b, s, s', id, h, hP, hs => by
    simp only [gen] at h
    split at h
    · cases h; exact hs
    · obtain ⟨⟨name, s1⟩, h1, h2⟩ := except_bind_ok h
      obtain ⟨m, rfl⟩ := newTypeName_state h1
      obtain ⟨⟨inner, s2⟩, h3, h4⟩ := except_bind_ok h2
      have h5 := gen_lits b _ s2 inner h3 (by simpa [TE.lits] using hP) (by
        intro e he l hl
        rcases List.mem_append.1 he with he | he
        · exact hs e he l hl
        · cases List.mem_singleton.1 he; cases hl)
      dsimp only at h4
      split at h4
      · cases h4
      · cases h4
        intro e he l hl
        rcases List.mem_or_eq_of_mem_set he with he | rfl
        · exact h5 e he l hl
        · cases hl
  | .var nm i ty, s, s', id, h, hP, hs => by
    simp only [gen, genVar] at h
    split at h
    · split at h
      · cases h
      · split at h
        · cases h; exact hs
        · split at h
          · cases h
          · cases h
            intro e he l hl
            rcases List.mem_append.1 he with he | he
            · exact hs e he l hl
            · cases List.mem_singleton.1 he; cases hl
    · cases h
theorem genL_lits {cas : Casing} {P : List Char → Prop} : ∀ (l : List TE) (s s' : BState) (ids : List Nat), genL cas l s = .ok (ids, s') →
    (∀ x ∈ TE.litsL l, P x) → (∀ e ∈ s.data, ∀ l, e.node = .lit l → P l) → ∀ e ∈ s'.data, ∀ l, e.node = .lit l → P l
  | [], s, s', ids, h, hP, hs => by simp only [genL] at h; cases h; exact hs
  | x :: l, s, s', ids, h, hP, hs => by
    simp only [genL] at h
    obtain ⟨⟨id, s1⟩, h1, h2⟩ := except_bind_ok h
    obtain ⟨⟨ids', s2⟩, h3, h4⟩ := except_map_ok h2
    cases h4
    simp only [TE.litsL, List.mem_append] at hP
    exact genL_lits l s1 _ ids' h3 (fun x hx => hP x (.inr hx)) (gen_lits x s s1 id h1 (fun y hy => hP y (.inl hy)) hs)
end

theorem Compiled.lits {e : NE} {te : TE} {s : BState} {id : Nat} (h : Compiled e te s id) {j : Nat} {l : List Char}
    (hl : s.step j = .lit l) : l ∈ te.lits := by
  obtain ⟨cas, hc⟩ := h.code
  simp only [BState.step] at hl
  split at hl
  · rename_i en he
    exact gen_lits (P := (· ∈ te.lits)) te _ _ _ hc (fun _ h => h) (by simp) en (List.mem_of_getElem? he) l hl
  · cases hl

/-! ## C81 -/

/-- **C81** (termination). Whatever has been shared: every type of the emitted program parses every input, in every state
of the input, in at most `types · (characters + 1)` nested calls, and in a number of steps that is linear in the number of
remaining characters. -/
theorem C81_terminates {e : NE} {te : TE} {s : BState} {id : Nat} (h : Compiled e te s id) (j : Nat) (hj : j < s.data.length) (w : IW) :
    (∃ r, Takes s j w r ∧ ∀ n, s.data.length * (w.rem.length + 1) ≤ n → s.take n j w = r) ∧
      ∀ n, runCost s.step n j w ≤
        (s.data.length + s.maxLit + 1) * (1 + s.maxParts * (s.data.length + s.maxLit + 1)) * (w.rem.length + 1) := by
  obtain ⟨τ, hs, ⟨rk, hr⟩, _, _⟩ := h.sys
  have hp : s.data.length - 1 + 1 = s.data.length := by omega
  constructor
  · have h1 : run s.step (s.data.length * (w.rem.length + 1)) j w ≠ .oof := by
      refine hs.depth hr _ j w hj ?_
      rw [hp, Nat.mul_add, Nat.mul_one, Nat.mul_comm s.data.length]
      have := hr.le j hj
      omega
    exact ⟨_, ⟨h1, _, rfl⟩, fun n hn => run_fuel hn h1⟩
  · intro n
    have := hs.cost hr n j w hj
    rw [show s.data.length - 1 + s.maxLit + 2 = s.data.length + s.maxLit + 1 by omega] at this
    exact this

/-- **C81** (no panic). If in every literal of the grammar only the last character takes more than one byte, no type of the
emitted program panics. -/
theorem C81_no_panic {e : NE} {te : TE} {s : BState} {id : Nat} (h : Compiled e te s id) (hl : ∀ l ∈ te.lits, AsciiButLast l)
    (j : Nat) (hj : j < s.data.length) (w : IW) : ¬ Takes s j w .panic := by
  rintro ⟨_, n, hn⟩
  obtain ⟨τ, hs, _, _, _⟩ := h.sys
  exact hs.no_panic (fun a l _ ha => hl l (h.lits ha)) n j w hj hn

theorem Compiled.complete {e : NE} {te : TE} {s : BState} {id : Nat} (h : Compiled e te s id) {j : Nat} (hj : j < s.data.length) {t : Tree}
    (ht : Value s.step j t) {n : Nat} (hn : s.take n j (IW.new t.text) ≠ .oof) : ∃ w', s.take n j (IW.new t.text) = .ok t w' ∧ w'.rem = [] := by
  obtain ⟨τ, hs, _, _, _⟩ := h.sys
  obtain ⟨m, hm⟩ := hs.complete ht hj
  obtain ⟨w', h1, h2⟩ := hm (IW.new t.text) [] (by simp) (by intro c r' h; cases h)
  refine ⟨w', ?_, h2⟩
  have h3 : Takes s j (IW.new t.text) (.ok t w') := ⟨by simp, m, h1⟩
  exact Takes.unique ⟨hn, n, rfl⟩ h3

/-- **C81.** Whatever has been shared: `parse_str` of a type of the emitted program returns `t` exactly if `t` is a value of
the type and the input is its display. -/
theorem C81_parse_iff {e : NE} {te : TE} {s : BState} {id : Nat} (h : Compiled e te s id) (j : Nat) (hj : j < s.data.length)
    (text : List Char) (t : Tree) : Parses s j text (.ok t) ↔ Value s.step j t ∧ t.display = text := by
  constructor
  · intro hp
    obtain ⟨w', h1, _⟩ := Parses.ok_iff.1 hp
    exact ⟨C31_parse_value s j _ _ _ h1, C31_parse_display s j text t hp⟩
  · rintro ⟨ht, rfl⟩
    rw [t.display_eq]
    obtain ⟨⟨r, ⟨h1, n, h2⟩, _⟩, _⟩ := C81_terminates h j hj (IW.new t.text)
    obtain ⟨w', h3, h4⟩ := h.complete hj ht (n := n) (by rw [h2]; exact h1)
    exact Parses.ok_iff.2 ⟨w', ⟨by simp, n, h3⟩, h4⟩

/-- **C81** (unambiguous). Different values of a type of the emitted program have different displays. -/
theorem C81_display_injective {e : NE} {te : TE} {s : BState} {id : Nat} (h : Compiled e te s id) (j : Nat) (hj : j < s.data.length)
    (t t' : Tree) (ht : Value s.step j t) (ht' : Value s.step j t') (heq : t.display = t'.display) : t = t' := by
  have h1 := (C81_parse_iff h j hj _ t).2 ⟨ht, rfl⟩
  have h2 := (C81_parse_iff h j hj _ t').2 ⟨ht', rfl⟩
  rw [heq] at h1
  cases h1.unique h2
  rfl

/-- **C81** (total). If in every literal only the last character takes more than one byte, `parse_str` of every type of the
emitted program returns, and if no value has the input as its display it returns an error. -/
theorem C81_parse_returns {e : NE} {te : TE} {s : BState} {id : Nat} (h : Compiled e te s id) (hl : ∀ l ∈ te.lits, AsciiButLast l)
    (j : Nat) (hj : j < s.data.length) (text : List Char) :
    (∃ t, Parses s j text (.ok t) ∧ Value s.step j t ∧ t.display = text) ∨
      ((∃ err, Parses s j text (.err err)) ∧ ¬ ∃ t, Value s.step j t ∧ t.display = text) := by
  by_cases hv : ∃ t, Value s.step j t ∧ t.display = text
  · obtain ⟨t, ht⟩ := hv
    exact .inl ⟨t, (C81_parse_iff h j hj text t).2 ht, ht⟩
  · refine .inr ⟨?_, hv⟩
    obtain ⟨⟨r, h1, _⟩, _⟩ := C81_terminates h j hj (IW.new text)
    cases r with
    | ok t w' =>
      cases hw : w'.rem with
      | nil => exact absurd ⟨t, (C81_parse_iff h j hj text t).1 (Parses.ok_iff.2 ⟨w', h1, hw⟩)⟩ hv
      | cons c r =>
        have : w'.peek.1 = some c := by rw [IW.peek_eq, hw]; rfl
        refine ⟨.inputContinues w'.peek.2.pos, Parses.takes.2 ⟨_, h1, ?_⟩⟩
        simp only [parseWith]
        rcases hp : w'.peek with ⟨_ | _, _⟩
        · rw [hp] at this; cases this
        · rfl
    | err e w' => exact ⟨.take e, Parses.takes.2 ⟨_, h1, rfl⟩⟩
    | panic => exact absurd h1 (C81_no_panic h hl j hj _)
    | oof => exact absurd rfl h1.1

/-- **C81** (take). Every type of the emitted program has a description — whether the empty string is the display of a value,
which characters displays can start with, and which characters can follow the display of a value within another one — that is
true of its values, that for the root is the inferred one, and by which `take` works: if the input is the display of a value
followed by a character the description excludes, or by nothing, then `take` returns the value and leaves the rest. -/
theorem C81_take {e : NE} {te : TE} {s : BState} {id : Nat} (h : Compiled e te s id) : ∃ ty : Nat → Ty, ty id = te.ty ∧
    ∀ j, j < s.data.length →
      (∀ t, Value s.step j t → (t.display = [] → (ty j).nullable = true) ∧ ∀ c r, t.display = c :: r → c ∈ (ty j).first) ∧
      ∀ t, Value s.step j t → ∀ (w : IW) (rest : List Char), w.rem = t.display ++ rest →
        (∀ c r, rest = c :: r → if t.display = [] then c ∉ (ty j).first else c ∉ (ty j).flast) →
        ∃ w', Takes s j w (.ok t w') ∧ w'.rem = rest := by
  obtain ⟨τ, hs, _, hid, _⟩ := h.sys
  refine ⟨tyFun τ, hid, fun j hj => ⟨fun t ht => ?_, fun t ht w rest hw hf => ?_⟩⟩
  · have := hs.desc ht hj
    rw [t.display_eq]
    exact this
  · rw [t.display_eq] at hw hf
    obtain ⟨n, hn⟩ := hs.complete ht hj
    obtain ⟨w', h1, h2⟩ := hn w rest hw (by
      intro c r' hr
      have := hf c r' hr
      constructor
      · intro hne; rwa [if_neg hne] at this
      · intro he; rwa [if_pos he] at this)
    exact ⟨w', ⟨by simp, n, h1⟩, h2⟩

/-- No value of the type starts with the text before the place where a run stopped, followed by the next character. -/
theorem Compiled.no_ext {e : NE} {te : TE} {s : BState} {id : Nat} (h : Compiled e te s id) {j : Nat} (hj : j < s.data.length)
    {w w' : IW} {p : List Char} {c : Char} {r : List Char} {q : Res Tree} (hq : Takes s j w q)
    (hqw : (∃ e, q = .err e w') ∨ ∃ t, q = .ok t w') (hw : w.rem = p ++ c :: r) (hc : w'.rem = c :: r)
    (v : Tree) (hv : Value s.step j v) : ¬ (p ++ [c]) <+: v.display := by
  rintro ⟨r2, hr2⟩
  rw [v.display_eq] at hr2
  obtain ⟨τ, hs, _, _, _⟩ := h.sys
  obtain ⟨m, hm⟩ := hs.complete hv hj
  obtain ⟨h0, n, hn⟩ := hq
  -- the input in which the value follows, in the same position
  obtain ⟨w2, hw2, hp2⟩ : ∃ w2 : IW, w2.rem = v.text ∧ w2.pos = w.pos := ⟨⟨w.pos, none, v.text⟩, rfl, rfl⟩
  have hag : Agree c r r2 w w2 := ⟨p, hw, by rw [hw2, ← hr2]; simp, hp2.symm⟩
  have hends : (run s.step n j w).Ends r.length := by
    have hn' : run s.step n j w = q := hn
    rw [hn']
    rcases hqw with ⟨e, rfl⟩ | ⟨t', rfl⟩ <;> simp [Res.Ends, hc]
  have hl := run_local (f := s.step) n j _ _ hag hends
  have hne : s.take n j w2 ≠ .oof := by
    intro ho
    simp only [BState.take] at ho hn
    rw [ho, hn] at hl
    rcases hqw with ⟨e, rfl⟩ | ⟨t', rfl⟩ <;> cases hl
  obtain ⟨w'', h3, h4⟩ := hm w2 [] (by simp [hw2]) (by intro c r' h; cases h)
  have h5 : s.take n j w2 = .ok v w'' := Takes.unique (s := s) ⟨hne, n, rfl⟩ ⟨by simp, m, h3⟩
  simp only [BState.take] at h5 hn
  rw [h5, hn] at hl
  rcases hqw with ⟨e, rfl⟩ | ⟨t', rfl⟩
  · cases hl
  · cases hl with
    | ok _ _ _ ha =>
      obtain ⟨x, _, h6, _⟩ := ha
      rw [h4] at h6
      simp at h6

/-- **C81** (longest match). If `take` of a type of the emitted program succeeds, no value of the type starts with the
display of the result followed by the next character of the input. -/
theorem C81_take_longest {e : NE} {te : TE} {s : BState} {id : Nat} (h : Compiled e te s id) (j : Nat) (hj : j < s.data.length)
    (w w' : IW) (t : Tree) (ht : Takes s j w (.ok t w')) : Value s.step j t ∧ w.rem = t.display ++ w'.rem ∧
      ∀ c r, w'.rem = c :: r → ∀ v, Value s.step j v → ¬ (t.display ++ [c]) <+: v.display := by
  have h1 := C31_take_display s j w w' t ht
  refine ⟨C31_parse_value s j _ _ _ ht, h1, fun c r hc v hv => ?_⟩
  exact h.no_ext hj ht (.inr ⟨t, rfl⟩) (by rw [h1, hc]) hc v hv

/-- **C81** (errors). If `parse_str` of a type of the emitted program reports an error of `take`, the position is that after a
prefix `p` of the input; if a character follows, it is the one the error reports, and no value starts with `p` followed by it;
otherwise the error reports the end of the input, and the input is the display of no value. -/
theorem C81_error_position {e : NE} {te : TE} {s : BState} {id : Nat} (h : Compiled e te s id) (j : Nat) (hj : j < s.data.length)
    (text : List Char) (err : TakeError) (hp : Parses s j text (.err (.take err))) :
    ∃ p rest, text = p ++ rest ∧ err.position = ⟨specLine text p.length, specCol text p.length⟩ ∧ err.offending = rest.head? ∧
      (∀ c r, rest = c :: r → ∀ v, Value s.step j v → ¬ (p ++ [c]) <+: v.display) ∧
      (rest = [] → err = .endOfStream err.position ∧ ∀ v, Value s.step j v → v.display ≠ text) := by
  obtain ⟨q, h1, h2⟩ := Parses.takes.1 hp
  cases q with
  | ok t w' =>
    simp only [parseWith] at h2
    rcases hpk : w'.peek with ⟨_ | c, w''⟩ <;> rw [hpk] at h2 <;> cases h2
  | panic => cases h2
  | oof => cases h2
  | err e' w' =>
    cases h2
    have h1' := h1
    obtain ⟨_, n, hn⟩ := h1'
    obtain ⟨⟨p, h3⟩, h4⟩ := run_err n j _ _ _ hn
    obtain ⟨h5, h6⟩ := h4.spec
    have htext : text = p ++ w'.rem := by simpa using h3.1
    refine ⟨p, w'.rem, htext, by rw [h5]; exact h3.pos_spec, h6, ?_, ?_⟩
    · intro c r hr v hv
      exact h.no_ext hj h1 (.inl ⟨_, rfl⟩) (by simpa [hr] using htext) hr v hv
    · intro hr
      refine ⟨?_, ?_⟩
      · rcases h4 with ⟨_, rfl⟩ | ⟨c, r, h7, _⟩
        · rfl
        · rw [hr] at h7; cases h7
      · intro v hv hd
        cases ((C81_parse_iff h j hj text v).2 ⟨hv, hd⟩).unique hp

/-- **C81** (input continues). If `parse_str` of a type of the emitted program reports that the input continues, the position is
that after the display of a value, and no value starts with that and the next character. -/
theorem C81_input_continues {e : NE} {te : TE} {s : BState} {id : Nat} (h : Compiled e te s id) (j : Nat) (hj : j < s.data.length)
    (text : List Char) (pos : LineCol) (hp : Parses s j text (.err (.inputContinues pos))) :
    ∃ t c r, Value s.step j t ∧ text = t.display ++ c :: r ∧
      pos = ⟨specLine text t.display.length, specCol text t.display.length⟩ ∧
      ∀ v, Value s.step j v → ¬ (t.display ++ [c]) <+: v.display := by
  obtain ⟨q, h1, h2⟩ := Parses.takes.1 hp
  cases q with
  | err e w' => cases h2
  | panic => cases h2
  | oof => cases h2
  | ok t w' =>
    simp only [parseWith] at h2
    rcases hpk : w'.peek with ⟨_ | c, w''⟩
    · rw [hpk] at h2; cases h2
    · rw [hpk] at h2
      simp only [ParseRes.err.injEq, ParseError.inputContinues.injEq] at h2
      obtain ⟨h3, h4, h5⟩ := C81_take_longest h j hj _ _ _ h1
      have hr : w'.rem.head? = some c ∧ w''.pos = w'.pos := by
        have h6 := hpk
        rw [IW.peek_eq] at h6
        have h7 := congrArg (fun x => x.2.pos) hpk
        simp only [IW.peek_pos] at h7
        exact ⟨congrArg Prod.fst h6, h7.symm⟩
      obtain ⟨r, hr'⟩ : ∃ r, w'.rem = c :: r := by
        cases hw : w'.rem with
        | nil => rw [hw] at hr; cases hr.1
        | cons c' r => rw [hw] at hr; cases hr.1; exact ⟨r, rfl⟩
      obtain ⟨_, n, hn⟩ := h1
      have hreach := run_text n j _ _ _ hn
      refine ⟨t, c, r, h3, by simpa [hr'] using h4, ?_, h5 c r hr'⟩
      rw [← h2, hr.2, t.display_eq]; exact hreach.pos_spec

/-! ## C32 and C33 -/

/-- **C33.** The generated parser of an accepted grammar ends on every input and in every state of the input. The recursion
depth is at most the number of emitted types times the number of remaining characters plus one, and the number of steps (calls
of `take` and characters compared) at most a constant of the emitted program times the number of remaining characters plus one.
(The recursion of the model is cut off at a depth: the theorem says that cutting it off there changes nothing.) -/
theorem C33_parser_terminates {e : NE} {te : TE} {s : BState} {id : Nat} (h : Compiled e te s id) (w : IW) :
    (∃ r, Takes s id w r ∧ ∀ n, s.data.length * (w.rem.length + 1) ≤ n → s.take n id w = r) ∧
      ∀ n, runCost s.step n id w ≤
        (s.data.length + s.maxLit + 1) * (1 + s.maxParts * (s.data.length + s.maxLit + 1)) * (w.rem.length + 1) :=
  C81_terminates h id h.root_lt w

/-- **C33** (no panic). If in every literal only the last character takes more than one byte, the generated parser never
panics. -/
theorem C33_no_panic {e : NE} {te : TE} {s : BState} {id : Nat} (h : Compiled e te s id) (hl : ∀ l ∈ te.lits, AsciiButLast l)
    (w : IW) : ¬ Takes s id w .panic :=
  C81_no_panic h hl id h.root_lt w

/-- **C33** (parse). Consequently `parse_str` always returns a tree or an error. -/
theorem C33_parse_returns {e : NE} {te : TE} {s : BState} {id : Nat} (h : Compiled e te s id) (hl : ∀ l ∈ te.lits, AsciiButLast l)
    (text : List Char) : (∃ t, Parses s id text (.ok t)) ∨ ∃ err, Parses s id text (.err err) := by
  rcases C81_parse_returns h hl id h.root_lt text with ⟨t, h1, _⟩ | ⟨h1, _⟩
  · exact .inl ⟨t, h1⟩
  · exact .inr h1

/-- **C32.** Every value of the generated type is the result of parsing its own display. -/
theorem C32_parse_of_display {e : NE} {te : TE} {s : BState} {id : Nat} (h : Compiled e te s id) (t : Tree)
    (ht : Value s.step id t) : Parses s id t.display (.ok t) :=
  (C81_parse_iff h id h.root_lt _ t).2 ⟨ht, rfl⟩

/-- **C32** (display is injective). Different values have different texts. -/
theorem C32_display_injective {e : NE} {te : TE} {s : BState} {id : Nat} (h : Compiled e te s id) (t t' : Tree)
    (ht : Value s.step id t) (ht' : Value s.step id t') (heq : t.display = t'.display) : t = t' :=
  C81_display_injective h id h.root_lt t t' ht ht' heq

/-! ## The grammar that is miscompiled -/

private def hi : Info := ⟨none, 0⟩
private def hl (l : List Char) : NE := .lit hi l
private def hmu (b : NE) : NE := .fix hi (.lam hi [.newVariable (.spanless "x")] b)
private def hcat (a : NE) (l : List NE) : NE := .cat hi a (l.map fun b => (0, b))
private def halt (a : NE) (l : List NE) : NE := .alt hi a (l.map fun b => (0, b))

/-- `!(/i/ "y" . i | "z" | a)` where `a` is the variable bound outside. -/
private def hInner : NE := hmu (halt (hcat (hl ['y']) [.var hi 0]) [hl ['z'], .var hi 1])

/-- `!(/a/ "x" . !(/i/ "y" . i | "z" | a) . "1") . !(/b/ "x" . !(/i/ "y" . i | "z" | b) . "2")` -/
private def hConflict : NE := hcat (hmu (hcat (hl ['x']) [hInner, hl ['1']])) [hmu (hcat (hl ['x']) [hInner, hl ['2']])]

/-- Non-vacuity: the grammar of `C36_counterexample`, to which none of C30–C35 applies. The
root parses a string that is not in the language of the grammar, rejects one that is, with the position of the error, and its
literals are as `C81_no_panic` asks. -/
theorem C81_applies_to_conflicts : ∃ e te s id, Compiled e te s id ∧ ¬ NoSharingConflict te ∧ (∀ l ∈ te.lits, AsciiButLast l) ∧
    (∃ t, Value s.step id t ∧ t.display = "xz1xxz12".toList) ∧ ¬ te.gram.language "xz1xxz12".toList ∧
    (¬ ∃ t, Value s.step id t ∧ t.display = "xz1xxz22".toList) ∧ te.gram.language "xz1xxz22".toList ∧
    Parses s id "xz1xxz22".toList (.err (.take (.badString ⟨1, 6⟩ ['2'] ['1']))) := by
  have hc : ∃ te s id, Compiled hConflict te s id ∧ (∀ l ∈ te.lits, AsciiButLast l) ∧ (∃ t, Parses s id "xz1xxz12".toList (.ok t)) ∧
      ¬ te.gram.language "xz1xxz12".toList ∧ te.gram.language "xz1xxz22".toList ∧
      Parses s id "xz1xxz22".toList (.err (.take (.badString ⟨1, 6⟩ ['2'] ['1']))) := by
    refine ⟨_, _, _, ⟨⟨8, rfl⟩, ⟨some, some⟩, rfl⟩, ?_, ⟨_, by simp, 40, rfl⟩, ?_, takeR_language (n := 40) rfl rfl, by simp, 40, rfl⟩
    · have hs : ∀ c : Char, AsciiButLast [c] := fun c d hd => by cases hd
      intro l hl
      have h1 : l = ['x'] ∨ l = ['y'] ∨ l = ['z'] ∨ l = ['1'] ∨ l = ['2'] := by
        simp [TE.lits, TE.litsL] at hl
        rcases hl with h | h | h | h | h | h | h | h <;> simp [h]
      rcases h1 with rfl | rfl | rfl | rfl | rfl <;> exact hs _
    · exact takeR_not_language (n := 40) (C23_annotations 8 hConflict _ rfl) rfl
  obtain ⟨te, s, id, h1, h2, ⟨t, h3⟩, h4, h5, h6⟩ := hc
  obtain ⟨_, _, _, _, hid⟩ := h1.sys
  refine ⟨_, te, s, id, h1, ?_, h2, ⟨t, (C81_parse_iff h1 id hid _ t).1 h3⟩, h4, ?_, h5, h6⟩
  · intro hns
    exact Parses.not_ok h6 ((h1.accepts hns _).2 h5)
  · rintro ⟨t', h7⟩
    exact Parses.not_ok h6 ⟨t', (C81_parse_iff h1 id hid _ t').2 h7⟩

end Chomp
