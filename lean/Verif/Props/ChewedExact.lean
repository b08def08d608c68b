import Verif.Props.Chewed

/-!
# C04, exactly

When `consume_str` fails, what it reports is determined by the number of matched characters and the
lengths of the characters of the literal: it panics iff that number is not the byte length of a
beginning of the literal, and reports the right text iff all matched characters are single bytes.
-/

namespace Chomp

/-- The number of bytes of a text. -/
def byteLen : List Char → Nat
  | [] => 0
  | c :: l => c.utf8Size + byteLen l

theorem byteLen_ge (l : List Char) : l.length ≤ byteLen l := by
  induction l with
  | nil => simp [byteLen]
  | cons c l ih =>
    have := c.utf8Size_pos
    simp only [byteLen, List.length_cons]; omega

theorem byteLen_eq_length (l : List Char) : byteLen l = l.length ↔ ∀ c ∈ l, c.utf8Size = 1 := by
  induction l with
  | nil => simp [byteLen]
  | cons c l ih =>
    have h1 := c.utf8Size_pos
    have h2 := byteLen_ge l
    simp only [byteLen, List.length_cons, List.mem_cons, forall_eq_or_imp, ← ih]
    omega

/-- Slicing at a byte offset gives the beginning with that many bytes, if there is one. -/
theorem sliceTo_iff (s : List Char) (n : Nat) (p : List Char) : sliceTo s n = some p ↔ p <+: s ∧ byteLen p = n := by
  induction s generalizing n p with
  | nil =>
    cases n with
    | zero => simp only [sliceTo, Option.some.injEq, List.prefix_nil]
              exact ⟨fun h => by subst h; simp [byteLen], fun h => h.1.symm⟩
    | succ n =>
      simp only [sliceTo, List.prefix_nil, reduceCtorEq, false_iff]
      rintro ⟨rfl, h⟩
      simp [byteLen] at h
  | cons c cs ih =>
    have hc := c.utf8Size_pos
    cases n with
    | zero =>
      simp only [sliceTo, Option.some.injEq]
      constructor
      · rintro rfl; exact ⟨List.nil_prefix, rfl⟩
      · rintro ⟨_, h⟩
        have := byteLen_ge p
        have : p.length = 0 := by omega
        exact (List.eq_nil_of_length_eq_zero this).symm
    | succ n =>
      simp only [sliceTo]
      constructor
      · intro h
        split at h
        · rw [Option.map_eq_some_iff] at h
          obtain ⟨q, h1, rfl⟩ := h
          obtain ⟨h2, h3⟩ := (ih _ _).1 h1
          exact ⟨List.cons_prefix_cons.2 ⟨rfl, h2⟩, by simp only [byteLen]; omega⟩
        · cases h
      · rintro ⟨h1, h2⟩
        cases p with
        | nil => simp [byteLen] at h2
        | cons d q =>
          obtain ⟨rfl, h3⟩ := List.cons_prefix_cons.1 h1
          simp only [byteLen] at h2
          rw [if_pos (by omega), (ih (n + 1 - d.utf8Size) q).2 ⟨h3, by omega⟩]
          rfl

/-- **C04** (exactly). Let `consume_str(s)` fail, `k` being the length of the longest common beginning of `s`
and the text.  The `k` characters are consumed.  If the text ends there, end of stream is reported; otherwise
an error with the offending character after the beginning of `s` of `k` *bytes* is reported if there is one,
and if there is none the call panics. -/
theorem C04_consume_str_exact (s : List Char) (w : IW) (h : ¬ s <+: w.rem) :
    ∃ w' : IW, w'.rem = w.rem.drop (lcp s w.rem) ∧ w'.pos = advPosN w.pos (lcp s w.rem) w.rem ∧
      (w'.rem = [] → consumeStr s w = .err (.endOfStream w'.pos) w') ∧
      ∀ got r, w'.rem = got :: r →
        (∀ p, p <+: s → byteLen p = lcp s w.rem → consumeStr s w = .err (.badString w'.pos (p ++ [got]) s) w') ∧
        ((¬ ∃ p, p <+: s ∧ byteLen p = lcp s w.rem) → consumeStr s w = .panic) := by
  rcases consumeGo_spec s 0 s w with ⟨w', _, h2, _⟩ | ⟨m, w', h1, h2, h3, h4, h5, h6, h7, h8⟩
  · exact absurd h2 h
  · have hl := lcp_eq s w.rem m h2 h4 h3 h5
    rw [hl]
    refine ⟨w', h6, h7, fun he => ?_, fun got r hr => ?_⟩
    · rcases h8 with ⟨ha, hb⟩ | ⟨got, hg, _⟩
      · exact hb
      · have hm := lt_of_getElem?' hg
        rw [h6] at he
        have := List.drop_eq_nil_iff.1 he
        omega
    · rcases h8 with ⟨ha, hb⟩ | ⟨got', hg, h8⟩
      · rw [h6, ← ha] at hr; simp at hr
      · have hm := lt_of_getElem?' hg
        have hgg : got' = got := by
          rw [h6, List.drop_eq_getElem_cons hm] at hr
          rw [List.getElem?_eq_getElem hm] at hg
          simp only [List.cons.injEq] at hr
          exact (Option.some.inj hg).symm.trans hr.1
        subst hgg
        rcases h8 with ⟨pre, hp, h8⟩ | ⟨hp, h8⟩
        · rw [Nat.zero_add] at hp
          refine ⟨fun p hps hpl => ?_, fun hno => ?_⟩
          · have := (sliceTo_iff s m p).2 ⟨hps, hpl⟩
            rw [hp] at this
            cases this
            exact h8
          · exact absurd ⟨pre, (sliceTo_iff s m pre).1 hp⟩ hno
        · rw [Nat.zero_add] at hp
          refine ⟨fun p hps hpl => ?_, fun _ => h8⟩
          rw [(sliceTo_iff s m p).2 ⟨hps, hpl⟩] at hp
          cases hp
where
  lt_of_getElem?' {l : List Char} {i : Nat} {a : Char} (h : l[i]? = some a) : i < l.length := by
    rcases Nat.lt_or_ge i l.length with h' | h'
    · exact h'
    · rw [List.getElem?_eq_none h'] at h; cases h

/-- **C04** (when the report is right). If the text does not end at the mismatch, the report consists of the
matched characters and the offending one iff all matched characters are single bytes. -/
theorem C04_right_report_iff (s : List Char) (w : IW) (h : ¬ s <+: w.rem) (got : Char) (r : List Char)
    (hr : w.rem.drop (lcp s w.rem) = got :: r) :
    (∃ w', consumeStr s w = .err (.badString w'.pos (s.take (lcp s w.rem) ++ [got]) s) w') ↔
      ∀ c ∈ s.take (lcp s w.rem), c.utf8Size = 1 := by
  have hle : lcp s w.rem ≤ s.length := by
    rcases consumeGo_spec s 0 s w with ⟨w', _, h2, _⟩ | ⟨m, w', h1, h2, h3, h4, h5, h6, h7, h8⟩
    · exact absurd h2 h
    · rw [lcp_eq s w.rem m h2 h4 h3 h5]; omega
  have hlen : (s.take (lcp s w.rem)).length = lcp s w.rem := by simp; omega
  obtain ⟨w', h1, _, _, h4⟩ := C04_consume_str_exact s w h
  obtain ⟨h5, h6⟩ := h4 got r (by rw [h1, hr])
  rw [← byteLen_eq_length, hlen]
  constructor
  · rintro ⟨w'', hw⟩
    by_cases hp : ∃ p, p <+: s ∧ byteLen p = lcp s w.rem
    · obtain ⟨p, hp1, hp2⟩ := hp
      rw [h5 p hp1 hp2] at hw
      have : p = s.take (lcp s w.rem) := by
        simp only [Res.err.injEq, TakeError.badString.injEq] at hw
        exact List.append_cancel_right hw.1.2.1
      rw [← this, hp2]
    · rw [h6 hp] at hw; cases hw
  · intro hb
    exact ⟨w', h5 _ (List.take_prefix _ _) hb⟩

/-- **C04** (when it panics). -/
theorem C04_panics_iff (s : List Char) (w : IW) : consumeStr s w = .panic ↔
    ¬ s <+: w.rem ∧ lcp s w.rem < w.rem.length ∧ ¬ ∃ p, p <+: s ∧ byteLen p = lcp s w.rem := by
  constructor
  · intro hp
    have h : ¬ s <+: w.rem := by
      intro h
      obtain ⟨w', h'⟩ := (C03_consume_str_ok s w).1.2 h
      rw [hp] at h'; cases h'
    obtain ⟨w', h1, _, h3, h4⟩ := C04_consume_str_exact s w h
    cases hr : w'.rem with
    | nil => rw [h3 hr] at hp; cases hp
    | cons got r =>
      refine ⟨h, ?_, fun ⟨p, hp1, hp2⟩ => ?_⟩
      · rcases Nat.lt_or_ge (lcp s w.rem) w.rem.length with h' | h'
        · exact h'
        · rw [List.drop_eq_nil_of_le h'] at h1; rw [h1] at hr; cases hr
      · rw [(h4 got r hr).1 p hp1 hp2] at hp; cases hp
  · rintro ⟨h, hlt, hp⟩
    obtain ⟨w', h1, _, _, h4⟩ := C04_consume_str_exact s w h
    exact (h4 _ _ (h1.trans (List.drop_eq_getElem_cons hlt))).2 hp

/-- Both outcomes occur: the first byte offset inside `é` panics, the second is the end of `é`. -/
example : consumeStr ['é', 'a'] (IW.new ['é', 'b']) = .panic ∧
    ¬ ∃ p, p <+: ['é', 'a'] ∧ byteLen p = lcp ['é', 'a'] (IW.new ['é', 'b']).rem := by
  have h : consumeStr ['é', 'a'] (IW.new ['é', 'b']) = .panic := by decide
  exact ⟨h, ((C04_panics_iff _ _).1 h).2.2⟩

example : (¬ ['l', 'e', 't'] <+: (IW.new ['l', 'e', 'x']).rem) ∧
    (IW.new ['l', 'e', 'x']).rem.drop (lcp ['l', 'e', 't'] (IW.new ['l', 'e', 'x']).rem) = ['x'] := by decide

end Chomp
