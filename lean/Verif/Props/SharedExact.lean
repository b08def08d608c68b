import Verif.Lower.SysExact
import Verif.Props.Stream

/-! # C81, continued: exactly what the emitted types take, whatever has been shared, and from whatever input -/

namespace Chomp

/-- The beginning of the display of a value of the type `j`. -/
def BeginsValue (s : BState) (j : Nat) (p : List Char) : Prop := ∃ v, Value s.step j v ∧ p <+: v.display

/-- Every type of the emitted program has a value. -/
def EveryTypeHasValue (s : BState) : Prop := ∀ j, j < s.data.length → ∃ t, Value s.step j t

/-- **C81** (exactly what `take` takes). If every type of the emitted program has a value, `take` of a type takes `u` exactly if `u` is
the display of a value, the input begins with `u`, and no value begins with `u` and the character that follows. -/
theorem C81_take_exact {e : NE} {te : TE} {s : BState} {id : Nat} (h : Compiled e te s id) (hin : EveryTypeHasValue s) (j : Nat)
    (hj : j < s.data.length) (w : IW) (u rest : List Char) : TakesOff s j w u rest ↔
      w.rem = u ++ rest ∧ (∃ t, Value s.step j t ∧ t.display = u) ∧ ∀ c r, rest = c :: r → ¬ BeginsValue s j (u ++ [c]) := by
  constructor
  · rintro ⟨t, w', h1, rfl, rfl⟩
    obtain ⟨h2, h3, h4⟩ := C81_take_longest h j hj w w' t h1
    exact ⟨h3, ⟨t, h2, rfl⟩, fun c r hr ⟨v, hv, hx⟩ => h4 c r hr v hv hx⟩
  · rintro ⟨h1, ⟨t, h2, rfl⟩, h3⟩
    obtain ⟨τ, hs, ⟨rk, hr⟩, _, _⟩ := h.sys
    obtain ⟨⟨r, ⟨h4, n, h5⟩, _⟩, _⟩ := C81_terminates h j hj w
    rw [t.display_eq] at h1 h3
    obtain ⟨w', h6, h7⟩ := hs.munch hin hr n j w t rest hj h2 h1 (by
      intro c r' hrest v hv x hx
      exact h3 c r' hrest ⟨v, hv, x, by rw [v.display_eq, hx]; simp⟩) (by
      intro ho
      have h5' : run s.step n j w = r := h5
      rw [ho] at h5'
      exact h4 h5'.symm)
    exact ⟨t, w', ⟨by simp, n, h6⟩, rfl, h7⟩

theorem viable_values {s : BState} {j : Nat} {p : List Char} {e : TakeError} (h : Viable (Value s.step j) p e) :
    BeginsValue s j p ∧ (∀ pos c exp, e = .badBranch pos c exp → ∀ d ∈ exp, BeginsValue s j (p ++ [d])) ∧
      ∀ pos got x, e = .badString pos got x → ∃ p0 q r, p = p0 ++ q ∧ x = q ++ r ∧ r ≠ [] ∧ BeginsValue s j (p0 ++ x) := by
  refine ⟨?_, ?_, ?_⟩
  · obtain ⟨t, h1, h2⟩ := h.consumed
    exact ⟨t, h1, by rwa [t.display_eq]⟩
  · intro pos c exp he d hd
    obtain ⟨t, h1, h2⟩ := h.chars pos c exp he d hd
    exact ⟨t, h1, by rwa [t.display_eq]⟩
  · intro pos got x he
    obtain ⟨p0, q, r, h1, h2, h3, t, h4, h5⟩ := h.string pos got x he
    exact ⟨p0, q, r, h1, h2, h3, t, h4, by rwa [t.display_eq]⟩

/-- **C81** (errors say what is true). If every type of the emitted program has a value and `parse_str` of a type reports an error of
`take`, the error points at the first place where the input stops being the beginning of a value, and what it says it expected is
possible there. -/
theorem C81_errors_truthful {e : NE} {te : TE} {s : BState} {id : Nat} (h : Compiled e te s id) (hin : EveryTypeHasValue s) (j : Nat)
    (hj : j < s.data.length) (text : List Char) (err : TakeError) (hp : Parses s j text (.err (.take err))) :
    ∃ p rest, text = p ++ rest ∧ err.position = ⟨specLine text p.length, specCol text p.length⟩ ∧ err.offending = rest.head? ∧
      BeginsValue s j p ∧ (∀ c r, rest = c :: r → ¬ BeginsValue s j (p ++ [c])) ∧
      (∀ pos c expected, err = .badBranch pos c expected → ∀ d ∈ expected, BeginsValue s j (p ++ [d])) ∧
      (∀ pos got expected, err = .badString pos got expected → ∃ p0 q r, p = p0 ++ q ∧ expected = q ++ r ∧ r ≠ [] ∧
        BeginsValue s j (p0 ++ expected)) ∧
      (rest = [] → ∃ v, Value s.step j v ∧ text <+: v.display ∧ text ≠ v.display) := by
  obtain ⟨q, h1, h2⟩ := Parses.takes.1 hp
  cases q with
  | ok t w' =>
    simp only [parseWith] at h2
    rcases hpk : w'.peek with ⟨_ | c, w''⟩ <;> rw [hpk] at h2 <;> cases h2
  | panic => cases h2
  | oof => cases h2
  | err e' w' =>
    cases h2
    obtain ⟨τ, hs, ⟨rk, hr⟩, _, _⟩ := h.sys
    have h1' := h1
    obtain ⟨_, n, hn⟩ := h1'
    obtain ⟨_, h4⟩ := run_err n j _ _ _ hn
    obtain ⟨h5, h6⟩ := h4.spec
    obtain ⟨p, h3, hv⟩ := hs.viable hin hr n j _ _ _ hj hn
    obtain ⟨v1, v2, v3⟩ := viable_values hv
    have htext : text = p ++ w'.rem := by simpa using h3.1
    refine ⟨p, w'.rem, htext, by rw [h5]; exact h3.pos_spec, h6, v1, ?_, v2, v3, ?_⟩
    · rintro c r hc ⟨v, hv, hx⟩
      exact h.no_ext hj h1 (.inl ⟨_, rfl⟩) (by simpa [hc] using htext) hc v hv hx
    · intro hrest
      obtain ⟨v, v4, v5⟩ := v1
      rw [hrest, List.append_nil] at htext
      refine ⟨v, v4, by rwa [htext], ?_⟩
      intro he
      cases ((C81_parse_iff h j hj text v).2 ⟨v4, he.symm⟩).unique hp

/-! ## Any input -/

section
variable {σ : Type} {I : PImpl σ} {inp : Nat → Option Char} {R : σ → Nat → Prop}

/-- **C81** (from any input). Whatever has been shared, for every implementation of `Parser` that obeys its contract and every input,
endless ones included: if `take` of a type of the emitted program succeeds, it returns a value of the type and has consumed its display,
and no value begins with that and the next character. -/
theorem C81_stream_sound {e : NE} {te : TE} {s : BState} {id : Nat} (h : Compiled e te s id) (j : Nat) (hj : j < s.data.length)
    (hI : ReadsInput I inp R) {x : σ} (hx : R x 0) (t : Tree) (y : σ) (ht : TakesG I s j x (.ok t y)) :
    Value s.step j t ∧ R y t.display.length ∧ pre inp 0 t.display.length = t.display ∧
      ∀ c, inp t.display.length = some c → ¬ BeginsValue s j (t.display ++ [c]) := by
  obtain ⟨h1, h2, h3, K, h4⟩ := ht.ok_text hI hx
  obtain ⟨w', h5, h6⟩ := h4 (K + 1) (by omega)
  obtain ⟨h7, h8, h9⟩ := C81_take_longest h j hj _ _ _ h5
  rw [Tree.display_eq] at h9 ⊢
  refine ⟨h7, h1, h3, fun c hc ⟨v, hv, hx⟩ => h9 c _ (by rw [h6]; exact pre_one hc) v hv hx⟩

/-- **C81** (from any input, the other direction). If every type of the emitted program has a value, every value whose display is at the
beginning of the input, and which no value continues with the next character, is taken. -/
theorem C81_stream_complete {e : NE} {te : TE} {s : BState} {id : Nat} (h : Compiled e te s id) (hin : EveryTypeHasValue s) (j : Nat)
    (hj : j < s.data.length) (hI : ReadsInput I inp R) {x : σ} (hx : R x 0) (t : Tree) (hv : Value s.step j t)
    (hu : pre inp 0 t.display.length = t.display) (hc : ∀ c, inp t.display.length = some c → ¬ BeginsValue s j (t.display ++ [c])) :
    ∃ y, TakesG I s j x (.ok t y) ∧ R y t.display.length := by
  have ha : Avail inp 0 t.display.length := pre_avail (by rw [hu])
  have hpre := (ha.pre 1).1
  rw [hu, Nat.zero_add] at hpre
  obtain ⟨t', w', hT, h2, h3⟩ := (C81_take_exact h hin j hj (IW.new (pre inp 0 (t.display.length + 1))) t.display (pre inp t.display.length 1)).2
    ⟨by rw [IW.rem_new, hpre], ⟨t, hv, rfl⟩, by
      intro c r hr
      refine hc c ?_
      have := pre_head (s := inp) (k := t.display.length) (N := 1) (by omega)
      rw [hr] at this
      exact this.symm⟩
  cases C81_display_injective h j hj t' t (C31_parse_value s j _ _ _ hT) hv h2
  obtain ⟨-, n, h1⟩ := hT
  have hloc : ∀ N, t.display.length + 1 ≤ N → ∃ w2, run s.step n j (IW.new (pre inp 0 N)) = .ok t w2 := by
    intro N hN
    cases hi : inp t.display.length with
    | none =>
      have e1 : ∀ M, t.display.length ≤ M → pre inp 0 M = pre inp 0 t.display.length := fun M hM =>
        pre_end (j := t.display.length) (k := 0) (by rwa [Nat.zero_add]) hM
      rw [e1 N (by omega)]
      have h1' : run s.step n j (IW.new (pre inp 0 (t.display.length + 1))) = .ok t w' := h1
      rw [e1 _ (by omega)] at h1'
      exact ⟨w', h1'⟩
    | some c =>
      obtain ⟨q', h4, ⟨_, _, h5, _⟩ | ⟨t', w2, h5, h6⟩⟩ := stream_local (.inr ⟨t, rfl⟩) h1 (.inl (by rw [h3, pre_one hi]; simp)) N hN
      · cases h5
      · cases h5; exact ⟨w2, by rw [h4, h6]⟩
  have hk := runG_sim hI s.step n j x 0 hx
  cases hg : runG I s.step n j x with
  | ok a y =>
    rw [hg] at hk
    obtain ⟨i, K, -, -, h4⟩ := hk
    obtain ⟨w2, h5, -⟩ := h4 (K + t.display.length + 1) (IW.new (pre inp 0 (i + (K + t.display.length + 1)))) (by omega) (by simp)
    obtain ⟨w3, h6⟩ := hloc (i + (K + t.display.length + 1)) (by omega)
    rw [h6] at h5
    cases h5
    have hT : TakesG I s j x (.ok t y) := ⟨by simp, n, hg⟩
    refine ⟨y, hT, ?_⟩
    have := (hT.ok_text hI hx).1
    rwa [← t.display_eq] at this
  | err e y =>
    rw [hg] at hk
    obtain ⟨i, K, -, -, -, h4⟩ := hk
    obtain ⟨w2, h5, -⟩ := h4 (K + t.display.length + 1) (IW.new (pre inp 0 (i + (K + t.display.length + 1)))) (by omega) (by simp)
    obtain ⟨w3, h6⟩ := hloc (i + (K + t.display.length + 1)) (by omega)
    rw [h6] at h5
    cases h5
  | panic =>
    rw [hg] at hk
    obtain ⟨K, h4⟩ := hk
    have h5 := h4 (K + t.display.length + 1) (IW.new (pre inp 0 (K + t.display.length + 1))) (by omega) (by simp)
    obtain ⟨w3, h6⟩ := hloc (K + t.display.length + 1) (by omega)
    rw [h6] at h5
    cases h5
  | oof =>
    rw [hg] at hk
    obtain ⟨K, h4⟩ := hk
    have h5 := h4 (K + t.display.length + 1) (IW.new (pre inp 0 (K + t.display.length + 1))) (by omega) (by simp)
    obtain ⟨w3, h6⟩ := hloc (K + t.display.length + 1) (by omega)
    rw [h6] at h5
    cases h5

/-- **C81** (errors on any input). If `take` of a type of the emitted program fails, it has consumed a beginning `p` of the input, which
is the beginning of a value if every type has one; with the next character, if there is one, it is not, and if there is none, `p` is not
the display of a value. -/
theorem C81_stream_error {e : NE} {te : TE} {s : BState} {id : Nat} (h : Compiled e te s id) (j : Nat) (hj : j < s.data.length)
    (hI : ReadsInput I inp R) {x : σ} (hx : R x 0) (err : TakeError) (y : σ) (ht : TakesG I s j x (.err err y)) :
    ∃ k, R y k ∧ Avail inp 0 k ∧ (EveryTypeHasValue s → BeginsValue s j (pre inp 0 k)) ∧
      (∀ c, inp k = some c → ¬ BeginsValue s j (pre inp 0 k ++ [c])) ∧
      (inp k = none → ∀ v, Value s.step j v → v.display ≠ pre inp 0 k) := by
  obtain ⟨-, n, hn⟩ := ht
  have hk := runG_sim hI s.step n j x 0 hx
  rw [hn] at hk
  obtain ⟨i, K, h2, h3, -, h4⟩ := hk
  rw [Nat.zero_add] at h2 h4
  obtain ⟨w', h5, h6⟩ := h4 (K + 1) (IW.new (pre inp 0 (i + (K + 1)))) (by omega) (by simp)
  have hT : Takes s j (IW.new (pre inp 0 (i + (K + 1)))) (.err (err.withPos w'.pos) w') := ⟨by simp, n, h5⟩
  have hpre : pre inp 0 (i + (K + 1)) = pre inp 0 i ++ w'.rem := by rw [(h3.pre (K + 1)).1, h6, Nat.zero_add]
  refine ⟨i, h2, h3, fun hin => ?_, ?_, fun hc v hv hd => ?_⟩
  · obtain ⟨τ, hs, ⟨rk, hr⟩, _, _⟩ := h.sys
    obtain ⟨p, h7, h8⟩ := hs.viable hin hr n j _ _ _ hj h5
    have : p = pre inp 0 i := by
      have h9 := h7.1
      rw [IW.rem_new, hpre] at h9
      exact (List.append_cancel_right h9).symm
    subst this
    exact (viable_values h8).1
  · rintro c hc ⟨v, hv, hx⟩
    rw [pre_one hc] at h6
    exact h.no_ext hj hT (.inl ⟨_, rfl⟩) (by rw [IW.rem_new, hpre, h6]) h6 v hv hx
  · have e1 : pre inp 0 (i + (K + 1)) = pre inp 0 i := pre_end (j := i) (k := 0) (by rwa [Nat.zero_add]) (by omega)
    rw [e1] at hT
    exact (Parses.takes.2 ⟨_, hT, rfl⟩ : Parses s j (pre inp 0 i) (.err (.take (err.withPos w'.pos)))).not_ok
      ⟨v, (C81_parse_iff h j hj _ v).2 ⟨hv, hd⟩⟩

/-- **C81** (when `take` ends). If every type of the emitted program has a value, and in every literal only the last character may take
more than one byte, `take` of a type never ends if and only if the input never ends and every beginning of it is the beginning of a
value. -/
theorem C81_stream_ends {e : NE} {te : TE} {s : BState} {id : Nat} (h : Compiled e te s id) (hin : EveryTypeHasValue s)
    (hasc : ∀ l ∈ te.lits, AsciiButLast l) (j : Nat) (hj : j < s.data.length) (hI : ReadsInput I inp R) {x : σ} (hx : R x 0) :
    (¬ ∃ r, TakesG I s j x r) ↔ ∀ k, inp k ≠ none ∧ BeginsValue s j (pre inp 0 k) := by
  constructor
  · intro hno k
    have hoof : ∀ n, ∃ K, ∀ N, K ≤ N → run s.step n j (IW.new (pre inp 0 N)) = .oof := by
      intro n
      have hk := runG_sim hI s.step n j x 0 hx
      cases hg : runG I s.step n j x with
      | oof =>
        rw [hg] at hk
        obtain ⟨K, h4⟩ := hk
        exact ⟨K, fun N hN => h4 N _ hN (by simp)⟩
      | ok a y => exact absurd ⟨_, by simp, n, hg⟩ hno
      | err a y => exact absurd ⟨_, by simp, n, hg⟩ hno
      | panic => exact absurd ⟨_, by simp, n, hg⟩ hno
    have hend : ∀ k, inp k ≠ none := by
      intro k hkn
      obtain ⟨⟨r, ⟨hr, n, hn⟩, -⟩, -⟩ := C81_terminates h j hj (IW.new (pre inp 0 k))
      obtain ⟨K, hK⟩ := hoof n
      have := hK (K + k) (by omega)
      rw [pre_end (j := k) (k := 0) (by rwa [Nat.zero_add]) (by omega)] at this
      have hn' : run s.step n j (IW.new (pre inp 0 k)) = r := hn
      rw [this] at hn'
      exact hr hn'.symm
    refine ⟨hend k, ?_⟩
    obtain ⟨⟨r, hr, -⟩, -⟩ := C81_terminates h j hj (IW.new (pre inp 0 k))
    have hr' := hr
    obtain ⟨hr0, n, hn⟩ := hr'
    obtain ⟨K, hK⟩ := hoof n
    have hn' : run s.step n j (IW.new (pre inp 0 k)) = r := hn
    cases r with
    | oof => exact absurd rfl hr0
    | panic => exact absurd hr (C81_no_panic h hasc j hj _)
    | ok t w' =>
      cases hw : w'.rem with
      | cons c r =>
        obtain ⟨q', h4, ⟨_, _, h5, _⟩ | ⟨t', w2, h5, h6⟩⟩ := stream_local (.inr ⟨t, rfl⟩) hn' (.inl (by rw [hw]; simp)) (K + k) (by omega)
        · cases h5
        · rw [h6, hK (K + k) (by omega)] at h4
          cases h4
      | nil =>
        obtain ⟨h1, h2, -⟩ := C81_take_longest h j hj _ _ _ hr
        rw [IW.rem_new, hw, List.append_nil] at h2
        exact ⟨t, h1, by rw [h2]; exact List.prefix_refl _⟩
    | err er w' =>
      cases hw : w'.rem with
      | cons c r =>
        obtain ⟨q', h4, ⟨er', w2, h5, h6⟩ | ⟨_, _, h5, _⟩⟩ := stream_local (.inl ⟨er, rfl⟩) hn' (.inl (by rw [hw]; simp)) (K + k) (by omega)
        · rw [h6, hK (K + k) (by omega)] at h4
          cases h4
        · cases h5
      | nil =>
        obtain ⟨τ, hs, ⟨rk, hr⟩, _, _⟩ := h.sys
        obtain ⟨p, h7, hv⟩ := hs.viable hin hr n j _ _ _ hj hn'
        have h8 := h7.1
        rw [hw, List.append_nil, IW.rem_new] at h8
        rw [h8]
        exact (viable_values hv).1
  · rintro hall ⟨r, hr⟩
    have hav : ∀ k, Avail inp 0 k := fun k i _ => (hall (0 + i)).1
    have hsucc : ∀ k c, inp k = some c → pre inp 0 (k + 1) = pre inp 0 k ++ [c] := by
      intro k c hc
      rw [((hav k).pre 1).1, Nat.zero_add, pre_one hc]
      rfl
    cases r with
    | oof => exact hr.1 rfl
    | panic =>
      obtain ⟨-, n, hn⟩ := hr
      have hk := runG_sim hI s.step n j x 0 hx
      rw [hn] at hk
      obtain ⟨K, h4⟩ := hk
      exact C81_no_panic h hasc j hj (IW.new (pre inp 0 K)) ⟨by simp, n, h4 K _ (Nat.le_refl _) (by simp)⟩
    | ok t y =>
      obtain ⟨-, -, h2, h4⟩ := C81_stream_sound h j hj hI hx t y hr
      cases hc : inp t.display.length with
      | none => exact (hall _).1 hc
      | some c =>
        refine h4 c hc ?_
        have := (hall (t.display.length + 1)).2
        rwa [hsucc _ _ hc, h2] at this
    | err er y =>
      obtain ⟨k, -, -, -, h4, -⟩ := C81_stream_error h j hj hI hx er y hr
      cases hc : inp k with
      | none => exact (hall _).1 hc
      | some c =>
        refine h4 c hc ?_
        rw [← hsucc k c hc]
        exact (hall (k + 1)).2

end

/-! ## When every type has a value -/

/-- **C81** (the assumption). If nothing was shared wrongly and every fix point of the grammar matches some string, every type of the
emitted program has a value. -/
theorem C81_every_type_has_value {e : NE} {te : TE} {s : BState} {id : Nat} (h : Compiled e te s id) (hns : NoSharingConflict te)
    (hne : te.gram.NoEmptyParts) : EveryTypeHasValue s := by
  intro j hj
  obtain ⟨cas, hc⟩ := h.code
  obtain ⟨B, h0, hB⟩ := gen_bisim h.ann hns hc
  obtain ⟨ρ, x, h1, h2⟩ := occ_of_reach (gen_tinv hc) hB ((gen_reach cas te _ _ _ hc .empty (by simp)).2 j (Nat.zero_le _) hj) h0
  obtain ⟨Γ, k, h3, h4, h5⟩ := h1.ann h.ann
  obtain ⟨n1, n2⟩ := h1.noEmpty hne
  obtain ⟨t, ht⟩ := inhab x.gram h4.hasTy h3.envTy n1 n2
  exact ⟨t, value_bisim (R := fun c a => B a c) (fun c a h => (hB a c h).flip) (der_value ht (ρ := ρ) rfl rfl) h2⟩

/-! ## Examples -/

private def gi : Info := ⟨none, 0⟩
private def gl (l : List Char) : NE := .lit gi l
private def gmu (b : NE) : NE := .fix gi (.lam gi [.newVariable (.spanless "x")] b)
private def gcat (a : NE) (l : List NE) : NE := .cat gi a (l.map fun b => (0, b))
private def galt (a : NE) (l : List NE) : NE := .alt gi a (l.map fun b => (0, b))

/-- `!(/i/ "y" . i | "z" | a)` where `a` is the variable bound outside. -/
private def gInner : NE := gmu (galt (gcat (gl ['y']) [.var gi 0]) [gl ['z'], .var gi 1])

/-- `!(/a/ "x" . !(/i/ "y" . i | "z" | a) . "1") . !(/b/ "x" . !(/i/ "y" . i | "z" | b) . "2")`, see `C36_counterexample`. -/
private def gConflict : NE := gcat (gmu (gcat (gl ['x']) [gInner, gl ['1']])) [gmu (gcat (gl ['x']) [gInner, gl ['2']])]

/-- A text that the type `j` accepts. -/
private def tries : List (List Char) := ["xz1xz2".toList, "xz1".toList, "xz2".toList, "z".toList, "yz".toList, "x".toList, "y".toList, "1".toList, "2".toList]

private def accepts (s : BState) (j : Nat) (text : List Char) : Bool :=
  match run s.step 40 j (IW.new text) with
  | .ok _ _ => true
  | _ => false

private theorem accepts_value {s : BState} {j : Nat} {text : List Char} (h : accepts s j text = true) : ∃ t, Value s.step j t := by
  unfold accepts at h
  split at h
  · rename_i t w hr
    exact ⟨t, run_value 40 j _ _ t hr⟩
  · cases h

/-- Non-vacuity: in the program emitted for the grammar of `C36_counterexample`, in which types were shared wrongly, every type has a
value.  Its parser reports an error of the kind `C81_errors_truthful` speaks of, and `take` of its root takes a value from an endless
input, as well as from a finite one. -/
theorem C81_exact_applies : ∃ e te s id, Compiled e te s id ∧ ¬ NoSharingConflict te ∧ EveryTypeHasValue s ∧
    (∀ l ∈ te.lits, AsciiButLast l) ∧
    Parses s id "xz1xxz22".toList (.err (.take (.badString ⟨1, 6⟩ ['2'] ['1']))) ∧
    TakesOff s id (IW.new "xz1xz2zz".toList) "xz1xz2".toList "zz".toList ∧
    ∃ t y, TakesG (wrapImpl (repeatNext 'z')) s 2 (Wrapper.new ()) (.ok t y) ∧ t.display = ['z'] := by
  have hc : ∃ te s id, Compiled gConflict te s id ∧ ((List.range s.data.length).all fun j => tries.any fun x => accepts s j x) = true ∧
      (∀ l ∈ te.lits, AsciiButLast l) ∧ Parses s id "xz1xxz22".toList (.err (.take (.badString ⟨1, 6⟩ ['2'] ['1']))) ∧
      te.gram.language "xz1xxz22".toList ∧ TakesOff s id (IW.new "xz1xz2zz".toList) "xz1xz2".toList "zz".toList ∧
      ∃ t y, TakesG (wrapImpl (repeatNext 'z')) s 2 (Wrapper.new ()) (.ok t y) ∧ t.display = ['z'] := by
    refine ⟨_, _, _, ⟨⟨8, rfl⟩, ⟨some, some⟩, rfl⟩, by decide +kernel, ?_, ⟨by simp, 40, rfl⟩, takeR_language (n := 40) rfl rfl,
      ⟨_, _, ⟨by simp, 40, rfl⟩, rfl, rfl⟩, _, _, ⟨by simp, 40, rfl⟩, rfl⟩
    have hs : ∀ c : Char, AsciiButLast [c] := fun c d hd => by cases hd
    intro l hl
    have h1 : l = ['x'] ∨ l = ['y'] ∨ l = ['z'] ∨ l = ['1'] ∨ l = ['2'] := by
      simp [TE.lits, TE.litsL] at hl
      rcases hl with h | h | h | h | h | h | h | h <;> simp [h]
    rcases h1 with rfl | rfl | rfl | rfl | rfl <;> exact hs _
  obtain ⟨te, s, id, h1, h2, h3, h4, h5, h6, h7⟩ := hc
  refine ⟨_, te, s, id, h1, ?_, ?_, h3, h4, h6, h7⟩
  · intro hns
    exact Parses.not_ok h4 ((h1.accepts hns _).2 h5)
  · intro j hj
    have := List.all_eq_true.1 h2 j (by simpa using hj)
    obtain ⟨x, _, hx⟩ := List.any_eq_true.1 this
    exact accepts_value hx

end Chomp
