import Verif.Bench.ArithErr
import Verif.Props.Json

/-! Errors of the hand-written JSON parser: where they happen, and that what comes after does not matter. -/

namespace Chomp

/-- What the errors of the parser say, other than those of `take_chars_from`. -/
def JsonErrorForm : TakeError → Prop
  | .badBranch _ c exp => c ∉ exp ∧ exp ∈ [jsonFirst, jsonFirstWs, [',', ']'], [',', '}'], ['"', ' ', '\t', '\n', '\r']]
  | .badString _ got exp => (∃ q c d s, got = q ++ [c] ∧ exp = q ++ d :: s ∧ c ≠ d) ∧
      exp ∈ ["null".toList, "true".toList, "false".toList, ['"'], [':'], [']'], ['}'], ['\\', 'u'], ['['], ['{']]
  | .endOfStream _ => True

/-- An error about the place after `p` in `p ++ r`, where `p` ends at position `P`: it is reported with that position and the
next character, or at an end one column further, or, for hexadecimal digits, with the position after the offending character. -/
def JsonErrorAt (e : TakeError) (P : LineCol) (r : List Char) : Prop :=
  (e.position = P ∧ e.offending = r.head? ∧ JsonErrorForm e) ∨ (r = [] ∧ e = .endOfStream ⟨P.line, P.col + 1⟩) ∨
    ∃ c s, r = c :: s ∧ c ∉ jsonHex ∧ e = .badBranch (advPos P r) c jsonHex

/-- `a` has been read, except that the column is one too far at the end of the input. -/
def ReadsErr (w : IW) (a : List Char) (w' : IW) : Prop := ReadsTo w a w' ∨
  (w.rem = a ∧ w'.rem = [] ∧ w'.pos = ⟨(advPosN w.pos a.length w.rem).line, (advPosN w.pos a.length w.rem).col + 1⟩)

theorem ReadsErr.rem {w w' : IW} {a : List Char} (h : ReadsErr w a w') : w.rem = a ++ w'.rem := by
  rcases h with h | ⟨h1, h2, -⟩
  · exact h.1
  · rw [h1, h2, List.append_nil]

theorem ReadsTo.advPosN {u v : IW} {a b : List Char} (h : ReadsTo u a v) : Chomp.advPosN v.pos b.length v.rem = Chomp.advPosN u.pos (a ++ b).length u.rem := by
  rw [h.2, List.length_append, advPosN_add]
  congr 1
  rw [h.1, List.drop_left]

theorem ReadsTo.transErr {u v w : IW} {a b : List Char} (h1 : ReadsTo u a v) (h2 : ReadsErr v b w) : ReadsErr u (a ++ b) w := by
  rcases h2 with h2 | ⟨h2, h3, h4⟩
  · exact .inl (h1.trans h2)
  · exact .inr ⟨by rw [h1.1, h2], h3, by rw [h4, h1.advPosN]⟩

/-- The place of the error `e` of `f` on `w`: what comes after it does not matter. -/
def FailsAt {α : Type} (f : IW → Res α) (w : IW) (e : TakeError) : Prop :=
  ∃ p r, w.rem = p ++ r ∧ JsonErrorAt e (advPosN w.pos p.length w.rem) r ∧
    ∀ w2 r2, w2.rem = p ++ r2 → r2.head? = r.head? → ∃ e' w2', f w2 = .err e' w2'

/-- `r`, the outcome of `f` on `w`, depends only on what was read and the character after it. -/
def JLocalR {α : Type} (f : IW → Res α) (w : IW) (r : Res α) : Prop := match r with
  | .ok v w' => ∃ a, ReadsTo w a w' ∧ ∀ w2 r2, w2.rem = a ++ r2 → r2.head? = w'.rem.head? → ∃ w2', f w2 = .ok v w2' ∧ w2'.rem = r2
  | .err e w' => FailsAt f w e ∧ ∃ a, ReadsErr w a w' ∧
      ∀ w2 r2, w2.rem = a ++ r2 → r2.head? = w'.rem.head? → ∃ e' w2', f w2 = .err e' w2' ∧ w2'.rem = r2
  | _ => True

def JLocal {α : Type} (P : Option Char → Prop) (f : IW → Res α) : Prop := ∀ w, P w.rem.head? → JLocalR f w (f w)

theorem JLocal.mono {α : Type} {P Q : Option Char → Prop} {f : IW → Res α} (h : JLocal P f) (hq : ∀ o, Q o → P o) : JLocal Q f :=
  fun w hw => h w (hq _ hw)

/-- An error of a later part. -/
theorem FailsAt.after {α β : Type} {f : IW → Res α} {g : IW → Res β} {w0 w : IW} {a : List Char} {e : TakeError}
    (hw : ReadsTo w0 a w) (h : FailsAt f w e)
    (hg : ∀ w2 r2, w2.rem = a ++ r2 → r2.head? = w.rem.head? → (∀ w3, w3.rem = r2 → ∃ e' w2', f w3 = .err e' w2') → ∃ e' w2', g w2 = .err e' w2') :
    FailsAt g w0 e := by
  obtain ⟨p, r, h1, h2, h3⟩ := h
  refine ⟨a ++ p, r, by rw [hw.1, h1, List.append_assoc], by rw [← hw.advPosN]; exact h2, fun w2 r2 hw2 hr2 => ?_⟩
  exact hg w2 (p ++ r2) (by rw [hw2, List.append_assoc]) (by rw [h1]; exact head_append_congr hr2) fun w3 hw3 => h3 w3 r2 hw3 hr2

theorem JLocal.bind {α β : Type} {P : Option Char → Prop} {f : IW → Res α} {g : α → IW → Res β} (hf : JLocal P f)
    (hg : ∀ a, JLocal AnyNext (g a)) : JLocal P (fun w => (f w).bind g) := by
  intro w hP
  have h1 := hf w hP
  show JLocalR _ w ((f w).bind g)
  cases hfw : f w with
  | panic => trivial
  | oof => trivial
  | err e w' =>
    rw [hfw] at h1
    obtain ⟨⟨p, r, hp1, hp2, hp3⟩, a, ha, h⟩ := h1
    refine ⟨⟨p, r, hp1, hp2, fun w2 r2 hw hh => ?_⟩, a, ha, fun w2 r2 hw hh => ?_⟩
    · obtain ⟨e', w2', h2⟩ := hp3 w2 r2 hw hh
      exact ⟨e', w2', by dsimp only; rw [h2]; rfl⟩
    · obtain ⟨e', w2', h2, h3⟩ := h w2 r2 hw hh
      exact ⟨e', w2', by dsimp only; rw [h2]; rfl, h3⟩
  | ok x wm =>
    rw [hfw] at h1
    obtain ⟨a, ha, h⟩ := h1
    have h4 := hg x wm trivial
    show JLocalR _ w (g x wm)
    cases hgx : g x wm with
    | panic => trivial
    | oof => trivial
    | ok v w' =>
      rw [hgx] at h4
      obtain ⟨b, hb, h5⟩ := h4
      refine ⟨a ++ b, ha.trans hb, fun w2 r2 hw hh => ?_⟩
      obtain ⟨wm2, h6, h7⟩ := h w2 (b ++ r2) (by rw [hw, List.append_assoc]) (by rw [hb.1]; exact head_append_congr hh)
      obtain ⟨w2', h8, h9⟩ := h5 wm2 r2 h7 hh
      exact ⟨w2', by dsimp only; rw [h6]; exact h8, h9⟩
    | err e w' =>
      rw [hgx] at h4
      obtain ⟨he, b, hb, h5⟩ := h4
      refine ⟨he.after ha fun w2 r2 hw2 hr2 hf => ?_, a ++ b, ha.transErr hb, fun w2 r2 hw hh => ?_⟩
      · obtain ⟨wm2, h6, h7⟩ := h w2 r2 hw2 hr2
        obtain ⟨e', w2', h8⟩ := hf wm2 h7
        exact ⟨e', w2', by rw [h6]; exact h8⟩
      · obtain ⟨wm2, h6, h7⟩ := h w2 (b ++ r2) (by rw [hw, List.append_assoc]) (by rw [hb.rem]; exact head_append_congr hh)
        obtain ⟨e', w2', h8, h9⟩ := h5 wm2 r2 h7 hh
        exact ⟨e', w2', by dsimp only; rw [h6]; exact h8, h9⟩

theorem JLocal.ok {α : Type} {P : Option Char → Prop} (v : α) : JLocal P (fun w => .ok v w) :=
  fun w _ => ⟨[], ReadsTo.refl w, fun w2 _ hw _ => ⟨w2, rfl, hw⟩⟩

theorem JLocal.panic {α : Type} {P : Option Char → Prop} : JLocal P (fun _ => (.panic : Res α)) := fun _ _ => trivial

theorem Res.map_eq_bind {α β : Type} (f : α → β) (r : Res α) : r.map f = r.bind fun a w => .ok (f a) w := by cases r <;> rfl

theorem JLocal.map {α β : Type} {P : Option Char → Prop} {f : IW → Res α} {g : α → β} (hf : JLocal P f) : JLocal P (fun w => (f w).map g) := by
  have : (fun w => (f w).map g) = fun w => (f w).bind fun a w => .ok (g a) w := funext fun w => Res.map_eq_bind g (f w)
  rw [this]
  exact JLocal.bind hf fun a => JLocal.ok (g a)

theorem JLocal.orPanic {α β : Type} {P : Option Char → Prop} {o : Option α} {f : α → IW → Res β} (h : ∀ a, JLocal P (f a)) :
    JLocal P (fun w => orPanic o fun a => f a w) := by
  cases o with
  | none => intro w _; trivial
  | some a => exact h a

theorem JLocal.ws {α : Type} {P : Option Char → Prop} {f : IW → Res α} (h : JLocal AnyNext f) : JLocal P (fun w => f (jsonSkipWs w)) := by
  refine JLocal.bind (f := fun w => .ok () (jsonSkipWs w)) (g := fun _ => f) ?_ fun _ => h
  intro w _
  have h1 := skipGo_spec (jsonWs.contains ·) w.left w (by rw [IW.left_eq]; exact Nat.le_refl _)
  have h2 := (C05_skip_while (jsonWs.contains ·) w).choose_spec
  refine ⟨w.rem.takeWhile (jsonWs.contains ·), ⟨?_, h1.2⟩, fun w2 r2 hw hh => ⟨_, rfl, ?_⟩⟩
  · rw [jsonSkipWs_rem, List.takeWhile_append_dropWhile]
  · refine jsonSkipWs_of ?_ ?_ hw
    · obtain ⟨ws, hws, h3⟩ := jsonSkipWs_sound w
      have : ws = w.rem.takeWhile (jsonWs.contains ·) := by
        refine List.append_cancel_right (h3.symm.trans ?_)
        rw [jsonSkipWs_rem, List.takeWhile_append_dropWhile]
      rw [← this]; exact hws
    · intro c hc
      rw [hh] at hc
      exact h2.2.2.1 c hc

theorem JLocal.peek {α : Type} {P : Option Char → Prop} {F : Char → IW → Res α} {G : IW → Res α}
    (hF : ∀ c, JLocal (· = some c) (F c)) (hG : JLocal (· = none) G) :
    JLocal P (fun w => match w.peek with | (some c, w) => F c w | (none, w) => G w) := by
  have key : ∀ w : IW, (match w.peek with | (some c, w) => F c w | (none, w) => G w) =
      match w.rem.head? with | some c => F c w.peek.2 | none => G w.peek.2 := by
    intro w; rw [IW.peek_eq]; cases w.rem.head? <;> rfl
  have main : ∀ (o : Option Char) (H : IW → Res α), (∀ w : IW, w.rem.head? = o → (match w.peek with | (some c, w) => F c w | (none, w) => G w) = H w.peek.2) →
      JLocal (· = o) H → ∀ w : IW, w.rem.head? = o → JLocalR (fun w => match w.peek with | (some c, w) => F c w | (none, w) => G w) w (H w.peek.2) := by
    intro o H hH hJ w hw
    have h := hJ w.peek.2 (by rw [IW.peek_rem]; exact hw)
    cases hg : H w.peek.2 with
    | panic => trivial
    | oof => trivial
    | ok v w' =>
      rw [hg] at h
      obtain ⟨a, ha, h1⟩ := h
      refine ⟨a, ha.of_peek, fun w2 r2 hw2 he => ?_⟩
      have : w2.rem.head? = o := by rw [hw2, head_append_congr he, ← ha.of_peek.1, hw]
      dsimp only
      rw [hH w2 this]
      exact h1 _ r2 (by rw [IW.peek_rem]; exact hw2) he
    | err v w' =>
      rw [hg] at h
      obtain ⟨⟨p, r, hp1, hp2, hp3⟩, a, ha, h1⟩ := h
      rw [IW.peek_rem] at hp1
      refine ⟨⟨p, r, hp1, by simpa using hp2, fun w2 r2 hw2 he => ?_⟩, a, by simpa using (ReadsTo.peek w).transErr ha, fun w2 r2 hw2 he => ?_⟩
      · have : w2.rem.head? = o := by rw [hw2, head_append_congr he, ← hp1, hw]
        dsimp only
        rw [hH w2 this]
        exact hp3 _ r2 (by rw [IW.peek_rem]; exact hw2) he
      · have : w2.rem.head? = o := by
          rw [hw2, head_append_congr he]
          have := ha.rem
          rw [IW.peek_rem] at this
          rw [← this, hw]
        dsimp only
        rw [hH w2 this]
        exact h1 _ r2 (by rw [IW.peek_rem]; exact hw2) he
  intro w _
  show JLocalR _ w (match w.peek with | (some c, w) => F c w | (none, w) => G w)
  rw [key]
  cases hh : w.rem.head? with
  | none => exact main none G (fun w hw => by rw [key, hw]) hG w hh
  | some c => exact main (some c) (F c) (fun w hw => by rw [key, hw]) (hF c) w hh

/-- An unexpected character that is next. -/
theorem JLocal.branch {α : Type} {c : Char} {l : List Char} (hc : c ∉ l)
    (hl : l ∈ [jsonFirst, jsonFirstWs, [',', ']'], [',', '}'], ['"', ' ', '\t', '\n', '\r']]) :
    JLocal (α := α) (· = some c) (fun w => .err (.badBranch w.pos c l) w) :=
  fun w h => ⟨⟨[], w.rem, rfl, .inl ⟨rfl, h.symm, hc, hl⟩, fun w2 _ _ _ => ⟨_, w2, rfl⟩⟩, [], .inl (ReadsTo.refl w), fun w2 _ hw _ => ⟨_, w2, rfl, hw⟩⟩

theorem JLocal.eos {α : Type} : JLocal (α := α) (· = none) (fun w => .err (.endOfStream w.pos) w) :=
  fun w h => ⟨⟨[], w.rem, rfl, .inl ⟨rfl, h.symm, trivial⟩, fun w2 _ _ _ => ⟨_, w2, rfl⟩⟩, [], .inl (ReadsTo.refl w), fun w2 _ hw _ => ⟨_, w2, rfl, hw⟩⟩

theorem ReadsTo.advance {w : IW} {c : Char} {r : List Char} (h : w.rem = c :: r) : ReadsTo w [c] w.advance.2 :=
  ⟨by simp [h], by rw [IW.advance_pos]; rfl⟩

/-- `match w.advance with …` with an end of the input that is reported. -/
def nextOr {α : Type} (F : Char → IW → Res α) (w : IW) : Res α := match w.advance with
  | (none, w) => .err (.endOfStream w.pos) w
  | (some c, w) => F c w

theorem nextOr_nil {α : Type} {F : Char → IW → Res α} {w : IW} (h : w.rem = []) : nextOr F w = .err (.endOfStream w.advance.2.pos) w.advance.2 := by
  have h1 := w.advance_fst
  rw [h] at h1
  rw [nextOr]
  rcases hw : w.advance with ⟨_ | c, w'⟩
  · rfl
  · rw [hw] at h1; cases h1

theorem nextOr_cons {α : Type} {F : Char → IW → Res α} {w : IW} {c : Char} {r : List Char} (h : w.rem = c :: r) : nextOr F w = F c w.advance.2 := by
  have h1 := w.advance_fst
  rw [h] at h1
  rw [nextOr]
  rcases hw : w.advance with ⟨_ | c, w'⟩
  · rw [hw] at h1; cases h1
  · rw [hw] at h1; cases h1; rfl

/-- Taking the next character.  `F c` may be the error of `take_chars_from`. -/
theorem JLocal.next {α : Type} {P : Option Char → Prop} {F : Char → IW → Res α}
    (hF : ∀ c, JLocal AnyNext (F c) ∨ (c ∉ jsonHex ∧ F c = fun w => .err (.badBranch w.pos c jsonHex) w)) :
    JLocal P (nextOr F) := by
  intro w _
  cases hr : w.rem with
  | nil =>
    have hp : w.advance.2.pos = ⟨w.pos.line, w.pos.col + 1⟩ := by rw [IW.advance_pos, hr]; rfl
    rw [nextOr_nil hr]
    refine ⟨⟨[], [], hr, .inr (.inl ⟨rfl, by rw [hp]; rfl⟩), fun w2 r2 hw hh => ?_⟩, [], .inr ⟨hr, by simp [hr], by rw [hp]; rfl⟩, fun w2 r2 hw hh => ?_⟩
    · have h0 : w2.rem = [] := by rw [hw]; simpa using hh
      exact ⟨_, _, nextOr_nil h0⟩
    · have h0 : w2.rem = [] := by rw [hw]; simpa [hr] using hh
      exact ⟨_, _, nextOr_nil h0, by rw [← List.nil_append r2, ← hw, h0]; simp [h0]⟩
  | cons c r =>
    have hra : ∀ w2 : IW, ∀ r2, w2.rem = c :: r2 → w2.advance.2.rem = r2 := by intro w2 r2 h; simp [h]
    have ha := ReadsTo.advance hr
    rw [nextOr_cons hr]
    rcases hF c with hF | ⟨hc, hF⟩
    · have h := hF w.advance.2 trivial
      cases hg : F c w.advance.2 with
      | panic => trivial
      | oof => trivial
      | ok v w' =>
        rw [hg] at h
        obtain ⟨b, hb, h1⟩ := h
        refine ⟨[c] ++ b, ha.trans hb, fun w2 r2 hw2 hh => ?_⟩
        obtain ⟨w2', h3, h4⟩ := h1 w2.advance.2 r2 (hra _ _ hw2) hh
        exact ⟨w2', (nextOr_cons hw2).trans h3, h4⟩
      | err e w' =>
        rw [hg] at h
        obtain ⟨he, b, hb, h1⟩ := h
        refine ⟨he.after ha fun w2 r2 hw2 _ hf => ?_, [c] ++ b, ha.transErr hb, fun w2 r2 hw2 hh => ?_⟩
        · obtain ⟨e', w2', h3⟩ := hf _ (hra _ _ hw2)
          exact ⟨e', w2', (nextOr_cons hw2).trans h3⟩
        · obtain ⟨e', w2', h3, h4⟩ := h1 w2.advance.2 r2 (hra _ _ hw2) hh
          exact ⟨e', w2', (nextOr_cons hw2).trans h3, h4⟩
    · rw [hF]
      refine ⟨⟨[], c :: r, hr, .inr (.inr ⟨c, r, rfl, hc, by rw [IW.advance_pos, hr]; rfl⟩), fun w2 r2 hw2 hh => ?_⟩, [c], .inl ha, fun w2 r2 hw2 hh => ?_⟩
      · cases r2 with
        | nil => cases hh
        | cons d r2 => cases hh; exact ⟨_, _, by rw [nextOr_cons hw2, hF]⟩
      · exact ⟨_, _, by rw [nextOr_cons hw2, hF], hra _ _ hw2⟩

theorem JLocal.hex : ∀ n, JLocal AnyNext (takeCharsFrom jsonHex n)
  | 0 => JLocal.ok []
  | n + 1 => by
    have : takeCharsFrom jsonHex (n + 1) = nextOr fun c w =>
        (if jsonHex.contains c then fun w => (takeCharsFrom jsonHex n w).map (c :: ·) else fun w => .err (.badBranch w.pos c jsonHex) w) w := by
      funext w
      rw [takeCharsFrom, nextOr]
      rcases w.advance with ⟨_ | c, w'⟩
      · rfl
      · dsimp only; split <;> rfl
    rw [this]
    refine JLocal.next fun c => ?_
    by_cases hc : c ∈ jsonHex
    · left
      rw [if_pos (by simpa using hc)]
      exact JLocal.map (JLocal.hex n)
    · right
      rw [if_neg (by simpa using hc)]
      exact ⟨hc, rfl⟩

/-- Consuming one of the ASCII strings of the parser. -/
theorem JLocal.consume {P : Option Char → Prop} {s : List Char} (ha : ∀ c ∈ s, c.utf8Size = 1)
    (hs : s ∈ ["null".toList, "true".toList, "false".toList, ['"'], [':'], [']'], ['}'], ['\\', 'u'], ['['], ['{']]) :
    JLocal P (consumeStr s) := by
  intro w _
  by_cases h : s <+: w.rem
  · obtain ⟨w', h1⟩ := (C03_consume_str_ok s w).1.2 h
    rw [h1]
    refine ⟨s, (C03_consume_str_ok s w).2 _ _ h1, fun w2 r2 hw2 _ => ?_⟩
    obtain ⟨w2', h2⟩ := (C03_consume_str_ok s w2).1.2 ⟨r2, hw2.symm⟩
    refine ⟨w2', h2, ?_⟩
    have := ((C03_consume_str_ok s w2).2 _ _ h2).1
    rw [hw2] at this
    exact (List.append_cancel_left this).symm
  · have ha' : ∀ c ∈ s.dropLast, c.utf8Size = 1 := fun c hc => ha c (List.dropLast_subset s hc)
    obtain ⟨m, h2, h3, h4, h5⟩ : ∃ m, m < s.length ∧ m ≤ w.rem.length ∧ s.take m = w.rem.take m ∧ s[m]? ≠ w.rem[m]? := by
      rcases consumeGo_spec s 0 s w with ⟨_, _, h2, _⟩ | ⟨m, _, _, h2, h3, h4, h5, _⟩
      · exact absurd h2 h
      · exact ⟨m, h2, h3, h4, h5⟩
    have hl := lcp_eq s w.rem m h2 h4 h3 h5
    obtain ⟨w', h6, h7, h8⟩ := C04_consume_str_err_partial s ha' w h
    rw [hl] at h6 h7 h8
    have hlen : (s.take m).length = m := by rw [List.length_take]; omega
    have hrem : w.rem = s.take m ++ w'.rem := by rw [h6, h4, List.take_append_drop]
    have hread : ReadsTo w (s.take m) w' := ⟨hrem, by rw [hlen]; exact h7⟩
    have other : ∀ w2 r2, w2.rem = s.take m ++ r2 → r2.head? = w'.rem.head? → ∃ e' w2', consumeStr s w2 = .err e' w2' ∧ w2'.rem = r2 := by
      intro w2 r2 hw2 hr2
      have hm : w2.rem[m]? = w.rem[m]? := by
        rw [hw2, hrem, List.getElem?_append_right (by omega), List.getElem?_append_right (by omega), hlen, Nat.sub_self,
          ← List.head?_eq_getElem?, ← List.head?_eq_getElem?, hr2]
      have hp : ¬ s <+: w2.rem := by
        rintro ⟨t, ht⟩
        refine h5 ?_
        rw [← hm, ← ht, List.getElem?_append_left h2]
      have hl2 : lcp s w2.rem = m := by
        refine lcp_eq s w2.rem m h2 ?_ (by rw [hw2, List.length_append]; omega) (by rw [hm]; exact h5)
        rw [hw2, List.take_append_of_le_length (by omega), List.take_take, Nat.min_self]
      obtain ⟨w2', h9, -, h11⟩ := C04_consume_str_err_partial s ha' w2 hp
      refine ⟨_, w2', h11, ?_⟩
      rw [h9, hl2, hw2]
      conv => lhs; rw [← hlen]
      rw [hlen, List.drop_append, hlen]
      simp
    rw [h8]
    refine ⟨⟨s.take m, w'.rem, hrem, .inl ?_, fun w2 r2 hw2 hr2 => ?_⟩, s.take m, .inl hread, other⟩
    · rw [hlen, ← h7]
      cases hr : w'.rem with
      | nil => exact ⟨rfl, rfl, trivial⟩
      | cons c r =>
        have hcut : s = s.take m ++ s[m] :: s.drop (m + 1) := by rw [← List.drop_eq_getElem_cons h2, List.take_append_drop]
        refine ⟨rfl, by simp [TakeError.offending], ⟨s.take m, c, s[m], s.drop (m + 1), rfl, hcut, ?_⟩, hs⟩
        rintro rfl
        refine h5 ?_
        rw [hrem, List.getElem?_append_right (by omega), hlen, hr]
        simp [h2]
    · obtain ⟨e', w2', h9, -⟩ := other w2 r2 hw2 hr2
      exact ⟨e', w2', h9⟩

/-- Enough fuel. -/
theorem JLocal.fuel {α : Type} {P : Option Char → Prop} {h : Nat → IW → Res α} (hJ : ∀ n, JLocal P (h n))
    (hm : ∀ n w, h n w ≠ .oof → h (w.left + 1) w = h n w) : JLocal P (fun w => h (w.left + 1) w) := by
  intro w hP
  have h1 := hJ (w.left + 1) w hP
  show JLocalR _ w (h (w.left + 1) w)
  generalize w.left + 1 = N at h1 ⊢
  have key : ∀ w2 r, h N w2 = r → r ≠ .oof → h (w2.left + 1) w2 = r := fun w2 r h2 h3 => (hm N w2 (by rw [h2]; exact h3)).trans h2
  cases hw : h N w with
  | panic => trivial
  | oof => trivial
  | ok v w' =>
    rw [hw] at h1
    obtain ⟨a, ha, h2⟩ := h1
    refine ⟨a, ha, fun w2 r2 hw2 hr2 => ?_⟩
    obtain ⟨w2', h3, h4⟩ := h2 w2 r2 hw2 hr2
    exact ⟨w2', key _ _ h3 (by simp), h4⟩
  | err e w' =>
    rw [hw] at h1
    obtain ⟨⟨p, r, hp1, hp2, hp3⟩, a, ha, h2⟩ := h1
    refine ⟨⟨p, r, hp1, hp2, fun w2 r2 hw2 hr2 => ?_⟩, a, ha, fun w2 r2 hw2 hr2 => ?_⟩
    · obtain ⟨e', w2', h3⟩ := hp3 w2 r2 hw2 hr2
      exact ⟨e', w2', key _ _ h3 (by simp)⟩
    · obtain ⟨e', w2', h3, h4⟩ := h2 w2 r2 hw2 hr2
      exact ⟨e', w2', key _ _ h3 (by simp), h4⟩

/-- `let res = f; g?; res`: what `g` reports takes precedence. -/
def afterwards {α : Type} (f : IW → Res α) (g : IW → Res Unit) (w : IW) : Res α := match f w with
  | .ok v w => (g w).bind fun _ w => .ok v w
  | .err e w => (g w).bind fun _ w => .err e w
  | .panic => .panic
  | .oof => .oof

theorem JLocal.afterwards {α : Type} {P : Option Char → Prop} {f : IW → Res α} {g : IW → Res Unit} (hf : JLocal P f) (hg : JLocal AnyNext g)
    (ht : ∀ w, (∃ w', g w = .ok () w') ∨ ∃ e w', g w = .err e w')
    (he : ∀ w, w.rem = [] → ∃ w', g w = .err (.endOfStream w.pos) w' ∧ w'.rem = [] ∧ w'.pos = w.pos) :
    JLocal P (Chomp.afterwards f g) := by
  intro w hP
  have h1 := hf w hP
  cases hfw : f w with
  | panic => rw [Chomp.afterwards, hfw]; trivial
  | oof => rw [Chomp.afterwards, hfw]; trivial
  | ok v wm =>
    have key : JLocal P (fun w => (f w).bind fun v w => (g w).bind fun _ w => .ok v w) :=
      JLocal.bind hf fun v => JLocal.bind hg fun _ => JLocal.ok v
    have h2 := key w hP
    have h3 : Chomp.afterwards f g w = (f w).bind fun v w => (g w).bind fun _ w => .ok v w := by
      rw [Chomp.afterwards, hfw]; rfl
    rw [h3]
    dsimp only at h2
    have hE : ∀ w2 e w2', ((f w2).bind fun v w => (g w).bind fun _ w => .ok v w) = .err e w2' → ∃ e w2'', Chomp.afterwards f g w2 = .err e w2'' := by
      intro w2 e w2' h
      rw [Chomp.afterwards]
      cases hf2 : f w2 with
      | panic => rw [hf2] at h; cases h
      | oof => rw [hf2] at h; cases h
      | ok v2 wm2 => rw [hf2] at h; exact ⟨_, _, h⟩
      | err e2 wm2 =>
        dsimp only
        rcases ht wm2 with ⟨w3, h4⟩ | ⟨e3, w3, h4⟩ <;> rw [h4] <;> exact ⟨_, _, rfl⟩
    rw [hfw] at h1 h2 ⊢
    obtain ⟨a, ha, h1⟩ := h1
    have h2 : JLocalR (fun w => (f w).bind fun v w => (g w).bind fun _ w => .ok v w) w ((g wm).bind fun _ w => .ok v w) := h2
    show JLocalR _ w ((g wm).bind fun _ w => .ok v w)
    have h4 := hg wm trivial
    cases hgw : g wm with
    | panic => trivial
    | oof => trivial
    | ok u w' =>
      rw [hgw] at h4
      obtain ⟨b, hb, h4⟩ := h4
      refine ⟨a ++ b, ha.trans hb, fun w2 r2 hw hh => ?_⟩
      obtain ⟨wm2, h6, h7⟩ := h1 w2 (b ++ r2) (by rw [hw, List.append_assoc]) (by rw [hb.1]; exact head_append_congr hh)
      obtain ⟨w2', h8, h9⟩ := h4 wm2 r2 h7 hh
      exact ⟨w2', by rw [Chomp.afterwards, h6]; dsimp only; rw [h8]; rfl, h9⟩
    | err e w' =>
      rw [hgw] at h4
      obtain ⟨he, b, hb, h5⟩ := h4
      refine ⟨he.after ha fun w2 r2 hw2 hr2 hf => ?_, a ++ b, ha.transErr hb, fun w2 r2 hw hh => ?_⟩
      · obtain ⟨wm2, h6, h7⟩ := h1 w2 r2 hw2 hr2
        obtain ⟨e', w2', h8⟩ := hf wm2 h7
        exact ⟨e', w2', by rw [Chomp.afterwards, h6]; dsimp only; rw [h8]; rfl⟩
      · obtain ⟨wm2, h6, h7⟩ := h1 w2 (b ++ r2) (by rw [hw, List.append_assoc]) (by rw [hb.rem]; exact head_append_congr hh)
        obtain ⟨e', w2', h8, h9⟩ := h5 wm2 r2 h7 hh
        exact ⟨e', w2', by rw [Chomp.afterwards, h6]; dsimp only; rw [h8]; rfl, h9⟩
  | err e wm =>
    rw [hfw] at h1
    obtain ⟨⟨p, r, hp1, hp2, hp3⟩, a, ha, h1⟩ := h1
    have hA : Chomp.afterwards f g w = (g wm).bind fun _ w => .err e w := by rw [Chomp.afterwards, hfw]
    rw [hA]
    rcases ha with ha | ⟨ha1, ha2, ha3⟩
    · have h4 := hg wm trivial
      cases hgw : g wm with
      | panic => trivial
      | oof => trivial
      | ok u w' =>
        rw [hgw] at h4
        obtain ⟨b, hb, h4⟩ := h4
        refine ⟨⟨p, r, hp1, hp2, fun w2 r2 hw2 hr2 => ?_⟩, a ++ b, .inl (ha.trans hb), fun w2 r2 hw hh => ?_⟩
        · obtain ⟨e', w2', h5⟩ := hp3 w2 r2 hw2 hr2
          rw [Chomp.afterwards, h5]
          dsimp only
          rcases ht w2' with ⟨w3, h6⟩ | ⟨e3, w3, h6⟩ <;> rw [h6] <;> exact ⟨_, _, rfl⟩
        · obtain ⟨e', wm2, h6, h7⟩ := h1 w2 (b ++ r2) (by rw [hw, List.append_assoc]) (by rw [hb.1]; exact head_append_congr hh)
          obtain ⟨w2', h8, h9⟩ := h4 wm2 r2 h7 hh
          exact ⟨e', w2', by rw [Chomp.afterwards, h6]; dsimp only; rw [h8]; rfl, h9⟩
      | err e2 w' =>
        rw [hgw] at h4
        obtain ⟨he, b, hb, h5⟩ := h4
        refine ⟨he.after ha fun w2 r2 hw2 hr2 hf => ?_, a ++ b, ha.transErr hb, fun w2 r2 hw hh => ?_⟩
        · obtain ⟨e3, wm2, h6, h7⟩ := h1 w2 r2 hw2 hr2
          obtain ⟨e', w2', h8⟩ := hf wm2 h7
          exact ⟨e', w2', by rw [Chomp.afterwards, h6]; dsimp only; rw [h8]; rfl⟩
        · obtain ⟨e3, wm2, h6, h7⟩ := h1 w2 (b ++ r2) (by rw [hw, List.append_assoc]) (by rw [hb.rem]; exact head_append_congr hh)
          obtain ⟨e', w2', h8, h9⟩ := h5 wm2 r2 h7 hh
          exact ⟨e', w2', by rw [Chomp.afterwards, h6]; dsimp only; rw [h8]; rfl, h9⟩
    · obtain ⟨w', h2, h3, h4⟩ := he wm ha2
      rw [h2]
      have other : ∀ w2 r2, w2.rem = a ++ r2 → r2 = [] → ∃ e' w2', Chomp.afterwards f g w2 = .err e' w2' ∧ w2'.rem = r2 := by
        intro w2 r2 hw2 hr2
        obtain ⟨e', wm2, h6, h7⟩ := h1 w2 r2 hw2 (by rw [hr2, ha2])
        obtain ⟨w2', h8, h9, -⟩ := he wm2 (by rw [h7, hr2])
        exact ⟨_, w2', by rw [Chomp.afterwards, h6]; dsimp only; rw [h8]; rfl, by rw [h9, hr2]⟩
      refine ⟨⟨a, [], by rw [ha1, List.append_nil], .inr (.inl ⟨rfl, by rw [ha3]⟩), fun w2 r2 hw2 hr2 => ?_⟩, a, .inr ⟨ha1, h3, by rw [h4, ha3]⟩, fun w2 r2 hw2 hr2 => ?_⟩
      · obtain ⟨e', w2', h6, -⟩ := other w2 r2 hw2 (by simpa using hr2)
        exact ⟨e', w2', h6⟩
      · exact other w2 r2 hw2 (by rw [h3] at hr2; simpa using hr2)

/-- The separator check of `Iter::next` (`chewed/src/parse.rs:105-119`). -/
def sepCheck (cfg : IterCfg) (w : IW) : Res Unit := match w.peek with
  | (some c, w) =>
    (if c = cfg.sep then fun w => (fun w => match w.peek with
        | (some c, w) => (if cfg.first.contains c then fun w => .ok () w else fun w => .err (.badBranch w.pos c cfg.first) w) w
        | (none, w) => .err (.endOfStream w.pos) w) w.advance.2
      else if c = cfg.stop then fun w => .ok () w
      else fun w => .err (.badBranch w.pos c cfg.sepStop) w) w
  | (none, w) => .err (.endOfStream w.pos) w

def jsonBranchLists : List (List Char) := [jsonFirst, jsonFirstWs, [',', ']'], [',', '}'], ['"', ' ', '\t', '\n', '\r']]

theorem JLocal.skip {α : Type} {c : Char} {H : IW → Res α} (h : JLocal AnyNext H) : JLocal (· = some c) (fun w => H w.advance.2) := by
  refine JLocal.bind (f := fun w => .ok () w.advance.2) (g := fun _ => H) ?_ fun _ => h
  intro w hw
  cases hr : w.rem with
  | nil => rw [hr] at hw; cases hw
  | cons d r =>
    refine ⟨[d], ReadsTo.advance hr, fun w2 r2 hw2 _ => ⟨_, rfl, ?_⟩⟩
    simp [hw2]

theorem JLocal.sep {cfg : IterCfg} (h1 : cfg.first ∈ jsonBranchLists) (h2 : cfg.sepStop ∈ jsonBranchLists)
    (h3 : ∀ c, c ∈ cfg.sepStop → c = cfg.sep ∨ c = cfg.stop) : JLocal AnyNext (sepCheck cfg) := by
  refine JLocal.peek (fun c => ?_) JLocal.eos
  split
  · refine JLocal.skip (JLocal.peek (fun d => ?_) JLocal.eos)
    split
    · exact JLocal.ok ()
    · next h => exact JLocal.branch (by simpa using h) h1
  · next hs =>
    split
    · exact JLocal.ok ()
    · next ht => exact JLocal.branch (fun hc => (h3 c hc).elim hs ht) h2

theorem sepCheck_total (cfg : IterCfg) (w : IW) : (∃ w', sepCheck cfg w = .ok () w') ∨ ∃ e w', sepCheck cfg w = .err e w' := by
  rw [sepCheck]
  rcases w.peek with ⟨_ | c, w'⟩
  · exact .inr ⟨_, _, rfl⟩
  · dsimp only
    by_cases hs : c = cfg.sep
    · simp only [if_pos hs]
      rcases w'.advance.2.peek with ⟨_ | c, w'⟩
      · exact .inr ⟨_, _, rfl⟩
      · dsimp only
        split
        · exact .inl ⟨_, rfl⟩
        · exact .inr ⟨_, _, rfl⟩
    · simp only [if_neg hs]
      split
      · exact .inl ⟨_, rfl⟩
      · exact .inr ⟨_, _, rfl⟩

theorem sepCheck_nil (cfg : IterCfg) (w : IW) (h : w.rem = []) :
    ∃ w', sepCheck cfg w = .err (.endOfStream w.pos) w' ∧ w'.rem = [] ∧ w'.pos = w.pos := by
  rw [sepCheck, IW.peek_eq, h]
  exact ⟨_, by rw [← IW.peek_pos w]; rfl, by rw [IW.peek_rem, h], IW.peek_pos w⟩

theorem iterAfter_ok_eq {α : Type} (cfg : IterCfg) (a : α) (w : IW) : (match iterAfter cfg (.ok a) w with
    | .done _ => (.oof : Res α) | .item (.ok a) w => .ok a w | .item (.error e) w => .err e w | .panic => .panic | .oof => .oof) =
    (sepCheck cfg w).bind fun _ w => .ok a w := by
  rw [iterAfter, sepCheck]
  rcases w.peek with ⟨_ | c, w'⟩
  · rfl
  · dsimp only
    by_cases hs : c = cfg.sep
    · simp only [hs, if_true]
      rcases w'.advance.2.peek with ⟨_ | c, w'⟩
      · rfl
      · by_cases hf : cfg.first.contains c = true
        · simp only [if_pos hf]; rfl
        · simp only [if_neg hf]; rfl
    · by_cases ht : c = cfg.stop
      · simp only [if_neg hs, if_pos ht]; rfl
      · simp only [if_neg hs, if_neg ht]; rfl

theorem iterAfter_err_eq {α : Type} (cfg : IterCfg) (e : TakeError) (w : IW) : (match iterAfter (α := α) cfg (.error e) w with
    | .done _ => (.oof : Res α) | .item (.ok a) w => .ok a w | .item (.error e) w => .err e w | .panic => .panic | .oof => .oof) =
    (sepCheck cfg w).bind fun _ w => .err e w := by
  rw [iterAfter, sepCheck]
  rcases w.peek with ⟨_ | c, w'⟩
  · rfl
  · dsimp only
    by_cases hs : c = cfg.sep
    · simp only [hs, if_true]
      rcases w'.advance.2.peek with ⟨_ | c, w'⟩
      · rfl
      · by_cases hf : cfg.first.contains c = true
        · simp only [if_pos hf]; rfl
        · simp only [if_neg hf]; rfl
    · by_cases ht : c = cfg.stop
      · simp only [if_neg hs, if_pos ht]; rfl
      · simp only [if_neg hs, if_neg ht]; rfl

theorem iterAfter_not_done {α : Type} (cfg : IterCfg) (r : Except TakeError α) (w w' : IW) : iterAfter cfg r w ≠ .done w' := by
  rw [iterAfter]
  rcases w.peek with ⟨_ | c, w1⟩
  · simp
  · dsimp only
    split
    · rcases w1.advance.2.peek with ⟨_ | c, w2⟩
      · simp
      · dsimp only; split <;> simp
    · split <;> simp

theorem collectIter_eq {α : Type} (cfg : IterCfg) (item : IW → Res α) (n : Nat) : collectIter cfg item (n + 1) = fun w => match w.peek with
    | (some c, w) => (if c = cfg.stop then fun w => .ok [] w
        else fun w => (afterwards item (sepCheck cfg) w).bind fun a w => (collectIter cfg item n w).map (a :: ·)) w
    | (none, w) => .ok [] w := by
  funext w
  rw [collectIter, iterNext]
  rcases w.peek with ⟨_ | c, w'⟩
  · rfl
  · dsimp only
    by_cases hc : c = cfg.stop
    · simp only [if_pos hc]
    · simp only [if_neg hc]
      rw [afterwards]
      cases hi : item w' with
      | panic => rfl
      | oof => rfl
      | ok a w1 =>
        dsimp only
        rw [← iterAfter_ok_eq]
        cases ha : iterAfter cfg (.ok a) w1 with
        | done w2 => exact absurd ha (iterAfter_not_done _ _ _ _)
        | panic => rfl
        | oof => rfl
        | item r w2 => cases r <;> rfl
      | err a w1 =>
        dsimp only
        rw [← iterAfter_err_eq]
        cases ha : iterAfter (α := α) cfg (.error a) w1 with
        | done w2 => exact absurd ha (iterAfter_not_done _ _ _ _)
        | panic => rfl
        | oof => rfl
        | item r w2 => cases r <;> rfl

theorem sepCheck_ok {cfg : IterCfg} {w w' : IW} {u : Unit} (h : sepCheck cfg w = .ok u w') :
    (w.rem.head? = some cfg.stop ∧ w'.rem = w.rem) ∨ w'.rem.length < w.rem.length := by
  rw [sepCheck, IW.peek_eq] at h
  cases hr : w.rem with
  | nil => rw [hr] at h; cases h
  | cons c r =>
    rw [hr] at h
    dsimp only [List.head?_cons] at h
    split at h
    · right
      dsimp only at h
      rw [IW.peek_eq] at h
      have hx : w.peek.2.advance.2.rem = r := by simp [hr]
      rw [hx] at h
      cases hr2 : r with
      | nil => rw [hr2] at h; cases h
      | cons d r2 =>
        rw [hr2] at h
        dsimp only [List.head?_cons] at h
        split at h
        · cases h
          rw [IW.peek_rem, hx, hr2]
          simp
        · cases h
    · split at h
      · next hs => cases h; left; exact ⟨by rw [List.head?_cons, hs], by rw [IW.peek_rem, hr]⟩
      · cases h

/-- An iteration consumes something. -/
theorem afterwards_shorter {α : Type} {cfg : IterCfg} {item : IW → Res α} (hi : JLocal AnyNext item) {w w' : IW} {a : α}
    (hw : w.rem.head? ≠ some cfg.stop) (h : afterwards item (sepCheck cfg) w = .ok a w') : w'.rem.length < w.rem.length := by
  rw [afterwards] at h
  have h1 := hi w trivial
  cases hx : item w with
  | panic => rw [hx] at h; cases h
  | oof => rw [hx] at h; cases h
  | err e wm =>
    rw [hx] at h
    dsimp only at h
    rcases sepCheck_total cfg wm with ⟨w3, h4⟩ | ⟨e3, w3, h4⟩ <;> rw [h4] at h <;> cases h
  | ok v wm =>
    rw [hx] at h h1
    dsimp only at h
    obtain ⟨b, hb, -⟩ := h1
    have hrem := hb.1
    cases hg : sepCheck cfg wm with
    | panic => rw [hg] at h; cases h
    | oof => rw [hg] at h; cases h
    | err e w3 => rw [hg] at h; cases h
    | ok u w3 =>
      rw [hg] at h
      cases h
      have hl : w.rem.length = b.length + wm.rem.length := by rw [hrem, List.length_append]
      rcases sepCheck_ok hg with ⟨h5, h6⟩ | h5
      · cases b with
        | nil => rw [List.nil_append] at hrem; rw [hrem] at hw; exact absurd h5 hw
        | cons x b => rw [h6, hl, List.length_cons]; omega
      · omega

theorem collectIter_fuel {α : Type} {cfg : IterCfg} {item : IW → Res α} (hi : JLocal AnyNext item) :
    ∀ (k n : Nat) (w : IW), w.rem.length < k → collectIter cfg item n w ≠ .oof → collectIter cfg item k w = collectIter cfg item n w
  | 0, _, _, h, _ => absurd h (by omega)
  | _ + 1, 0, _, _, h => absurd rfl h
  | k + 1, n + 1, w, hk, hn => by
    rw [collectIter_eq] at hn ⊢
    rw [collectIter_eq]
    have hh := w.peek_eq
    dsimp only at hn ⊢
    rcases hp : w.peek with ⟨_ | c, w'⟩
    · rfl
    · rw [hp] at hh hn
      dsimp only at hn ⊢
      by_cases hc : c = cfg.stop
      · simp only [if_pos hc]
      · simp only [if_neg hc] at hn ⊢
        have hrem : w'.rem = w.rem := by rw [← w.peek_rem, hp]
        have hhead : w'.rem.head? ≠ some cfg.stop := by
          rw [hrem]
          have : w.rem.head? = some c := by injection hh with h _; exact h.symm
          rw [this]
          exact fun h => hc (Option.some.inj h)
        cases ha : afterwards item (sepCheck cfg) w' with
        | panic => rfl
        | oof => rfl
        | err e w2 => rfl
        | ok a w2 =>
          rw [ha] at hn
          have hlt := afterwards_shorter hi hhead ha
          rw [hrem] at hlt
          show (collectIter cfg item k w2).map _ = (collectIter cfg item n w2).map _
          rw [collectIter_fuel hi k n w2 (by omega)]
          intro h0
          exact hn (by show (collectIter cfg item n w2).map _ = _; rw [h0]; rfl)

theorem JLocal.collect {α : Type} {cfg : IterCfg} {item : IW → Res α} (h1 : cfg.first ∈ jsonBranchLists) (h2 : cfg.sepStop ∈ jsonBranchLists)
    (h3 : ∀ c, c ∈ cfg.sepStop → c = cfg.sep ∨ c = cfg.stop) (hi : JLocal AnyNext item) :
    JLocal AnyNext (fun w => collectIter cfg item (w.left + 1) w) := by
  refine JLocal.fuel (h := collectIter cfg item) (fun n => ?_) fun n w hn => collectIter_fuel hi _ _ w (by rw [IW.left_eq]; omega) hn
  induction n with
  | zero => intro w _; trivial
  | succ n ih =>
    rw [collectIter_eq]
    refine JLocal.peek (fun c => ?_) (JLocal.ok [])
    split
    · exact JLocal.ok []
    · exact JLocal.bind (JLocal.afterwards (hi.mono fun _ _ => trivial) (JLocal.sep h1 h2 h3) (sepCheck_total cfg) (sepCheck_nil cfg))
        fun a => JLocal.map ih

theorem JLocal.u16 (m : Ovf) : JLocal AnyNext (parseU16 m) :=
  JLocal.bind (JLocal.hex 4) fun chars => JLocal.orPanic (o := u16Loop m chars 0) (f := fun out w => .ok out w) fun a => JLocal.ok a

theorem strLoop_eq (m : Ovf) (n : Nat) (s : List Char) : strLoop m (n + 1) s = nextOr fun c w =>
    (if c = '"' then fun w => .ok s w
    else if jsonPlain c then strLoop m n (s ++ [c])
    else if c = '\\' then nextOr fun e w =>
        (match jsonEscape e with
        | some x => strLoop m n (s ++ [x])
        | none => if e = 'u' then fun w => (parseU16 m w).bind fun v w =>
              ((if 0xD800 ≤ v ∧ v ≤ 0xDFFF then fun w => (consumeStr ['\\', 'u'] w).bind fun _ w =>
                    (parseU16 m w).bind fun other w => orPanic (decodePair v other) fun x => .ok x w
                else fun w => .ok v w : IW → Res Nat) w).bind fun codepoint w =>
                  orPanic (charOfU32 codepoint) fun x => strLoop m n (s ++ [x]) w
            else fun _ => .panic) w
    else fun _ => .panic) w := by
  funext w
  rw [strLoop, nextOr]
  rcases w.advance with ⟨_ | c, w'⟩
  · rfl
  · dsimp only
    split
    · rfl
    · split
      · rfl
      · split
        · rw [nextOr]
          rcases w'.advance with ⟨_ | d, w2⟩
          · rfl
          · dsimp only
            cases jsonEscape d with
            | some x => rfl
            | none =>
              dsimp only
              split
              · congr 1
                funext v w
                congr 1
                split <;> rfl
              · rfl
        · rfl

theorem JLocal.str (m : Ovf) : ∀ n s, JLocal AnyNext (strLoop m n s)
  | 0, _ => fun _ _ => trivial
  | n + 1, s => by
    rw [strLoop_eq]
    refine JLocal.next fun c => .inl ?_
    split
    · exact JLocal.ok s
    · split
      · exact JLocal.str m n _
      · split
        · refine JLocal.next fun d => .inl ?_
          cases jsonEscape d with
          | some x => exact JLocal.str m n _
          | none =>
            dsimp only
            split
            · refine JLocal.bind (JLocal.u16 m) fun v => JLocal.bind ?_ fun codepoint =>
                JLocal.orPanic (o := charOfU32 codepoint) (f := fun x w => strLoop m n (s ++ [x]) w) fun x => JLocal.str m n _
              split
              · exact JLocal.bind (JLocal.consume (by decide) (by simp)) fun _ => JLocal.bind (JLocal.u16 m) fun other =>
                  JLocal.orPanic (o := decodePair v other) (f := fun x w => .ok x w) fun x => JLocal.ok x
              · exact JLocal.ok v
            · exact JLocal.panic
        · exact JLocal.panic

theorem orPanic_congr {α β : Type} {o : Option α} {f g : α → Res β} (h : ∀ a, f a = g a) : orPanic o f = orPanic o g := by
  cases o with
  | none => rfl
  | some a => exact h a

theorem Res.bind_same {α β : Type} {r : Res α} {f g : α → IW → Res β} (hne : r.bind f ≠ .oof) (h : ∀ a w, f a w ≠ .oof → g a w = f a w) :
    r.bind g = r.bind f := by
  cases r with
  | ok a w => exact h a w hne
  | err e w => rfl
  | panic => rfl
  | oof => rfl

theorem orPanic_le {α β : Type} {o : Option α} {f g : α → Res β} (hne : orPanic o f ≠ .oof) (h : ∀ a, f a ≠ .oof → g a = f a) :
    orPanic o g = orPanic o f := by
  cases o with
  | none => rfl
  | some a => exact h a hne

theorem strLoop_mono1 (m : Ovf) : ∀ (n : Nat) (s : List Char) (w : IW), strLoop m n s w ≠ .oof → strLoop m (n + 1) s w = strLoop m n s w
  | 0, _, _, h => absurd rfl h
  | n + 1, s, w, h => by
    have ih := strLoop_mono1 m n
    rw [strLoop_eq] at h
    rw [strLoop_eq, strLoop_eq m n]
    cases hr : w.rem with
    | nil => rw [nextOr_nil hr, nextOr_nil hr]
    | cons c r =>
      rw [nextOr_cons hr] at h
      rw [nextOr_cons hr, nextOr_cons hr]
      generalize w.advance.2 = w at h ⊢
      by_cases h1 : c = '"'
      · simp only [if_pos h1]
      · simp only [if_neg h1] at h ⊢
        by_cases h2 : jsonPlain c = true
        · simp only [if_pos h2] at h ⊢; exact ih _ _ h
        · simp only [if_neg h2] at h ⊢
          by_cases h3 : c = '\\'
          · simp only [if_pos h3] at h ⊢
            cases hr : w.rem with
            | nil => rw [nextOr_nil hr, nextOr_nil hr]
            | cons d r =>
              rw [nextOr_cons hr] at h
              rw [nextOr_cons hr, nextOr_cons hr]
              cases he : jsonEscape d with
              | some x => simp only [he] at h ⊢; exact ih _ _ h
              | none =>
                simp only [he] at h ⊢
                by_cases h4 : d = 'u'
                · simp only [if_pos h4] at h ⊢
                  exact Res.bind_same h fun v w h => Res.bind_same h fun v w h => orPanic_le h fun x h => ih _ _ h
                · simp only [if_neg h4]
          · simp only [if_neg h3]

theorem strLoop_mono (m : Ovf) {n : Nat} {s : List Char} {w : IW} (h : strLoop m n s w ≠ .oof) : ∀ {k : Nat}, n ≤ k → strLoop m k s w = strLoop m n s w := by
  intro k hk
  induction hk with
  | refl => rfl
  | step _ ih => rw [strLoop_mono1 m _ _ _ (by rw [ih]; exact h), ih]

theorem JLocal.strAll (m : Ovf) (s : List Char) : JLocal AnyNext (fun w => strLoop m (w.left + 1) s w) := by
  refine JLocal.fuel (h := fun n w => strLoop m n s w) (fun n => JLocal.str m n s) fun n w hn => ?_
  have h1 : strLoop m (w.left + 1) s w ≠ .oof := strLoop_ends m _ _ _ (by rw [IW.left_eq]; omega)
  exact (strLoop_mono m h1 (Nat.le_max_left _ n)).symm.trans (strLoop_mono m hn (Nat.le_max_right _ _))

theorem JLocal.takeStr (m : Ovf) : JLocal AnyNext (jsonTakeStr m) :=
  JLocal.bind (JLocal.consume (by decide) (by simp)) fun _ => JLocal.strAll m []

theorem numLoop_eq (n : Nat) (s : List Char) : numLoop (n + 1) s = fun w => match w.peek with
    | (some c, w) => (if numChar c then fun w => numLoop n (s ++ [c]) w.advance.2 else fun w => .ok s w) w
    | (none, w) => .ok s w := by
  funext w
  rw [numLoop]
  rcases w.peek with ⟨_ | c, w'⟩
  · rfl
  · dsimp only; split <;> rfl

theorem JLocal.num : ∀ n s, JLocal AnyNext (numLoop n s)
  | 0, _ => fun _ _ => trivial
  | n + 1, s => by
    rw [numLoop_eq]
    refine JLocal.peek (fun c => ?_) (JLocal.ok s)
    split
    · exact JLocal.skip (JLocal.num n _)
    · exact JLocal.ok s

theorem numLoop_mono1 : ∀ (n : Nat) (s : List Char) (w : IW), numLoop n s w ≠ .oof → numLoop (n + 1) s w = numLoop n s w
  | 0, _, _, h => absurd rfl h
  | n + 1, s, w, h => by
    rw [numLoop_eq] at h
    rw [numLoop_eq, numLoop_eq n]
    dsimp only at h ⊢
    rcases hp : w.peek with ⟨_ | c, w'⟩
    · rfl
    · rw [hp] at h
      dsimp only at h ⊢
      by_cases hc : numChar c = true
      · simp only [if_pos hc] at h ⊢; exact numLoop_mono1 n _ _ h
      · simp only [if_neg hc]

theorem numLoop_mono {n : Nat} {s : List Char} {w : IW} (h : numLoop n s w ≠ .oof) : ∀ {k : Nat}, n ≤ k → numLoop k s w = numLoop n s w := by
  intro k hk
  induction hk with
  | refl => rfl
  | step _ ih => rw [numLoop_mono1 _ _ _ (by rw [ih]; exact h), ih]

theorem JLocal.numAll (s : List Char) : JLocal AnyNext (fun w => numLoop (w.left + 1) s w) := by
  refine JLocal.fuel (h := fun n w => numLoop n s w) (fun n => JLocal.num n s) fun n w hn => ?_
  have h1 : numLoop (w.left + 1) s w ≠ .oof := numLoop_ends _ _ _ (by rw [IW.left_eq]; omega)
  exact (numLoop_mono h1 (Nat.le_max_left _ n)).symm.trans (numLoop_mono hn (Nat.le_max_right _ _))

theorem JLocal.takeNum (F : F64) (c : Char) : JLocal (· = some c) (Chomp.takeNum F) := by
  intro w hw
  have h := JLocal.skip (c := c) (JLocal.bind (JLocal.numAll [c]) fun s => JLocal.orPanic (o := F.parse s) (f := fun x w => .ok x w) fun x => JLocal.ok x) w hw
  have key : ∀ w2 : IW, w2.rem.head? = some c → Chomp.takeNum F w2 =
      (numLoop (w2.advance.2.left + 1) [c] w2.advance.2).bind fun s w => Chomp.orPanic (F.parse s) fun x => .ok x w := by
    intro w2 h2
    rw [Chomp.takeNum]
    have h3 := w2.advance_fst
    rw [h2] at h3
    rcases hp : w2.advance with ⟨_ | d, w'⟩
    · rw [hp] at h3; cases h3
    · rw [hp] at h3; cases h3; rfl
  rw [key w hw]
  dsimp only at h
  cases hx : (numLoop (w.advance.2.left + 1) [c] w.advance.2).bind fun s w => Chomp.orPanic (F.parse s) fun x => .ok x w with
  | panic => trivial
  | oof => trivial
  | ok v w' =>
    rw [hx] at h
    obtain ⟨a, ha, h⟩ := h
    refine ⟨a, ha, fun w2 r2 hw2 hr2 => ?_⟩
    obtain ⟨w2', h3, h4⟩ := h w2 r2 hw2 hr2
    exact ⟨w2', (key w2 (by rw [hw2, head_append_congr hr2, ← ha.1]; exact hw)).trans h3, h4⟩
  | err v w' =>
    rw [hx] at h
    obtain ⟨⟨p, r, hp1, hp2, hp3⟩, a, ha, h⟩ := h
    refine ⟨⟨p, r, hp1, hp2, fun w2 r2 hw2 hr2 => ?_⟩, a, ha, fun w2 r2 hw2 hr2 => ?_⟩
    · obtain ⟨e', w2', h3⟩ := hp3 w2 r2 hw2 hr2
      exact ⟨e', w2', (key w2 (by rw [hw2, head_append_congr hr2, ← hp1]; exact hw)).trans h3⟩
    · obtain ⟨e', w2', h3, h4⟩ := h w2 r2 hw2 hr2
      exact ⟨e', w2', (key w2 (by rw [hw2, head_append_congr hr2, ← ha.rem]; exact hw)).trans h3, h4⟩

theorem JLocal.member {α : Type} (m : Ovf) {value : IW → Res α} (hv : JLocal AnyNext value) : JLocal AnyNext (takeMember m value) :=
  JLocal.bind (f := fun w => jsonTakeStr m (jsonSkipWs w)) (JLocal.ws (JLocal.takeStr m)) fun key =>
    JLocal.bind (f := fun w => consumeStr [':'] (jsonSkipWs w)) (JLocal.ws (JLocal.consume (by decide) (by simp))) fun _ => JLocal.map hv

theorem JLocal.branches (F : F64) (m : Ovf) {value : IW → Res (JValue F)} (hv : JLocal AnyNext value) (c : Char) :
    JLocal (· = some c) (jsonBranch F m value c) := by
  have e : jsonBranch F m value c =
      if c = 'n' then fun w => (consumeStr "null".toList w).map fun _ => .null
      else if c = 't' then fun w => (consumeStr "true".toList w).map fun _ => .bool true
      else if c = 'f' then fun w => (consumeStr "false".toList w).map fun _ => .bool false
      else if c.isDigit || c == '-' then fun w => (Chomp.takeNum F w).map .number
      else if c = '"' then fun w => (jsonTakeStr m w).map .string
      else if c = '[' then fun w =>
        (consumeStr ['['] w).bind fun _ w =>
          (collectIter arrayCfg value (w.left + 1) w).bind fun l w => (consumeStr [']'] w).map fun _ => .array l
      else if c = '{' then fun w =>
        (consumeStr ['{'] w).bind fun _ w =>
          (collectIter objectCfg (takeMember m value) (w.left + 1) w).bind fun l w =>
            (consumeStr ['}'] w).map fun _ => .object l
      else fun w => .err (.badBranch w.pos c jsonFirst) w := by
    funext w
    rw [jsonBranch]
    repeat' split
    all_goals rfl
  rw [e]
  split
  · exact JLocal.map (JLocal.consume (by decide) (by simp))
  split
  · exact JLocal.map (JLocal.consume (by decide) (by simp))
  split
  · exact JLocal.map (JLocal.consume (by decide) (by simp))
  split
  · exact JLocal.map (JLocal.takeNum F c)
  split
  · exact JLocal.map ((JLocal.takeStr m).mono fun _ _ => trivial)
  split
  · exact JLocal.bind (JLocal.consume (by decide) (by simp)) fun _ =>
      JLocal.bind (f := fun w => collectIter arrayCfg value (w.left + 1) w)
        (JLocal.collect (by simp [jsonBranchLists, arrayCfg]) (by simp [jsonBranchLists, arrayCfg]) (by simp [arrayCfg]) hv)
        fun l => JLocal.map (JLocal.consume (by decide) (by simp))
  split
  · exact JLocal.bind (JLocal.consume (by decide) (by simp)) fun _ =>
      JLocal.bind (f := fun w => collectIter objectCfg (takeMember m value) (w.left + 1) w)
        (JLocal.collect (by simp [jsonBranchLists, objectCfg]) (by simp [jsonBranchLists, objectCfg]) (by simp [objectCfg]) (JLocal.member m hv))
        fun l => JLocal.map (JLocal.consume (by decide) (by simp))
  · next h1 h2 h3 h4 h5 h6 h7 =>
    refine JLocal.branch (fun hc => ?_) (by simp)
    simp only [jsonFirst, List.mem_cons, List.not_mem_nil, or_false] at hc
    rcases hc with rfl | rfl | rfl | rfl | rfl | rfl | rfl | rfl | rfl | rfl | rfl | rfl | rfl | rfl | rfl | rfl | rfl <;> simp_all (decide := true)

theorem takeJson_loc (F : F64) (m : Ovf) : ∀ n, JLocal AnyNext (takeJson F m n)
  | 0 => fun _ _ => trivial
  | n + 1 => by
    have e : takeJson F m (n + 1) = fun w => Res.bind ((fun w => (match w.peek with
        | (some c, w) => jsonBranch F m (takeJson F m n) c w
        | (none, w) => .err (.endOfStream w.pos) w)) (jsonSkipWs w)) fun res w => .ok res (jsonSkipWs w) := by
      funext w
      rw [takeJson]
      dsimp only
      rcases (jsonSkipWs w).peek with ⟨_ | c, w'⟩ <;> rfl
    rw [e]
    exact JLocal.bind (JLocal.ws (JLocal.peek (fun c => JLocal.branches F m (takeJson_loc F m n) c) JLocal.eos)) fun res =>
      JLocal.ws (f := fun w => .ok res w) (JLocal.ok res)

end Chomp
