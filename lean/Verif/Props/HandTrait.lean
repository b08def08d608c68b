import Verif.Bench.HandSim
import Verif.Bench.JsonDepth
import Verif.Props.Stream
import Verif.Props.Json
import Verif.Props.Arith

/-! # C87: the hand-written benchmark parsers on any `Parser`, and what they cost -/

namespace Chomp

variable {σ ι α : Type}

/-- `I`, with a count of the calls of `next` and `peek`. -/
def counted (I : PImpl σ) : PImpl (σ × Nat) where
  next x := ((I.next x.1).1, (I.next x.1).2, x.2 + 1)
  peek x := ((I.peek x.1).1, (I.peek x.1).2, x.2 + 1)
  pos x := I.pos x.1

/-- The contract of `Parser` for a text (see `ReadsInput`), also for calls of `next` at its end, which must return `None`. -/
structure ReadsText (I : PImpl σ) (text : List Char) (R : σ → Nat → Prop) : Prop where
  reads : ReadsInput I (textInput text) R
  stays : ∀ {x k}, R x k → textInput text k = none → (I.next x).1 = none ∧ R (I.next x).2 k

/-- The error with another position. -/
def ParseError.withPos (p : LineCol) : ParseError → ParseError
  | .take e => .take (e.withPos p)
  | .inputContinues _ => .inputContinues p

/-- The same result, up to the position in an error. -/
def SameButPlace : Except ParseError α → ParseRes α → Prop
  | .ok a, .ok b => a = b
  | .error e, .err e' => ∀ p, e.withPos p = e'.withPos p
  | _, _ => False

/-- The same result. -/
def SameResult : Except ParseError α → ParseRes α → Prop
  | .ok a, .ok b => a = b
  | .error e, .err e' => e = e'
  | _, _ => False

/-- A parse ends with one of the outcomes `H`, as far as `same` tells, after at most `N` calls of `next` and `peek`. -/
def EndG.Within (same : Except ParseError α → ParseRes α → Prop) (H : ParseRes α → Prop) (N : Nat) : EndG (σ × Nat) α → Prop
  | .done r y => (∃ r', H r' ∧ same r r') ∧ y.2 ≤ N
  | .panic => H .panic
  | .oof => False

/-! ## Proofs -/

theorem ResRel.sameButPlace {r : Except ParseError α} {r' : ParseRes α} (h : ResRel (fun _ _ => True) r r') : SameButPlace r r' := by
  rcases r with ((e | p) | a) <;> rcases r' with b | (e' | p') | _ | _ <;> first | exact h | exact False.elim h | skip
  intro p
  rcases e with ⟨q, c, l⟩ | ⟨q, c, l⟩ | q <;> rcases e' with ⟨q', c', l'⟩ | ⟨q', c', l'⟩ | q' <;> first | exact False.elim h | skip
  · obtain ⟨-, h1, h2⟩ := h
    subst h1 h2
    rfl
  · obtain ⟨-, h1, h2⟩ := h
    subst h1 h2
    rfl
  · rfl
  · intro p; rfl

theorem ResRel.sameResult {r : Except ParseError α} {r' : ParseRes α} (h : ResRel Eq r r') : SameResult r r' := by
  rcases r with ((e | p) | a) <;> rcases r' with b | (e' | p') | _ | _ <;> first | exact h | exact False.elim h | skip
  · rcases e with ⟨q, c, l⟩ | ⟨q, c, l⟩ | q <;> rcases e' with ⟨q', c', l'⟩ | ⟨q', c', l'⟩ | q' <;> first | exact False.elim h | skip
    · obtain ⟨h0, h1, h2⟩ := h
      subst h0 h1 h2
      rfl
    · obtain ⟨h0, h1, h2⟩ := h
      subst h0 h1 h2
      rfl
    · have h : q = q' := h
      subst h
      rfl
  · have h : p = p' := h
    subst h
    rfl

theorem ReadsText.like {I : PImpl σ} {text : List Char} {R : σ → Nat → Prop} (hI : ReadsText I text R) {L : Nat}
    (hL : text.length < L) : LikeIW (counted I) (fun x w => ∃ k, R x.1 k ∧ w.rem = text.drop k) (fun _ _ => True) (·.2) L where
  peek := by
    rintro x w ⟨k, h1, h2⟩
    obtain ⟨h3, h4, -⟩ := hI.reads.peek h1
    refine ⟨?_, k, h4, by rw [IW.peek_rem, h2]⟩
    show (I.peek x.1).1 = _
    rw [h3, IW.peek_fst, h2, List.head?_drop]
    rfl
  next := by
    rintro x w ⟨k, h1, h2⟩
    have hh : w.rem.head? = textInput text k := by rw [h2, List.head?_drop]; rfl
    cases hk : textInput text k with
    | none =>
      obtain ⟨h3, h4⟩ := hI.stays h1 hk
      refine ⟨?_, k, h4, ?_⟩
      · show (I.next x.1).1 = _
        rw [h3, IW.advance_fst, hh, hk]
      · rw [IW.advance_rem]
        rw [hk] at hh
        rw [← h2, List.head?_eq_none_iff.1 hh, List.tail_nil]
    | some c =>
      obtain ⟨h3, h4⟩ := hI.reads.next h1 (by rw [hk]; simp)
      refine ⟨?_, k + 1, h4, ?_⟩
      · show (I.next x.1).1 = _
        rw [h3, IW.advance_fst, hh]
      · rw [IW.advance_rem, h2, List.tail_drop]
  pos := fun _ => trivial
  cpeek := fun x => Nat.le_refl _
  cnext := fun x => Nat.le_refl _
  len := by
    rintro x w ⟨k, -, h⟩
    rw [h, List.length_drop]
    omega

/-- The states of a wrapper over an iterator that correspond to a state of the model on the text. -/
def IterLike (it : ι → Option Char × ι) (i : ι) (text : List Char) (x : Wrapper ι × Nat) (w : IW) : Prop :=
  x.1.pos = w.pos ∧ x.1.next = w.next ∧ ∃ k, x.1.iter = after it i k ∧ w.iter = text.drop k

theorem IterLike.peek {it : ι → Option Char × ι} {i : ι} {text : List Char} (h : Answers it i (textInput text)) {y : Wrapper ι} {n m : Nat}
    {w : IW} (hx : IterLike it i text (y, n) w) :
    (y.peek it).1 = w.peek.1 ∧ IterLike it i text ((y.peek it).2, m) w.peek.2 ∧ (y.peek it).2.pos = y.pos := by
  obtain ⟨p, nx, it0⟩ := y
  obtain ⟨p', nx', l⟩ := w
  obtain ⟨h1, h2, k, h3, h4⟩ := hx
  dsimp only at h1 h2 h3 h4
  subst h1 h2 h3
  cases nx with
  | some c => exact ⟨rfl, ⟨rfl, rfl, k, rfl, h4⟩, rfl⟩
  | none =>
    have hc := h.call k
    unfold Wrapper.peek IW.peek
    dsimp only
    rcases hit : it (after it i k) with ⟨c, i'⟩
    rw [hit] at hc
    have hn : after it i (k + 1) = i' := by rw [after, hit]
    dsimp only at hc ⊢
    have hh : l.head? = c := by rw [h4, List.head?_drop]; exact hc.symm
    cases l with
    | nil =>
      subst hh
      refine ⟨rfl, ⟨rfl, rfl, k + 1, hn.symm, ?_⟩, by simp⟩
      show [] = _
      rw [← List.tail_drop, ← h4, List.tail_nil]
    | cons d l =>
      subst hh
      refine ⟨rfl, ⟨rfl, rfl, k + 1, hn.symm, ?_⟩, by simp⟩
      show l = _
      rw [← List.tail_drop, ← h4, List.tail_cons]

theorem IterLike.pull {it : ι → Option Char × ι} {i : ι} {text : List Char} (h : Answers it i (textInput text)) {y : Wrapper ι} {n m : Nat}
    {w : IW} (hx : IterLike it i text (y, n) w) :
    (y.pull it).1 = w.pull.1 ∧ IterLike it i text ((y.pull it).2, m) w.pull.2 := by
  obtain ⟨p, nx, it0⟩ := y
  obtain ⟨p', nx', l⟩ := w
  obtain ⟨h1, h2, k, h3, h4⟩ := hx
  dsimp only at h1 h2 h3 h4
  subst h1 h2 h3
  cases nx with
  | some c => exact ⟨rfl, ⟨rfl, rfl, k, rfl, h4⟩⟩
  | none =>
    have hc := h.call k
    unfold Wrapper.pull IW.pull
    dsimp only
    rcases hit : it (after it i k) with ⟨c, i'⟩
    rw [hit] at hc
    have hn : after it i (k + 1) = i' := by rw [after, hit]
    dsimp only at hc ⊢
    have hh : l.head? = c := by rw [h4, List.head?_drop]; exact hc.symm
    cases l with
    | nil =>
      subst hh
      refine ⟨rfl, ⟨rfl, rfl, k + 1, hn.symm, ?_⟩⟩
      show [] = _
      rw [← List.tail_drop, ← h4, List.tail_nil]
    | cons d l =>
      subst hh
      refine ⟨rfl, ⟨rfl, rfl, k + 1, hn.symm, ?_⟩⟩
      show l = _
      rw [← List.tail_drop, ← h4, List.tail_cons]

theorem IterLike.move {it : ι → Option Char × ι} {i : ι} {text : List Char} {y : Wrapper ι} {n m : Nat} {w : IW}
    (hx : IterLike it i text (y, n) w) (p : LineCol) : IterLike it i text ({ y with pos := p }, m) { w with pos := p } :=
  ⟨rfl, hx.2.1, hx.2.2⟩

theorem IterLike.advance {it : ι → Option Char × ι} {i : ι} {text : List Char} (h : Answers it i (textInput text)) {y : Wrapper ι}
    {n m : Nat} {w : IW} (hx : IterLike it i text (y, n) w) :
    (y.advance it).1 = w.advance.1 ∧ IterLike it i text ((y.advance it).2, m) w.advance.2 := by
  unfold Wrapper.advance IW.advance
  obtain ⟨h1, h2⟩ := hx.pull h (m := m)
  rcases hp : y.pull it with ⟨c, y1⟩
  rcases hq : w.pull with ⟨c', w1⟩
  rw [hp, hq] at h1 h2
  dsimp only at h1 h2
  subst h1
  have hpos : y1.pos = w1.pos := h2.1
  cases c with
  | none =>
    dsimp only
    rw [hpos]
    exact ⟨rfl, h2.move _⟩
  | some c =>
    dsimp only
    rw [hpos]
    by_cases hb : isBreak c = true
    · rw [if_pos hb, if_pos hb]
      exact ⟨rfl, h2.move _⟩
    · rw [if_neg hb, if_neg hb]
      by_cases hr : (c == '\x0D') = true
      · rw [if_pos hr, if_pos hr]
        obtain ⟨h3, h4, -⟩ := h2.peek h (m := m)
        rcases hp2 : y1.peek it with ⟨d, y2⟩
        rcases hq2 : w1.peek with ⟨d', w2⟩
        rw [hp2, hq2] at h3 h4
        dsimp only at h3 h4 ⊢
        subst h3
        have hpos2 : y2.pos = w2.pos := h4.1
        rw [hpos2]
        by_cases hd : (d == some '\n') = true
        · rw [if_pos hd, if_pos hd]
          exact ⟨rfl, h4.move _⟩
        · rw [if_neg hd, if_neg hd]
          exact ⟨rfl, h4.move _⟩
      · rw [if_neg hr, if_neg hr]
        exact ⟨rfl, h2.move _⟩

/-- What `EndG.Within` says, for any count and any relation of places. -/
def EndRel (P : LineCol → LineCol → Prop) (κ : σ → Nat) (H : ParseRes α → Prop) (N : Nat) : EndG σ α → Prop
  | .done r y => (∃ r', H r' ∧ ResRel P r r') ∧ κ y ≤ N
  | .panic => H .panic
  | .oof => False

theorem arith_within {I : PImpl σ} {R : σ → IW → Prop} {P : LineCol → LineCol → Prop} {κ : σ → Nat} {L : Nat} (hI : LikeIW I R P κ L)
    (m : Ovf) {text : List Char} {x : σ} (hx : R x (IW.new text)) {n : Nat} (hn : 4 * text.length + 3 ≤ n) :
    EndRel P κ (HandParses m text) (κ x + 8 * text.length + 7) (arithParseG I L m n x) := by
  have hlen : (arithSpaces (IW.new text)).rem.length ≤ text.length := by
    unfold arithSpaces skipWhile
    rw [(skipGo_spec _ _ _ (by rw [IW.left_eq]; exact Nat.le_refl _)).1, IW.rem_new]
    exact (List.dropWhile_sublist _).length_le
  have hne : takeExpr m n (arithSpaces (IW.new text)) ≠ .oof := (arith_ends m n).2.2.2.2 _ (by omega)
  have hS : SimC R P κ 8 (κ x + 8 * text.length + 6) (κ x + 8 * text.length + 6) (takeExpr m n (arithSpaces (IW.new text)))
      ((arithSpacesG I L x).bind fun _ x => takeExprG I L m n x) := by
    refine SimC.skip hI (by omega) _ hx (k := fun w => takeExpr m n w) fun y hy hp => ?_
    have : phi κ 8 x (IW.new text) = κ x + 8 * text.length := by unfold phi; rw [IW.rem_new]
    exact ((arith_simc hI (by omega) m n).2.2.2.2 y _ hy).mono (by omega) (by omega)
  have hE := parseEnd_simc (f := fun w => takeExpr m n (arithSpaces w)) (g := fun x => (arithSpacesG I L x).bind fun _ x =>
    takeExprG I L m n x) hI hS hne
  have hpar : parseWith (fun w => takeExpr m n (arithSpaces w)) (IW.new text) = arithParse m n (IW.new text) := rfl
  rw [hpar] at hE
  have hnoof : arithParse m n (IW.new text) ≠ .oof := by
    unfold arithParse parseWith
    split
    · split <;> simp
    · simp
    · simp
    · rename_i h; exact absurd h hne
  unfold arithParseG
  generalize parseEndG I _ x = e at hE
  cases e with
  | done r y => exact ⟨⟨_, ⟨hnoof, n, rfl⟩, hE.1⟩, by have := hE.2; omega⟩
  | panic => exact ⟨by simp, n, hE⟩
  | oof => exact hE

theorem json_within {I : PImpl σ} {R : σ → IW → Prop} {P : LineCol → LineCol → Prop} {κ : σ → Nat} {L : Nat} (hI : LikeIW I R P κ L)
    (F : F64) (m : Ovf) {text : List Char} {x : σ} (hx : R x (IW.new text)) {n : Nat} (hn : text.countP isOpen < n) :
    EndRel P κ (HandJson F m text) (κ x + 9 * text.length + 5) (jsonParseG I L F m n x) := by
  have hne : takeJson F m n (IW.new text) ≠ .oof := takeJson_ends_opens F m n _ (by unfold IW.opens; rw [IW.rem_new]; exact hn)
  have hphi : phi κ 9 x (IW.new text) = κ x + 9 * text.length := by unfold phi; rw [IW.rem_new]
  have hS := json_simc (A := 9) hI (by omega) F m n x _ hx
  rw [hphi] at hS
  have hE := parseEnd_simc (f := takeJson F m n) (g := takeJsonG I L F m n) hI hS hne
  have hnoof : jsonParse F m n text ≠ .oof := by
    unfold jsonParse parseStr parseWith
    split
    · split <;> simp
    · simp
    · simp
    · rename_i h; exact absurd h hne
  unfold jsonParseG
  generalize parseEndG I _ x = e at hE
  cases e with
  | done r y => exact ⟨⟨_, ⟨hnoof, n, rfl⟩, hE.1⟩, by have := hE.2; omega⟩
  | panic => exact ⟨by simp, n, hE⟩
  | oof => exact hE

theorem IterLike.like {it : ι → Option Char × ι} {i : ι} {text : List Char} (h : Answers it i (textInput text)) {L : Nat}
    (hL : text.length < L) : LikeIW (counted (wrapImpl it)) (fun x w => IterLike it i text x w ∧ w.rem.length ≤ text.length) Eq (·.2) L where
  peek := by
    rintro ⟨y, k⟩ w ⟨h1, h2⟩
    obtain ⟨h3, h4, -⟩ := h1.peek h (m := k + 1)
    exact ⟨h3, h4, by rw [IW.peek_rem]; exact h2⟩
  next := by
    rintro ⟨y, k⟩ w ⟨h1, h2⟩
    obtain ⟨h3, h4⟩ := h1.advance h (m := k + 1)
    exact ⟨h3, h4, by rw [IW.advance_rem, List.length_tail]; omega⟩
  pos := fun h => h.1.1
  cpeek := fun x => Nat.le_refl _
  cnext := fun x => Nat.le_refl _
  len := fun h => by have := h.2; omega

theorem IterLike.start (it : ι → Option Char × ι) (i : ι) (text : List Char) (k : Nat) :
    IterLike it i text (Wrapper.new i, k) (IW.new text) ∧ (IW.new text).rem.length ≤ text.length :=
  ⟨⟨rfl, rfl, 0, rfl, rfl⟩, by rw [IW.rem_new]; exact Nat.le_refl _⟩

theorem EndG.within_of {same : Except ParseError α → ParseRes α → Prop} {P : LineCol → LineCol → Prop} {H : ParseRes α → Prop} {N : Nat}
    {e : EndG (σ × Nat) α} (hs : ∀ r r', ResRel P r r' → same r r') (h : EndRel P (·.2) H N e) : e.Within same H N := by
  cases e with
  | done r y => obtain ⟨⟨r', h1, h2⟩, h3⟩ := h; exact ⟨⟨r', h1, hs _ _ h2⟩, h3⟩
  | panic => exact h
  | oof => exact h

/-! ## The theorems

`L` bounds the number of iterations of each loop over characters, and `n` the calls that are open at a time; the theorems hold whatever
they are, from the given sizes on. -/

/-- **C87** (arithmetic, any parser). `parse_expr` on any implementation of `Parser` that obeys the contract for a text ends as it does on
an `IterWrapper` over the text: with the same value, the same error up to the position, or a panic; and if it ends without a panic, it
has called `next` and `peek` at most `8 k + 7` times, where `k` is the length of the text. -/
theorem C87_arith_any_parser (I : PImpl σ) (R : σ → Nat → Prop) (text : List Char) (hI : ReadsText I text R) (x : σ) (hx : R x 0)
    (m : Ovf) (L n : Nat) (hL : text.length < L) (hn : 4 * text.length + 3 ≤ n) :
    (arithParseG (counted I) L m n (x, 0)).Within SameButPlace (HandParses m text) (8 * text.length + 7) := by
  refine EndG.within_of (P := fun _ _ => True) (fun r r' h => h.sameButPlace) ?_
  have := arith_within (hI.like hL) m (text := text) (x := (x, 0)) ⟨0, hx, by rw [IW.rem_new, List.drop_zero]⟩ hn
  simpa only [Nat.zero_add] using this

/-- **C87** (JSON, any parser). The same for the hand-written JSON parser, with at most `9 k + 5` calls; and calls of `take` for values in
values are nested no deeper than the number of opening brackets and braces in the text. -/
theorem C87_json_any_parser (I : PImpl σ) (R : σ → Nat → Prop) (text : List Char) (hI : ReadsText I text R) (x : σ) (hx : R x 0)
    (F : F64) (m : Ovf) (L n : Nat) (hL : text.length < L) (hn : text.countP isOpen < n) :
    (jsonParseG (counted I) L F m n (x, 0)).Within SameButPlace (HandJson F m text) (9 * text.length + 5) := by
  refine EndG.within_of (P := fun _ _ => True) (fun r r' h => h.sameButPlace) ?_
  have := json_within (hI.like hL) F m (text := text) (x := (x, 0)) ⟨0, hx, by rw [IW.rem_new, List.drop_zero]⟩ hn
  simpa only [Nat.zero_add] using this

/-- **C87** (arithmetic, any iterator). On an `IterWrapper` over any iterator that yields the characters of the text, and then `None`
however often it is asked, the results and the positions are exactly those for the text. -/
theorem C87_arith_iterator (it : ι → Option Char × ι) (i : ι) (text : List Char) (h : Answers it i (textInput text))
    (m : Ovf) (L n : Nat) (hL : text.length < L) (hn : 4 * text.length + 3 ≤ n) :
    (arithParseG (counted (wrapImpl it)) L m n (Wrapper.new i, 0)).Within SameResult (HandParses m text) (8 * text.length + 7) := by
  refine EndG.within_of (P := Eq) (fun r r' h => h.sameResult) ?_
  have := arith_within (IterLike.like h hL) m (text := text) (x := (Wrapper.new i, 0)) (IterLike.start it i text 0) hn
  simpa only [Nat.zero_add] using this

/-- **C87** (JSON, any iterator). -/
theorem C87_json_iterator (it : ι → Option Char × ι) (i : ι) (text : List Char) (h : Answers it i (textInput text))
    (F : F64) (m : Ovf) (L n : Nat) (hL : text.length < L) (hn : text.countP isOpen < n) :
    (jsonParseG (counted (wrapImpl it)) L F m n (Wrapper.new i, 0)).Within SameResult (HandJson F m text) (9 * text.length + 5) := by
  refine EndG.within_of (P := Eq) (fun r r' h => h.sameResult) ?_
  have := json_within (IterLike.like h hL) F m (text := text) (x := (Wrapper.new i, 0)) (IterLike.start it i text 0) hn
  simpa only [Nat.zero_add] using this

variable {I : PImpl σ} {inp : Nat → Option Char} {R : σ → Nat → Prop}

/-- **C87** (`skip_while`, any parser, any input). If the next `j` characters satisfy `f` and there is no further one that does,
`skip_while` ends after having consumed exactly these. -/
theorem C87_skip_while (hI : ReadsInput I inp R) (f : Char → Bool) : ∀ (j : Nat) (x : σ) (k : Nat), R x k →
    (∀ i, i < j → ∃ c, inp (k + i) = some c ∧ f c = true) → (∀ c, inp (k + j) = some c → f c = false) →
    ∀ L, j < L → ∃ y, skipWhileG I f L x = .ok () y ∧ R y (k + j)
  | j, x, k, hx, h1, h2, 0, hL => by omega
  | 0, x, k, hx, h1, h2, L + 1, hL => by
    obtain ⟨h3, h4, -⟩ := hI.peek hx
    rcases hp : I.peek x with ⟨c, x'⟩
    rw [hp] at h3 h4
    dsimp only at h3 h4
    rw [skipWhileG, hp]
    cases c with
    | none => exact ⟨x', rfl, h4⟩
    | some c =>
      dsimp only
      rw [if_neg (by rw [h2 c h3.symm]; simp)]
      exact ⟨x', rfl, h4⟩
  | j + 1, x, k, hx, h1, h2, L + 1, hL => by
    obtain ⟨h3, h4, -⟩ := hI.peek hx
    rcases hp : I.peek x with ⟨c, x'⟩
    rw [hp] at h3 h4
    dsimp only at h3 h4
    obtain ⟨d, h5, h6⟩ := h1 0 (by omega)
    rw [Nat.add_zero] at h5
    rw [h5] at h3
    subst h3
    rw [skipWhileG, hp]
    dsimp only
    rw [if_pos h6]
    obtain ⟨y, h7, h8⟩ := C87_skip_while hI f j (I.next x').2 (k + 1) (hI.next h4 (by rw [h5]; simp)).2
      (fun i hi => by rw [Nat.add_assoc, Nat.add_comm 1]; exact h1 (i + 1) (by omega))
      (fun c hc => h2 c (by rw [← hc]; congr 1; omega)) L (by omega)
    exact ⟨y, h7, by rw [show k + (j + 1) = k + 1 + j by omega]; exact h8⟩

/-- **C87** (`skip_while` on endless input). If all characters to come satisfy `f`, `skip_while` never ends. -/
theorem C87_skip_endless (hI : ReadsInput I inp R) (f : Char → Bool) (hf : ∀ i, ∃ c, inp i = some c ∧ f c = true) :
    ∀ (L : Nat) (x : σ) (k : Nat), R x k → skipWhileG I f L x = .oof
  | 0, x, k, hx => rfl
  | L + 1, x, k, hx => by
    obtain ⟨h3, h4, -⟩ := hI.peek hx
    obtain ⟨d, h5, h6⟩ := hf k
    rcases hp : I.peek x with ⟨c, x'⟩
    rw [hp, h5] at h3
    rw [hp] at h4
    dsimp only at h3 h4
    subst h3
    rw [skipWhileG, hp]
    dsimp only
    rw [if_pos h6]
    exact C87_skip_endless hI f hf L _ (k + 1) (hI.next h4 (by rw [h5]; simp)).2

/-- **C87** (`take_chars_from`, any parser, any input). If the next `n` characters are in the set, they are returned and consumed;
otherwise the error names the first one that is not (which has been consumed, too), or the end of the input, if `next` returns `None`
there. -/
theorem C87_take_chars_from (hI : ReadsInput I inp R) (set : List Char) : ∀ (n : Nat) (x : σ) (k : Nat), R x k →
    ((∀ i, i < n → ∃ c ∈ set, inp (k + i) = some c) → ∃ y, takeCharsFromG I set n x = .ok (pre inp k n) y ∧ R y (k + n)) ∧
    (∀ j c, j < n → (∀ i, i < j → ∃ c ∈ set, inp (k + i) = some c) → inp (k + j) = some c → c ∉ set →
      ∃ y, takeCharsFromG I set n x = .err (.badBranch (I.pos y) c set) y ∧ R y (k + j + 1)) ∧
    (∀ j, j < n → (∀ i, i < j → ∃ c ∈ set, inp (k + i) = some c) → inp (k + j) = none →
      (∀ y m, R y m → inp m = none → (I.next y).1 = none) →
      ∃ y, takeCharsFromG I set n x = .err (.endOfStream (I.pos y)) y)
  | 0, x, k, hx => ⟨fun _ => ⟨x, rfl, hx⟩, fun j c hj => by omega, fun j hj => by omega⟩
  | n + 1, x, k, hx => by
    have first : ∀ c, c ∈ set → inp k = some c → ∃ x', R x' (k + 1) ∧
        takeCharsFromG I set (n + 1) x = (takeCharsFromG I set n x').map (c :: ·) := by
      intro c hc hk
      obtain ⟨h1, h2⟩ := hI.next hx (by rw [hk]; simp)
      rcases hn : I.next x with ⟨d, x'⟩
      rw [hn] at h1 h2
      rw [hk] at h1
      dsimp only at h1 h2
      subst h1
      refine ⟨x', h2, ?_⟩
      rw [takeCharsFromG, hn]
      dsimp only
      rw [if_pos (by simpa using hc)]
    have shift : ∀ i, k + (i + 1) = k + 1 + i := fun i => by omega
    refine ⟨fun h => ?_, fun j c hj h hc hs => ?_, fun j hj h hc hend => ?_⟩
    · obtain ⟨c, h1, h2⟩ := h 0 (by omega)
      obtain ⟨x', h3, h4⟩ := first c h1 h2
      obtain ⟨y, h5, h6⟩ := (C87_take_chars_from hI set n x' (k + 1) h3).1 fun i hi => by
        rw [← shift]; exact h (i + 1) (by omega)
      rw [Nat.add_zero] at h2
      exact ⟨y, by rw [h4, h5, pre, h2]; rfl, by rw [shift]; exact h6⟩
    · cases j with
      | zero =>
        rw [Nat.add_zero] at hc
        obtain ⟨h1, h2⟩ := hI.next hx (by rw [hc]; simp)
        rcases hn : I.next x with ⟨d, x'⟩
        rw [hn] at h1 h2
        rw [hc] at h1
        dsimp only at h1 h2
        subst h1
        refine ⟨x', ?_, h2⟩
        rw [takeCharsFromG, hn]
        dsimp only
        rw [if_neg (by simpa using hs)]
      | succ j =>
        obtain ⟨d, h1, h2⟩ := h 0 (by omega)
        obtain ⟨x', h3, h4⟩ := first d h1 h2
        obtain ⟨y, h5, h6⟩ := (C87_take_chars_from hI set n x' (k + 1) h3).2.1 j c (by omega)
          (fun i hi => by rw [← shift]; exact h (i + 1) (by omega)) (by rw [← shift]; exact hc) hs
        exact ⟨y, by rw [h4, h5]; rfl, by rw [shift]; exact h6⟩
    · cases j with
      | zero =>
        have h1 := hend x k hx (by rw [← hc, Nat.add_zero])
        rcases hn : I.next x with ⟨d, x'⟩
        rw [hn] at h1
        dsimp only at h1
        subst h1
        exact ⟨x', by rw [takeCharsFromG, hn]⟩
      | succ j =>
        obtain ⟨d, h1, h2⟩ := h 0 (by omega)
        obtain ⟨x', h3, h4⟩ := first d h1 h2
        obtain ⟨y, h5⟩ := (C87_take_chars_from hI set n x' (k + 1) h3).2.2 j (by omega)
          (fun i hi => by rw [← shift]; exact h (i + 1) (by omega)) (by rw [← shift]; exact hc) hend
        exact ⟨y, by rw [h4, h5]; rfl⟩

/-! ## Examples -/

/-- The characters of a text are an iterator that yields them. -/
theorem charsNext_answers (text : List Char) : Answers charsNext text (textInput text) := by
  have h : ∀ k, after charsNext text k = text.drop k := by
    intro k
    induction k with
    | zero => rfl
    | succ k ih =>
      rw [after, ih, ← List.tail_drop]
      cases text.drop k <;> rfl
  constructor
  · intro k
    rw [h, textInput, ← List.head?_drop]
    cases text.drop k <;> rfl
  · intro k m hkm hk
    simp only [textInput, List.getElem?_eq_none_iff] at hk ⊢
    omega

/-- The outcome of a parse without the parser that is left, and the number of calls. -/
def EndG.look : EndG (σ × Nat) α → Option (Except ParseError α × Nat)
  | .done r y => some (r, y.2)
  | _ => none

/-- `1 + 2 * 3` takes 39 calls (the bound is 79). -/
example : ((arithParseG (counted (wrapImpl charsNext)) 10 .checked 39 (Wrapper.new "1 + 2 * 3".toList, 0)).look.map fun p =>
    (match p.1 with | .ok v => v | .error _ => -1, p.2)) = some (7, 39) := by
  decide +kernel

/-- Numbers that are not looked at. -/
def plainF : F64 := ⟨Unit, fun _ => some (), fun _ => []⟩

/-- `[{"a" : [1]}, null]` takes 65 calls (the bound is 176), and nests four calls of `take`. -/
example : ((jsonParseG (counted (wrapImpl charsNext)) 20 plainF .checked 4 (Wrapper.new "[{\"a\" : [1]}, null]".toList, 0)).look.map
    fun p => (match p.1 with | .ok _ => true | .error _ => false, p.2)) = some (true, 65) := by
  decide +kernel

example : (jsonParseG (counted (wrapImpl charsNext)) 20 plainF .checked 3 (Wrapper.new "[{\"a\" : [1]}, null]".toList, 0)).look.isNone := by
  decide +kernel

theorem takeJson_deep (F : F64) (m : Ovf) : ∀ (n k : Nat) (w : IW), n < k → w.rem = List.replicate k '[' → takeJson F m n w = .oof
  | 0, k, w, h, hw => rfl
  | n + 1, k + 1, w, h, hw => by
    obtain ⟨j, rfl⟩ : ∃ j, k = j + 1 := ⟨k - 1, by omega⟩
    rw [List.replicate_succ] at hw
    have hs : (jsonSkipWs w).rem = '[' :: List.replicate (j + 1) '[' :=
      jsonSkipWs_of (ws := []) (fun _ h => by cases h) (by intro c hc; cases hc; decide) hw
    obtain ⟨w1, h1, h2⟩ := consume1 (w := (jsonSkipWs w).peek.2) (c := '[') (cs := List.replicate (j + 1) '[')
      (by rw [IW.peek_rem, hs])
    have ih := takeJson_deep F m n (j + 1) w1.peek.2 (by omega) (by rw [IW.peek_rem, h2])
    have hcol : collectIter arrayCfg (takeJson F m n) (w1.left + 1) w1 = .oof := by
      rw [collectIter, iterNext, IW.peek_eq, h2, List.replicate_succ]
      simp only [List.head?_cons]
      rw [if_neg (by decide), ih]
    rw [takeJson, IW.peek_eq, hs]
    simp only [List.head?_cons]
    rw [jsonBranch, if_neg (by decide), if_neg (by decide), if_neg (by decide), if_neg (by decide), if_neg (by decide), if_pos rfl, h1]
    simp only [Res.bind]
    rw [hcol]

/-- **C87** (the recursion of the JSON parser). On `k` opening brackets, `k` calls of `take` are nested: no smaller bound is enough.  So a
text of brackets only exhausts any stack. -/
theorem C87_json_recursion (F : F64) (m : Ovf) (k n : Nat) (h : n < k) : jsonParse F m n (List.replicate k '[') = .oof := by
  unfold jsonParse parseStr parseWith
  rw [takeJson_deep F m n k _ h (IW.rem_new _)]

end Chomp
