import Verif.Chewed.Lemmas
import Verif.Lower.Runtime
import Verif.Lower.RunLemmas

/-!
# Generated code with any implementation of `Parser`

The `take` functions of generated types are generic over `P: Parser` (`chewed/src/parse.rs:181-183`), and `IterWrapper` is generic
over the iterator (`chewed/src/parse.rs:124-179`).  `Chewed/Model.lean` and `Lower/Runtime.lean` model them on an `IterWrapper` over the
characters of a text.  Here is the generic code, and `IterWrapper` over any iterator.
-/

namespace Chomp

/-- `chewed/src/parse.rs:8-13`: the required methods of `Parser`. -/
structure PImpl (σ : Type) where
  next : σ → Option Char × σ
  peek : σ → Option Char × σ
  pos : σ → LineCol

/-- The outcome of a call on a parser with states `σ`. -/
inductive ResG (σ α : Type) where
  | ok (a : α) (x : σ)
  | err (e : TakeError) (x : σ)
  | panic
  | oof

variable {σ α β : Type}

/-- `Result::map`. -/
def ResG.map (f : α → β) : ResG σ α → ResG σ β
  | .ok a x => .ok (f a) x
  | .err e x => .err e x
  | .panic => .panic
  | .oof => .oof

/-- The `?` operator followed by the rest of the function. -/
def ResG.bind (r : ResG σ α) (f : α → σ → ResG σ β) : ResG σ β :=
  match r with
  | .ok a x => f a x
  | .err e x => .err e x
  | .panic => .panic
  | .oof => .oof

/-- `chewed/src/parse.rs:29-43`: the loop of `Parser::consume_str`. -/
def consumeGoG (I : PImpl σ) (s : List Char) : Nat → List Char → σ → ResG σ Unit
  | _, [], x => .ok () x
  | count, exp :: es, x =>
    match I.peek x with
    | (some got, x) =>
      if got = exp then consumeGoG I s (count + 1) es (I.next x).2
      else
        match sliceTo s count with
        | some pre => .err (.badString (I.pos x) (pre ++ [got]) s) x
        | none => .panic
    | (none, x) => .err (.endOfStream (I.pos x)) x

/-- `chewed/src/parse.rs:26-46`: `Parser::consume_str`. -/
def consumeStrG (I : PImpl σ) (s : List Char) (x : σ) : ResG σ Unit := consumeGoG I s 0 s x

/-- `src/lower/mod.rs:250,269`: the parts of a struct. -/
def seqTakeG (f : α → σ → ResG σ Tree) : List α → σ → ResG σ (List Tree)
  | [], x => .ok [] x
  | a :: l, x => (f a x).bind fun t x => (seqTakeG f l x).bind fun ts x => .ok (t :: ts) x

/-- `src/lower/mod.rs:333-356`: `Parse::take` of a generated enum. -/
def altTakeG (I : PImpl σ) (f : α → σ → ResG σ Tree) (tys : List Ty) (xs : List α) (x : σ) : ResG σ Tree :=
  match I.peek x with
  | (p, x) =>
    match altChoose p tys with
    | some k =>
      match xs[k]? with
      | some a => (f a x).map (.alt k)
      | none => .panic
    | none => .err (altFail p (I.pos x) tys) x

/-- `Parse::take` of the generated type `a` (see `run`) with an arbitrary parser. -/
def runG (I : PImpl σ) (step : α → NodeF α) : Nat → α → σ → ResG σ Tree
  | 0, _, _ => .oof
  | n + 1, a, x =>
    match step a with
    | .eps => .ok .eps x
    | .lit s => (consumeStrG I s x).map fun _ => .lit s
    | .cat l => (seqTakeG (runG I step n) l x).map .cat
    | .alt tys l => altTakeG I (runG I step n) tys l x
    | .alias b => runG I step n b x
    | .box b => (runG I step n b x).map .box
    | .bad => .panic

/-- `chewed/src/parse.rs:185-193`: `Parse::parse`, for a given `take`. -/
def parseWithG (I : PImpl σ) (take : σ → ResG σ α) (x : σ) : ParseRes α :=
  match take x with
  | .ok a x =>
    match I.peek x with
    | (some _, x) => .err (.inputContinues (I.pos x))
    | (none, _) => .ok a
  | .err e _ => .err (.take e)
  | .panic => .panic
  | .oof => .oof

/-! ## `IterWrapper` over any iterator -/

/-- `chewed/src/parse.rs:124-128`: `IterWrapper`, over an iterator with states `ι`. -/
structure Wrapper (ι : Type) where
  pos : LineCol
  next : Option Char
  iter : ι

variable {ι : Type}

/-- `chewed/src/parse.rs:131-137`: `IterWrapper::new`. -/
def Wrapper.new (i : ι) : Wrapper ι := ⟨LineCol.init, none, i⟩

/-- `chewed/src/parse.rs:169-175`: `IterWrapper::peek`; `it` is `Iterator::next`. -/
def Wrapper.peek (it : ι → Option Char × ι) (w : Wrapper ι) : Option Char × Wrapper ι :=
  match w.next with
  | some c => (some c, w)
  | none =>
    match it w.iter with
    | (c, i) => (c, { w with next := c, iter := i })

/-- `chewed/src/parse.rs:142`: `self.next.take().or_else(|| self.iter.next())`. -/
def Wrapper.pull (it : ι → Option Char × ι) (w : Wrapper ι) : Option Char × Wrapper ι :=
  match w.next with
  | some c => (some c, { w with next := none })
  | none =>
    match it w.iter with
    | (c, i) => (c, { w with iter := i })

/-- `chewed/src/parse.rs:141-167`: `IterWrapper::next`. -/
def Wrapper.advance (it : ι → Option Char × ι) (w : Wrapper ι) : Option Char × Wrapper ι :=
  match w.pull it with
  | (some c, w) =>
    if isBreak c then (some c, { w with pos := ⟨w.pos.line + 1, 0⟩ })
    else if c == '\x0D' then
      match w.peek it with
      | (p, w) =>
        if p == some '\n' then (some '\x0D', { w with pos := ⟨w.pos.line, w.pos.col + 1⟩ })
        else (some '\x0D', { w with pos := ⟨w.pos.line + 1, 0⟩ })
    else (some c, { w with pos := ⟨w.pos.line, w.pos.col + 1⟩ })
  | (none, w) => (none, { w with pos := ⟨w.pos.line, w.pos.col + 1⟩ })

/-- `chewed/src/parse.rs:140-179`: `impl Parser for IterWrapper`. -/
def wrapImpl (it : ι → Option Char × ι) : PImpl (Wrapper ι) := ⟨Wrapper.advance it, Wrapper.peek it, Wrapper.pos⟩

/-- `str::Chars`: the iterator over the characters of a text. -/
def charsNext : List Char → Option Char × List Char
  | [] => (none, [])
  | c :: l => (some c, l)

/-! ## The model on texts is an instance -/

/-- The wrapper of `Chewed/Model.lean`. -/
def Wrapper.toIW (w : Wrapper (List Char)) : IW := ⟨w.pos, w.next, w.iter⟩

theorem Wrapper.peek_iw (w : Wrapper (List Char)) : w.toIW.peek = ((w.peek charsNext).1, (w.peek charsNext).2.toIW) := by
  obtain ⟨p, _ | c, i⟩ := w
  · cases i <;> rfl
  · rfl

theorem Wrapper.pull_iw (w : Wrapper (List Char)) : w.toIW.pull = ((w.pull charsNext).1, (w.pull charsNext).2.toIW) := by
  obtain ⟨p, _ | c, i⟩ := w
  · cases i <;> rfl
  · rfl

theorem Wrapper.advance_iw (w : Wrapper (List Char)) :
    w.toIW.advance = ((w.advance charsNext).1, (w.advance charsNext).2.toIW) := by
  unfold IW.advance Wrapper.advance
  rw [Wrapper.pull_iw]
  rcases w.pull charsNext with ⟨_ | c, w'⟩
  · rfl
  · dsimp only
    split
    · rfl
    · split
      · rw [Wrapper.peek_iw]
        rcases w'.peek charsNext with ⟨p, w''⟩
        dsimp only
        split <;> rfl
      · rfl

/-- Outcomes on texts. -/
def ResG.toRes : ResG (Wrapper (List Char)) α → Res α
  | .ok a x => .ok a x.toIW
  | .err e x => .err e x.toIW
  | .panic => .panic
  | .oof => .oof

theorem ResG.toRes_map (f : α → β) (r : ResG (Wrapper (List Char)) α) : (r.map f).toRes = r.toRes.map f := by
  cases r <;> rfl

theorem ResG.toRes_bind (r : ResG (Wrapper (List Char)) α) (f : α → Wrapper (List Char) → ResG (Wrapper (List Char)) β)
    (g : α → IW → Res β) (h : ∀ a x, (f a x).toRes = g a x.toIW) : (r.bind f).toRes = r.toRes.bind g := by
  cases r <;> first | rfl | exact h _ _

theorem consumeGoG_iw (s : List Char) : ∀ (es : List Char) (n : Nat) (w : Wrapper (List Char)),
    (consumeGoG (wrapImpl charsNext) s n es w).toRes = consumeGo s n es w.toIW
  | [], n, w => rfl
  | e :: es, n, w => by
    have hP : (wrapImpl charsNext).peek w = w.peek charsNext := rfl
    rw [consumeGoG, consumeGo, Wrapper.peek_iw, hP]
    rcases w.peek charsNext with ⟨_ | c, w'⟩
    · rfl
    · dsimp only
      split
      · rw [consumeGoG_iw s es, Wrapper.advance_iw]; rfl
      · cases sliceTo s n <;> rfl

theorem seqTakeG_iw {f : α → Wrapper (List Char) → ResG (Wrapper (List Char)) Tree} {g : α → IW → Res Tree}
    (h : ∀ a x, (f a x).toRes = g a x.toIW) : ∀ (l : List α) (w : Wrapper (List Char)), (seqTakeG f l w).toRes = seqTake g l w.toIW
  | [], w => rfl
  | a :: l, w => by
    rw [seqTakeG, seqTake, ResG.toRes_bind _ _ (fun t w => (seqTake g l w).bind fun ts w => .ok (t :: ts) w) ?_, h]
    intro t x
    rw [ResG.toRes_bind _ _ (fun ts w => .ok (t :: ts) w) (fun ts x => rfl), seqTakeG_iw h l]

/-- On an `IterWrapper` over the characters of a text the generic code is the code modelled before. -/
theorem runG_iw (step : α → NodeF α) : ∀ (n : Nat) (a : α) (w : Wrapper (List Char)),
    (runG (wrapImpl charsNext) step n a w).toRes = run step n a w.toIW
  | 0, a, w => rfl
  | n + 1, a, w => by
    have ih := runG_iw step n
    rw [runG, run]
    cases step a with
    | eps => rfl
    | lit s => simp only [ResG.toRes_map, consumeStrG, consumeGoG_iw, consumeStr]
    | cat l => simp only [ResG.toRes_map, seqTakeG_iw ih]
    | alt tys l =>
      dsimp only
      unfold altTakeG altTake
      have hP : (wrapImpl charsNext).peek w = w.peek charsNext := rfl
      rw [Wrapper.peek_iw, hP]
      rcases w.peek charsNext with ⟨p, w'⟩
      dsimp only
      cases altChoose p tys with
      | none => rfl
      | some j =>
        dsimp only
        cases l[j]? with
        | none => rfl
        | some b => dsimp only; rw [ResG.toRes_map, ih]
    | alias b => exact ih b w
    | box b => simp only [ResG.toRes_map, ih]
    | bad => rfl

/-! ## What a parser must do -/

/-- The contract of `Parser` for an input that consists of the characters `s 0`, `s 1`, ... up to the first `none`, if there is one:
`R x k` says that in the state `x`, `k` characters have been consumed.  `peek` returns the next character and consumes nothing; `next`
returns and consumes it (nothing is asked of `next` at the end of the input, or of the position otherwise). -/
structure ReadsInput (I : PImpl σ) (s : Nat → Option Char) (R : σ → Nat → Prop) : Prop where
  peek : ∀ {x k}, R x k → (I.peek x).1 = s k ∧ R (I.peek x).2 k ∧ I.pos (I.peek x).2 = I.pos x
  next : ∀ {x k}, R x k → s k ≠ none → (I.next x).1 = s k ∧ R (I.next x).2 (k + 1)

/-- The first `N` characters of an input, from the `k`-th on. -/
def pre (s : Nat → Option Char) : Nat → Nat → List Char
  | _, 0 => []
  | k, N + 1 =>
    match s k with
    | some c => c :: pre s (k + 1) N
    | none => []

theorem pre_head {s : Nat → Option Char} {k N : Nat} (h : 1 ≤ N) : (pre s k N).head? = s k := by
  cases N with
  | zero => omega
  | succ N => rw [pre]; cases s k <;> rfl

theorem pre_tail {s : Nat → Option Char} {k N : Nat} (h : s k ≠ none) : (pre s k (N + 1)).tail = pre s (k + 1) N := by
  rw [pre]
  cases hs : s k with
  | none => exact absurd hs h
  | some c => rfl

/-- The error with another position. -/
def TakeError.withPos (p : LineCol) : TakeError → TakeError
  | .badBranch _ c e => .badBranch p c e
  | .badString _ g e => .badString p g e
  | .endOfStream _ => .endOfStream p

/-- The input has characters number `k`, ..., `k + j - 1`. -/
def Avail (s : Nat → Option Char) (k j : Nat) : Prop := ∀ i, i < j → s (k + i) ≠ none

theorem Avail.add {s : Nat → Option Char} {k i j : Nat} (h1 : Avail s k i) (h2 : Avail s (k + i) j) : Avail s k (i + j) := by
  intro m hm
  rcases Nat.lt_or_ge m i with h | h
  · exact h1 m h
  · have := h2 (m - i) (by omega)
    rw [show k + i + (m - i) = k + m by omega] at this
    exact this

theorem Avail.zero {s : Nat → Option Char} {k : Nat} : Avail s k 0 := fun _ h => by omega

theorem Avail.one {s : Nat → Option Char} {k : Nat} (h : s k ≠ none) : Avail s k 1 := fun i hi => by
  rw [show i = 0 by omega]; exact h

theorem Avail.pre {s : Nat → Option Char} {k j : Nat} (h : Avail s k j) (N : Nat) :
    pre s k (j + N) = Chomp.pre s k j ++ Chomp.pre s (k + j) N ∧ (Chomp.pre s k j).length = j := by
  induction j generalizing k with
  | zero => simp [Chomp.pre]
  | succ j ih =>
    have h0 := h 0 (by omega)
    rw [Nat.add_zero] at h0
    obtain ⟨h1, h2⟩ := ih (k := k + 1) (fun i hi => by rw [show k + 1 + i = k + (i + 1) by omega]; exact h (i + 1) (by omega))
    rw [show j + 1 + N = (j + N) + 1 by omega, Chomp.pre, Chomp.pre]
    cases hs : s k with
    | none => exact absurd hs h0
    | some c =>
      dsimp only
      rw [h1, show k + (j + 1) = k + 1 + j by omega, List.cons_append, List.length_cons, h2]
      exact ⟨rfl, rfl⟩

/-- The outcome `g`, in a state in which `k` characters have been consumed, is that of `f` on every long enough finite beginning of the
remaining input; the error, except for its position, is the same. -/
def SimG (I : PImpl σ) (s : Nat → Option Char) (R : σ → Nat → Prop) (k : Nat) (f : IW → Res α) : ResG σ α → Prop
  | .ok a x => ∃ j K, R x (k + j) ∧ Avail s k j ∧ ∀ N w, K ≤ N → w.rem = pre s k (j + N) →
      ∃ w', f w = .ok a w' ∧ w'.rem = pre s (k + j) N
  | .err e x => ∃ j K, R x (k + j) ∧ Avail s k j ∧ e = e.withPos (I.pos x) ∧ ∀ N w, K ≤ N → w.rem = pre s k (j + N) →
      ∃ w', f w = .err (e.withPos w'.pos) w' ∧ w'.rem = pre s (k + j) N
  | .panic => ∃ K, ∀ N w, K ≤ N → w.rem = pre s k N → f w = .panic
  | .oof => ∃ K, ∀ N w, K ≤ N → w.rem = pre s k N → f w = .oof

variable {I : PImpl σ} {s : Nat → Option Char} {R : σ → Nat → Prop}

theorem SimG.map {k : Nat} {f : IW → Res α} {g : ResG σ α} (h : SimG I s R k f g) (m : α → β) :
    SimG I s R k (fun w => (f w).map m) (g.map m) := by
  cases g with
  | ok a x =>
    obtain ⟨j, K, h1, ha, h2⟩ := h
    refine ⟨j, K, h1, ha, fun N w hN hw => ?_⟩
    obtain ⟨w', h3, h4⟩ := h2 N w hN hw
    exact ⟨w', by dsimp only; rw [h3]; rfl, h4⟩
  | err e x =>
    obtain ⟨j, K, h1, ha, h0, h2⟩ := h
    refine ⟨j, K, h1, ha, h0, fun N w hN hw => ?_⟩
    obtain ⟨w', h3, h4⟩ := h2 N w hN hw
    exact ⟨w', by dsimp only; rw [h3]; rfl, h4⟩
  | panic =>
    obtain ⟨K, h2⟩ := h
    exact ⟨K, fun N w hN hw => by dsimp only; rw [h2 N w hN hw]; rfl⟩
  | oof =>
    obtain ⟨K, h2⟩ := h
    exact ⟨K, fun N w hN hw => by dsimp only; rw [h2 N w hN hw]; rfl⟩

theorem SimG.bind {k : Nat} {f : IW → Res α} {g : ResG σ α} (h : SimG I s R k f g) {f' : α → IW → Res β} {g' : α → σ → ResG σ β}
    (h' : ∀ a x k', g = .ok a x → R x k' → SimG I s R k' (f' a) (g' a x)) :
    SimG I s R k (fun w => (f w).bind f') (g.bind g') := by
  cases g with
  | ok a x =>
    obtain ⟨j, K, h1, ha, h2⟩ := h
    have h3 := h' a x _ rfl h1
    show SimG I s R k _ (g' a x)
    cases hg : g' a x with
    | ok b y =>
      rw [hg] at h3
      obtain ⟨j', K', h4, hb, h5⟩ := h3
      refine ⟨j + j', max K K', by rw [← Nat.add_assoc]; exact h4, ha.add hb, fun N w hN hw => ?_⟩
      obtain ⟨w1, h6, h7⟩ := h2 (j' + N) w (by omega) (by rw [hw, Nat.add_assoc])
      obtain ⟨w2, h8, h9⟩ := h5 N w1 (by omega) h7
      exact ⟨w2, by dsimp only; rw [h6]; exact h8, by rw [h9, Nat.add_assoc]⟩
    | err e y =>
      rw [hg] at h3
      obtain ⟨j', K', h4, hb, h0, h5⟩ := h3
      refine ⟨j + j', max K K', by rw [← Nat.add_assoc]; exact h4, ha.add hb, h0, fun N w hN hw => ?_⟩
      obtain ⟨w1, h6, h7⟩ := h2 (j' + N) w (by omega) (by rw [hw, Nat.add_assoc])
      obtain ⟨w2, h8, h9⟩ := h5 N w1 (by omega) h7
      exact ⟨w2, by dsimp only; rw [h6]; exact h8, by rw [h9, Nat.add_assoc]⟩
    | panic =>
      rw [hg] at h3
      obtain ⟨K', h5⟩ := h3
      refine ⟨j + max K K', fun N w hN hw => ?_⟩
      obtain ⟨w1, h6, h7⟩ := h2 (N - j) w (by omega) (by rw [hw]; congr 1; omega)
      dsimp only
      rw [h6]
      exact h5 (N - j) w1 (by omega) h7
    | oof =>
      rw [hg] at h3
      obtain ⟨K', h5⟩ := h3
      refine ⟨j + max K K', fun N w hN hw => ?_⟩
      obtain ⟨w1, h6, h7⟩ := h2 (N - j) w (by omega) (by rw [hw]; congr 1; omega)
      dsimp only
      rw [h6]
      exact h5 (N - j) w1 (by omega) h7
  | err e x =>
    obtain ⟨j, K, h1, ha, h0, h2⟩ := h
    refine ⟨j, K, h1, ha, h0, fun N w hN hw => ?_⟩
    obtain ⟨w', h3, h4⟩ := h2 N w hN hw
    exact ⟨w', by dsimp only; rw [h3]; rfl, h4⟩
  | panic =>
    obtain ⟨K, h2⟩ := h
    exact ⟨K, fun N w hN hw => by dsimp only; rw [h2 N w hN hw]; rfl⟩
  | oof =>
    obtain ⟨K, h2⟩ := h
    exact ⟨K, fun N w hN hw => by dsimp only; rw [h2 N w hN hw]; rfl⟩

theorem SimG.congr {k : Nat} {f f' : IW → Res α} {g : ResG σ α} (h : SimG I s R k f g) (hf : ∀ w, f' w = f w) : SimG I s R k f' g := by
  have : f' = f := funext hf
  rw [this]; exact h

theorem SimG.done {k : Nat} (a : α) {x : σ} (h : R x k) : SimG I s R k (fun w => .ok a w) (.ok a x) :=
  ⟨0, 0, h, .zero, fun N w _ hw => ⟨w, rfl, by rw [hw, Nat.zero_add, Nat.add_zero]⟩⟩

theorem consumeGoG_sim (hI : ReadsInput I s R) (str : List Char) : ∀ (es : List Char) (n : Nat) (x : σ) (k : Nat), R x k →
    SimG I s R k (consumeGo str n es) (consumeGoG I str n es x)
  | [], n, x, k, h => ⟨0, 0, h, .zero, fun N w _ hw => ⟨w, rfl, by rw [hw, Nat.zero_add, Nat.add_zero]⟩⟩
  | e :: es, n, x, k, h => by
    obtain ⟨h1, h2, h3⟩ := hI.peek h
    rw [consumeGoG]
    rcases hp : I.peek x with ⟨p, x'⟩
    rw [hp] at h1 h2 h3
    dsimp only at h1 h2 h3
    cases p with
    | none =>
      dsimp only
      refine ⟨0, 1, h2, .zero, rfl, fun N w hN hw => ?_⟩
      have hh : w.rem.head? = none := by rw [hw, pre_head (by omega), ← h1]
      refine ⟨w.peek.2, ?_, by rw [IW.peek_rem, hw, Nat.zero_add, Nat.add_zero]⟩
      rw [consumeGo, IW.peek_eq, hh]
      rfl
    | some got =>
      dsimp only
      split
      · rename_i hge
        obtain ⟨h4, h5⟩ := hI.next h2 (by rw [← h1]; simp)
        have ih := consumeGoG_sim hI str es (n + 1) _ _ h5
        have key : ∀ M w, w.rem = pre s k (M + 1) → consumeGo str n (e :: es) w = consumeGo str (n + 1) es w.peek.2.advance.2 ∧
            w.peek.2.advance.2.rem = pre s (k + 1) M := by
          intro M w hw
          have hh : w.rem.head? = some got := by rw [hw, pre_head (by omega), ← h1]
          refine ⟨?_, ?_⟩
          · rw [consumeGo, IW.peek_eq, hh]
            dsimp only
            rw [if_pos hge]
          · rw [IW.advance_rem, IW.peek_rem, hw, pre_tail (by rw [← h1]; simp)]
        cases hg : consumeGoG I str (n + 1) es (I.next x').2 with
        | ok a y =>
          rw [hg] at ih
          obtain ⟨j, K, h6, hv, h7⟩ := ih
          refine ⟨1 + j, K, by rw [← Nat.add_assoc]; exact h6, (Avail.one (by rw [← h1]; simp)).add hv, fun N w hN hw => ?_⟩
          obtain ⟨k1, k2⟩ := key (j + N) w (by rw [hw]; congr 1; omega)
          obtain ⟨w', h8, h9⟩ := h7 N _ hN k2
          exact ⟨w', by rw [k1, h8], by rw [h9, Nat.add_assoc]⟩
        | err e' y =>
          rw [hg] at ih
          obtain ⟨j, K, h6, hv, h0, h7⟩ := ih
          refine ⟨1 + j, K, by rw [← Nat.add_assoc]; exact h6, (Avail.one (by rw [← h1]; simp)).add hv, h0, fun N w hN hw => ?_⟩
          obtain ⟨k1, k2⟩ := key (j + N) w (by rw [hw]; congr 1; omega)
          obtain ⟨w', h8, h9⟩ := h7 N _ hN k2
          exact ⟨w', by rw [k1, h8], by rw [h9, Nat.add_assoc]⟩
        | panic =>
          rw [hg] at ih
          obtain ⟨K, h7⟩ := ih
          refine ⟨K + 1, fun N w hN hw => ?_⟩
          obtain ⟨k1, k2⟩ := key (N - 1) w (by rw [hw]; congr 1; omega)
          rw [k1, h7 (N - 1) _ (by omega) k2]
        | oof =>
          rw [hg] at ih
          obtain ⟨K, h7⟩ := ih
          refine ⟨K + 1, fun N w hN hw => ?_⟩
          obtain ⟨k1, k2⟩ := key (N - 1) w (by rw [hw]; congr 1; omega)
          rw [k1, h7 (N - 1) _ (by omega) k2]
      · rename_i hge
        have key : ∀ N w, 1 ≤ N → w.rem = pre s k N → consumeGo str n (e :: es) w =
            match sliceTo str n with
            | some pre => .err (.badString w.peek.2.pos (pre ++ [got]) str) w.peek.2
            | none => .panic := by
          intro N w hN hw
          have hh : w.rem.head? = some got := by rw [hw, pre_head hN, ← h1]
          rw [consumeGo, IW.peek_eq, hh]
          dsimp only
          rw [if_neg hge]
          rfl
        split
        · rename_i p hs
          refine ⟨0, 1, h2, .zero, rfl, fun N w hN hw => ⟨w.peek.2, ?_, by rw [IW.peek_rem, hw, Nat.zero_add, Nat.add_zero]⟩⟩
          rw [key N w hN (by rw [hw, Nat.zero_add]), hs]
          rfl
        · rename_i hs
          refine ⟨1, fun N w hN hw => ?_⟩
          rw [key N w hN hw, hs]

theorem seqTakeG_sim {f : α → IW → Res Tree} {g : α → σ → ResG σ Tree} (h : ∀ a x k, R x k → SimG I s R k (f a) (g a x)) :
    ∀ (l : List α) (x : σ) (k : Nat), R x k → SimG I s R k (seqTake f l) (seqTakeG g l x)
  | [], x, k, hR => SimG.done [] hR
  | a :: l, x, k, hR =>
    ((h a x k hR).bind (f' := fun t w => (seqTake f l w).bind fun ts w => .ok (t :: ts) w)
      fun t y k' _ hy => (seqTakeG_sim h l y k' hy).bind (f' := fun ts w => .ok (t :: ts) w)
        fun ts _ _ _ hz => SimG.done (t :: ts) hz)

/-- Running with any parser that obeys the contract is like running on a long enough beginning of its input. -/
theorem runG_sim (hI : ReadsInput I s R) (step : α → NodeF α) : ∀ (n : Nat) (a : α) (x : σ) (k : Nat), R x k →
    SimG I s R k (run step n a) (runG I step n a x)
  | 0, a, x, k, h => ⟨0, fun _ _ _ _ => rfl⟩
  | n + 1, a, x, k, h => by
    have ih := runG_sim hI step n
    have hr : ∀ w, run step (n + 1) a w = _ := fun w => by rw [run]
    rw [runG]
    cases hs : step a with
    | eps => exact (SimG.done Tree.eps h).congr fun w => by rw [hr, hs]
    | lit str => exact ((consumeGoG_sim hI str str 0 x k h).map fun _ => Tree.lit str).congr fun w => by rw [hr, hs]; rfl
    | cat l => exact ((seqTakeG_sim ih l x k h).map Tree.cat).congr fun w => by rw [hr, hs]
    | alias b => exact (ih b x k h).congr fun w => by rw [hr, hs]
    | box b => exact ((ih b x k h).map Tree.box).congr fun w => by rw [hr, hs]
    | bad => exact ⟨0, fun N w _ _ => by rw [hr, hs]⟩
    | alt tys l =>
      dsimp only
      unfold altTakeG
      obtain ⟨h1, h2, h3⟩ := hI.peek h
      rcases hp : I.peek x with ⟨p, x'⟩
      rw [hp] at h1 h2 h3
      dsimp only at h1 h2 h3 ⊢
      have key : ∀ N w, 1 ≤ N → w.rem = pre s k N → run step (n + 1) a w = match altChoose p tys with
          | some j =>
            match l[j]? with
            | some b => (run step n b w.peek.2).map (.alt j)
            | none => .panic
          | none => .err (altFail p w.peek.2.pos tys) w.peek.2 := by
        intro N w hN hw
        have hh : w.rem.head? = p := by rw [hw, pre_head hN, ← h1]
        rw [hr, hs]
        dsimp only
        unfold altTake
        rw [IW.peek_eq, hh]
        rfl
      cases hc : altChoose p tys with
      | none =>
        dsimp only
        refine ⟨0, 1, h2, .zero, ?_, fun N w hN hw => ⟨w.peek.2, ?_, by rw [IW.peek_rem, hw, Nat.zero_add, Nat.add_zero]⟩⟩
        · unfold altFail; split <;> rfl
        · rw [key N w hN (by rw [hw, Nat.zero_add]), hc]
          dsimp only
          unfold altFail
          split <;> rfl
      | some j =>
        dsimp only
        cases hb : l[j]? with
        | none => exact ⟨1, fun N w hN hw => by rw [key N w hN hw, hc]; dsimp only; rw [hb]⟩
        | some b =>
          dsimp only
          have h4 := (ih b x' k h2).map (Tree.alt j)
          have key' : ∀ N w, 1 ≤ N → w.rem = pre s k N → run step (n + 1) a w = (run step n b w.peek.2).map (.alt j) := by
            intro N w hN hw
            rw [key N w hN hw, hc]
            dsimp only
            rw [hb]
          cases hg : (runG I step n b x').map (Tree.alt j) with
          | ok t y =>
            rw [hg] at h4
            obtain ⟨i, K, h5, hv, h6⟩ := h4
            refine ⟨i, K + 1, h5, hv, fun N w hN hw => ?_⟩
            obtain ⟨w', h7, h8⟩ := h6 N w.peek.2 (by omega) (by rw [IW.peek_rem, hw])
            exact ⟨w', by rw [key' _ w (by omega) hw]; exact h7, h8⟩
          | err e y =>
            rw [hg] at h4
            obtain ⟨i, K, h5, hv, h0, h6⟩ := h4
            refine ⟨i, K + 1, h5, hv, h0, fun N w hN hw => ?_⟩
            obtain ⟨w', h7, h8⟩ := h6 N w.peek.2 (by omega) (by rw [IW.peek_rem, hw])
            exact ⟨w', by rw [key' _ w (by omega) hw]; exact h7, h8⟩
          | panic =>
            rw [hg] at h4
            obtain ⟨K, h6⟩ := h4
            exact ⟨K + 1, fun N w hN hw => by
              rw [key' _ w (by omega) hw]; exact h6 N w.peek.2 (by omega) (by rw [IW.peek_rem, hw])⟩
          | oof =>
            rw [hg] at h4
            obtain ⟨K, h6⟩ := h4
            exact ⟨K + 1, fun N w hN hw => by
              rw [key' _ w (by omega) hw]; exact h6 N w.peek.2 (by omega) (by rw [IW.peek_rem, hw])⟩

end Chomp
