import Verif.Lower.Trait
import Verif.Props.Shared
import Verif.Props.Munch
import Verif.Props.Viable

/-! # C77: generated parsers on any `Parser`, any iterator, endless input -/

namespace Chomp

variable {σ : Type}

/-- `take` of the generated type `j` on the parser `I` in the state `x` ends with `r`. -/
def TakesG (I : PImpl σ) (s : BState) (j : Nat) (x : σ) (r : ResG σ Tree) : Prop := r ≠ .oof ∧ ∃ n, runG I s.step n j x = r

/-- `parse` of the generated type `j` on the parser `I` in the state `x` ends with `r`. -/
def ParsesG (I : PImpl σ) (s : BState) (j : Nat) (x : σ) (r : ParseRes Tree) : Prop :=
  r ≠ .oof ∧ ∃ n, parseWithG I (runG I s.step n j) x = r

/-- The characters of a text, by number. -/
def textInput (text : List Char) : Nat → Option Char := fun k => text[k]?

theorem pre_text (text : List Char) : ∀ (N k : Nat), pre (textInput text) k N = (text.drop k).take N
  | 0, k => by simp [pre]
  | N + 1, k => by
    rw [pre]
    cases h : textInput text k with
    | none =>
      have : text.length ≤ k := by simpa [textInput] using h
      simp [List.drop_eq_nil_iff.2 this]
    | some c =>
      dsimp only
      obtain ⟨h1, h2⟩ := List.getElem?_eq_some_iff.1 h
      rw [pre_text text N (k + 1), List.drop_eq_getElem_cons h1, h2, List.take_succ_cons]

theorem Avail.text {text : List Char} {j : Nat} (h : Avail (textInput text) 0 j) : j ≤ text.length := by
  rcases Nat.lt_or_ge text.length j with h1 | h1
  · exact absurd (by simp [textInput]) (h text.length h1)
  · exact h1

/-! ## Finite input -/

/-- **C77** (any parser). Let `I` be any implementation of `Parser` that obeys the contract of its methods for the input `text`.
`take` of any generated type on `I` ends if and only if it ends on the `IterWrapper` over the text, and in the same way: with the same
tree, the same error up to the position, or a panic, after having consumed the same characters; the position in an error is the one that
the parser gives in that state. -/
theorem C77_any_parser (I : PImpl σ) (R : σ → Nat → Prop) (text : List Char) (hI : ReadsInput I (textInput text) R) (x : σ) (hx : R x 0)
    (s : BState) (j : Nat) :
    ((∃ r, TakesG I s j x r) ↔ ∃ r, Takes s j (IW.new text) r) ∧
    (∀ t y, TakesG I s j x (.ok t y) → ∃ w', Takes s j (IW.new text) (.ok t w') ∧ R y (text.length - w'.rem.length)) ∧
    (∀ e y, TakesG I s j x (.err e y) → e = e.withPos (I.pos y) ∧
      ∃ w', Takes s j (IW.new text) (.err (e.withPos w'.pos) w') ∧ R y (text.length - w'.rem.length)) ∧
    (TakesG I s j x .panic → Takes s j (IW.new text) .panic) := by
  have key := fun n => runG_sim hI s.step n j x 0 hx
  have big : ∀ (K i : Nat), (IW.new text).rem = pre (textInput text) 0 (i + (K + text.length)) := by
    intro K i
    rw [pre_text, IW.rem_new, List.drop_zero, List.take_of_length_le (by omega)]
  have big' : ∀ (K i : Nat), pre (textInput text) i (K + text.length) = text.drop i := by
    intro K i
    rw [pre_text, List.take_of_length_le (by simp; omega)]
  have rest : ∀ (K i : Nat) (w' : IW), Avail (textInput text) 0 i → w'.rem = pre (textInput text) (0 + i) (K + text.length) →
      text.length - w'.rem.length = 0 + i := by
    intro K i w' hv hw
    have := hv.text
    rw [hw, big', List.length_drop]
    omega
  refine ⟨⟨?_, ?_⟩, ?_, ?_, ?_⟩
  · rintro ⟨r, hr, n, hn⟩
    have hk := key n
    rw [hn] at hk
    cases r with
    | ok a y =>
      obtain ⟨i, K, -, -, h4⟩ := hk
      obtain ⟨w', h5, -⟩ := h4 _ _ (Nat.le_add_right K text.length) (big K i)
      exact ⟨_, by simp, n, h5⟩
    | err e y =>
      obtain ⟨i, K, -, -, -, h4⟩ := hk
      obtain ⟨w', h5, -⟩ := h4 _ _ (Nat.le_add_right K text.length) (big K i)
      exact ⟨_, by simp, n, h5⟩
    | panic =>
      obtain ⟨K, h4⟩ := hk
      exact ⟨.panic, by simp, n, h4 (0 + (K + text.length)) _ (by omega) (big K 0)⟩
    | oof => exact absurd rfl hr
  · rintro ⟨r, hr, n, hn⟩
    refine ⟨_, ?_, n, rfl⟩
    intro ho
    have hk := key n
    rw [ho] at hk
    obtain ⟨K, h4⟩ := hk
    have h5 : s.take n j (IW.new text) = .oof := h4 (0 + (K + text.length)) _ (by omega) (big K 0)
    rw [h5] at hn
    exact hr hn.symm
  · rintro t y ⟨-, n, hn⟩
    have hk := key n
    rw [hn] at hk
    obtain ⟨i, K, h2, h3, h4⟩ := hk
    obtain ⟨w', h5, h6⟩ := h4 _ _ (Nat.le_add_right K text.length) (big K i)
    exact ⟨w', ⟨by simp, n, h5⟩, by rw [rest K i w' h3 h6]; exact h2⟩
  · rintro e y ⟨-, n, hn⟩
    have hk := key n
    rw [hn] at hk
    obtain ⟨i, K, h2, h3, h7, h4⟩ := hk
    obtain ⟨w', h5, h6⟩ := h4 _ _ (Nat.le_add_right K text.length) (big K i)
    exact ⟨h7, w', ⟨by simp, n, h5⟩, by rw [rest K i w' h3 h6]; exact h2⟩
  · rintro ⟨-, n, hn⟩
    have hk := key n
    rw [hn] at hk
    obtain ⟨K, h4⟩ := hk
    exact ⟨by simp, n, h4 (0 + (K + text.length)) _ (by omega) (big K 0)⟩

/-- **C77** (`parse`). If moreover the parser keeps track of lines and columns, `parse` returns exactly what `parse_str` returns for the
text. -/
theorem C77_any_parser_parse (I : PImpl σ) (R : σ → Nat → Prop) (text : List Char) (hI : ReadsInput I (textInput text) R) (x : σ)
    (hx : R x 0) (hpos : ∀ y k, R y k → k ≤ text.length → I.pos y = ⟨specLine text k, specCol text k⟩) (s : BState) (j : Nat)
    (r : ParseRes Tree) : ParsesG I s j x r ↔ Parses s j text r := by
  have same : ∀ n, parseWithG I (runG I s.step n j) x = parseStr (s.take n j) text := by
    intro n
    have hk := runG_sim hI s.step n j x 0 hx
    have big : ∀ (K i : Nat), (IW.new text).rem = pre (textInput text) 0 (i + (K + text.length)) := by
      intro K i
      rw [pre_text, IW.rem_new, List.drop_zero, List.take_of_length_le (by omega)]
    have big' : ∀ (K i : Nat), pre (textInput text) i (K + text.length) = text.drop i := by
      intro K i
      rw [pre_text, List.take_of_length_le (by simp; omega)]
    have htake : ∀ w, s.take n j w = run s.step n j w := fun _ => rfl
    rw [parseWithG, parseStr, parseWith, htake]
    cases hg : runG I s.step n j x with
    | ok a y =>
      rw [hg] at hk
      obtain ⟨i, K, h2, h3, h4⟩ := hk
      obtain ⟨w', h5, h6⟩ := h4 _ _ (Nat.le_add_right K text.length) (big K i)
      rw [h5]
      dsimp only
      rw [Nat.zero_add] at h2 h6
      rw [big'] at h6
      obtain ⟨p1, p2, p3⟩ := hI.peek h2
      have hle := h3.text
      have hr := run_text n j _ _ _ h5
      have hlen := hr.length
      rw [IW.rem_new, h6, List.length_drop] at hlen
      have hw : w'.pos = I.pos y := by
        rw [hr.pos_spec, hpos y i h2 hle, show a.text.length = i by omega]
      rw [IW.peek_eq, h6, List.head?_drop]
      rcases hp : I.peek y with ⟨_ | c, y'⟩
      · rw [hp] at p1
        have : text[i]? = none := p1.symm
        rw [this]
      · rw [hp] at p1 p3
        have : text[i]? = some c := p1.symm
        rw [this]
        dsimp only at p3 ⊢
        rw [p3, ← hw, IW.peek_pos]
    | err e y =>
      rw [hg] at hk
      obtain ⟨i, K, h2, h3, h7, h4⟩ := hk
      obtain ⟨w', h5, h6⟩ := h4 _ _ (Nat.le_add_right K text.length) (big K i)
      rw [h5]
      dsimp only
      rw [Nat.zero_add] at h2 h6
      rw [big'] at h6
      have hle := h3.text
      obtain ⟨⟨p, hr⟩, -⟩ := run_err n j _ _ _ h5
      have hlen := hr.length
      rw [IW.rem_new, h6, List.length_drop] at hlen
      have hw : w'.pos = I.pos y := by
        rw [hr.pos_spec, hpos y i h2 hle, show p.length = i by omega]
      rw [hw, ← h7]
    | panic =>
      rw [hg] at hk
      obtain ⟨K, h4⟩ := hk
      rw [h4 (0 + (K + text.length)) _ (by omega) (big K 0)]
    | oof =>
      rw [hg] at hk
      obtain ⟨K, h4⟩ := hk
      rw [h4 (0 + (K + text.length)) _ (by omega) (big K 0)]
  unfold ParsesG Parses
  constructor
  · rintro ⟨h, n, rfl⟩; exact ⟨h, n, (same n).symm⟩
  · rintro ⟨h, n, rfl⟩; exact ⟨h, n, same n⟩

/-! ## Any iterator -/

variable {ι : Type}

/-- The state of an iterator after `k` calls of `next`. -/
def after (it : ι → Option Char × ι) (i : ι) : Nat → ι
  | 0 => i
  | k + 1 => (it (after it i k)).2

/-- The `k`-th call of `next` returns `inp k`, and after the first `None` always `None`. -/
structure Answers (it : ι → Option Char × ι) (i : ι) (inp : Nat → Option Char) : Prop where
  call : ∀ k, (it (after it i k)).1 = inp k
  fused : ∀ k m, k ≤ m → inp k = none → inp m = none

/-- Position after `k` characters. -/
def posS (inp : Nat → Option Char) : Nat → LineCol
  | 0 => ⟨1, 0⟩
  | k + 1 => advPos (posS inp k) (pre inp k 2)

theorem advPos_pre (p : LineCol) (inp : Nat → Option Char) (k N : Nat) : advPos p (pre inp k (N + 2)) = advPos p (pre inp k 2) := by
  have h : ∀ N, pre inp k (N + 2) = match inp k with | some c => c :: pre inp (k + 1) (N + 1) | none => [] := fun N => rfl
  rw [h, h 0]
  cases inp k with
  | none => rfl
  | some c => rw [advPos, advPos, pre_head (by omega), pre_head (by omega)]

theorem posS_eq (inp : Nat → Option Char) : ∀ (k : Nat), Avail inp 0 k → ∀ M, k + 1 ≤ M → advPosN ⟨1, 0⟩ k (pre inp 0 M) = posS inp k
  | 0, _, M, _ => rfl
  | k + 1, h, M, hM => by
    have h1 : Avail inp 0 k := fun i hi => h i (by omega)
    obtain ⟨h2, h3⟩ := h1.pre (M - k)
    rw [advPosN_succ, posS_eq inp k h1 M (by omega), posS]
    rw [show k + (M - k) = M by omega, Nat.zero_add] at h2
    rw [h2, List.drop_append_of_le_length (by omega), List.drop_of_length_le (by omega), List.nil_append,
      show M - k = (M - k - 2) + 2 by omega, advPos_pre]

/-- The wrapper has delivered `k` characters. -/
def WR (it : ι → Option Char × ι) (i : ι) (inp : Nat → Option Char) (w : Wrapper ι) (k : Nat) : Prop :=
  Avail inp 0 k ∧ w.pos = posS inp k ∧
    ((∃ c, w.next = some c ∧ inp k = some c ∧ w.iter = after it i (k + 1)) ∨
      (w.next = none ∧ ∃ m, w.iter = after it i m ∧ (m = k ∨ (k ≤ m ∧ inp k = none))))

theorem WR.new (it : ι → Option Char × ι) (i : ι) (inp : Nat → Option Char) : WR it i inp (Wrapper.new i) 0 :=
  ⟨.zero, rfl, .inr ⟨rfl, 0, rfl, .inl rfl⟩⟩

theorem WR.peek {it : ι → Option Char × ι} {i : ι} {inp : Nat → Option Char} (h : Answers it i inp) {w : Wrapper ι} {k : Nat}
    (hw : WR it i inp w k) : (w.peek it).1 = inp k ∧ WR it i inp (w.peek it).2 k ∧ (w.peek it).2.pos = w.pos := by
  obtain ⟨h1, h2, ⟨c, h3, h4, h5⟩ | ⟨h3, m, h4, h5⟩⟩ := hw
  · rw [Wrapper.peek, h3]
    exact ⟨h4.symm, ⟨h1, h2, .inl ⟨c, h3, h4, h5⟩⟩, rfl⟩
  · have hc : (it w.iter).1 = inp k := by
      rw [h4, h.call]
      rcases h5 with rfl | ⟨h5, h6⟩
      · rfl
      · rw [h6, h.fused k m h5 h6]
    have hi : (it w.iter).2 = after it i (m + 1) := by rw [h4, after]
    rw [Wrapper.peek, h3]
    rcases hp : it w.iter with ⟨c, i'⟩
    rw [hp] at hc hi
    dsimp only at hc hi ⊢
    refine ⟨hc, ⟨h1, h2, ?_⟩, rfl⟩
    cases c with
    | some c =>
      rcases h5 with rfl | ⟨h5, h6⟩
      · exact .inl ⟨c, rfl, hc.symm, hi⟩
      · rw [h6] at hc; cases hc
    | none =>
      refine .inr ⟨rfl, m + 1, hi, .inr ⟨?_, hc.symm⟩⟩
      rcases h5 with rfl | ⟨h5, h6⟩ <;> omega

theorem WR.next {it : ι → Option Char × ι} {i : ι} {inp : Nat → Option Char} (h : Answers it i inp) {w : Wrapper ι} {k : Nat}
    (hw : WR it i inp w k) (hk : inp k ≠ none) : (w.advance it).1 = inp k ∧ WR it i inp (w.advance it).2 (k + 1) := by
  obtain ⟨h1, h2, h3⟩ := hw
  have ha : Avail inp 0 (k + 1) := h1.add (by rw [Nat.zero_add]; exact Avail.one hk)
  cases hc : inp k with
  | none => exact absurd hc hk
  | some c =>
    have hp : ∃ w', w.pull it = (some c, w') ∧ w'.pos = w.pos ∧ w'.next = none ∧ w'.iter = after it i (k + 1) := by
      rcases h3 with ⟨d, h3, h4, h5⟩ | ⟨h3, m, h4, h5⟩
      · rw [hc] at h4
        cases h4
        exact ⟨{ w with next := none }, by rw [Wrapper.pull, h3], rfl, rfl, h5⟩
      · rcases h5 with rfl | ⟨-, h6⟩
        · have e1 : (it w.iter).1 = some c := by rw [h4, h.call, hc]
          have e2 : (it w.iter).2 = after it i (m + 1) := by rw [h4, after]
          rcases hq : it w.iter with ⟨d, i'⟩
          rw [hq] at e1 e2
          dsimp only at e1 e2
          subst e1
          exact ⟨{ w with iter := i' }, by rw [Wrapper.pull, h3]; dsimp only; rw [hq], rfl, h3, e2⟩
        · exact absurd h6 hk
    obtain ⟨w', e1, e2, e3, e4⟩ := hp
    have hpre : pre inp k 2 = c :: pre inp (k + 1) 1 := by rw [pre, hc]
    rw [Wrapper.advance, e1]
    dsimp only
    have hR : ∀ p, p = posS inp (k + 1) → WR it i inp { w' with pos := p } (k + 1) :=
      fun p hp => ⟨ha, hp, .inr ⟨e3, k + 1, e4, .inl rfl⟩⟩
    have hpos : posS inp (k + 1) = advPos w'.pos (c :: pre inp (k + 1) 1) := by rw [posS, hpre, e2, h2]
    by_cases hb : isBreak c = true
    · rw [if_pos hb]
      exact ⟨rfl, hR _ (by rw [hpos, advPos, if_pos hb])⟩
    · rw [if_neg hb]
      by_cases hd : c = '\x0D'
      · rw [if_pos (by simp [hd])]
        have hq := WR.peek h (w := { w' with pos := posS inp (k + 1) }) (hR _ rfl)
        have hsame : ∀ p, ({ w' with pos := p } : Wrapper ι).peek it = ((w'.peek it).1, { (w'.peek it).2 with pos := p }) := by
          intro p
          unfold Wrapper.peek
          rw [e3]
        rw [hsame] at hq
        rcases hpk : w'.peek it with ⟨d, w''⟩
        rw [hpk] at hq
        have hpos'' : w''.pos = w'.pos := by
          have : (w'.peek it).2.pos = w'.pos := by unfold Wrapper.peek; rw [e3]
          rw [hpk] at this
          exact this
        obtain ⟨q1, q2, -⟩ := hq
        dsimp only at q1 q2 ⊢
        subst hd
        rw [advPos, if_neg hb, if_pos rfl, pre_head (by omega), ← q1, ← hpos''] at hpos
        by_cases hn : d = some '\n'
        · rw [if_pos hn] at hpos
          rw [if_pos (by simp [hn]), ← hpos]
          exact ⟨rfl, q2⟩
        · rw [if_neg hn] at hpos
          rw [if_neg (by simpa using hn), ← hpos]
          exact ⟨rfl, q2⟩
      · rw [if_neg (by simpa using hd)]
        exact ⟨rfl, hR _ (by rw [hpos, advPos, if_neg hb, if_neg hd])⟩

/-- An `IterWrapper` over an iterator obeys the contract of `Parser`. -/
theorem wrapper_reads {it : ι → Option Char × ι} {i : ι} {inp : Nat → Option Char} (h : Answers it i inp) :
    ReadsInput (wrapImpl it) inp (WR it i inp) :=
  ⟨fun hx => hx.peek h, fun hx hk => hx.next h hk⟩

/-- **C77** (any iterator). `parse` on an `IterWrapper` over any iterator that yields the characters of a text, and then `None` however
often it is asked, returns exactly what `parse_str` returns for the text, with the same positions. -/
theorem C77_iterator (it : ι → Option Char × ι) (i : ι) (text : List Char) (h : Answers it i (textInput text)) (s : BState) (j : Nat)
    (r : ParseRes Tree) : ParsesG (wrapImpl it) s j (Wrapper.new i) r ↔ Parses s j text r := by
  refine C77_any_parser_parse (wrapImpl it) _ text (wrapper_reads h) _ (WR.new it i _) ?_ s j r
  rintro y k ⟨h1, h2, -⟩ hk
  show y.pos = _
  rw [h2, ← posS_eq _ k h1 (k + 1 + text.length) (by omega), pre_text, List.drop_zero, List.take_of_length_le (by omega)]
  exact advPosN_spec text k hk

/-! ## The outcome is unique -/

theorem ResG.map_fuel {α β : Type} {f : α → β} {r q : ResG σ α} (h : r ≠ .oof → q = r) (hn : r.map f ≠ .oof) : q.map f = r.map f := by
  cases r with
  | oof => exact absurd rfl hn
  | ok a x => rw [h (by simp)]
  | err e x => rw [h (by simp)]
  | panic => rw [h (by simp)]

theorem seqTakeG_fuel {α : Type} {f g : α → σ → ResG σ Tree} (h : ∀ a x, f a x ≠ .oof → g a x = f a x) : ∀ {l : List α} {x : σ},
    seqTakeG f l x ≠ .oof → seqTakeG g l x = seqTakeG f l x
  | [], x, _ => rfl
  | a :: l, x, hn => by
    simp only [seqTakeG] at hn ⊢
    cases hx : f a x with
    | oof => rw [hx] at hn; exact absurd rfl hn
    | err e y => rw [h a x (by rw [hx]; simp), hx]; rfl
    | panic => rw [h a x (by rw [hx]; simp), hx]; rfl
    | ok t y =>
      rw [hx] at hn
      rw [h a x (by rw [hx]; simp), hx]
      simp only [ResG.bind] at hn ⊢
      rw [seqTakeG_fuel h (l := l) (x := y) (by intro e; apply hn; rw [e])]

theorem runG_fuel {α : Type} {I : PImpl σ} {f : α → NodeF α} : ∀ {n m : Nat} {a : α} {x : σ}, n ≤ m → runG I f n a x ≠ .oof →
    runG I f m a x = runG I f n a x
  | 0, _, _, _, _, h => absurd rfl h
  | n + 1, 0, _, _, hm, _ => by omega
  | n + 1, m + 1, a, x, hm, h => by
    have ih : ∀ (a : α) (x : σ), runG I f n a x ≠ .oof → runG I f m a x = runG I f n a x := fun a x => runG_fuel (by omega)
    simp only [runG] at h ⊢
    cases hs : f a with
    | eps => rfl
    | lit s => rfl
    | cat l =>
      rw [hs] at h
      exact ResG.map_fuel (fun h => seqTakeG_fuel ih h) h
    | alt tys l =>
      rw [hs] at h
      simp only [altTakeG] at h ⊢
      cases hc : altChoose (I.peek x).1 tys with
      | none => rfl
      | some k =>
        rw [hc] at h
        dsimp only at h ⊢
        cases hx : l[k]? with
        | none => rfl
        | some b =>
          rw [hx] at h
          dsimp only at h ⊢
          exact ResG.map_fuel (ih b _) h
    | alias b => rw [hs] at h; exact ih b x h
    | box b =>
      rw [hs] at h
      exact ResG.map_fuel (ih b x) h
    | bad => rfl

theorem TakesG.unique {I : PImpl σ} {s : BState} {j : Nat} {x : σ} {r r' : ResG σ Tree} (h : TakesG I s j x r) (h' : TakesG I s j x r') :
    r = r' := by
  obtain ⟨h1, n, rfl⟩ := h
  obtain ⟨h2, m, rfl⟩ := h'
  rcases Nat.le_total n m with hl | hl
  · exact (runG_fuel hl h1).symm
  · exact runG_fuel hl h2

/-! ## Endless input -/

theorem pre_avail {inp : Nat → Option Char} {j : Nat} : ∀ {k : Nat}, (pre inp k j).length = j → Avail inp k j := by
  induction j with
  | zero => intro k _; exact .zero
  | succ j ih =>
    intro k h
    rw [pre] at h
    cases hc : inp k with
    | none => rw [hc] at h; simp at h
    | some c =>
      rw [hc] at h
      simp only [List.length_cons, Nat.add_right_cancel_iff] at h
      rw [Nat.add_comm j 1]
      exact (Avail.one (by rw [hc]; simp)).add (ih h)

theorem pre_end {inp : Nat → Option Char} : ∀ {j k N : Nat}, inp (k + j) = none → j ≤ N → pre inp k N = pre inp k j
  | 0, k, N, h, _ => by
    rw [Nat.add_zero] at h
    cases N with
    | zero => rfl
    | succ N =>
      show pre inp k (N + 1) = []
      rw [pre]
      rw [h]
  | j + 1, k, 0, h, hN => by omega
  | j + 1, k, N + 1, h, hN => by
    rw [pre, pre, pre_end (j := j) (k := k + 1) (N := N) (by rw [← h]; congr 1; omega) (by omega)]

theorem pre_one {inp : Nat → Option Char} {k N : Nat} {c : Char} (h : inp k = some c) : pre inp k (N + 1) = c :: pre inp (k + 1) N := by
  rw [pre, h]

/-- The beginning of a word. -/
def Gram.Begins (g : Gram) (p : List Char) : Prop := ∃ v, g.language v ∧ p <+: v

variable {I : PImpl σ} {inp : Nat → Option Char} {R : σ → Nat → Prop}

/-- If `run` ends on a beginning of the input before its end, it does not run out of fuel on the whole input. -/
theorem stream_local {s : BState} {j n k : Nat} {q : Res Tree} {w' : IW} (hq : (∃ e, q = .err e w') ∨ ∃ t, q = .ok t w')
    (hn : run s.step n j (IW.new (pre inp 0 k)) = q) (hr : w'.rem ≠ [] ∨ inp k = none) (N : Nat) (hN : k ≤ N) :
    ∃ q', run s.step n j (IW.new (pre inp 0 N)) = q' ∧
      ((∃ e w, q = .err e w' ∧ q' = .err e w) ∨ ∃ t w, q = .ok t w' ∧ q' = .ok t w) := by
  rcases hr with hr | hr
  · cases hc : w'.rem with
    | nil => exact absurd hc hr
    | cons c r =>
      have hp : ∃ p, Reach (IW.new (pre inp 0 k)) p w' := by
        rcases hq with ⟨e, rfl⟩ | ⟨t, rfl⟩
        · exact (run_err n j _ _ _ hn).1
        · exact ⟨_, run_text n j _ _ _ hn⟩
      obtain ⟨p, hp⟩ := hp
      have hp1 : pre inp 0 k = p ++ c :: r := by have := hp.1; rwa [IW.rem_new, hc] at this
      have hpre : ∃ r2, pre inp 0 N = pre inp 0 k ++ r2 := by
        cases hl : decide ((pre inp 0 k).length = k) with
        | true =>
          have ha := pre_avail (of_decide_eq_true hl)
          obtain ⟨h1, -⟩ := ha.pre (N - k)
          rw [show k + (N - k) = N by omega] at h1
          exact ⟨_, h1⟩
        | false =>
          -- the input ends before
          have hex : ∃ m, m < k ∧ inp m = none := by
            refine Classical.byContradiction fun hno => ?_
            have ha : Avail inp 0 k := fun i hi hin => hno ⟨i, hi, by rwa [Nat.zero_add] at hin⟩
            have := (ha.pre 0).2
            rw [this] at hl
            simp at hl
          obtain ⟨m, hm, hmn⟩ := hex
          refine ⟨[], ?_⟩
          rw [pre_end (j := m) (k := 0) (N := N) (by rwa [Nat.zero_add]) (by omega),
            pre_end (j := m) (k := 0) (N := k) (by rwa [Nat.zero_add]) (by omega), List.append_nil]
      obtain ⟨r2, hr2⟩ := hpre
      have hl := run_local (f := s.step) (c := c) (r1 := r) (r2 := r ++ r2) n j (IW.new (pre inp 0 k)) (IW.new (pre inp 0 N))
        ⟨p, by rw [IW.rem_new, hp1], by rw [IW.rem_new, hr2, hp1]; simp, rfl⟩ (by
          rw [hn]
          rcases hq with ⟨e, rfl⟩ | ⟨t, rfl⟩ <;> simp [Res.Ends, hc])
      rw [hn] at hl
      refine ⟨_, rfl, ?_⟩
      generalize run s.step n j (IW.new (pre inp 0 N)) = q' at hl
      rcases hq with ⟨e, rfl⟩ | ⟨t, rfl⟩
      · cases hl with
        | err _ _ w2 _ => exact .inl ⟨_, _, rfl, rfl⟩
      · cases hl with
        | ok _ _ w2 _ => exact .inr ⟨_, _, rfl, rfl⟩
  · rw [pre_end (j := k) (k := 0) (N := N) (by rwa [Nat.zero_add]) hN, hn]
    refine ⟨q, rfl, ?_⟩
    rcases hq with ⟨e, rfl⟩ | ⟨t, rfl⟩
    · exact .inl ⟨_, _, rfl, rfl⟩
    · exact .inr ⟨_, _, rfl, rfl⟩

/-- A successful `take` on any input, seen on a beginning of it. -/
theorem TakesG.ok_text {s : BState} {j : Nat} {x : σ} (hI : ReadsInput I inp R) (hx : R x 0) {t : Tree} {y : σ}
    (h : TakesG I s j x (.ok t y)) : R y t.text.length ∧ Avail inp 0 t.text.length ∧ pre inp 0 t.text.length = t.text ∧
      ∃ K, ∀ N, K ≤ N → ∃ w', Takes s j (IW.new (pre inp 0 (t.text.length + N))) (.ok t w') ∧ w'.rem = pre inp t.text.length N := by
  obtain ⟨-, n, hn⟩ := h
  have hk := runG_sim hI s.step n j x 0 hx
  rw [hn] at hk
  obtain ⟨i, K, h2, h3, h4⟩ := hk
  rw [Nat.zero_add] at h2
  have hi : pre inp 0 i = t.text := by
    obtain ⟨w', h5, h6⟩ := h4 K (IW.new (pre inp 0 (i + K))) (Nat.le_refl _) (by simp)
    have hr := (run_text n j _ _ _ h5).1
    rw [IW.rem_new, (h3.pre K).1, h6] at hr
    exact List.append_cancel_right hr
  have hl : t.text.length = i := by rw [← hi, (h3.pre 0).2]
  rw [hl]
  refine ⟨h2, h3, hi, K, fun N hN => ?_⟩
  obtain ⟨w', h5, h6⟩ := h4 N (IW.new (pre inp 0 (i + N))) hN (by simp)
  exact ⟨w', ⟨by simp, n, h5⟩, by rw [h6, Nat.zero_add]⟩

/-- **C77** (what `take` takes from any input). Let `I` be any implementation of `Parser` that obeys the contract for the input `inp`,
which may be endless.  If `take` of the root type succeeds, what it has consumed is the text of the tree, a word of the language, and no
word begins with it and the next character. -/
theorem C77_stream_sound {e : NE} {te : TE} {s : BState} {id : Nat} (h : Compiled e te s id) (hns : NoSharingConflict te)
    (hI : ReadsInput I inp R) {x : σ} (hx : R x 0) (t : Tree) (y : σ) (ht : TakesG I s id x (.ok t y)) :
    R y t.display.length ∧ pre inp 0 t.display.length = t.display ∧ te.gram.language t.display ∧
      ∀ c v, inp t.display.length = some c → ¬ te.gram.language (t.display ++ c :: v) := by
  rw [Tree.display_eq]
  obtain ⟨h1, h2, h3, K, h4⟩ := ht.ok_text hI hx
  refine ⟨h1, h3, ?_⟩
  obtain ⟨w', h5, h6⟩ := h4 (K + 1) (by omega)
  obtain ⟨cas, hc⟩ := h.code
  obtain ⟨B, h0, hB⟩ := gen_bisim h.ann hns hc
  obtain ⟨-, h7, h8⟩ := takesOff_forward hB .nil h.ann (Fits.root te) h0 _ _ _ ⟨t, w', h5, Tree.display_eq t, h6⟩
  refine ⟨(language_iff_der _ _).2 h7, fun c v hcc hv => ?_⟩
  obtain ⟨t2, h9, h10⟩ := (language_iff_der _ _).1 hv
  exact h8 c _ (pre_one hcc) t2 h9 v h10

/-- **C77** (and conversely). If every fix point of the grammar matches some string, every such beginning of the input is taken. -/
theorem C77_stream_complete {e : NE} {te : TE} {s : BState} {id : Nat} (h : Compiled e te s id) (hns : NoSharingConflict te)
    (hne : te.gram.NoEmptyParts) (hI : ReadsInput I inp R) {x : σ} (hx : R x 0) (u : List Char) (hu : pre inp 0 u.length = u)
    (hl : te.gram.language u) (hc : ∀ c v, inp u.length = some c → ¬ te.gram.language (u ++ c :: v)) :
    ∃ t y, TakesG I s id x (.ok t y) ∧ t.display = u ∧ R y u.length := by
  have ha : Avail inp 0 u.length := pre_avail (by rw [hu])
  have hpre := (ha.pre 1).1
  rw [hu, Nat.zero_add] at hpre
  obtain ⟨t, w', ⟨-, n, h1⟩, h2, h3⟩ := (C76_take_root h hns hne (IW.new (pre inp 0 (u.length + 1))) u (pre inp u.length 1)).2
    ⟨by rw [IW.rem_new, hpre], hl, by
      intro c r v hr hv
      refine hc c v ?_ hv
      have := pre_head (s := inp) (k := u.length) (N := 1) (by omega)
      rw [hr] at this
      exact this.symm⟩
  have hloc : ∀ N, u.length + 1 ≤ N → ∃ w2, run s.step n id (IW.new (pre inp 0 N)) = .ok t w2 := by
    intro N hN
    have hr : w'.rem ≠ [] ∨ inp (u.length + 1) = none ∨ inp u.length = none := by
      cases hi : inp u.length with
      | none => exact .inr (.inr rfl)
      | some c => rw [h3, pre_one hi]; exact .inl (by simp)
    rcases hr with hr | hr | hr
    · obtain ⟨q', h4, ⟨_, _, h5, _⟩ | ⟨t', w2, h5, h6⟩⟩ := stream_local (.inr ⟨t, rfl⟩) h1 (.inl hr) N hN
      · cases h5
      · cases h5; exact ⟨w2, by rw [h4, h6]⟩
    · obtain ⟨q', h4, ⟨_, _, h5, _⟩ | ⟨t', w2, h5, h6⟩⟩ := stream_local (.inr ⟨t, rfl⟩) h1 (.inr hr) N hN
      · cases h5
      · cases h5; exact ⟨w2, by rw [h4, h6]⟩
    · have e1 : ∀ M, u.length ≤ M → pre inp 0 M = pre inp 0 u.length := fun M hM =>
        pre_end (j := u.length) (k := 0) (by rwa [Nat.zero_add]) hM
      rw [e1 N (by omega)]
      have h1' : run s.step n id (IW.new (pre inp 0 (u.length + 1))) = .ok t w' := h1
      rw [e1 _ (by omega)] at h1'
      exact ⟨w', h1'⟩
  have hk := runG_sim hI s.step n id x 0 hx
  have htx : t.text.length = u.length := by rw [← h2, Tree.display_eq]
  cases hg : runG I s.step n id x with
  | ok a y =>
    rw [hg] at hk
    obtain ⟨i, K, -, -, h4⟩ := hk
    obtain ⟨w2, h5, -⟩ := h4 (K + u.length + 1) (IW.new (pre inp 0 (i + (K + u.length + 1)))) (by omega) (by simp)
    obtain ⟨w3, h6⟩ := hloc (i + (K + u.length + 1)) (by omega)
    rw [h6] at h5
    cases h5
    have hT : TakesG I s id x (.ok t y) := ⟨by simp, n, hg⟩
    refine ⟨t, y, hT, h2, ?_⟩
    have := (hT.ok_text hI hx).1
    rwa [htx] at this
  | err e y =>
    rw [hg] at hk
    obtain ⟨i, K, -, -, -, h4⟩ := hk
    obtain ⟨w2, h5, -⟩ := h4 (K + u.length + 1) (IW.new (pre inp 0 (i + (K + u.length + 1)))) (by omega) (by simp)
    obtain ⟨w3, h6⟩ := hloc (i + (K + u.length + 1)) (by omega)
    rw [h6] at h5
    cases h5
  | panic =>
    rw [hg] at hk
    obtain ⟨K, h4⟩ := hk
    have h5 := h4 (K + u.length + 1) (IW.new (pre inp 0 (K + u.length + 1))) (by omega) (by simp)
    obtain ⟨w3, h6⟩ := hloc (K + u.length + 1) (by omega)
    rw [h6] at h5
    cases h5
  | oof =>
    rw [hg] at hk
    obtain ⟨K, h4⟩ := hk
    have h5 := h4 (K + u.length + 1) (IW.new (pre inp 0 (K + u.length + 1))) (by omega) (by simp)
    obtain ⟨w3, h6⟩ := hloc (K + u.length + 1) (by omega)
    rw [h6] at h5
    cases h5

/-- **C77** (errors). If `take` of the root type fails, it has consumed a beginning `p` of the input that is the beginning of a word if
every fix point of the grammar matches some string; with the next character, if there is one, it is not, and if there is none, `p` is not
a word. -/
theorem C77_stream_error {e : NE} {te : TE} {s : BState} {id : Nat} (h : Compiled e te s id) (hns : NoSharingConflict te)
    (hI : ReadsInput I inp R) {x : σ} (hx : R x 0) (err : TakeError) (y : σ) (ht : TakesG I s id x (.err err y)) :
    ∃ k, R y k ∧ Avail inp 0 k ∧ (te.gram.NoEmptyParts → te.gram.Begins (pre inp 0 k)) ∧
      (∀ c, inp k = some c → ¬ te.gram.Begins (pre inp 0 k ++ [c])) ∧ (inp k = none → ¬ te.gram.language (pre inp 0 k)) := by
  obtain ⟨-, n, hn⟩ := ht
  have hk := runG_sim hI s.step n id x 0 hx
  rw [hn] at hk
  obtain ⟨i, K, h2, h3, -, h4⟩ := hk
  rw [Nat.zero_add] at h2 h4
  obtain ⟨w', h5, h6⟩ := h4 (K + 1) (IW.new (pre inp 0 (i + (K + 1)))) (by omega) (by simp)
  have hT : Takes s id (IW.new (pre inp 0 (i + (K + 1)))) (.err (err.withPos w'.pos) w') := ⟨by simp, n, h5⟩
  obtain ⟨⟨p, hp⟩, -⟩ := run_err n id _ _ _ h5
  have hpi : p = pre inp 0 i := by
    have := hp.1
    rw [IW.rem_new, (h3.pre (K + 1)).1, h6, Nat.zero_add] at this
    exact (List.append_cancel_right this).symm
  subst hpi
  refine ⟨i, h2, h3, fun hne => ?_, fun c hc => ?_, fun hc => ?_⟩
  · have h5' := h5
    have hrun : run s.step n id _ = _ := (h.run_eq hns n (IW.new (pre inp 0 (i + (K + 1))))).1
    rw [hrun] at h5'
    obtain ⟨p', h7, hv⟩ := takeR_viable n [] te _ _ _ h.ann .nil EnvNE.nil (by
      rw [List.map_nil, envLang_nil]; exact hne) h5'
    have : p' = pre inp 0 i := by
      have h8 := h7.1
      rw [hp.1] at h8
      exact (List.append_cancel_right h8).symm
    subst this
    exact (Viable.root hv).1
  · rintro ⟨v, hv, hx⟩
    rw [pre_one hc] at h6
    exact no_extension h hns hT (by simp [Res.Ends, h6]) (.inl ⟨_, rfl⟩) hp h6 v hv hx
  · intro hl
    have hr : w'.rem = [] := by rw [h6, pre, hc]
    have e1 : pre inp 0 (i + (K + 1)) = pre inp 0 i := pre_end (j := i) (k := 0) (by rwa [Nat.zero_add]) (by omega)
    rw [e1] at hT
    obtain ⟨t, h7⟩ := (h.accepts hns _).2 hl
    exact (Parses.takes.2 ⟨_, hT, rfl⟩ : Parses s id (pre inp 0 i) (.err (.take (err.withPos w'.pos)))).not_ok ⟨t, h7⟩

/-- **C77** (when `take` ends). If every fix point of the grammar matches some string, and in every literal only the last character may
take more than one byte, `take` of the root type never ends if and only if the input never ends and every beginning of it is the
beginning of a word.  In particular it ends on every finite input. -/
theorem C77_stream_ends {e : NE} {te : TE} {s : BState} {id : Nat} (h : Compiled e te s id) (hns : NoSharingConflict te)
    (hne : te.gram.NoEmptyParts) (hasc : ∀ l ∈ te.lits, AsciiButLast l) (hI : ReadsInput I inp R) {x : σ} (hx : R x 0) :
    (¬ ∃ r, TakesG I s id x r) ↔ ∀ k, inp k ≠ none ∧ te.gram.Begins (pre inp 0 k) := by
  constructor
  · intro hno k
    have hoof : ∀ n, ∃ K, ∀ N, K ≤ N → run s.step n id (IW.new (pre inp 0 N)) = .oof := by
      intro n
      have hk := runG_sim hI s.step n id x 0 hx
      cases hg : runG I s.step n id x with
      | oof =>
        rw [hg] at hk
        obtain ⟨K, h4⟩ := hk
        exact ⟨K, fun N hN => h4 N _ hN (by simp)⟩
      | ok a y => exact absurd ⟨_, by simp, n, hg⟩ hno
      | err a y => exact absurd ⟨_, by simp, n, hg⟩ hno
      | panic => exact absurd ⟨_, by simp, n, hg⟩ hno
    have hend : ∀ k, inp k ≠ none := by
      intro k hkn
      obtain ⟨⟨r, ⟨hr, n, hn⟩, -⟩, -⟩ := C33_parser_terminates h (IW.new (pre inp 0 k))
      obtain ⟨K, hK⟩ := hoof n
      have := hK (K + k) (by omega)
      rw [pre_end (j := k) (k := 0) (by rwa [Nat.zero_add]) (by omega)] at this
      have hn' : run s.step n id (IW.new (pre inp 0 k)) = r := hn
      rw [this] at hn'
      exact hr hn'.symm
    refine ⟨hend k, ?_⟩
    obtain ⟨⟨r, hr, -⟩, -⟩ := C33_parser_terminates h (IW.new (pre inp 0 k))
    have hr' := hr
    obtain ⟨hr0, n, hn⟩ := hr'
    obtain ⟨K, hK⟩ := hoof n
    have hn' : run s.step n id (IW.new (pre inp 0 k)) = r := hn
    cases r with
    | oof => exact absurd rfl hr0
    | panic => exact absurd hr (C33_no_panic h hasc _)
    | ok t w' =>
      cases hw : w'.rem with
      | cons c r =>
        obtain ⟨q', h4, ⟨_, _, h5, _⟩ | ⟨t', w2, h5, h6⟩⟩ := stream_local (.inr ⟨t, rfl⟩) hn' (.inl (by rw [hw]; simp)) (K + k) (by omega)
        · cases h5
        · rw [h6, hK (K + k) (by omega)] at h4
          cases h4
      | nil =>
        have h1 := hn
        rw [(h.run_eq hns n _).1] at h1
        exact ⟨_, takeR_language h1 hw, List.prefix_refl _⟩
    | err er w' =>
      cases hw : w'.rem with
      | cons c r =>
        obtain ⟨q', h4, ⟨er', w2, h5, h6⟩ | ⟨_, _, h5, _⟩⟩ := stream_local (.inl ⟨er, rfl⟩) hn' (.inl (by rw [hw]; simp)) (K + k) (by omega)
        · rw [h6, hK (K + k) (by omega)] at h4
          cases h4
        · cases h5
      | nil =>
        have h1 := hn
        rw [(h.run_eq hns n _).1] at h1
        obtain ⟨p, h7, hv⟩ := takeR_viable n [] te _ _ _ h.ann .nil EnvNE.nil (by
          rw [List.map_nil, envLang_nil]; exact hne) h1
        have h8 := h7.1
        rw [hw, List.append_nil, IW.rem_new] at h8
        rw [h8]
        exact (Viable.root hv).1
  · rintro hall ⟨r, hr⟩
    have hav : ∀ k, Avail inp 0 k := fun k i _ => (hall (0 + i)).1
    have hsucc : ∀ k c, inp k = some c → pre inp 0 (k + 1) = pre inp 0 k ++ [c] := by
      intro k c hc
      rw [((hav k).pre 1).1, Nat.zero_add, pre_one hc]
      rfl
    cases r with
    | oof => exact hr.1 rfl
    | panic =>
      obtain ⟨-, n, hn⟩ := hr
      have hk := runG_sim hI s.step n id x 0 hx
      rw [hn] at hk
      obtain ⟨K, h4⟩ := hk
      exact C33_no_panic h hasc (IW.new (pre inp 0 K)) ⟨by simp, n, h4 K _ (Nat.le_refl _) (by simp)⟩
    | ok t y =>
      obtain ⟨-, h2, h3, h4⟩ := C77_stream_sound h hns hI hx t y hr
      cases hc : inp t.display.length with
      | none => exact (hall _).1 hc
      | some c =>
        obtain ⟨v, hv, v', hv'⟩ := (hall (t.display.length + 1)).2
        rw [hsucc _ _ hc, h2] at hv'
        refine h4 c v' hc ?_
        rw [List.append_assoc] at hv'
        have hv'' : t.display ++ c :: v' = v := hv'
        rw [hv'']
        exact hv
    | err er y =>
      obtain ⟨k, -, -, -, h4, -⟩ := C77_stream_error h hns hI hx er y hr
      cases hc : inp k with
      | none => exact (hall _).1 hc
      | some c =>
        refine h4 c hc ?_
        rw [← hsucc k c hc]
        exact (hall (k + 1)).2

/-! ## Examples -/

private def si : Info := ⟨none, 0⟩
private def sl (s : List Char) : NE := .lit si s

/-- `"c" . ("a" | _) . "b"` -/
private def exOptB : NE := .cat si (sl ['c']) [(0, .alt si (sl ['a']) [(0, .eps si)]), (0, sl ['b'])]

/-- `"b" . ("a" | _)` -/
private def exOptA : NE := .cat si (sl ['b']) [(0, .alt si (sl ['a']) [(0, .eps si)])]

/-- `!(/x/ "a" . x | "b")` -/
private def exAs : NE := .fix si (.lam si [.newVariable (.spanless "x")] (.alt si (.cat si (sl ['a']) [(0, .var si 0)]) [(0, sl ['b'])]))

theorem after_chars (text : List Char) : ∀ k, after charsNext text k = text.drop k
  | 0 => rfl
  | k + 1 => by
    rw [after, after_chars text k, ← List.drop_drop]
    cases text.drop k <;> rfl

/-- The theorems apply to the characters of a text. -/
example (text : List Char) : Answers charsNext text (textInput text) := by
  constructor
  · intro k
    rw [after_chars, textInput, ← List.head?_drop]
    cases text.drop k <;> rfl
  · intro k m h1 h2
    simp only [textInput, List.getElem?_eq_none_iff] at h2 ⊢
    omega

/-- The iterator that always yields `c`: `std::iter::repeat`. -/
def repeatNext (c : Char) : Unit → Option Char × Unit := fun _ => (some c, ())

theorem repeat_answers (c : Char) : Answers (repeatNext c) () (fun _ => some c) := ⟨fun _ => rfl, fun _ _ _ h => by cases h⟩

/-- The theorems apply to endless input: from `bbb…`, `take` of `"b" . ("a" | _)` takes `b`. -/
example : ∃ te s id, Compiled exOptA te s id ∧ NoSharingConflict te ∧ te.gram.NoEmptyParts ∧ (∀ l ∈ te.lits, AsciiButLast l) ∧
    ReadsInput (wrapImpl (repeatNext 'b')) (fun _ => some 'b') (WR (repeatNext 'b') () fun _ => some 'b') ∧
    ∃ t y, TakesG (wrapImpl (repeatNext 'b')) s id (Wrapper.new ()) (.ok t y) ∧ t.display = ['b'] := by
  refine ⟨_, _, _, ⟨⟨8, rfl⟩, ⟨some, some⟩, rfl⟩, TE.shareSafe_sound (by decide), ?_, ?_, wrapper_reads (repeat_answers 'b'), _, _,
    ⟨by simp, 9, rfl⟩, rfl⟩
  · simp [Gram.NoEmptyParts, TE.gram, TE.gramL, Gram.NoEmpty, Gram.NoEmptyL]
  · have hs : ∀ c : Char, AsciiButLast [c] := fun c d hd => by cases hd
    intro l hl
    rcases List.mem_cons.1 hl with rfl | hl
    · exact hs _
    · rcases List.mem_cons.1 hl with rfl | hl
      · exact hs _
      · cases hl

/-- **C77** (`take` need not end). On the endless input `aaa…`, `take` of `!(/x/ "a" . x | "b")` does not end. -/
theorem C77_take_can_run_forever : ∃ e te s id, Compiled e te s id ∧ NoSharingConflict te ∧
    ∀ r, ¬ TakesG (wrapImpl (repeatNext 'a')) s id (Wrapper.new ()) r := by
  refine ⟨exAs, _, _, _, ⟨⟨8, rfl⟩, ⟨some, some⟩, rfl⟩, TE.shareSafe_sound (by decide), ?_⟩
  have hword : ∀ k : Nat, Gram.language (.fix (.alt [.cat [.lit ['a'], .var 0], .lit ['b']])) (List.replicate k 'a' ++ ['b']) := by
    intro k X hX
    induction k with
    | zero => exact hX _ (.inr (.inl rfl))
    | succ k ih => exact hX _ (.inl ⟨['a'], List.replicate k 'a' ++ ['b'], rfl, rfl, _, [], (List.append_nil _).symm, ih, rfl⟩)
  have hpre : ∀ k n, pre (fun _ => some 'a') n k = List.replicate k 'a' := by
    intro k
    induction k with
    | zero => intro n; rfl
    | succ k ih => intro n; rw [pre, List.replicate_succ, ih]
  have hends := (C77_stream_ends (e := exAs) (te := _) (s := _) (id := _) (I := wrapImpl (repeatNext 'a')) (inp := fun _ => some 'a')
    (R := WR (repeatNext 'a') () fun _ => some 'a') (x := Wrapper.new ()) ⟨⟨8, rfl⟩, ⟨some, some⟩, rfl⟩ (TE.shareSafe_sound (by decide)) (by
      exact ⟨⟨['b'], fun X hX => hX _ (.inr (.inl rfl))⟩, ⟨trivial, trivial, trivial⟩, trivial, trivial⟩) (by
      have hs : ∀ c : Char, AsciiButLast [c] := fun c d hd => by cases hd
      intro l hl
      rcases List.mem_cons.1 hl with rfl | hl
      · exact hs _
      · rcases List.mem_cons.1 hl with rfl | hl
        · exact hs _
        · cases hl) (wrapper_reads (repeat_answers 'a')) (WR.new _ _ _)).2 (by
      intro k
      exact ⟨by simp, _, hword k, by rw [hpre]; exact List.prefix_append _ _⟩)
  exact fun r hr => hends ⟨r, hr⟩

/-- An iterator that is not fused: it yields the elements of a list, some of which may be `None`. -/
def unfusedNext : List (Option Char) → Option Char × List (Option Char)
  | [] => (none, [])
  | c :: l => (c, l)

/-- **C77** (why the iterator must be fused). Over an iterator that yields `c`, `None`, `a` and `b`, `"c" . ("a" | _) . "b"` fails at `a`,
although `cab` is in the language; over one that yields `c`, `b`, `None` and `b`, `parse` succeeds and never sees the last `b`; and `next`
may return a character after `peek` has returned `None`. -/
theorem C77_needs_fused : ∃ e te s id, Compiled e te s id ∧ NoSharingConflict te ∧ te.gram.language ['c', 'a', 'b'] ∧
    ¬ te.gram.language ['c', 'b', 'b'] ∧
    (∃ err, ParsesG (wrapImpl unfusedNext) s id (Wrapper.new [some 'c', none, some 'a', some 'b']) (.err (.take err))) ∧
    (∃ t, ParsesG (wrapImpl unfusedNext) s id (Wrapper.new [some 'c', some 'b', none, some 'b']) (.ok t)) ∧
    ((Wrapper.new [none, some 'a']).peek unfusedNext).1 = none ∧
    (((Wrapper.new [none, some 'a']).peek unfusedNext).2.advance unfusedNext).1 = some 'a' := by
  refine ⟨exOptB, _, _, _, ⟨⟨8, rfl⟩, ⟨some, some⟩, rfl⟩, TE.shareSafe_sound (by decide), ?_, ?_, ⟨_, by simp, 9, rfl⟩, ⟨_, by simp, 9, rfl⟩, rfl, rfl⟩
  · exact ⟨['c'], ['a', 'b'], rfl, rfl, ['a'], ['b'], rfl, .inl rfl, ['b'], [], rfl, rfl, rfl⟩
  · rintro ⟨x, y, h1, h2, z, q, h3, h4, z', q', h6, h7, h8⟩
    cases h2
    cases h8
    cases h7
    rw [List.append_nil] at h6
    subst h6
    subst h3
    rcases h4 with h2 | h2 | h2
    · cases h2; simp at h1
    · cases h2; simp at h1
    · exact h2

end Chomp
