import Verif.Props.Arith
import Verif.Props.Parser

/-! Errors of the hand-written arithmetic parser: where they happen, and that what comes after does not matter. -/

namespace Chomp

attribute [local irreducible] Ovf.fit InI64 divI64

/-- `w'` is reached from `w` by reading `a`. -/
def ReadsTo (w : IW) (a : List Char) (w' : IW) : Prop := w.rem = a ++ w'.rem ∧ w'.pos = advPosN w.pos a.length w.rem

theorem ReadsTo.refl (w : IW) : ReadsTo w [] w := ⟨rfl, rfl⟩

theorem ReadsTo.peek (w : IW) : ReadsTo w [] w.peek.2 := ⟨by simp, by simp [advPosN]⟩

theorem ReadsTo.trans {u v w : IW} {a b : List Char} (h1 : ReadsTo u a v) (h2 : ReadsTo v b w) : ReadsTo u (a ++ b) w := by
  refine ⟨by rw [h1.1, h2.1, List.append_assoc], ?_⟩
  rw [h2.2, h1.2, List.length_append, advPosN_add]
  congr 1
  rw [h1.1, List.drop_left]

theorem ReadsTo.of_peek {w w' : IW} {a : List Char} (h : ReadsTo w.peek.2 a w') : ReadsTo w a w' := (ReadsTo.peek w).trans h

theorem ReadsTo.spaces (w : IW) : ∃ k, ReadsTo w (spaces k) (arithSpaces w) ∧ (arithSpaces w).rem.head? ≠ some ' ' := by
  have h := skipGo_spec (· == ' ') w.left w (by rw [IW.left_eq]; exact Nat.le_refl _)
  obtain ⟨k, h1, h2⟩ := takeWhile_spaces w.rem
  have hk : w.rem.takeWhile (· == ' ') = Chomp.spaces k := by
    exact List.append_cancel_right ((List.takeWhile_append_dropWhile (p := (· == ' ')) (l := w.rem)).trans h1)
  refine ⟨k, ⟨by rw [arithSpaces_rem]; exact h1, ?_⟩, by rw [arithSpaces_rem]; exact h2⟩
  rw [← hk]; exact h.2

theorem ReadsTo.consume {c : Char} {w w' : IW} {u : Unit} (h : consumeStr [c] w = .ok u w') : ReadsTo w [c] w' := by
  refine ⟨consume1_ok h, ?_⟩
  rcases consumeGo_spec [c] 0 [c] w with ⟨v, h1, -, -, h4⟩ | ⟨m, v, -, -, -, -, -, -, -, h8⟩
  · rw [consumeStr, h1] at h; cases h; exact h4
  · rw [consumeStr] at h
    rcases h8 with ⟨-, h8⟩ | ⟨_, -, ⟨_, -, h8⟩ | ⟨-, h8⟩⟩ <;> rw [h8] at h <;> cases h

theorem consume1_err {c : Char} {w w' : IW} {e : TakeError} (h : consumeStr [c] w = .err e w') :
    w' = w.peek.2 ∧ w.rem.head? ≠ some c ∧ ((w.rem = [] ∧ e = .endOfStream w'.pos) ∨
      ∃ d r, w.rem = d :: r ∧ e = .badString w'.pos [d] [c]) := by
  rw [consumeStr, consumeGo, IW.peek_eq] at h
  cases hr : w.rem with
  | nil => rw [hr] at h; simp at h; simp [← h.2, ← h.1]
  | cons d ds =>
    rw [hr] at h
    simp only [List.head?_cons] at h
    split at h
    · simp [consumeGo] at h
    · rename_i hd
      simp only [sliceTo, Res.err.injEq] at h
      obtain ⟨rfl, rfl⟩ := h
      exact ⟨rfl, by simpa using hd, .inr ⟨d, ds, rfl, rfl⟩⟩

theorem consume1_err' {c : Char} {w : IW} (h : w.rem.head? ≠ some c) : ∃ e, consumeStr [c] w = .err e w.peek.2 := by
  rcases consume1_total c w with ⟨w', h1⟩ | ⟨e, w', h1⟩
  · exact absurd (by rw [consume1_ok h1]; rfl) h
  · exact ⟨e, by rw [h1, (consume1_err h1).1]⟩

/-- What an error says of the state in which it leaves the parser. -/
def ArithErrAt (e : TakeError) (w : IW) : Prop :=
  match e with
  | .badBranch .. => True
  | .badString pos got exp => pos = w.pos ∧ exp = [')'] ∧ ∃ c r, w.rem = c :: r ∧ got = [c] ∧ c ≠ ')'
  | .endOfStream pos => pos = w.pos ∧ w.rem = []

/-- `r`, the outcome of `f` on `w`, depends only on what was read and the character after it. -/
def LocalR {α : Type} (f : IW → Res α) (w : IW) (r : Res α) : Prop := match r with
  | .ok v w' => ∃ a, ReadsTo w a w' ∧ ∀ w2 r2, w2.rem = a ++ r2 → r2.head? = w'.rem.head? → ∃ w2', f w2 = .ok v w2' ∧ w2'.rem = r2
  | .err e w' => ArithErrAt e w' ∧ ∃ a, ReadsTo w a w' ∧
      ∀ w2 r2, w2.rem = a ++ r2 → r2.head? = w'.rem.head? → ∃ e' w2', f w2 = .err e' w2' ∧ w2'.rem = r2
  | _ => True

/-- From states whose next character satisfies `P`: the outcome depends only on what was read and the character after it. -/
def Local {α : Type} (P : Option Char → Prop) (f : IW → Res α) : Prop := ∀ w, P w.rem.head? → LocalR f w (f w)

/-- AnyNext next character. -/
def AnyNext : Option Char → Prop := fun _ => True

theorem Local.mono {α : Type} {P Q : Option Char → Prop} {f : IW → Res α} (h : Local P f) (hq : ∀ o, Q o → P o) : Local Q f :=
  fun w hw => h w (hq _ hw)

theorem head_append_congr {a r1 r2 : List Char} (h : r2.head? = r1.head?) : (a ++ r2).head? = (a ++ r1).head? := by
  cases a with
  | nil => exact h
  | cons => rfl

theorem Local.bind {α β : Type} {P : Option Char → Prop} {f : IW → Res α} {g : α → IW → Res β} (hf : Local P f)
    (hg : ∀ a, Local AnyNext (g a)) : Local P (fun w => (f w).bind g) := by
  intro w hP
  have h1 := hf w hP
  show LocalR _ w ((f w).bind g)
  cases hfw : f w with
  | panic => trivial
  | oof => trivial
  | err e w' =>
    rw [hfw] at h1
    obtain ⟨he, a, ha, h⟩ := h1
    refine ⟨he, a, ha, fun w2 r2 hw hh => ?_⟩
    obtain ⟨e', w2', h2, h3⟩ := h w2 r2 hw hh
    exact ⟨e', w2', by dsimp only; rw [h2]; rfl, h3⟩
  | ok x wm =>
    rw [hfw] at h1
    obtain ⟨a, ha, h⟩ := h1
    have h4 := hg x wm trivial
    show LocalR _ w (g x wm)
    cases hgx : g x wm with
    | panic => trivial
    | oof => trivial
    | ok v w' =>
      rw [hgx] at h4
      obtain ⟨b, hb, h5⟩ := h4
      refine ⟨a ++ b, ha.trans hb, fun w2 r2 hw hh => ?_⟩
      obtain ⟨wm2, h6, h7⟩ := h w2 (b ++ r2) (by rw [hw, List.append_assoc]) (by rw [hb.1]; exact head_append_congr hh)
      obtain ⟨w2', h8, h9⟩ := h5 wm2 r2 h7 hh
      exact ⟨w2', by dsimp only; rw [h6]; exact h8, h9⟩
    | err e w' =>
      rw [hgx] at h4
      obtain ⟨he, b, hb, h5⟩ := h4
      refine ⟨he, a ++ b, ha.trans hb, fun w2 r2 hw hh => ?_⟩
      obtain ⟨wm2, h6, h7⟩ := h w2 (b ++ r2) (by rw [hw, List.append_assoc]) (by rw [hb.1]; exact head_append_congr hh)
      obtain ⟨e', w2', h8, h9⟩ := h5 wm2 r2 h7 hh
      exact ⟨e', w2', by dsimp only; rw [h6]; exact h8, h9⟩

theorem Local.ok {α : Type} {P : Option Char → Prop} (v : α) : Local P (fun w => .ok v w) :=
  fun w _ => ⟨[], ReadsTo.refl w, fun w2 r2 hw _ => ⟨w2, rfl, hw⟩⟩

theorem Local.orPanic {α β : Type} {P : Option Char → Prop} {o : Option α} {f : α → IW → Res β} (h : ∀ a, Local P (f a)) :
    Local P (fun w => orPanic o fun a => f a w) := by
  cases o with
  | none => intro w _; trivial
  | some a => exact h a

/-- Skipping spaces is reading them. -/
theorem Local.sp {P : Option Char → Prop} : Local P (fun w => .ok () (arithSpaces w)) := by
  intro w _
  obtain ⟨k, h1, h2⟩ := ReadsTo.spaces w
  refine ⟨_, h1, fun w2 r2 hw hh => ⟨_, rfl, arithSpaces_spaces hw (by rw [hh]; exact h2)⟩⟩

theorem Local.spaces {α : Type} {P : Option Char → Prop} {f : IW → Res α} (h : Local AnyNext f) : Local P (fun w => f (arithSpaces w)) :=
  Local.bind (f := fun w => .ok () (arithSpaces w)) (g := fun _ => f) Local.sp fun _ => h

theorem Local.okSp {α : Type} {P : Option Char → Prop} (v : α) : Local P (fun w => .ok v (arithSpaces w)) :=
  Local.spaces (f := fun w => .ok v w) (Local.ok v)

theorem Local.consume {α : Type} {c : Char} {g : IW → Res α} (h : Local AnyNext g) :
    Local (· = some c) (fun w => (consumeStr [c] w).bind fun _ => g) := by
  refine Local.bind (f := consumeStr [c]) (g := fun _ => g) ?_ fun _ => h
  intro w hw
  cases hr : w.rem with
  | nil => rw [hr] at hw; cases hw
  | cons d r =>
    rw [hr] at hw; cases hw
    obtain ⟨w', h1, h2⟩ := consume1 hr
    rw [h1]
    refine ⟨[c], ReadsTo.consume h1, fun w2 r2 hw2 _ => ?_⟩
    obtain ⟨w2', h3, h4⟩ := consume1 (w := w2) hw2
    exact ⟨w2', h3, h4⟩

/-- Looking at the next character. -/
theorem Local.peek {α : Type} {P : Option Char → Prop} {F : Char → IW → Res α} {G : IW → Res α}
    (hF : ∀ c, Local (· = some c) (F c)) (hG : Local (· = none) G) :
    Local P (fun w => match w.peek with | (some c, w) => F c w | (none, w) => G w) := by
  intro w _
  have key : ∀ w : IW, (match w.peek with | (some c, w) => F c w | (none, w) => G w) =
      match w.rem.head? with | some c => F c w.peek.2 | none => G w.peek.2 := by
    intro w; rw [IW.peek_eq]; cases w.rem.head? <;> rfl
  show LocalR _ w (match w.peek with | (some c, w) => F c w | (none, w) => G w)
  rw [key]
  cases hh : w.rem.head? with
  | none =>
    have h := hG w.peek.2 (by rw [IW.peek_rem]; exact hh)
    simp only
    cases hg : G w.peek.2 with
    | panic => trivial
    | oof => trivial
    | ok v w' =>
      rw [hg] at h
      obtain ⟨a, ha, h1⟩ := h
      refine ⟨a, ha.of_peek, fun w2 r2 hw2 he => ?_⟩
      have : w2.rem.head? = none := by rw [hw2, head_append_congr he, ← ha.of_peek.1, hh]
      dsimp only
      rw [key, this]
      exact h1 _ r2 (by rw [IW.peek_rem]; exact hw2) he
    | err v w' =>
      rw [hg] at h
      obtain ⟨hE, a, ha, h1⟩ := h
      refine ⟨hE, a, ha.of_peek, fun w2 r2 hw2 he => ?_⟩
      have : w2.rem.head? = none := by rw [hw2, head_append_congr he, ← ha.of_peek.1, hh]
      dsimp only
      rw [key, this]
      exact h1 _ r2 (by rw [IW.peek_rem]; exact hw2) he
  | some c =>
    have h := hF c w.peek.2 (by rw [IW.peek_rem]; exact hh)
    simp only
    cases hg : F c w.peek.2 with
    | panic => trivial
    | oof => trivial
    | ok v w' =>
      rw [hg] at h
      obtain ⟨a, ha, h1⟩ := h
      refine ⟨a, ha.of_peek, fun w2 r2 hw2 he => ?_⟩
      have : w2.rem.head? = some c := by rw [hw2, head_append_congr he, ← ha.of_peek.1, hh]
      dsimp only
      rw [key, this]
      exact h1 _ r2 (by rw [IW.peek_rem]; exact hw2) he
    | err v w' =>
      rw [hg] at h
      obtain ⟨hE, a, ha, h1⟩ := h
      refine ⟨hE, a, ha.of_peek, fun w2 r2 hw2 he => ?_⟩
      have : w2.rem.head? = some c := by rw [hw2, head_append_congr he, ← ha.of_peek.1, hh]
      dsimp only
      rw [key, this]
      exact h1 _ r2 (by rw [IW.peek_rem]; exact hw2) he

theorem Local.branch {α : Type} {P : Option Char → Prop} (c : Char) (l : List Char) :
    Local (α := α) P (fun w => .err (.badBranch w.pos c l) w) :=
  fun w _ => ⟨trivial, [], ReadsTo.refl w, fun w2 _ hw _ => ⟨_, w2, rfl, hw⟩⟩

theorem Local.eos {α : Type} : Local (α := α) (· = none) (fun w => .err (.endOfStream w.pos) w) :=
  fun w h => ⟨⟨rfl, by simpa using h⟩, [], ReadsTo.refl w, fun w2 _ hw _ => ⟨_, w2, rfl, hw⟩⟩

/-- A parenthesised expression: the closing parenthesis is consumed in any case. -/
theorem Local.paren {f : IW → Res Int} (hf : Local AnyNext f) : Local AnyNext (fun w => match f w with
    | .ok v w => (consumeStr [')'] w).map fun _ => v
    | .err e w => (consumeStr [')'] w).bind fun _ w => .err e w
    | .panic => .panic
    | .oof => .oof) := by
  intro w _
  have h1 := hf w trivial
  show LocalR _ w (match f w with
    | .ok v w => (consumeStr [')'] w).map fun _ => v
    | .err e w => (consumeStr [')'] w).bind fun _ w => .err e w
    | .panic => .panic
    | .oof => .oof)
  cases hfw : f w with
  | panic => trivial
  | oof => trivial
  | ok v wm =>
    rw [hfw] at h1
    obtain ⟨a, ha, h⟩ := h1
    simp only
    rcases consume1_total ')' wm with ⟨w', hc⟩ | ⟨e, w', hc⟩
    · rw [hc]
      refine ⟨a ++ [')'], ha.trans (ReadsTo.consume hc), fun w2 r2 hw hh => ?_⟩
      obtain ⟨wm2, h6, h7⟩ := h w2 (')' :: r2) (by rw [hw, List.append_assoc]; rfl) (by rw [consume1_ok hc]; rfl)
      obtain ⟨w2', h8, h9⟩ := consume1 h7
      exact ⟨w2', by dsimp only; rw [h6]; dsimp only; rw [h8]; rfl, h9⟩
    · rw [hc]
      obtain ⟨rfl, hne, hcase⟩ := consume1_err hc
      refine ⟨?_, a, ha.trans (ReadsTo.peek wm) |> (by simpa using ·), fun w2 r2 hw hh => ?_⟩
      · rcases hcase with ⟨h2, rfl⟩ | ⟨d, r, h2, rfl⟩
        · exact ⟨rfl, by rw [IW.peek_rem]; exact h2⟩
        · exact ⟨rfl, rfl, d, r, by rw [IW.peek_rem]; exact h2, rfl, fun h => hne (by rw [h2, h]; rfl)⟩
      · rw [IW.peek_rem] at hh
        obtain ⟨wm2, h6, h7⟩ := h w2 r2 hw hh
        obtain ⟨e', h8⟩ := consume1_err' (c := ')') (w := wm2) (by rw [h7, hh]; exact hne)
        exact ⟨e', _, by dsimp only; rw [h6]; dsimp only; rw [h8]; rfl, by rw [IW.peek_rem]; exact h7⟩
  | err e0 wm =>
    rw [hfw] at h1
    obtain ⟨hE, a, ha, h⟩ := h1
    simp only
    rcases consume1_total ')' wm with ⟨w', hc⟩ | ⟨e, w', hc⟩
    · rw [hc]
      refine ⟨?_, a ++ [')'], ha.trans (ReadsTo.consume hc), fun w2 r2 hw hh => ?_⟩
      · cases e0 with
        | badBranch => trivial
        | badString pos got exp =>
          obtain ⟨-, -, c, r, h2, -, h3⟩ := hE
          rw [consume1_ok hc] at h2
          cases h2; exact absurd rfl h3
        | endOfStream pos => exact absurd (hE.2.symm.trans (consume1_ok hc)) (by simp)
      · obtain ⟨e', wm2, h6, h7⟩ := h w2 (')' :: r2) (by rw [hw, List.append_assoc]; rfl) (by rw [consume1_ok hc]; rfl)
        obtain ⟨w2', h8, h9⟩ := consume1 h7
        exact ⟨e', w2', by dsimp only; rw [h6]; dsimp only; rw [h8]; rfl, h9⟩
    · rw [hc]
      obtain ⟨rfl, hne, hcase⟩ := consume1_err hc
      refine ⟨?_, a, ha.trans (ReadsTo.peek wm) |> (by simpa using ·), fun w2 r2 hw hh => ?_⟩
      · rcases hcase with ⟨h2, rfl⟩ | ⟨d, r, h2, rfl⟩
        · exact ⟨rfl, by rw [IW.peek_rem]; exact h2⟩
        · exact ⟨rfl, rfl, d, r, by rw [IW.peek_rem]; exact h2, rfl, fun h => hne (by rw [h2, h]; rfl)⟩
      · rw [IW.peek_rem] at hh
        obtain ⟨e1, wm2, h6, h7⟩ := h w2 r2 hw hh
        obtain ⟨e', h8⟩ := consume1_err' (c := ')') (w := wm2) (by rw [h7, hh]; exact hne)
        exact ⟨e', _, by dsimp only; rw [h6]; dsimp only; rw [h8]; rfl, by rw [IW.peek_rem]; exact h7⟩

theorem orPanic_err {α β : Type} {o : Option α} {f : α → Res β} {e : TakeError} {w : IW} (h : orPanic o f = .err e w) :
    ∃ a, o = some a ∧ f a = .err e w := by
  cases o with
  | none => cases h
  | some a => exact ⟨a, rfl, h⟩

/-! ### Numbers -/

theorem takeNumberGo_reads (m : Ovf) : ∀ (k : Nat) (out : Option Int) (w w' : IW) (v : Int),
    takeNumberGo m k out w = .ok v w' → ∃ a, ReadsTo w a w' := by
  intro k
  induction k with
  | zero => intro _ _ _ _ h; cases h
  | succ k ih =>
    intro out w w' v h
    rw [takeNumberGo, IW.peek_eq] at h
    split at h
    · rename_i c w1 heq
      obtain ⟨-, rfl⟩ := Prod.mk.inj heq
      split at h
      · obtain ⟨u, w2, h1, h2⟩ := Res.bind_ok h
        obtain ⟨x, -, h3⟩ := orPanic_ok h2
        obtain ⟨y, -, h4⟩ := orPanic_ok h3
        obtain ⟨a, ha⟩ := ih _ _ _ _ h4
        exact ⟨_, ((ReadsTo.consume h1).trans ha).of_peek⟩
      · split at h
        · cases h; exact ⟨_, ReadsTo.peek w⟩
        · cases h
    · rename_i w1 heq
      obtain ⟨-, rfl⟩ := Prod.mk.inj heq
      split at h
      · cases h; exact ⟨_, ReadsTo.peek w⟩
      · cases h

theorem takeNumberGo_some_err (m : Ovf) : ∀ (k : Nat) (x : Int) (w w' : IW) (e : TakeError), takeNumberGo m k (some x) w ≠ .err e w' := by
  intro k
  induction k with
  | zero => intro _ _ _ _ h; cases h
  | succ k ih =>
    intro x w w' e h
    cases hr : w.rem with
    | nil => rw [takeNumberGo, IW.peek_eq, hr] at h; cases h
    | cons c cs =>
      by_cases hc : c.isDigit = true
      · obtain ⟨w1, h1, h2⟩ := takeNumberGo_digit m k (some x) hr hc
        rw [h2] at h
        unfold orPanic at h
        split at h
        · dsimp only at h
          split at h
          · exact ih _ _ _ _ h
          · cases h
        · cases h
      · rw [takeNumberGo, IW.peek_eq, hr] at h
        simp [hc] at h

/-- `take_number` fails exactly if there is no digit. -/
theorem takeNumber_err {m : Ovf} {w w' : IW} {e : TakeError} (h : takeNumber m w = .err e w') :
    w' = w.peek.2 ∧ ((w.rem = [] ∧ e = .endOfStream w'.pos) ∨
      ∃ c r, w.rem = c :: r ∧ c.isDigit = false ∧ e = .badBranch w'.pos c digitChars) := by
  rw [takeNumber] at h
  cases hr : w.rem with
  | nil =>
    rw [takeNumberGo, IW.peek_eq, hr] at h
    simp only [List.head?_nil, Res.err.injEq] at h
    obtain ⟨rfl, rfl⟩ := h
    exact ⟨rfl, .inl ⟨rfl, rfl⟩⟩
  | cons c cs =>
    by_cases hc : c.isDigit = true
    · obtain ⟨w1, h1, h2⟩ := takeNumberGo_digit m w.left none hr hc
      rw [h2] at h
      obtain ⟨_, -, h⟩ := orPanic_err h
      obtain ⟨_, -, h⟩ := orPanic_err h
      exact absurd h (takeNumberGo_some_err m _ _ _ _ _)
    · rw [takeNumberGo, IW.peek_eq, hr] at h
      simp only [List.head?_cons, hc, Bool.false_eq_true, if_false, Res.err.injEq] at h
      obtain ⟨rfl, rfl⟩ := h
      exact ⟨rfl, .inr ⟨c, cs, rfl, by simpa using hc, rfl⟩⟩

theorem takeNumber_err' (m : Ovf) {w : IW} (h : NoDigit w.rem) : ∃ e, takeNumber m w = .err e w.peek.2 := by
  rw [takeNumber]
  cases hr : w.rem with
  | nil => rw [takeNumberGo, IW.peek_eq, hr]; exact ⟨_, rfl⟩
  | cons c cs =>
    have hc := h c (by rw [hr]; rfl)
    rw [takeNumberGo, IW.peek_eq, hr]
    simp only [List.head?_cons, hc]
    exact ⟨_, rfl⟩

theorem NoDigit.congr {r r2 : List Char} (h : NoDigit r) (he : r2.head? = r.head?) : NoDigit r2 :=
  fun c hc => h c (by rw [← he]; exact hc)

theorem Local.number (m : Ovf) {P : Option Char → Prop} : Local P (takeNumber m) := by
  intro w _
  cases h : takeNumber m w with
  | panic => trivial
  | oof => trivial
  | ok v w' =>
    obtain ⟨a, ha⟩ := takeNumberGo_reads m _ _ _ _ _ h
    obtain ⟨n, h1, h2, h3⟩ := takeNumber_sound h
    obtain rfl : a = n.text := List.append_cancel_right (ha.1.symm.trans h1)
    refine ⟨_, ha, fun w2 r2 hw hh => ?_⟩
    have := takeNumber_complete m n r2 (h3.congr hh) w2 hw
    rw [h2] at this
    exact this
  | err e w' =>
    obtain ⟨rfl, h1⟩ := takeNumber_err h
    have hnd : NoDigit w.rem := by
      rcases h1 with ⟨h1, -⟩ | ⟨c, r, h1, hc, -⟩
      · rw [h1]; intro c hc; cases hc
      · rw [h1]; intro d hd; cases hd; exact hc
    refine ⟨?_, [], ReadsTo.peek w, fun w2 r2 hw hh => ?_⟩
    · rcases h1 with ⟨h1, rfl⟩ | ⟨c, r, h1, hc, rfl⟩
      · exact ⟨rfl, by rw [IW.peek_rem]; exact h1⟩
      · trivial
    · obtain ⟨e', h2⟩ := takeNumber_err' m (w := w2) (by rw [hw]; exact hnd.congr (by rw [← w.peek_rem]; exact hh))
      exact ⟨e', _, h2, by rw [IW.peek_rem]; exact hw⟩

/-! ### The parser -/

theorem arith_loc (m : Ovf) : ∀ n : Nat, Local AnyNext (takeTerm m n) ∧ (∀ out, Local AnyNext (productLoop m n out)) ∧
    Local AnyNext (takeProduct m n) ∧ (∀ out, Local AnyNext (exprLoop m n out)) ∧ Local AnyNext (takeExpr m n) := by
  intro n
  induction n with
  | zero => exact ⟨fun _ _ => trivial, fun _ _ _ => trivial, fun _ _ => trivial, fun _ _ _ => trivial, fun _ _ => trivial⟩
  | succ n ih =>
    obtain ⟨ih1, ih2, ih3, ih4, ih5⟩ := ih
    refine ⟨?_, ?_, ?_, ?_, ?_⟩
    · have : takeTerm m (n + 1) = _ := funext fun w => by rw [takeTerm]
      rw [this]
      refine Local.bind (Local.peek (F := fun c w => if c = '-' then _ else if c.isDigit then _ else if c = '(' then _ else _) ?_ Local.eos) fun out => Local.okSp out
      intro c
      by_cases h1 : c = '-'
      · subst h1
        simp only [if_true]
        exact Local.consume (g := fun w => (takeNumber m (arithSpaces w)).bind fun x w => orPanic (m.fit (-x)) fun x => .ok x w)
          (Local.bind (Local.spaces (Local.number m)) fun x => Local.orPanic fun y => Local.ok y)
      · by_cases h2 : c.isDigit = true
        · simp only [h1, h2, if_true, if_false]
          exact Local.number m
        · by_cases h3 : c = '('
          · subst h3
            simp only [h1, h2, if_true, if_false]
            exact Local.consume (g := fun w => match takeExpr m n (arithSpaces w) with
              | .ok v w => (consumeStr [')'] w).map fun _ => v
              | .err e w => (consumeStr [')'] w).bind fun _ w => .err e w
              | .panic => .panic
              | .oof => .oof) (Local.paren (Local.spaces ih5))
          · simp only [h1, h2, h3, if_false]
            exact Local.branch c _
    · intro out
      have : productLoop m (n + 1) out = _ := funext fun w => by rw [productLoop]
      rw [this]
      refine Local.peek (F := fun c w => if c = '*' then _ else if c = '/' then _ else _) ?_ (Local.ok out)
      intro c
      by_cases h1 : c = '*'
      · subst h1
        simp only [if_true]
        exact Local.consume (g := fun w => (takeTerm m n (arithSpaces w)).bind fun x w => orPanic (m.fit (out * x)) fun out => productLoop m n out w)
          (Local.bind (Local.spaces ih1) fun x => Local.orPanic fun y => ih2 y)
      · by_cases h2 : c = '/'
        · subst h2
          simp only [h1, if_true, if_false]
          exact Local.consume (g := fun w => (takeTerm m n (arithSpaces w)).bind fun x w => orPanic (divI64 out x) fun out => productLoop m n out w)
            (Local.bind (Local.spaces ih1) fun x => Local.orPanic fun y => ih2 y)
        · simp only [h1, h2, if_false]
          exact Local.ok out
    · have : takeProduct m (n + 1) = _ := funext fun w => by rw [takeProduct]
      rw [this]
      exact Local.bind ih1 ih2
    · intro out
      have : exprLoop m (n + 1) out = _ := funext fun w => by rw [exprLoop]
      rw [this]
      refine Local.peek (F := fun c w => if c = '+' then _ else if c = '-' then _ else _) ?_ (Local.ok out)
      intro c
      by_cases h1 : c = '+'
      · subst h1
        simp only [if_true]
        exact Local.consume (g := fun w => (takeProduct m n (arithSpaces w)).bind fun x w => orPanic (m.fit (out + x)) fun out => exprLoop m n out w)
          (Local.bind (Local.spaces ih3) fun x => Local.orPanic fun y => ih4 y)
      · by_cases h2 : c = '-'
        · subst h2
          simp only [h1, if_true, if_false]
          exact Local.consume (g := fun w => (takeProduct m n (arithSpaces w)).bind fun x w => orPanic (m.fit (out - x)) fun out => exprLoop m n out w)
            (Local.bind (Local.spaces ih3) fun x => Local.orPanic fun y => ih4 y)
        · simp only [h1, h2, if_false]
          exact Local.ok out
    · have : takeExpr m (n + 1) = _ := funext fun w => by rw [takeExpr]
      rw [this]
      exact Local.bind ih3 ih4

/-! ### Unexpected characters -/

/-- The character `d` may follow `a` in a text of `T`. -/
def MayFollow (T : List Char → Prop) (a : List Char) (d : Char) : Prop := ∃ s, T (a ++ d :: s)

/-- Where and when `f` reports an unexpected character: it does so after reading a beginning `p` of a text of `T`, all expected
characters may follow `p`, and `f` fails on all texts in which `p` is followed by no expected character and no space. -/
def UnexpAt (N : Prop) (T : List Char → Prop) (f : IW → Res Int) (w : IW) (pos : LineCol) (c : Char) (exp : List Char) : Prop :=
  ∃ p r, w.rem = p ++ c :: r ∧ pos = advPosN w.pos p.length w.rem ∧ c ∉ exp ∧ (c = ' ' → p = []) ∧ p.head? ≠ some ' ' ∧
    (N → p ≠ []) ∧ (p ≠ [] → MayFollow T p ' ') ∧ (∀ d ∈ exp, MayFollow T p d) ∧
    ∀ w2 r2, w2.rem = p ++ r2 → (∀ d, r2.head? = some d → d ∉ exp ∧ d ≠ ' ') → ∃ e' w2', f w2 = .err e' w2'

def Unexp (N : Prop) (T : List Char → Prop) (f : IW → Res Int) : Prop :=
  ∀ w pos c exp w', f w = .err (.badBranch pos c exp) w' → UnexpAt N T f w pos c exp

theorem mem_digitChars {c : Char} : c ∈ digitChars ↔ c.isDigit = true := by
  constructor
  · intro h
    have : ∀ c ∈ digitChars, c.isDigit = true := by decide +kernel
    exact this c h
  · intro h
    obtain ⟨d, rfl⟩ := isDigit_digitChar h
    revert d; decide +kernel

/-- The same after more has been read. -/
theorem unexp_after {N M : Prop} {T T' : List Char → Prop} {f g : IW → Res Int} (hf : Unexp N T f) {w w0 w' : IW} {a : List Char} {pos : LineCol} {c : Char}
    {exp : List Char} (hw : ReadsTo w0 a w) (h : f w = .err (.badBranch pos c exp) w') (ha : ∃ x l, a = x :: l ∧ x ≠ ' ')
    (hc : w.rem.head? ≠ some ' ' ∨ N)
    (hS : N ∨ ∃ x, T' (a ++ ' ' :: x))
    (hT : ∀ x, T x → ∃ s, T' (a ++ x ++ s))
    (hg : ∀ w2 r2, w2.rem = a ++ r2 → (w.rem.head? ≠ some ' ' → r2.head? ≠ some ' ') → (N → r2.head? = w.rem.head?) →
      (∀ w3, w3.rem = r2 → ∃ e' w2', f w3 = .err e' w2') → ∃ e' w2', g w2 = .err e' w2') :
    UnexpAt M T' g w0 pos c exp := by
  obtain ⟨x, l, rfl, hx⟩ := ha
  obtain ⟨p, r, h1, h2, h3, h4, h4', hN, hsp, h5, h6⟩ := hf _ _ _ _ _ h
  refine ⟨x :: l ++ p, r, by rw [hw.1, h1, List.append_assoc], ?_, h3, ?_, by simpa using hx, fun _ => by simp, ?_, ?_, ?_⟩
  · rw [h2, hw.2, List.length_append, advPosN_add]
    congr 1
    rw [hw.1, List.drop_left]
  · intro hs
    rcases hc with hc | hc
    · rw [h4 hs, hs] at h1
      rw [h1] at hc; exact absurd rfl hc
    · exact absurd (h4 hs) (hN hc)
  · intro _
    by_cases hp : p = []
    · subst hp
      rcases hS with hS | hS
      · exact absurd rfl (hN hS)
      · simpa [MayFollow] using hS
    · obtain ⟨s, hs⟩ := hsp hp
      obtain ⟨s', hs'⟩ := hT _ hs
      exact ⟨s ++ s', by simpa [List.append_assoc] using hs'⟩
  · intro d hd
    obtain ⟨s, hs⟩ := h5 d hd
    obtain ⟨s', hs'⟩ := hT _ hs
    exact ⟨s ++ s', by simpa [List.append_assoc] using hs'⟩
  · intro w2 r2 hw2 hr2
    refine hg w2 (p ++ r2) (by rw [hw2, List.append_assoc]) ?_ ?_ fun w3 hw3 => h6 w3 r2 hw3 hr2
    · intro hc
      cases p with
      | nil => intro hh; exact (hr2 _ hh).2 rfl
      | cons y k => simpa using h4'
    · intro n
      have := hN n
      cases p with
      | nil => exact absurd rfl this
      | cons y k => rw [h1]; rfl

theorem unexp_mono {N : Prop} {T T' : List Char → Prop} {f g : IW → Res Int} (hf : Unexp N T f) {w w' : IW} {pos : LineCol} {c : Char}
    {exp : List Char} (h : f w = .err (.badBranch pos c exp) w') (hT : ∀ x, T x → T' x)
    (hg : ∀ w2 e w2', f w2 = .err e w2' → ∃ e' w2', g w2 = .err e' w2') : UnexpAt N T' g w pos c exp := by
  obtain ⟨p, r, h1, h2, h3, h4, h4', hN, hsp, h5, h6⟩ := hf _ _ _ _ _ h
  refine ⟨p, r, h1, h2, h3, h4, h4', hN, fun hp => (hsp hp).elim fun s hs => ⟨s, hT _ hs⟩, fun d hd => ?_, fun w2 r2 hw2 hr2 => ?_⟩
  · obtain ⟨s, hs⟩ := h5 d hd
    exact ⟨s, hT _ hs⟩
  · obtain ⟨e, w2', he⟩ := h6 w2 r2 hw2 hr2
    exact hg _ _ _ he

theorem Res.bind_err' {α β : Type} {r : Res α} {f : α → IW → Res β} {e : TakeError} {w' : IW} (h : r.bind f = .err e w') :
    r = .err e w' ∨ ∃ a w, r = .ok a w ∧ f a w = .err e w' := by
  cases r with
  | ok a w => exact .inr ⟨a, w, rfl, h⟩
  | err e2 w2 =>
    simp only [Res.bind, Res.err.injEq] at h
    obtain ⟨rfl, rfl⟩ := h
    exact .inl rfl
  | panic => cases h
  | oof => cases h

theorem Unexp.number (m : Ovf) : Unexp False (fun x => ∃ n : Numeral, n.text = x) (takeNumber m) := by
  intro w pos c exp w' h
  obtain ⟨rfl, h1⟩ := takeNumber_err h
  rcases h1 with ⟨-, h1⟩ | ⟨d, r, h1, hc, h2⟩
  · cases h1
  · cases h2
    refine ⟨[], r, h1, by simp [advPosN], by rw [mem_digitChars, hc]; simp, fun _ => rfl, by simp, fun h => h.elim, fun h => absurd rfl h, fun d hd => ?_, fun w2 r2 hw2 hr2 => ?_⟩
    · obtain ⟨k, rfl⟩ := isDigit_digitChar (mem_digitChars.1 hd)
      exact ⟨[], ⟨k, []⟩, rfl⟩
    · obtain ⟨e, he⟩ := takeNumber_err' m (w := w2) (by
        intro d hd
        rw [hw2] at hd
        have := (hr2 d hd).1
        rw [mem_digitChars] at this
        simpa using this)
      exact ⟨e, _, he⟩

theorem spaces_head {k : Nat} {w' : IW} (h2 : w'.rem.head? ≠ some ' ') {w2 : IW} {r2 : List Char}
    (hw : w2.rem = spaces k ++ r2) (hr : w'.rem.head? ≠ some ' ' → r2.head? ≠ some ' ') : (arithSpaces w2).rem = r2 :=
  arithSpaces_spaces hw (hr h2)

theorem ReadsTo.ok_of_loc {f : IW → Res Int} (hf : Local AnyNext f) {w w' : IW} {v : Int} {t : List Char} (h : f w = .ok v w')
    (ht : w.rem = t ++ w'.rem) : ReadsTo w t w' ∧
    ∀ w2 r2, w2.rem = t ++ r2 → r2.head? = w'.rem.head? → ∃ w2', f w2 = .ok v w2' ∧ w2'.rem = r2 := by
  have := hf w trivial
  rw [h] at this
  obtain ⟨a, ha, hl⟩ := this
  obtain rfl : a = t := List.append_cancel_right (ha.1.symm.trans ht)
  exact ⟨ha, hl⟩

theorem spaces_succ' (k : Nat) : spaces (k + 1) = spaces k ++ [' '] := List.replicate_succ'

theorem arith_unexp (m : Ovf) : ∀ n : Nat, Unexp False (fun x => ∃ t : ATerm, t.text = x) (takeTerm m n) ∧
    (∀ out (p : AProd), Unexp True (fun x => ∃ q : AProd, q.text = p.text ++ x) (productLoop m n out)) ∧
    Unexp False (fun x => ∃ t : AProd, t.text = x) (takeProduct m n) ∧
    (∀ out (p : ASum), Unexp True (fun x => ∃ q : ASum, q.text = p.text ++ x) (exprLoop m n out)) ∧
    Unexp False (fun x => ∃ t : ASum, t.text = x) (takeExpr m n) := by
  intro n
  induction n with
  | zero => exact ⟨(by intro _ _ _ _ _ h; cases h), (by intro _ _ _ _ _ _ _ h; cases h), (by intro _ _ _ _ _ h; cases h), (by intro _ _ _ _ _ _ _ h; cases h), (by intro _ _ _ _ _ h; cases h)⟩
  | succ n ih =>
    obtain ⟨ih1, ih2, ih3, ih4, ih5⟩ := ih
    obtain ⟨lc1, lc2, lc3, lc4, lc5⟩ := arith_loc m n
    obtain ⟨so1, so2, so3, so4, so5⟩ := arith_sound m n
    refine ⟨?_, ?_, ?_, ?_, ?_⟩
    · intro w pos c exp w' h
      cases hr : w.rem with
      | nil => rw [takeTerm, IW.peek_eq, hr] at h; cases h
      | cons c0 cs =>
        rw [takeTerm_eq m n hr] at h
        have hb := Res.bind_err' h
        clear h
        rcases hb with h | ⟨_, _, _, h⟩
        rotate_left
        · cases h
        split at h
        · rename_i hc0
          subst hc0
          obtain ⟨w1, h1, h2⟩ := consume1 (w := w.peek.2) (by rw [IW.peek_rem]; exact hr)
          rw [h1] at h
          have hb := Res.bind_err' (r := takeNumber m (arithSpaces w1)) h
          clear h
          rcases hb with h | ⟨_, _, _, h⟩
          rotate_left
          · obtain ⟨_, -, h⟩ := orPanic_err h; cases h
          obtain ⟨k, hk, hk2⟩ := ReadsTo.spaces w1
          refine unexp_after (Unexp.number m) (((ReadsTo.consume h1).trans hk).of_peek) h ⟨_, _, rfl, by decide⟩ (.inl hk2) (.inr ⟨_, .neg (k + 1) ⟨0, []⟩ 0, by simp only [ATerm.text, spaces_succ', List.cons_append, List.append_assoc, List.nil_append]; rfl⟩) ?_ ?_
          · rintro x ⟨t, rfl⟩
            exact ⟨[], .neg k t 0, by simp [ATerm.text, spaces]⟩
          · intro w2 r2 hw2 hr2 _ hf
            obtain ⟨w3, h3, h4⟩ := consume1 (w := w2.peek.2) (c := '-') (cs := spaces k ++ r2) (by rw [IW.peek_rem]; exact hw2)
            obtain ⟨e', w4, h5⟩ := hf _ (spaces_head hk2 h4 hr2)
            refine ⟨e', w4, ?_⟩
            rw [takeTerm_eq m n hw2, if_pos rfl, h3]
            simp only [Res.bind]
            rw [h5]
        · rename_i hm
          split at h
          · rename_i hd
            obtain ⟨rfl, h1⟩ := takeNumber_err h
            rcases h1 with ⟨h1, -⟩ | ⟨d, r, h1, hc, -⟩
            · rw [IW.peek_rem, hr] at h1; cases h1
            · rw [IW.peek_rem, hr] at h1; cases h1; rw [hd] at hc; cases hc
          · rename_i hd
            split at h
            · rename_i hc0
              subst hc0
              obtain ⟨w1, h1, h2⟩ := consume1 (w := w.peek.2) (by rw [IW.peek_rem]; exact hr)
              rw [h1] at h
              simp only [Res.bind] at h
              obtain ⟨k, hk, hk2⟩ := ReadsTo.spaces w1
              split at h
              · rename_i v w3 hx
                have h := Res.map_err h
                rcases (consume1_err h).2.2 with ⟨_, h3⟩ | ⟨_, _, _, h3⟩ <;> cases h3
              · rename_i e w3 hx
                have h : e = .badBranch pos c exp := by
                  rcases consume1_total ')' w3 with ⟨w4, h3⟩ | ⟨e', w4, h3⟩
                  · rw [h3] at h; cases h; rfl
                  · rw [h3] at h
                    cases h
                    rcases (consume1_err h3).2.2 with ⟨_, h4⟩ | ⟨_, _, _, h4⟩ <;> cases h4
                subst h
                refine unexp_after ih5 (((ReadsTo.consume h1).trans hk).of_peek) hx ⟨_, _, rfl, by decide⟩ (.inl hk2) (.inr ⟨_, .paren (k + 1) (.prod (.term (.pos ⟨0, []⟩ 0))) 0, by simp only [ATerm.text, spaces_succ', List.cons_append, List.append_assoc, List.nil_append]; rfl⟩) ?_ ?_
                · rintro x ⟨t, rfl⟩
                  exact ⟨[')'], .paren k t 0, by simp [ATerm.text, spaces]⟩
                · intro w2 r2 hw2 hr2 _ hf
                  obtain ⟨w3, h3, h4⟩ := consume1 (w := w2.peek.2) (c := '(') (cs := spaces k ++ r2) (by rw [IW.peek_rem]; exact hw2)
                  obtain ⟨e', w4, h5⟩ := hf _ (spaces_head hk2 h4 hr2)
                  rw [takeTerm_eq m n hw2, if_neg hm, if_neg hd, if_pos rfl, h3]
                  simp only [Res.bind]
                  rw [h5]
                  rcases consume1_total ')' w4 with ⟨w5, h6⟩ | ⟨e2, w5, h6⟩
                  · exact ⟨e', w5, by dsimp only; rw [h6]⟩
                  · exact ⟨e2, w5, by dsimp only; rw [h6]⟩
              · cases h
              · cases h
            · rename_i hp
              simp only [Res.err.injEq, TakeError.badBranch.injEq] at h
              obtain ⟨⟨rfl, rfl, rfl⟩, rfl⟩ := h
              refine ⟨[], cs, hr, by simp [advPosN], ?_, fun _ => rfl, by simp, fun h => h.elim, fun h => absurd rfl h, fun d hd => ?_, fun w2 r2 hw2 hr2 => ?_⟩
              · simp only [List.mem_cons, mem_digitChars]
                rintro (h | h | h)
                · exact hm h
                · exact hp h
                · exact hd h
              · simp only [List.mem_cons, mem_digitChars] at hd
                rcases hd with rfl | rfl | hd
                · exact ⟨['0'], .neg 0 ⟨0, []⟩ 0, by decide +kernel⟩
                · exact ⟨['0', ')'], .paren 0 (.prod (.term (.pos ⟨0, []⟩ 0))) 0, by decide +kernel⟩
                · obtain ⟨k, rfl⟩ := isDigit_digitChar hd
                  exact ⟨[], .pos ⟨k, []⟩ 0, by simp [ATerm.text, spaces, Numeral.text]⟩
              · cases hr2' : w2.rem with
                | nil => exact ⟨_, _, by rw [takeTerm, IW.peek_eq, hr2']; rfl⟩
                | cons d l =>
                  have := (hr2 d (by rw [← List.nil_append r2, ← hw2, hr2']; rfl)).1
                  simp only [List.mem_cons, mem_digitChars, not_or] at this
                  exact ⟨_, _, by rw [takeTerm_eq m n hr2', if_neg this.1, if_neg this.2.2, if_neg this.2.1]; rfl⟩
    · intro out p w pos c exp w' h
      cases hr : w.rem with
      | nil => rw [productLoop, IW.peek_eq, hr] at h; cases h
      | cons c0 cs =>
        rw [productLoop_eq m n out hr] at h
        split at h
        · rename_i hc0
          subst hc0
          obtain ⟨w1, h1, h2⟩ := consume1 (w := w.peek.2) (by rw [IW.peek_rem]; exact hr)
          rw [h1] at h
          simp only [Res.bind] at h
          obtain ⟨k, hk, hk2⟩ := ReadsTo.spaces w1
          have hb := Res.bind_err' (r := takeTerm m n (arithSpaces w1)) (f := fun x w => orPanic (m.fit (out * x)) fun out => productLoop m n out w) h
          clear h
          rcases hb with h | ⟨x, w3, hx, h⟩
          · refine unexp_after ih1 (((ReadsTo.consume h1).trans hk).of_peek) h ⟨_, _, rfl, by decide⟩ (.inl hk2) (.inr ⟨_, .mul p (k + 1) (.pos ⟨0, []⟩ 0), by simp only [AProd.text, spaces_succ', List.cons_append, List.append_assoc, List.nil_append]; rfl⟩) ?_ ?_
            · rintro x ⟨t, rfl⟩
              exact ⟨[], .mul p k t, by simp [AProd.text]⟩
            · intro w2 r2 hw2 hr2 _ hf
              obtain ⟨w3, h3, h4⟩ := consume1 (w := w2.peek.2) (c := '*') (cs := spaces k ++ r2) (by rw [IW.peek_rem]; exact hw2)
              obtain ⟨e', w4, h5⟩ := hf _ (spaces_head hk2 h4 hr2)
              refine ⟨e', w4, ?_⟩
              rw [productLoop_eq m n out hw2, if_pos rfl, h3]
              simp only [Res.bind]
              rw [h5]
          · obtain ⟨y, hy, h⟩ := orPanic_err h
            obtain ⟨t, ht, -⟩ := so1 _ _ _ hx
            obtain ⟨h5, h6⟩ := ReadsTo.ok_of_loc lc1 hx ht
            refine unexp_after (ih2 y (.mul p k t)) (((ReadsTo.consume h1).trans (hk.trans h5)).of_peek) h ⟨_, _, rfl, by decide⟩ (.inr trivial) (.inl trivial) ?_ ?_
            · rintro x ⟨q, hq⟩
              exact ⟨[], q, by rw [hq]; simp [AProd.text]⟩
            · intro w2 r2 hw2 _ hr2 hf
              obtain ⟨w4, h3, h4⟩ := consume1 (w := w2.peek.2) (c := '*') (cs := spaces k ++ (t.text ++ r2)) (by rw [IW.peek_rem]; simpa using hw2)
              obtain ⟨w5, h7, h8⟩ := h6 (arithSpaces w4) r2 (arithSpaces_spaces h4 (head_append_ne t.text_cons)) (hr2 trivial)
              obtain ⟨e', w6, h9⟩ := hf w5 h8
              refine ⟨e', w6, ?_⟩
              rw [productLoop_eq m n out hw2, if_pos rfl, h3]
              simp only [Res.bind]
              rw [h7]
              simp only [hy, orPanic]
              exact h9
        · rename_i hm
          split at h
          · rename_i hc0
            subst hc0
            obtain ⟨w1, h1, h2⟩ := consume1 (w := w.peek.2) (by rw [IW.peek_rem]; exact hr)
            rw [h1] at h
            simp only [Res.bind] at h
            obtain ⟨k, hk, hk2⟩ := ReadsTo.spaces w1
            have hb := Res.bind_err' (r := takeTerm m n (arithSpaces w1)) (f := fun x w => orPanic (divI64 out x) fun out => productLoop m n out w) h
            clear h
            rcases hb with h | ⟨x, w3, hx, h⟩
            · refine unexp_after ih1 (((ReadsTo.consume h1).trans hk).of_peek) h ⟨_, _, rfl, by decide⟩ (.inl hk2) (.inr ⟨_, .div p (k + 1) (.pos ⟨0, []⟩ 0), by simp only [AProd.text, spaces_succ', List.cons_append, List.append_assoc, List.nil_append]; rfl⟩) ?_ ?_
              · rintro x ⟨t, rfl⟩
                exact ⟨[], .div p k t, by simp [AProd.text]⟩
              · intro w2 r2 hw2 hr2 _ hf
                obtain ⟨w3, h3, h4⟩ := consume1 (w := w2.peek.2) (c := '/') (cs := spaces k ++ r2) (by rw [IW.peek_rem]; exact hw2)
                obtain ⟨e', w4, h5⟩ := hf _ (spaces_head hk2 h4 hr2)
                refine ⟨e', w4, ?_⟩
                rw [productLoop_eq m n out hw2, if_neg hm, if_pos rfl, h3]
                simp only [Res.bind]
                rw [h5]
            · obtain ⟨y, hy, h⟩ := orPanic_err h
              obtain ⟨t, ht, -⟩ := so1 _ _ _ hx
              obtain ⟨h5, h6⟩ := ReadsTo.ok_of_loc lc1 hx ht
              refine unexp_after (ih2 y (.div p k t)) (((ReadsTo.consume h1).trans (hk.trans h5)).of_peek) h ⟨_, _, rfl, by decide⟩ (.inr trivial) (.inl trivial) ?_ ?_
              · rintro x ⟨q, hq⟩
                exact ⟨[], q, by rw [hq]; simp [AProd.text]⟩
              · intro w2 r2 hw2 _ hr2 hf
                obtain ⟨w4, h3, h4⟩ := consume1 (w := w2.peek.2) (c := '/') (cs := spaces k ++ (t.text ++ r2)) (by rw [IW.peek_rem]; simpa using hw2)
                obtain ⟨w5, h7, h8⟩ := h6 (arithSpaces w4) r2 (arithSpaces_spaces h4 (head_append_ne t.text_cons)) (hr2 trivial)
                obtain ⟨e', w6, h9⟩ := hf w5 h8
                refine ⟨e', w6, ?_⟩
                rw [productLoop_eq m n out hw2, if_neg hm, if_pos rfl, h3]
                simp only [Res.bind]
                rw [h7]
                simp only [hy, orPanic]
                exact h9
          · cases h
    · intro w pos c exp w' h
      rw [takeProduct] at h
      have hb := Res.bind_err' h
      clear h
      rcases hb with h | ⟨v, w1, h1, h⟩
      · refine unexp_mono ih1 h (by rintro x ⟨t, rfl⟩; exact ⟨.term t, by rw [AProd.text]⟩) fun w2 e w2' he => ⟨e, w2', by rw [takeProduct, he]; rfl⟩
      · obtain ⟨t, ht, -⟩ := so1 _ _ _ h1
        obtain ⟨h2, h3⟩ := ReadsTo.ok_of_loc lc1 h1 ht
        refine unexp_after (ih2 v (.term t)) h2 h t.text_cons (.inr trivial) (.inl trivial) ?_ ?_
        · rintro x ⟨q, hq⟩
          exact ⟨[], q, by rw [hq, AProd.text, List.append_nil]⟩
        · intro w2 r2 hw2 _ hr2 hf
          obtain ⟨w3, h4, h5⟩ := h3 w2 r2 hw2 (hr2 trivial)
          obtain ⟨e', w4, h6⟩ := hf w3 h5
          exact ⟨e', w4, by rw [takeProduct, h4]; exact h6⟩
    · intro out p w pos c exp w' h
      cases hr : w.rem with
      | nil => rw [exprLoop, IW.peek_eq, hr] at h; cases h
      | cons c0 cs =>
        rw [exprLoop_eq m n out hr] at h
        split at h
        · rename_i hc0
          subst hc0
          obtain ⟨w1, h1, h2⟩ := consume1 (w := w.peek.2) (by rw [IW.peek_rem]; exact hr)
          rw [h1] at h
          simp only [Res.bind] at h
          obtain ⟨k, hk, hk2⟩ := ReadsTo.spaces w1
          have hb := Res.bind_err' (r := takeProduct m n (arithSpaces w1)) (f := fun x w => orPanic (m.fit (out + x)) fun out => exprLoop m n out w) h
          clear h
          rcases hb with h | ⟨x, w3, hx, h⟩
          · refine unexp_after ih3 (((ReadsTo.consume h1).trans hk).of_peek) h ⟨_, _, rfl, by decide⟩ (.inl hk2) (.inr ⟨_, .add p (k + 1) (.term (.pos ⟨0, []⟩ 0)), by simp only [ASum.text, spaces_succ', List.cons_append, List.append_assoc, List.nil_append]; rfl⟩) ?_ ?_
            · rintro x ⟨t, rfl⟩
              exact ⟨[], .add p k t, by simp [ASum.text]⟩
            · intro w2 r2 hw2 hr2 _ hf
              obtain ⟨w3, h3, h4⟩ := consume1 (w := w2.peek.2) (c := '+') (cs := spaces k ++ r2) (by rw [IW.peek_rem]; exact hw2)
              obtain ⟨e', w4, h5⟩ := hf _ (spaces_head hk2 h4 hr2)
              refine ⟨e', w4, ?_⟩
              rw [exprLoop_eq m n out hw2, if_pos rfl, h3]
              simp only [Res.bind]
              rw [h5]
          · obtain ⟨y, hy, h⟩ := orPanic_err h
            obtain ⟨t, ht, -⟩ := so3 _ _ _ hx
            obtain ⟨h5, h6⟩ := ReadsTo.ok_of_loc lc3 hx ht
            refine unexp_after (ih4 y (.add p k t)) (((ReadsTo.consume h1).trans (hk.trans h5)).of_peek) h ⟨_, _, rfl, by decide⟩ (.inr trivial) (.inl trivial) ?_ ?_
            · rintro x ⟨q, hq⟩
              exact ⟨[], q, by rw [hq]; simp [ASum.text]⟩
            · intro w2 r2 hw2 _ hr2 hf
              obtain ⟨w4, h3, h4⟩ := consume1 (w := w2.peek.2) (c := '+') (cs := spaces k ++ (t.text ++ r2)) (by rw [IW.peek_rem]; simpa using hw2)
              obtain ⟨w5, h7, h8⟩ := h6 (arithSpaces w4) r2 (arithSpaces_spaces h4 (head_append_ne t.text_cons)) (hr2 trivial)
              obtain ⟨e', w6, h9⟩ := hf w5 h8
              refine ⟨e', w6, ?_⟩
              rw [exprLoop_eq m n out hw2, if_pos rfl, h3]
              simp only [Res.bind]
              rw [h7]
              simp only [hy, orPanic]
              exact h9
        · rename_i hm
          split at h
          · rename_i hc0
            subst hc0
            obtain ⟨w1, h1, h2⟩ := consume1 (w := w.peek.2) (by rw [IW.peek_rem]; exact hr)
            rw [h1] at h
            simp only [Res.bind] at h
            obtain ⟨k, hk, hk2⟩ := ReadsTo.spaces w1
            have hb := Res.bind_err' (r := takeProduct m n (arithSpaces w1)) (f := fun x w => orPanic (m.fit (out - x)) fun out => exprLoop m n out w) h
            clear h
            rcases hb with h | ⟨x, w3, hx, h⟩
            · refine unexp_after ih3 (((ReadsTo.consume h1).trans hk).of_peek) h ⟨_, _, rfl, by decide⟩ (.inl hk2) (.inr ⟨_, .sub p (k + 1) (.term (.pos ⟨0, []⟩ 0)), by simp only [ASum.text, spaces_succ', List.cons_append, List.append_assoc, List.nil_append]; rfl⟩) ?_ ?_
              · rintro x ⟨t, rfl⟩
                exact ⟨[], .sub p k t, by simp [ASum.text]⟩
              · intro w2 r2 hw2 hr2 _ hf
                obtain ⟨w3, h3, h4⟩ := consume1 (w := w2.peek.2) (c := '-') (cs := spaces k ++ r2) (by rw [IW.peek_rem]; exact hw2)
                obtain ⟨e', w4, h5⟩ := hf _ (spaces_head hk2 h4 hr2)
                refine ⟨e', w4, ?_⟩
                rw [exprLoop_eq m n out hw2, if_neg hm, if_pos rfl, h3]
                simp only [Res.bind]
                rw [h5]
            · obtain ⟨y, hy, h⟩ := orPanic_err h
              obtain ⟨t, ht, -⟩ := so3 _ _ _ hx
              obtain ⟨h5, h6⟩ := ReadsTo.ok_of_loc lc3 hx ht
              refine unexp_after (ih4 y (.sub p k t)) (((ReadsTo.consume h1).trans (hk.trans h5)).of_peek) h ⟨_, _, rfl, by decide⟩ (.inr trivial) (.inl trivial) ?_ ?_
              · rintro x ⟨q, hq⟩
                exact ⟨[], q, by rw [hq]; simp [ASum.text]⟩
              · intro w2 r2 hw2 _ hr2 hf
                obtain ⟨w4, h3, h4⟩ := consume1 (w := w2.peek.2) (c := '-') (cs := spaces k ++ (t.text ++ r2)) (by rw [IW.peek_rem]; simpa using hw2)
                obtain ⟨w5, h7, h8⟩ := h6 (arithSpaces w4) r2 (arithSpaces_spaces h4 (head_append_ne t.text_cons)) (hr2 trivial)
                obtain ⟨e', w6, h9⟩ := hf w5 h8
                refine ⟨e', w6, ?_⟩
                rw [exprLoop_eq m n out hw2, if_neg hm, if_pos rfl, h3]
                simp only [Res.bind]
                rw [h7]
                simp only [hy, orPanic]
                exact h9
          · cases h
    · intro w pos c exp w' h
      rw [takeExpr] at h
      have hb := Res.bind_err' h
      clear h
      rcases hb with h | ⟨v, w1, h1, h⟩
      · refine unexp_mono ih3 h (by rintro x ⟨t, rfl⟩; exact ⟨.prod t, by rw [ASum.text]⟩) fun w2 e w2' he => ⟨e, w2', by rw [takeExpr, he]; rfl⟩
      · obtain ⟨t, ht, -⟩ := so3 _ _ _ h1
        obtain ⟨h2, h3⟩ := ReadsTo.ok_of_loc lc3 h1 ht
        refine unexp_after (ih4 v (.prod t)) h2 h t.text_cons (.inr trivial) (.inl trivial) ?_ ?_
        · rintro x ⟨q, hq⟩
          exact ⟨[], q, by rw [hq, ASum.text, List.append_nil]⟩
        · intro w2 r2 hw2 _ hr2 hf
          obtain ⟨w3, h4, h5⟩ := h3 w2 r2 hw2 (hr2 trivial)
          obtain ⟨e', w4, h6⟩ := hf w3 h5
          exact ⟨e', w4, by rw [takeExpr, h4]; exact h6⟩

end Chomp
