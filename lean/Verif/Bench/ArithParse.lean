import Verif.Bench.ArithLemmas
import Verif.Lower.Ref

/-! Correctness of the hand-written arithmetic parser. -/

namespace Chomp

attribute [local irreducible] Ovf.fit InI64 divI64

/-! ### First characters -/

theorem Numeral.text_cons (n : Numeral) : ∃ c cs, n.text = c :: cs ∧ c.isDigit = true :=
  ⟨_, _, rfl, digitChar_isDigit _⟩

theorem isDigit_ne {c d : Char} (h : c.isDigit = true) (hd : d.isDigit = false) : c ≠ d := by
  intro e; rw [e, hd] at h; cases h

theorem ATerm.text_cons (t : ATerm) : ∃ c cs, t.text = c :: cs ∧ c ≠ ' ' := by
  cases t with
  | pos n sp =>
    obtain ⟨c, cs, h, hc⟩ := n.text_cons
    exact ⟨c, _, by rw [ATerm.text, h]; rfl, isDigit_ne hc (by decide)⟩
  | neg sp1 n sp => exact ⟨_, _, rfl, by decide⟩
  | paren sp1 e sp => exact ⟨_, _, rfl, by decide⟩

theorem AProd.text_cons : ∀ p : AProd, ∃ c cs, p.text = c :: cs ∧ c ≠ ' '
  | .term t => t.text_cons
  | .mul l _ _ => by
    obtain ⟨c, cs, h, hc⟩ := AProd.text_cons l
    exact ⟨c, _, by rw [AProd.text, h]; rfl, hc⟩
  | .div l _ _ => by
    obtain ⟨c, cs, h, hc⟩ := AProd.text_cons l
    exact ⟨c, _, by rw [AProd.text, h]; rfl, hc⟩

theorem ASum.text_cons : ∀ p : ASum, ∃ c cs, p.text = c :: cs ∧ c ≠ ' '
  | .prod t => t.text_cons
  | .add l _ _ => by
    obtain ⟨c, cs, h, hc⟩ := ASum.text_cons l
    exact ⟨c, _, by rw [ASum.text, h]; rfl, hc⟩
  | .sub l _ _ => by
    obtain ⟨c, cs, h, hc⟩ := ASum.text_cons l
    exact ⟨c, _, by rw [ASum.text, h]; rfl, hc⟩

theorem head_append_ne {l r : List Char} (h : ∃ c cs, l = c :: cs ∧ c ≠ ' ') : (l ++ r).head? ≠ some ' ' := by
  obtain ⟨c, cs, rfl, hc⟩ := h
  simpa using hc

/-! ### One step of each function -/

theorem takeTerm_eq (m : Ovf) (n : Nat) {w : IW} {c : Char} {cs : List Char} (h : w.rem = c :: cs) :
    takeTerm m (n + 1) w = Res.bind
      (if c = '-' then
          (consumeStr ['-'] w.peek.2).bind fun _ w =>
            (takeNumber m (arithSpaces w)).bind fun x w => orPanic (m.fit (-x)) fun x => .ok x w
        else if c.isDigit then takeNumber m w.peek.2
        else if c = '(' then
          (consumeStr ['('] w.peek.2).bind fun _ w =>
            match takeExpr m n (arithSpaces w) with
            | .ok v w => (consumeStr [')'] w).map fun _ => v
            | .err e w => (consumeStr [')'] w).bind fun _ w => .err e w
            | .panic => .panic
            | .oof => .oof
        else .err (.badBranch w.peek.2.pos c ('-' :: '(' :: digitChars)) w.peek.2)
      fun out w => .ok out (arithSpaces w) := by
  rw [takeTerm, IW.peek_eq, h]
  rfl

theorem productLoop_eq (m : Ovf) (n : Nat) (out : Int) {w : IW} {c : Char} {cs : List Char} (h : w.rem = c :: cs) :
    productLoop m (n + 1) out w =
      if c = '*' then
        (consumeStr ['*'] w.peek.2).bind fun _ w =>
          (takeTerm m n (arithSpaces w)).bind fun x w => orPanic (m.fit (out * x)) fun out => productLoop m n out w
      else if c = '/' then
        (consumeStr ['/'] w.peek.2).bind fun _ w =>
          (takeTerm m n (arithSpaces w)).bind fun x w => orPanic (divI64 out x) fun out => productLoop m n out w
      else .ok out w.peek.2 := by
  rw [productLoop, IW.peek_eq, h]
  rfl

theorem exprLoop_eq (m : Ovf) (n : Nat) (out : Int) {w : IW} {c : Char} {cs : List Char} (h : w.rem = c :: cs) :
    exprLoop m (n + 1) out w =
      if c = '+' then
        (consumeStr ['+'] w.peek.2).bind fun _ w =>
          (takeProduct m n (arithSpaces w)).bind fun x w => orPanic (m.fit (out + x)) fun out => exprLoop m n out w
      else if c = '-' then
        (consumeStr ['-'] w.peek.2).bind fun _ w =>
          (takeProduct m n (arithSpaces w)).bind fun x w => orPanic (m.fit (out - x)) fun out => exprLoop m n out w
      else .ok out w.peek.2 := by
  rw [exprLoop, IW.peek_eq, h]
  rfl

theorem productLoop_end (m : Ovf) (n : Nat) (out : Int) {w : IW} (h1 : w.rem.head? ≠ some '*') (h2 : w.rem.head? ≠ some '/') :
    productLoop m (n + 1) out w = .ok out w.peek.2 := by
  cases hr : w.rem with
  | nil => rw [productLoop, IW.peek_eq, hr]; rfl
  | cons c cs =>
    rw [hr] at h1 h2
    simp only [List.head?_cons, ne_eq, Option.some.injEq] at h1 h2
    rw [productLoop_eq m n out hr, if_neg h1, if_neg h2]

theorem exprLoop_end (m : Ovf) (n : Nat) (out : Int) {w : IW} (h1 : w.rem.head? ≠ some '+') (h2 : w.rem.head? ≠ some '-') :
    exprLoop m (n + 1) out w = .ok out w.peek.2 := by
  cases hr : w.rem with
  | nil => rw [exprLoop, IW.peek_eq, hr]; rfl
  | cons c cs =>
    rw [hr] at h1 h2
    simp only [List.head?_cons, ne_eq, Option.some.injEq] at h1 h2
    rw [exprLoop_eq m n out hr, if_neg h1, if_neg h2]

/-! ### Soundness -/

theorem orPanic_ok {α β : Type} {o : Option α} {f : α → Res β} {b : β} {w : IW} (h : orPanic o f = .ok b w) :
    ∃ a, o = some a ∧ f a = .ok b w := by
  cases o with
  | none => cases h
  | some a => exact ⟨a, rfl, h⟩

theorem arithSpaces_sound (w : IW) : ∃ n, w.rem = spaces n ++ (arithSpaces w).rem := by
  obtain ⟨n, h, -⟩ := takeWhile_spaces w.rem
  exact ⟨n, by rw [arithSpaces_rem]; exact h⟩

theorem arith_sound (m : Ovf) : ∀ n : Nat,
    (∀ w w' v, takeTerm m n w = .ok v w' → ∃ t : ATerm, w.rem = t.text ++ w'.rem ∧ t.eval m = some v) ∧
    (∀ out w w' v, productLoop m n out w = .ok v w' → ∀ p : AProd, p.eval m = some out →
      ∃ (q : AProd) (l : List Char), q.text = p.text ++ l ∧ w.rem = l ++ w'.rem ∧ q.eval m = some v) ∧
    (∀ w w' v, takeProduct m n w = .ok v w' → ∃ t : AProd, w.rem = t.text ++ w'.rem ∧ t.eval m = some v) ∧
    (∀ out w w' v, exprLoop m n out w = .ok v w' → ∀ p : ASum, p.eval m = some out →
      ∃ (q : ASum) (l : List Char), q.text = p.text ++ l ∧ w.rem = l ++ w'.rem ∧ q.eval m = some v) ∧
    (∀ w w' v, takeExpr m n w = .ok v w' → ∃ t : ASum, w.rem = t.text ++ w'.rem ∧ t.eval m = some v) := by
  intro n
  induction n with
  | zero => exact ⟨(by intro _ _ _ h; cases h), (by intro _ _ _ _ h; cases h), (by intro _ _ _ h; cases h), (by intro _ _ _ _ h; cases h), (by intro _ _ _ h; cases h)⟩
  | succ n ih =>
    obtain ⟨ih1, ih2, ih3, ih4, ih5⟩ := ih
    refine ⟨?_, ?_, ?_, ?_, ?_⟩
    · intro w w' v h
      cases hr : w.rem with
      | nil => rw [takeTerm, IW.peek_eq, hr] at h; cases h
      | cons c cs =>
        rw [takeTerm_eq m n hr] at h
        obtain ⟨v', w1, h1, h2⟩ := Res.bind_ok h
        cases h2
        obtain ⟨sp, hsp⟩ := arithSpaces_sound w1
        rw [← hr, ← w.peek_rem]
        split at h1
        · obtain ⟨u, w2, h3, h4⟩ := Res.bind_ok h1
          have h3 := consume1_ok h3
          obtain ⟨sp1, hsp1⟩ := arithSpaces_sound w2
          obtain ⟨x, w3, h5, h6⟩ := Res.bind_ok h4
          obtain ⟨y, h7, h8⟩ := orPanic_ok h6
          cases h8
          obtain ⟨k, hk, hv, -⟩ := takeNumber_sound h5
          refine ⟨.neg sp1 k sp, ?_, by rw [ATerm.eval, hv, Option.bind_some, h7]⟩
          rw [h3, hsp1, hk, hsp]
          simp [ATerm.text]
        · split at h1
          · obtain ⟨k, hk, hv, -⟩ := takeNumber_sound h1
            refine ⟨.pos k sp, ?_, by rw [ATerm.eval, hv]⟩
            rw [hk, hsp]
            simp [ATerm.text]
          · split at h1
            · obtain ⟨u, w2, h3, h4⟩ := Res.bind_ok h1
              have h3 := consume1_ok h3
              obtain ⟨sp1, hsp1⟩ := arithSpaces_sound w2
              split at h4
              · rename_i x w3 hx
                obtain ⟨e, he, hev⟩ := ih5 _ _ _ hx
                obtain ⟨u2, h5, rfl⟩ := Res.map_ok h4
                have h5 := consume1_ok h5
                refine ⟨.paren sp1 e sp, ?_, by rw [ATerm.eval, hev]⟩
                rw [h3, hsp1, he, h5, hsp]
                simp [ATerm.text]
              · obtain ⟨_, _, _, h6⟩ := Res.bind_ok h4; cases h6
              · cases h4
              · cases h4
            · cases h1
    · intro out w w' v h p hp
      have stop : ∀ {w : IW}, w.peek.2 = w' → out = v → ∃ (q : AProd) (l : List Char), q.text = p.text ++ l ∧
          w.rem = l ++ w'.rem ∧ q.eval m = some v := by
        intro w hw hv
        exact ⟨p, [], by simp, by rw [← hw]; simp, by rw [hp, hv]⟩
      cases hr : w.rem with
      | nil =>
        rw [productLoop, IW.peek_eq, hr] at h
        simp only [List.head?_nil, Res.ok.injEq] at h
        rw [← hr]
        exact stop h.2 h.1
      | cons c cs =>
        rw [productLoop_eq m n out hr] at h
        rw [← hr]
        split at h
        · obtain ⟨u, w2, h3, h4⟩ := Res.bind_ok h
          have h3 := consume1_ok h3
          rw [IW.peek_rem] at h3
          obtain ⟨sp1, hsp1⟩ := arithSpaces_sound w2
          obtain ⟨x, w3, h5, h6⟩ := Res.bind_ok h4
          obtain ⟨y, h7, h8⟩ := orPanic_ok h6
          obtain ⟨t, ht, htv⟩ := ih1 _ _ _ h5
          obtain ⟨q, l, e1, e2, e3⟩ := ih2 _ _ _ _ h8 (.mul p sp1 t) (by rw [AProd.eval, hp, htv]; exact h7)
          refine ⟨q, '*' :: spaces sp1 ++ t.text ++ l, ?_, ?_, e3⟩
          · rw [e1]; simp [AProd.text]
          · rw [h3, hsp1, ht, e2]; simp
        · split at h
          · obtain ⟨u, w2, h3, h4⟩ := Res.bind_ok h
            have h3 := consume1_ok h3
            rw [IW.peek_rem] at h3
            obtain ⟨sp1, hsp1⟩ := arithSpaces_sound w2
            obtain ⟨x, w3, h5, h6⟩ := Res.bind_ok h4
            obtain ⟨y, h7, h8⟩ := orPanic_ok h6
            obtain ⟨t, ht, htv⟩ := ih1 _ _ _ h5
            obtain ⟨q, l, e1, e2, e3⟩ := ih2 _ _ _ _ h8 (.div p sp1 t) (by rw [AProd.eval, hp, htv]; exact h7)
            refine ⟨q, '/' :: spaces sp1 ++ t.text ++ l, ?_, ?_, e3⟩
            · rw [e1]; simp [AProd.text]
            · rw [h3, hsp1, ht, e2]; simp
          · simp only [Res.ok.injEq] at h
            exact stop h.2 h.1
    · intro w w' v h
      rw [takeProduct] at h
      obtain ⟨x, w1, h1, h2⟩ := Res.bind_ok h
      obtain ⟨t, ht, hv⟩ := ih1 _ _ _ h1
      obtain ⟨q, l, e1, e2, e3⟩ := ih2 _ _ _ _ h2 (.term t) (by rw [AProd.eval, hv])
      exact ⟨q, by rw [ht, e2, e1]; simp [AProd.text], e3⟩
    · intro out w w' v h p hp
      have stop : ∀ {w : IW}, w.peek.2 = w' → out = v → ∃ (q : ASum) (l : List Char), q.text = p.text ++ l ∧
          w.rem = l ++ w'.rem ∧ q.eval m = some v := by
        intro w hw hv
        exact ⟨p, [], by simp, by rw [← hw]; simp, by rw [hp, hv]⟩
      cases hr : w.rem with
      | nil =>
        rw [exprLoop, IW.peek_eq, hr] at h
        simp only [List.head?_nil, Res.ok.injEq] at h
        rw [← hr]
        exact stop h.2 h.1
      | cons c cs =>
        rw [exprLoop_eq m n out hr] at h
        rw [← hr]
        split at h
        · obtain ⟨u, w2, h3, h4⟩ := Res.bind_ok h
          have h3 := consume1_ok h3
          rw [IW.peek_rem] at h3
          obtain ⟨sp1, hsp1⟩ := arithSpaces_sound w2
          obtain ⟨x, w3, h5, h6⟩ := Res.bind_ok h4
          obtain ⟨y, h7, h8⟩ := orPanic_ok h6
          obtain ⟨t, ht, htv⟩ := ih3 _ _ _ h5
          obtain ⟨q, l, e1, e2, e3⟩ := ih4 _ _ _ _ h8 (.add p sp1 t) (by rw [ASum.eval, hp, htv]; exact h7)
          refine ⟨q, '+' :: spaces sp1 ++ t.text ++ l, ?_, ?_, e3⟩
          · rw [e1]; simp [ASum.text]
          · rw [h3, hsp1, ht, e2]; simp
        · split at h
          · obtain ⟨u, w2, h3, h4⟩ := Res.bind_ok h
            have h3 := consume1_ok h3
            rw [IW.peek_rem] at h3
            obtain ⟨sp1, hsp1⟩ := arithSpaces_sound w2
            obtain ⟨x, w3, h5, h6⟩ := Res.bind_ok h4
            obtain ⟨y, h7, h8⟩ := orPanic_ok h6
            obtain ⟨t, ht, htv⟩ := ih3 _ _ _ h5
            obtain ⟨q, l, e1, e2, e3⟩ := ih4 _ _ _ _ h8 (.sub p sp1 t) (by rw [ASum.eval, hp, htv]; exact h7)
            refine ⟨q, '-' :: spaces sp1 ++ t.text ++ l, ?_, ?_, e3⟩
            · rw [e1]; simp [ASum.text]
            · rw [h3, hsp1, ht, e2]; simp
          · simp only [Res.ok.injEq] at h
            exact stop h.2 h.1
    · intro w w' v h
      rw [takeExpr] at h
      obtain ⟨x, w1, h1, h2⟩ := Res.bind_ok h
      obtain ⟨t, ht, hv⟩ := ih3 _ _ _ h1
      obtain ⟨q, l, e1, e2, e3⟩ := ih4 _ _ _ _ h2 (.prod t) (by rw [ASum.eval, hv])
      exact ⟨q, by rw [ht, e2, e1]; simp [ASum.text], e3⟩

/-! ### Completeness -/

/-- With enough fuel the function ends with the given value and the given rest of the input, or panics. -/
def Outcs (f : Nat → IW → Res Int) (w : IW) (o : Option Int) (rest : List Char) : Prop :=
  match o with
  | some v => ∃ N w', w'.rem = rest ∧ ∀ n, N ≤ n → f n w = .ok v w'
  | none => ∃ N, ∀ n, N ≤ n → f n w = .panic

/-- The next character, if any, neither continues a number nor is a space. -/
def EndTerm (r : List Char) : Prop := ∀ c, r.head? = some c → c.isDigit = false ∧ c ≠ ' '
/-- Nor does it continue a product. -/
def EndProd (r : List Char) : Prop := EndTerm r ∧ r.head? ≠ some '*' ∧ r.head? ≠ some '/'
/-- Nor does it continue a sum. -/
def EndSum (r : List Char) : Prop := EndProd r ∧ r.head? ≠ some '+' ∧ r.head? ≠ some '-'

theorem EndTerm.cons {c : Char} {r : List Char} (h : c.isDigit = false) (h2 : c ≠ ' ') : EndTerm (c :: r) := by
  intro d hd
  simp only [List.head?_cons, Option.some.injEq] at hd
  rw [← hd]; exact ⟨h, h2⟩

theorem EndTerm.noDigit_spaces {r : List Char} (h : EndTerm r) (n : Nat) : NoDigit (spaces n ++ r) := by
  intro c hc
  cases n with
  | zero => exact (h c hc).1
  | succ n =>
    have : spaces (n + 1) = ' ' :: spaces n := rfl
    rw [this] at hc
    simp only [List.cons_append, List.head?_cons, Option.some.injEq] at hc
    rw [← hc]; decide

theorem EndTerm.noSpace {r : List Char} (h : EndTerm r) : r.head? ≠ some ' ' := fun hc => (h _ hc).2 rfl

mutual
theorem ATerm.complete (m : Ovf) : ∀ (t : ATerm) (rest : List Char) (w : IW), w.rem = t.text ++ rest → EndTerm rest →
    Outcs (takeTerm m) w (t.eval m) rest
  | .pos k sp, rest, w, hw, hr => by
    obtain ⟨c, cs, hk, hc⟩ := k.text_cons
    have hw' : w.rem = c :: (cs ++ spaces sp ++ rest) := by rw [hw, ATerm.text, hk]; simp
    have hn := takeNumber_complete m k (spaces sp ++ rest) (hr.noDigit_spaces sp) w.peek.2 (by rw [IW.peek_rem, hw, ATerm.text]; simp)
    have key : ∀ n, takeTerm m (n + 1) w = (takeNumber m w.peek.2).bind fun out w => .ok out (arithSpaces w) := by
      intro n
      rw [takeTerm_eq m n hw', if_neg (isDigit_ne hc (by decide)), if_pos hc]
    rw [ATerm.eval]
    cases ho : m.fit k.val with
    | none =>
      rw [ho] at hn
      refine ⟨1, fun n hn' => ?_⟩
      obtain ⟨n, rfl⟩ : ∃ j, n = j + 1 := ⟨n - 1, by omega⟩
      show takeTerm m (n + 1) w = .panic
      rw [key, (show takeNumber m w.peek.2 = .panic from hn)]; rfl
    | some v =>
      rw [ho] at hn
      obtain ⟨w1, h1, h2⟩ := hn
      refine ⟨1, arithSpaces w1, arithSpaces_spaces h2 hr.noSpace, fun n hn' => ?_⟩
      obtain ⟨n, rfl⟩ : ∃ j, n = j + 1 := ⟨n - 1, by omega⟩
      show takeTerm m (n + 1) w = _
      rw [key, h1]; rfl
  | .neg sp1 k sp, rest, w, hw, hr => by
    have hw' : w.rem = '-' :: (spaces sp1 ++ (k.text ++ (spaces sp ++ rest))) := by rw [hw, ATerm.text]; simp
    obtain ⟨w1, h1, h2⟩ := consume1 (w := w.peek.2) (by rw [IW.peek_rem]; exact hw')
    have h3 : (arithSpaces w1).rem = k.text ++ (spaces sp ++ rest) := by
      refine arithSpaces_spaces h2 (head_append_ne ?_)
      obtain ⟨c, cs, hk, hc⟩ := k.text_cons
      exact ⟨c, cs, hk, isDigit_ne hc (by decide)⟩
    have hn := takeNumber_complete m k (spaces sp ++ rest) (hr.noDigit_spaces sp) _ h3
    have key : ∀ n, takeTerm m (n + 1) w = ((takeNumber m (arithSpaces w1)).bind fun x w =>
        orPanic (m.fit (-x)) fun x => .ok x w).bind fun out w => .ok out (arithSpaces w) := by
      intro n
      rw [takeTerm_eq m n hw', if_pos rfl, h1]
      rfl
    rw [ATerm.eval]
    cases ho : m.fit k.val with
    | none =>
      rw [ho] at hn
      refine ⟨1, fun n hn' => ?_⟩
      obtain ⟨n, rfl⟩ : ∃ j, n = j + 1 := ⟨n - 1, by omega⟩
      show takeTerm m (n + 1) w = .panic
      rw [key, (show takeNumber m (arithSpaces w1) = .panic from hn)]; rfl
    | some v =>
      rw [ho] at hn
      obtain ⟨w2, h4, h5⟩ := hn
      rw [Option.bind_some]
      cases ho' : m.fit (-v) with
      | none =>
        refine ⟨1, fun n hn' => ?_⟩
        obtain ⟨n, rfl⟩ : ∃ j, n = j + 1 := ⟨n - 1, by omega⟩
        show takeTerm m (n + 1) w = .panic
        rw [key, h4]
        simp only [Res.bind]
        rw [ho']; rfl
      | some u =>
        refine ⟨1, arithSpaces w2, arithSpaces_spaces h5 hr.noSpace, fun n hn' => ?_⟩
        obtain ⟨n, rfl⟩ : ∃ j, n = j + 1 := ⟨n - 1, by omega⟩
        show takeTerm m (n + 1) w = _
        rw [key, h4]
        simp only [Res.bind]
        rw [ho']; rfl
  | .paren sp1 e sp, rest, w, hw, hr => by
    have hw' : w.rem = '(' :: (spaces sp1 ++ (e.text ++ (')' :: (spaces sp ++ rest)))) := by rw [hw, ATerm.text]; simp
    obtain ⟨w1, h1, h2⟩ := consume1 (w := w.peek.2) (by rw [IW.peek_rem]; exact hw')
    have h3 : (arithSpaces w1).rem = e.text ++ (')' :: (spaces sp ++ rest)) :=
      arithSpaces_spaces h2 (head_append_ne e.text_cons)
    have hn := ASum.complete m e (')' :: (spaces sp ++ rest)) (arithSpaces w1) h3
      ⟨⟨EndTerm.cons (by decide) (by decide), by simp, by simp⟩, by simp, by simp⟩
    have key : ∀ n, takeTerm m (n + 1) w = Res.bind (
            match takeExpr m n (arithSpaces w1) with
            | .ok v w => (consumeStr [')'] w).map fun _ => v
            | .err e w => (consumeStr [')'] w).bind fun _ w => .err e w
            | .panic => .panic
            | .oof => .oof) fun out w => .ok out (arithSpaces w) := by
      intro n
      rw [takeTerm_eq m n hw', if_neg (by decide), if_neg (by decide), if_pos rfl, h1]
      rfl
    rw [ATerm.eval]
    cases ho : e.eval m with
    | none =>
      rw [ho] at hn
      obtain ⟨N, hN⟩ := hn
      refine ⟨N + 1, fun n hn' => ?_⟩
      obtain ⟨n, rfl⟩ : ∃ j, n = j + 1 := ⟨n - 1, by omega⟩
      show takeTerm m (n + 1) w = .panic
      rw [key, hN n (by omega)]; rfl
    | some v =>
      rw [ho] at hn
      obtain ⟨N, w2, h4, hN⟩ := hn
      obtain ⟨w3, h5, h6⟩ := consume1 h4
      refine ⟨N + 1, arithSpaces w3, arithSpaces_spaces h6 hr.noSpace, fun n hn' => ?_⟩
      obtain ⟨n, rfl⟩ : ∃ j, n = j + 1 := ⟨n - 1, by omega⟩
      show takeTerm m (n + 1) w = _
      rw [key, hN n (by omega)]
      simp only [h5, Res.map, Res.bind]
/-- Parsing a product reaches the loop with the value of the product. -/
theorem AProd.complete' (m : Ovf) : ∀ (p : AProd) (rest : List Char) (w : IW), w.rem = p.text ++ rest → EndTerm rest →
    match p.eval m with
    | some v => ∃ k N w', w'.rem = rest ∧ ∀ n, N ≤ n → takeProduct m (n + k) w = productLoop m n v w'
    | none => ∃ N, ∀ n, N ≤ n → takeProduct m n w = .panic
  | .term t, rest, w, hw, hr => by
    have ht := ATerm.complete m t rest w hw hr
    rw [AProd.eval]
    cases ho : t.eval m with
    | none =>
      rw [ho] at ht
      obtain ⟨N, hN⟩ := ht
      refine ⟨N + 1, fun n hn => ?_⟩
      obtain ⟨n, rfl⟩ : ∃ j, n = j + 1 := ⟨n - 1, by omega⟩
      rw [takeProduct, hN n (by omega)]; rfl
    | some v =>
      rw [ho] at ht
      obtain ⟨N, w', h1, hN⟩ := ht
      refine ⟨1, N, w', h1, fun n hn => ?_⟩
      rw [takeProduct, hN n (by omega)]; rfl
  | .mul p sp t, rest, w, hw, hr => by
    have hp := AProd.complete' m p ('*' :: (spaces sp ++ (t.text ++ rest))) w (by rw [hw, AProd.text]; simp)
      (EndTerm.cons (by decide) (by decide))
    rw [AProd.eval]
    cases ho : p.eval m with
    | none => rw [ho] at hp; exact hp
    | some a =>
      rw [ho] at hp
      obtain ⟨k, N, w1, h1, hN⟩ := hp
      obtain ⟨w2, h2, h3⟩ := consume1 (w := w1.peek.2) (by rw [IW.peek_rem]; exact h1)
      have h4 : (arithSpaces w2).rem = t.text ++ rest := arithSpaces_spaces h3 (head_append_ne t.text_cons)
      have ht := ATerm.complete m t rest _ h4 hr
      have key : ∀ n, N ≤ n + 1 → takeProduct m (n + (k + 1)) w = (takeTerm m n (arithSpaces w2)).bind fun x w =>
          orPanic (m.fit (a * x)) fun out => productLoop m n out w := by
        intro n hn
        rw [show n + (k + 1) = n + 1 + k by omega, hN (n + 1) hn, productLoop_eq m n a h1, if_pos rfl, h2]
        rfl
      cases hb : t.eval m with
      | none =>
        rw [hb] at ht
        obtain ⟨M, hM⟩ := ht
        refine ⟨N + M + k + 1, fun n hn => ?_⟩
        obtain ⟨n, rfl⟩ : ∃ j, n = j + (k + 1) := ⟨n - (k + 1), by omega⟩
        rw [key n (by omega), hM n (by omega)]; rfl
      | some b =>
        rw [hb] at ht
        obtain ⟨M, w3, h5, hM⟩ := ht
        show match m.fit (a * b) with | some v => _ | none => _
        cases hf : m.fit (a * b) with
        | none =>
          refine ⟨N + M + k + 1, fun n hn => ?_⟩
          obtain ⟨n, rfl⟩ : ∃ j, n = j + (k + 1) := ⟨n - (k + 1), by omega⟩
          rw [key n (by omega), hM n (by omega)]
          simp only [Res.bind]
          rw [hf]; rfl
        | some v =>
          refine ⟨k + 1, N + M, w3, h5, fun n hn => ?_⟩
          rw [key n (by omega), hM n (by omega)]
          simp only [Res.bind]
          rw [hf]; rfl
  | .div p sp t, rest, w, hw, hr => by
    have hp := AProd.complete' m p ('/' :: (spaces sp ++ (t.text ++ rest))) w (by rw [hw, AProd.text]; simp)
      (EndTerm.cons (by decide) (by decide))
    rw [AProd.eval]
    cases ho : p.eval m with
    | none => rw [ho] at hp; exact hp
    | some a =>
      rw [ho] at hp
      obtain ⟨k, N, w1, h1, hN⟩ := hp
      obtain ⟨w2, h2, h3⟩ := consume1 (w := w1.peek.2) (by rw [IW.peek_rem]; exact h1)
      have h4 : (arithSpaces w2).rem = t.text ++ rest := arithSpaces_spaces h3 (head_append_ne t.text_cons)
      have ht := ATerm.complete m t rest _ h4 hr
      have key : ∀ n, N ≤ n + 1 → takeProduct m (n + (k + 1)) w = (takeTerm m n (arithSpaces w2)).bind fun x w =>
          orPanic (divI64 a x) fun out => productLoop m n out w := by
        intro n hn
        rw [show n + (k + 1) = n + 1 + k by omega, hN (n + 1) hn, productLoop_eq m n a h1, if_neg (by decide), if_pos rfl, h2]
        rfl
      cases hb : t.eval m with
      | none =>
        rw [hb] at ht
        obtain ⟨M, hM⟩ := ht
        refine ⟨N + M + k + 1, fun n hn => ?_⟩
        obtain ⟨n, rfl⟩ : ∃ j, n = j + (k + 1) := ⟨n - (k + 1), by omega⟩
        rw [key n (by omega), hM n (by omega)]; rfl
      | some b =>
        rw [hb] at ht
        obtain ⟨M, w3, h5, hM⟩ := ht
        show match divI64 a b with | some v => _ | none => _
        cases hf : divI64 a b with
        | none =>
          refine ⟨N + M + k + 1, fun n hn => ?_⟩
          obtain ⟨n, rfl⟩ : ∃ j, n = j + (k + 1) := ⟨n - (k + 1), by omega⟩
          rw [key n (by omega), hM n (by omega)]
          simp only [Res.bind]
          rw [hf]; rfl
        | some v =>
          refine ⟨k + 1, N + M, w3, h5, fun n hn => ?_⟩
          rw [key n (by omega), hM n (by omega)]
          simp only [Res.bind]
          rw [hf]; rfl
theorem AProd.complete (m : Ovf) : ∀ (p : AProd) (rest : List Char) (w : IW), w.rem = p.text ++ rest → EndProd rest →
    Outcs (takeProduct m) w (p.eval m) rest
  | p, rest, w, hw, hr => by
    have hp := AProd.complete' m p rest w hw hr.1
    cases ho : p.eval m with
    | none => rw [ho] at hp; exact hp
    | some v =>
      rw [ho] at hp
      obtain ⟨k, N, w', h1, hN⟩ := hp
      refine ⟨N + k + 1, w'.peek.2, by rw [IW.peek_rem, h1], fun n hn => ?_⟩
      obtain ⟨n, rfl⟩ : ∃ j, n = j + 1 + k := ⟨n - (k + 1), by omega⟩
      show takeProduct m (n + 1 + k) w = _
      rw [hN (n + 1) (by omega), productLoop_end m n v (by rw [h1]; exact hr.2.1) (by rw [h1]; exact hr.2.2)]
theorem ASum.complete' (m : Ovf) : ∀ (p : ASum) (rest : List Char) (w : IW), w.rem = p.text ++ rest → EndProd rest →
    match p.eval m with
    | some v => ∃ k N w', w'.rem = rest ∧ ∀ n, N ≤ n → takeExpr m (n + k) w = exprLoop m n v w'
    | none => ∃ N, ∀ n, N ≤ n → takeExpr m n w = .panic
  | .prod t, rest, w, hw, hr => by
    have ht := AProd.complete m t rest w hw hr
    rw [ASum.eval]
    cases ho : t.eval m with
    | none =>
      rw [ho] at ht
      obtain ⟨N, hN⟩ := ht
      refine ⟨N + 1, fun n hn => ?_⟩
      obtain ⟨n, rfl⟩ : ∃ j, n = j + 1 := ⟨n - 1, by omega⟩
      rw [takeExpr, hN n (by omega)]; rfl
    | some v =>
      rw [ho] at ht
      obtain ⟨N, w', h1, hN⟩ := ht
      refine ⟨1, N, w', h1, fun n hn => ?_⟩
      rw [takeExpr, hN n (by omega)]; rfl
  | .add p sp t, rest, w, hw, hr => by
    have hp := ASum.complete' m p ('+' :: (spaces sp ++ (t.text ++ rest))) w (by rw [hw, ASum.text]; simp)
      ⟨EndTerm.cons (by decide) (by decide), by simp, by simp⟩
    rw [ASum.eval]
    cases ho : p.eval m with
    | none => rw [ho] at hp; exact hp
    | some a =>
      rw [ho] at hp
      obtain ⟨k, N, w1, h1, hN⟩ := hp
      obtain ⟨w2, h2, h3⟩ := consume1 (w := w1.peek.2) (by rw [IW.peek_rem]; exact h1)
      have h4 : (arithSpaces w2).rem = t.text ++ rest := arithSpaces_spaces h3 (head_append_ne t.text_cons)
      have ht := AProd.complete m t rest _ h4 hr
      have key : ∀ n, N ≤ n + 1 → takeExpr m (n + (k + 1)) w = (takeProduct m n (arithSpaces w2)).bind fun x w =>
          orPanic (m.fit (a + x)) fun out => exprLoop m n out w := by
        intro n hn
        rw [show n + (k + 1) = n + 1 + k by omega, hN (n + 1) hn, exprLoop_eq m n a h1, if_pos rfl, h2]
        rfl
      cases hb : t.eval m with
      | none =>
        rw [hb] at ht
        obtain ⟨M, hM⟩ := ht
        refine ⟨N + M + k + 1, fun n hn => ?_⟩
        obtain ⟨n, rfl⟩ : ∃ j, n = j + (k + 1) := ⟨n - (k + 1), by omega⟩
        rw [key n (by omega), hM n (by omega)]; rfl
      | some b =>
        rw [hb] at ht
        obtain ⟨M, w3, h5, hM⟩ := ht
        show match m.fit (a + b) with | some v => _ | none => _
        cases hf : m.fit (a + b) with
        | none =>
          refine ⟨N + M + k + 1, fun n hn => ?_⟩
          obtain ⟨n, rfl⟩ : ∃ j, n = j + (k + 1) := ⟨n - (k + 1), by omega⟩
          rw [key n (by omega), hM n (by omega)]
          simp only [Res.bind]
          rw [hf]; rfl
        | some v =>
          refine ⟨k + 1, N + M, w3, h5, fun n hn => ?_⟩
          rw [key n (by omega), hM n (by omega)]
          simp only [Res.bind]
          rw [hf]; rfl
  | .sub p sp t, rest, w, hw, hr => by
    have hp := ASum.complete' m p ('-' :: (spaces sp ++ (t.text ++ rest))) w (by rw [hw, ASum.text]; simp)
      ⟨EndTerm.cons (by decide) (by decide), by simp, by simp⟩
    rw [ASum.eval]
    cases ho : p.eval m with
    | none => rw [ho] at hp; exact hp
    | some a =>
      rw [ho] at hp
      obtain ⟨k, N, w1, h1, hN⟩ := hp
      obtain ⟨w2, h2, h3⟩ := consume1 (w := w1.peek.2) (by rw [IW.peek_rem]; exact h1)
      have h4 : (arithSpaces w2).rem = t.text ++ rest := arithSpaces_spaces h3 (head_append_ne t.text_cons)
      have ht := AProd.complete m t rest _ h4 hr
      have key : ∀ n, N ≤ n + 1 → takeExpr m (n + (k + 1)) w = (takeProduct m n (arithSpaces w2)).bind fun x w =>
          orPanic (m.fit (a - x)) fun out => exprLoop m n out w := by
        intro n hn
        rw [show n + (k + 1) = n + 1 + k by omega, hN (n + 1) hn, exprLoop_eq m n a h1, if_neg (by decide), if_pos rfl, h2]
        rfl
      cases hb : t.eval m with
      | none =>
        rw [hb] at ht
        obtain ⟨M, hM⟩ := ht
        refine ⟨N + M + k + 1, fun n hn => ?_⟩
        obtain ⟨n, rfl⟩ : ∃ j, n = j + (k + 1) := ⟨n - (k + 1), by omega⟩
        rw [key n (by omega), hM n (by omega)]; rfl
      | some b =>
        rw [hb] at ht
        obtain ⟨M, w3, h5, hM⟩ := ht
        show match m.fit (a - b) with | some v => _ | none => _
        cases hf : m.fit (a - b) with
        | none =>
          refine ⟨N + M + k + 1, fun n hn => ?_⟩
          obtain ⟨n, rfl⟩ : ∃ j, n = j + (k + 1) := ⟨n - (k + 1), by omega⟩
          rw [key n (by omega), hM n (by omega)]
          simp only [Res.bind]
          rw [hf]; rfl
        | some v =>
          refine ⟨k + 1, N + M, w3, h5, fun n hn => ?_⟩
          rw [key n (by omega), hM n (by omega)]
          simp only [Res.bind]
          rw [hf]; rfl
theorem ASum.complete (m : Ovf) : ∀ (p : ASum) (rest : List Char) (w : IW), w.rem = p.text ++ rest → EndSum rest →
    Outcs (takeExpr m) w (p.eval m) rest
  | p, rest, w, hw, hr => by
    have hp := ASum.complete' m p rest w hw hr.1
    cases ho : p.eval m with
    | none => rw [ho] at hp; exact hp
    | some v =>
      rw [ho] at hp
      obtain ⟨k, N, w', h1, hN⟩ := hp
      refine ⟨N + k + 1, w'.peek.2, by rw [IW.peek_rem, h1], fun n hn => ?_⟩
      obtain ⟨n, rfl⟩ : ∃ j, n = j + 1 + k := ⟨n - (k + 1), by omega⟩
      show takeExpr m (n + 1 + k) w = _
      rw [hN (n + 1) (by omega), exprLoop_end m n v (by rw [h1]; exact hr.2.1) (by rw [h1]; exact hr.2.2)]
end

/-! ### The fuel -/

theorem Res.bind_ne_oof' {α β : Type} {r : Res α} {f : α → IW → Res β} (h : r.bind f ≠ .oof) : r ≠ .oof := by
  intro e; rw [e] at h; exact h rfl

theorem Res.bind_congr_ne {α β : Type} {r : Res α} {f g : α → IW → Res β} (h : r.bind f ≠ .oof)
    (hfg : ∀ a w, f a w ≠ .oof → g a w = f a w) : r.bind g = r.bind f := by
  cases r with
  | ok a w => exact hfg a w h
  | _ => rfl

theorem orPanic_congr_ne {α β : Type} {o : Option α} {f g : α → Res β} (h : orPanic o f ≠ .oof)
    (hfg : ∀ a, f a ≠ .oof → g a = f a) : orPanic o g = orPanic o f := by
  cases o with
  | none => rfl
  | some a => exact hfg a h

theorem arith_fuel (m : Ovf) : ∀ n : Nat,
    (∀ w, takeTerm m n w ≠ .oof → takeTerm m (n + 1) w = takeTerm m n w) ∧
    (∀ o w, productLoop m n o w ≠ .oof → productLoop m (n + 1) o w = productLoop m n o w) ∧
    (∀ w, takeProduct m n w ≠ .oof → takeProduct m (n + 1) w = takeProduct m n w) ∧
    (∀ o w, exprLoop m n o w ≠ .oof → exprLoop m (n + 1) o w = exprLoop m n o w) ∧
    (∀ w, takeExpr m n w ≠ .oof → takeExpr m (n + 1) w = takeExpr m n w) := by
  intro n
  induction n with
  | zero => exact ⟨fun _ h => absurd rfl h, fun _ _ h => absurd rfl h, fun _ h => absurd rfl h, fun _ _ h => absurd rfl h,
      fun _ h => absurd rfl h⟩
  | succ n ih =>
    obtain ⟨ih1, ih2, ih3, ih4, ih5⟩ := ih
    refine ⟨?_, ?_, ?_, ?_, ?_⟩
    · intro w h
      cases hr : w.rem with
      | nil =>
        rw [takeTerm, takeTerm, IW.peek_eq, hr]; rfl
      | cons c cs =>
        rw [takeTerm_eq m n hr] at h
        rw [takeTerm_eq m n hr, takeTerm_eq m (n + 1) hr]
        congr 1
        replace h := Res.bind_ne_oof' h
        by_cases c1 : c = '-'
        · rw [if_pos c1, if_pos c1]
        · rw [if_neg c1] at h
          rw [if_neg c1, if_neg c1]
          by_cases c2 : c.isDigit = true
          · rw [if_pos c2, if_pos c2]
          · rw [if_neg c2] at h
            rw [if_neg c2, if_neg c2]
            by_cases c3 : c = '('
            · rw [if_pos c3] at h
              rw [if_pos c3, if_pos c3]
              refine Res.bind_congr_ne h fun _ w1 h1 => ?_
              have : takeExpr m n (arithSpaces w1) ≠ .oof := by
                intro e; rw [e] at h1; exact h1 rfl
              simp only [ih5 _ this]
            · rw [if_neg c3, if_neg c3]
    · intro o w h
      cases hr : w.rem with
      | nil => rw [productLoop, productLoop, IW.peek_eq, hr]; rfl
      | cons c cs =>
        rw [productLoop_eq m n o hr] at h
        rw [productLoop_eq m n o hr, productLoop_eq m (n + 1) o hr]
        split
        · rename_i hc
          rw [if_pos hc] at h
          refine Res.bind_congr_ne h fun _ w1 h1 => ?_
          rw [ih1 _ (Res.bind_ne_oof' h1)]
          exact Res.bind_congr_ne h1 fun _ _ h2 => orPanic_congr_ne h2 fun _ h3 => ih2 _ _ h3
        · rename_i hc
          rw [if_neg hc] at h
          split
          · rename_i hc
            rw [if_pos hc] at h
            refine Res.bind_congr_ne h fun _ w1 h1 => ?_
            rw [ih1 _ (Res.bind_ne_oof' h1)]
            exact Res.bind_congr_ne h1 fun _ _ h2 => orPanic_congr_ne h2 fun _ h3 => ih2 _ _ h3
          · rfl
    · intro w h
      rw [takeProduct] at h
      rw [takeProduct, takeProduct, ih1 _ (Res.bind_ne_oof' h)]
      exact Res.bind_congr_ne h fun _ _ h1 => ih2 _ _ h1
    · intro o w h
      cases hr : w.rem with
      | nil => rw [exprLoop, exprLoop, IW.peek_eq, hr]; rfl
      | cons c cs =>
        rw [exprLoop_eq m n o hr] at h
        rw [exprLoop_eq m n o hr, exprLoop_eq m (n + 1) o hr]
        split
        · rename_i hc
          rw [if_pos hc] at h
          refine Res.bind_congr_ne h fun _ w1 h1 => ?_
          rw [ih3 _ (Res.bind_ne_oof' h1)]
          exact Res.bind_congr_ne h1 fun _ _ h2 => orPanic_congr_ne h2 fun _ h3 => ih4 _ _ h3
        · rename_i hc
          rw [if_neg hc] at h
          split
          · rename_i hc
            rw [if_pos hc] at h
            refine Res.bind_congr_ne h fun _ w1 h1 => ?_
            rw [ih3 _ (Res.bind_ne_oof' h1)]
            exact Res.bind_congr_ne h1 fun _ _ h2 => orPanic_congr_ne h2 fun _ h3 => ih4 _ _ h3
          · rfl
    · intro w h
      rw [takeExpr] at h
      rw [takeExpr, takeExpr, ih3 _ (Res.bind_ne_oof' h)]
      exact Res.bind_congr_ne h fun _ _ h1 => ih4 _ _ h1

theorem takeExpr_mono (m : Ovf) {n k : Nat} (hnk : n ≤ k) (w : IW) (h : takeExpr m n w ≠ .oof) :
    takeExpr m k w = takeExpr m n w := by
  induction hnk with
  | refl => rfl
  | step _ ih => rw [(arith_fuel m _).2.2.2.2 w (by rw [ih]; exact h), ih]

/-! ### Termination -/

theorem takeNumberGo_ends (m : Ovf) : ∀ (k : Nat) (out : Option Int) (w : IW), w.rem.length < k →
    takeNumberGo m k out w ≠ .oof := by
  intro k
  induction k with
  | zero => intro _ _ h; omega
  | succ k ih =>
    intro out w hk
    cases hr : w.rem with
    | nil =>
      rw [takeNumberGo, IW.peek_eq, hr]
      cases out <;> simp
    | cons c cs =>
      by_cases hc : c.isDigit = true
      · obtain ⟨w1, h1, h2⟩ := takeNumberGo_digit m k out hr hc
        rw [h2]
        unfold orPanic
        split
        · simp only
          split
          · exact ih _ _ (by rw [h1]; rw [hr] at hk; simp at hk; omega)
          · simp
        · simp
      · rw [takeNumberGo, IW.peek_eq, hr]
        cases out <;> simp [hc]

theorem takeNumber_ends (m : Ovf) (w : IW) : takeNumber m w ≠ .oof :=
  takeNumberGo_ends m _ _ _ (by rw [IW.left_eq]; omega)

theorem arithSpaces_length (w : IW) : (arithSpaces w).rem.length ≤ w.rem.length := by
  obtain ⟨n, h⟩ := arithSpaces_sound w
  rw [h]; simp

theorem Res.bind_ends {α β : Type} {r : Res α} {f : α → IW → Res β} (h : r ≠ .oof)
    (hf : ∀ a w, r = .ok a w → f a w ≠ .oof) : r.bind f ≠ .oof := by
  cases r with
  | ok a w => exact hf a w rfl
  | oof => exact absurd rfl h
  | _ => simp [Res.bind]

theorem consume1_ends (c : Char) (w : IW) : consumeStr [c] w ≠ .oof := by
  rcases consume1_total c w with ⟨_, h⟩ | ⟨_, _, h⟩ <;> rw [h] <;> simp

theorem orPanic_ends {α β : Type} {o : Option α} {f : α → Res β} (hf : ∀ a, f a ≠ .oof) : orPanic o f ≠ .oof := by
  cases o with
  | none => simp [orPanic]
  | some a => exact hf a

theorem takeTerm_length {m : Ovf} {n : Nat} {w w' : IW} {v : Int} (h : takeTerm m n w = .ok v w') :
    w'.rem.length ≤ w.rem.length := by
  obtain ⟨t, ht, -⟩ := (arith_sound m n).1 _ _ _ h
  rw [ht]; simp

theorem takeProduct_length {m : Ovf} {n : Nat} {w w' : IW} {v : Int} (h : takeProduct m n w = .ok v w') :
    w'.rem.length ≤ w.rem.length := by
  obtain ⟨t, ht, -⟩ := (arith_sound m n).2.2.1 _ _ _ h
  rw [ht]; simp

theorem arith_ends (m : Ovf) : ∀ n : Nat,
    (∀ w : IW, 4 * w.rem.length + 1 ≤ n → takeTerm m n w ≠ .oof) ∧
    (∀ o, ∀ w : IW, 4 * w.rem.length + 1 ≤ n → productLoop m n o w ≠ .oof) ∧
    (∀ w : IW, 4 * w.rem.length + 2 ≤ n → takeProduct m n w ≠ .oof) ∧
    (∀ o, ∀ w : IW, 4 * w.rem.length + 1 ≤ n → exprLoop m n o w ≠ .oof) ∧
    (∀ w : IW, 4 * w.rem.length + 3 ≤ n → takeExpr m n w ≠ .oof) := by
  intro n
  induction n with
  | zero => refine ⟨?_, ?_, ?_, ?_, ?_⟩ <;> intros <;> omega
  | succ n ih =>
    obtain ⟨ih1, ih2, ih3, ih4, ih5⟩ := ih
    refine ⟨?_, ?_, ?_, ?_, ?_⟩
    · intro w hn
      cases hr : w.rem with
      | nil => rw [takeTerm, IW.peek_eq, hr]; simp [Res.bind]
      | cons c cs =>
        rw [takeTerm_eq m n hr]
        refine Res.bind_ends ?_ (by simp)
        split
        · exact Res.bind_ends (consume1_ends _ _) fun _ _ _ => Res.bind_ends (takeNumber_ends _ _) fun _ _ _ =>
            orPanic_ends (by simp)
        · split
          · exact takeNumber_ends _ _
          · split
            · refine Res.bind_ends (consume1_ends _ _) fun _ w1 h1 => ?_
              have h1 := consume1_ok h1
              have h2 := arithSpaces_length w1
              have h3 := ih5 (arithSpaces w1) (by rw [IW.peek_rem] at h1; rw [h1] at hn; simp at hn; omega)
              split
              · rename_i v w2 h4
                rcases consume1_total ')' w2 with ⟨_, h⟩ | ⟨_, _, h⟩ <;> rw [h] <;> simp [Res.map]
              · exact Res.bind_ends (consume1_ends _ _) (by simp)
              · simp
              · rename_i h4; exact absurd h4 h3
            · simp
    · intro o w hn
      cases hr : w.rem with
      | nil => rw [productLoop, IW.peek_eq, hr]; simp
      | cons c cs =>
        rw [productLoop_eq m n o hr]
        have step : ∀ (c : Char) (f : Int → Int → Option Int), (consumeStr [c] w.peek.2).bind (fun _ w =>
            (takeTerm m n (arithSpaces w)).bind fun x w => orPanic (f o x) fun out => productLoop m n out w) ≠ .oof := by
          intro c f
          refine Res.bind_ends (consume1_ends _ _) fun _ w1 h1 => ?_
          have h1 := consume1_ok h1
          have h2 := arithSpaces_length w1
          have h3 : 4 * w1.rem.length + 1 ≤ n := by rw [IW.peek_rem] at h1; rw [h1] at hn; simp at hn; omega
          refine Res.bind_ends (ih1 _ (by omega)) fun _ w2 h4 => orPanic_ends fun _ => ih2 _ _ ?_
          have := takeTerm_length h4
          omega
        split
        · exact step '*' fun o x => m.fit (o * x)
        · split
          · exact step '/' divI64
          · simp
    · intro w hn
      rw [takeProduct]
      refine Res.bind_ends (ih1 _ (by omega)) fun _ w1 h1 => ih2 _ _ ?_
      have := takeTerm_length h1
      omega
    · intro o w hn
      cases hr : w.rem with
      | nil => rw [exprLoop, IW.peek_eq, hr]; simp
      | cons c cs =>
        rw [exprLoop_eq m n o hr]
        have step : ∀ (c : Char) (f : Int → Int → Option Int), (consumeStr [c] w.peek.2).bind (fun _ w =>
            (takeProduct m n (arithSpaces w)).bind fun x w => orPanic (f o x) fun out => exprLoop m n out w) ≠ .oof := by
          intro c f
          refine Res.bind_ends (consume1_ends _ _) fun _ w1 h1 => ?_
          have h1 := consume1_ok h1
          have h2 := arithSpaces_length w1
          have h3 : 4 * w1.rem.length + 2 ≤ n := by rw [IW.peek_rem] at h1; rw [h1] at hn; simp at hn; omega
          refine Res.bind_ends (ih3 _ (by omega)) fun _ w2 h4 => orPanic_ends fun _ => ih4 _ _ ?_
          have := takeProduct_length h4
          omega
        split
        · exact step '+' fun o x => m.fit (o + x)
        · split
          · exact step '-' fun o x => m.fit (o - x)
          · simp
    · intro w hn
      rw [takeExpr]
      refine Res.bind_ends (ih3 _ (by omega)) fun _ w1 h1 => ih4 _ _ ?_
      have := takeProduct_length h1
      omega

end Chomp
