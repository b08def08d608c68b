import Verif.Lower.Ref

/-!
# Facts about generated parsers that hold for every set of generated types
-/

namespace Chomp

/-- A relation between two runs that keeps outcomes. -/
theorem seqTake_congr {α β : Type} {f : α → IW → Res Tree} {g : β → IW → Res Tree} {R : α → β → Prop}
    (h : ∀ a b w, R a b → f a w = g b w) : ∀ {l : List α} {l' : List β}, All2 R l l' → ∀ w, seqTake f l w = seqTake g l' w
  | _, _, .nil, w => rfl
  | _, _, .cons h1 h2, w => by
    simp only [seqTake, h _ _ w h1]
    congr 1
    funext t w
    rw [seqTake_congr h h2]

theorem seqCost_congr {α β : Type} {f : α → IW → Res Tree} {g : β → IW → Res Tree} {f' : α → IW → Nat}
    {g' : β → IW → Nat} {R : α → β → Prop}
    (h : ∀ a b w, R a b → f a w = g b w) (h' : ∀ a b w, R a b → f' a w = g' b w) :
    ∀ {l : List α} {l' : List β}, All2 R l l' → ∀ w, seqCost f f' l w = seqCost g g' l' w
  | _, _, .nil, w => rfl
  | _, _, .cons h1 h2, w => by
    simp only [seqCost, h _ _ w h1, h' _ _ w h1]
    congr 1
    split <;> simp [seqCost_congr h h' h2]

theorem All2.getElem? {α β : Type} {R : α → β → Prop} : ∀ {l : List α} {l' : List β}, All2 R l l' → ∀ k : Nat,
    (l[k]? = none ∧ l'[k]? = none) ∨ ∃ a b, l[k]? = some a ∧ l'[k]? = some b ∧ R a b
  | _, _, .nil, k => by simp
  | _, _, .cons (a := a) (b := b) h1 h2, 0 => .inr ⟨a, b, rfl, rfl, h1⟩
  | _, _, .cons h1 h2, k + 1 => by simpa using h2.getElem? k

theorem altTake_congr {α β : Type} {f : α → IW → Res Tree} {g : β → IW → Res Tree} {R : α → β → Prop}
    (h : ∀ a b w, R a b → f a w = g b w) {l : List α} {l' : List β} (hl : All2 R l l') (tys : List Ty) (w : IW) :
    altTake f tys l w = altTake g tys l' w := by
  simp only [altTake]
  cases altChoose w.peek.1 tys with
  | none => rfl
  | some k =>
    dsimp only
    rcases hl.getElem? k with ⟨h1, h2⟩ | ⟨a, b, h1, h2, h3⟩
    · rw [h1, h2]
    · rw [h1, h2]; simp only [h a b _ h3]

/-- Nodes related by `R`. -/
inductive NodeF.Rel {α β : Type} (R : α → β → Prop) : NodeF α → NodeF β → Prop
  | eps : Rel R .eps .eps
  | lit (s : List Char) : Rel R (.lit s) (.lit s)
  | cat {l : List α} {l' : List β} : All2 R l l' → Rel R (.cat l) (.cat l')
  | alt (tys : List Ty) {l : List α} {l' : List β} : All2 R l l' → Rel R (.alt tys l) (.alt tys l')
  | alias {a : α} {b : β} : R a b → Rel R (.alias a) (.alias b)
  | box {a : α} {b : β} : R a b → Rel R (.box a) (.box b)
  | bad : Rel R .bad .bad

/-- Bisimilar types parse alike. -/
theorem run_bisim {α β : Type} {f : α → NodeF α} {g : β → NodeF β} {R : α → β → Prop}
    (h : ∀ a b, R a b → NodeF.Rel R (f a) (g b)) : ∀ (n : Nat) (a : α) (b : β) (w : IW), R a b → run f n a w = run g n b w
  | 0, _, _, _, _ => rfl
  | n + 1, a, b, w, hab => by
    have ih := run_bisim h n
    have hr := h a b hab
    simp only [run]
    revert hr
    generalize f a = x
    generalize g b = y
    intro hr
    cases hr with
    | eps => rfl
    | lit s => rfl
    | cat hl => simp only [seqTake_congr ih hl]
    | alt tys hl => exact altTake_congr ih hl tys w
    | alias h => exact ih _ _ w h
    | box h => simp only [ih _ _ w h]
    | bad => rfl

theorem runCost_bisim {α β : Type} {f : α → NodeF α} {g : β → NodeF β} {R : α → β → Prop}
    (h : ∀ a b, R a b → NodeF.Rel R (f a) (g b)) : ∀ (n : Nat) (a : α) (b : β) (w : IW), R a b →
      runCost f n a w = runCost g n b w
  | 0, _, _, _, _ => rfl
  | n + 1, a, b, w, hab => by
    have ih := runCost_bisim h n
    have hr := h a b hab
    simp only [runCost]
    revert hr
    generalize f a = x
    generalize g b = y
    intro hr
    cases hr with
    | eps => rfl
    | lit s => rfl
    | cat hl => simp only [seqCost_congr (run_bisim h n) ih hl]
    | alt tys hl =>
      simp only
      congr 1
      cases altChoose w.peek.1 tys with
      | none => rfl
      | some k =>
        dsimp only
        rcases hl.getElem? k with ⟨h1, h2⟩ | ⟨a, b, h1, h2, h3⟩
        · rw [h1, h2]
        · rw [h1, h2]; simp only [ih a b _ h3]
    | alias h => simp only [ih _ _ w h]
    | box h => simp only [ih _ _ w h]
    | bad => rfl

/-! ## Fuel -/

theorem Res.map_fuel {α β : Type} {x y : Res α} {f : α → β} (hx : x ≠ .oof → y = x) (h : x.map f ≠ .oof) :
    y.map f = x.map f := by
  cases x with
  | oof => exact absurd rfl h
  | _ => rw [hx (by simp)]

theorem seqTake_fuel {α : Type} {f g : α → IW → Res Tree} : ∀ {l : List α},
    (∀ a ∈ l, ∀ w, f a w ≠ .oof → g a w = f a w) → ∀ {w : IW}, seqTake f l w ≠ .oof → seqTake g l w = seqTake f l w
  | [], _, _, _ => rfl
  | x :: l, h, w, hn => by
    simp only [seqTake] at hn ⊢
    have h1 : f x w ≠ .oof := by intro e; apply hn; rw [e]; rfl
    rw [h x (by simp) w h1]
    cases hx : f x w with
    | ok t w1 =>
      rw [hx] at hn
      simp only [Res.bind] at hn ⊢
      have h2 : seqTake f l w1 ≠ .oof := by intro e; apply hn; rw [e]
      rw [seqTake_fuel (fun a ha => h a (by simp [ha])) h2]
    | err e w => rfl
    | panic => rfl
    | oof => exact absurd hx h1

theorem altTake_fuel {α : Type} {f g : α → IW → Res Tree} {l : List α}
    (h : ∀ a ∈ l, ∀ w, f a w ≠ .oof → g a w = f a w) {tys : List Ty} {w : IW} (hn : altTake f tys l w ≠ .oof) :
    altTake g tys l w = altTake f tys l w := by
  simp only [altTake] at hn ⊢
  cases hc : altChoose w.peek.1 tys with
  | none => rfl
  | some k =>
    rw [hc] at hn
    simp only at hn ⊢
    cases hx : l[k]? with
    | none => rfl
    | some x =>
      rw [hx] at hn
      simp only at hn ⊢
      exact Res.map_fuel (h x (List.mem_of_getElem? hx) _) hn

/-- More fuel does not change an outcome. -/
theorem run_fuel {α : Type} {f : α → NodeF α} : ∀ {n m : Nat} {a : α} {w : IW}, n ≤ m → run f n a w ≠ .oof →
    run f m a w = run f n a w
  | 0, _, _, _, _, h => absurd rfl h
  | n + 1, 0, _, _, hm, _ => by omega
  | n + 1, m + 1, a, w, hm, h => by
    have ih : ∀ (a : α) (w : IW), run f n a w ≠ .oof → run f m a w = run f n a w := fun a w => run_fuel (by omega)
    simp only [run] at h ⊢
    cases hs : f a with
    | eps => rfl
    | lit s => rfl
    | cat l =>
      rw [hs] at h
      exact Res.map_fuel (fun h => seqTake_fuel (fun a _ => ih a) h) h
    | alt tys l =>
      rw [hs] at h
      exact altTake_fuel (fun a _ => ih a) h
    | alias b => rw [hs] at h; exact ih b w h
    | box b =>
      rw [hs] at h
      exact Res.map_fuel (ih b w) h
    | bad => rfl

/-! ## The tree of a successful run displays as the text it consumed -/

theorem run_text {α : Type} {f : α → NodeF α} : ∀ (n : Nat) (a : α) (w w' : IW) (t : Tree),
    run f n a w = .ok t w' → Reach w t.text w'
  | 0, _, _, _, _, h => by cases h
  | n + 1, a, w, w', t, h => by
    have ih := run_text (f := f) n
    simp only [run] at h
    cases hs : f a with
    | eps => rw [hs] at h; cases h; exact .refl w
    | lit s =>
      rw [hs] at h
      obtain ⟨u, h1, rfl⟩ := Res.map_ok h
      exact consumeStr_ok h1
    | cat l =>
      rw [hs] at h
      obtain ⟨us, h1, rfl⟩ := Res.map_ok h
      exact (seqTake_sound (P := fun _ _ => True) (fun x _ w w' t hx => ⟨trivial, ih x w w' t hx⟩) h1).2
    | alt tys l =>
      rw [hs] at h
      obtain ⟨k, x, t', h1, h2, h3, rfl⟩ := altTake_sound h
      have := (Reach.peek w).trans (ih x _ w' t' h3)
      simpa [Tree.text] using this
    | alias b => rw [hs] at h; exact ih b w w' t h
    | box b =>
      rw [hs] at h
      obtain ⟨t', h1, rfl⟩ := Res.map_ok h
      exact ih b w w' t' h1
    | bad => rw [hs] at h; cases h

/-! ## Errors -/

/-- The error describes the place where it occurred. -/
def TakeError.At (e : TakeError) (w : IW) : Prop :=
  (w.rem = [] ∧ e = .endOfStream w.pos) ∨
  ∃ c r, w.rem = c :: r ∧ ((∃ exp, e = .badBranch w.pos c exp) ∨ ∃ pre exp, e = .badString w.pos (pre ++ [c]) exp)

theorem Res.map_err {α β : Type} {f : α → β} {r : Res α} {e : TakeError} {w : IW} (h : r.map f = .err e w) :
    r = .err e w := by
  cases r <;> simp only [Res.map] at h <;> cases h
  rfl

theorem consumeStr_err {s : List Char} {w w' : IW} {e : TakeError} (h : consumeStr s w = .err e w') :
    (∃ p, Reach w p w') ∧ e.At w' := by
  rcases consumeGo_spec s 0 s w with ⟨w'', h1, h2, h3, h4⟩ | ⟨m, w'', h1, h2, h3, h4, h5, h6, h7, h8⟩
  · rw [consumeStr, h1] at h; cases h
  · have hr : Reach w (w.rem.take m) w'' := by
      refine ⟨by rw [h6]; simp, ?_⟩
      rw [h7, List.length_take, Nat.min_eq_left h3]
    rw [consumeStr] at h
    rcases h8 with ⟨h9, h'⟩ | ⟨got, h9, ⟨pre, h10, h'⟩ | ⟨_, h'⟩⟩
    · rw [h'] at h
      cases h
      exact ⟨⟨_, hr⟩, .inl ⟨by rw [h6]; simp [h9], rfl⟩⟩
    · rw [h'] at h
      cases h
      refine ⟨⟨_, hr⟩, .inr ⟨got, w.rem.drop (m + 1), ?_, .inr ⟨pre, s, rfl⟩⟩⟩
      rw [h6]
      obtain ⟨hlt, rfl⟩ := List.getElem?_eq_some_iff.1 h9
      exact (List.drop_eq_getElem_cons hlt)
    · rw [h'] at h; cases h

theorem seqTake_err {α : Type} {f : α → IW → Res Tree} : ∀ {l : List α} {w w' : IW} {e : TakeError},
    (∀ x ∈ l, ∀ w w' t, f x w = .ok t w' → Reach w t.text w') →
    (∀ x ∈ l, ∀ w w' e, f x w = .err e w' → (∃ p, Reach w p w') ∧ e.At w') →
    seqTake f l w = .err e w' → (∃ p, Reach w p w') ∧ e.At w'
  | [], w, w', e, _, _, h => by simp only [seqTake] at h; cases h
  | x :: l, w, w', e, hf, he, h => by
    simp only [seqTake] at h
    cases hx : f x w with
    | ok t w1 =>
      rw [hx] at h
      simp only [Res.bind] at h
      have hr := hf x (by simp) w w1 t hx
      cases hl : seqTake f l w1 with
      | err e' w2 =>
        rw [hl] at h
        simp only at h
        cases h
        obtain ⟨⟨p, h1⟩, h2⟩ := seqTake_err (fun a ha => hf a (by simp [ha])) (fun a ha => he a (by simp [ha])) hl
        exact ⟨⟨_, hr.trans h1⟩, h2⟩
      | ok _ _ => rw [hl] at h; cases h
      | panic => rw [hl] at h; cases h
      | oof => rw [hl] at h; cases h
    | err e' w1 => rw [hx] at h; cases h; exact he x (by simp) w w' e hx
    | panic => rw [hx] at h; cases h
    | oof => rw [hx] at h; cases h

theorem altFail_at (w : IW) (tys : List Ty) : (altFail w.rem.head? w.pos tys).At w := by
  cases h : w.rem with
  | nil => exact .inl ⟨h, rfl⟩
  | cons c r => exact .inr ⟨c, r, h, .inl ⟨_, rfl⟩⟩

/-- A failing run has consumed some text and the error describes the place after it. -/
theorem run_err {α : Type} {f : α → NodeF α} : ∀ (n : Nat) (a : α) (w w' : IW) (e : TakeError),
    run f n a w = .err e w' → (∃ p, Reach w p w') ∧ e.At w'
  | 0, _, _, _, _, h => by cases h
  | n + 1, a, w, w', e, h => by
    have ih := run_err (f := f) n
    simp only [run] at h
    cases hs : f a with
    | eps => rw [hs] at h; cases h
    | lit s => rw [hs] at h; exact consumeStr_err (Res.map_err h)
    | cat l =>
      rw [hs] at h
      exact seqTake_err (fun x _ => run_text n x) (fun x _ => ih x) (Res.map_err h)
    | alt tys l =>
      rw [hs] at h
      simp only [altTake] at h
      rw [IW.peek_eq] at h
      dsimp only at h
      split at h
      · rename_i k hk
        split at h
        · obtain ⟨⟨p, h1⟩, h2⟩ := ih _ _ _ _ (Res.map_err h)
          exact ⟨⟨_, (Reach.peek w).trans h1⟩, h2⟩
        · cases h
      · cases h
        refine ⟨⟨_, Reach.peek w⟩, ?_⟩
        have := altFail_at w.peek.2 tys
        simpa using this
    | alias b => rw [hs] at h; exact ih b w w' e h
    | box b => rw [hs] at h; exact ih b w w' e (Res.map_err h)
    | bad => rw [hs] at h; cases h

/-! ## Locality: a run only looks at the text it consumes and one more character -/

/-- Two inputs that agree up to and including a character `c`; `r1` and `r2` follow it. -/
def Agree (c : Char) (r1 r2 : List Char) (w1 w2 : IW) : Prop :=
  ∃ q, w1.rem = q ++ c :: r1 ∧ w2.rem = q ++ c :: r2 ∧ w1.pos = w2.pos

/-- The outcomes agree and `c` has not been consumed. -/
inductive AgreeRes {α : Type} (c : Char) (r1 r2 : List Char) : Res α → Res α → Prop
  | ok (a : α) (w1 w2 : IW) : Agree c r1 r2 w1 w2 → AgreeRes c r1 r2 (.ok a w1) (.ok a w2)
  | err (e : TakeError) (w1 w2 : IW) : Agree c r1 r2 w1 w2 → AgreeRes c r1 r2 (.err e w1) (.err e w2)

/-- The outcome if it has not consumed more than allowed. -/
def Res.Ends {α : Type} (m : Nat) : Res α → Prop
  | .ok _ w => m < w.rem.length
  | .err _ w => m < w.rem.length
  | _ => False

theorem Agree.head {c : Char} {r1 r2 : List Char} {w1 w2 : IW} (h : Agree c r1 r2 w1 w2) :
    w1.rem.head? = w2.rem.head? := by
  obtain ⟨q, h1, h2, _⟩ := h
  rw [h1, h2]
  cases q <;> rfl

theorem Agree.peek {c : Char} {r1 r2 : List Char} {w1 w2 : IW} (h : Agree c r1 r2 w1 w2) :
    Agree c r1 r2 w1.peek.2 w2.peek.2 := by
  obtain ⟨q, h1, h2, h3⟩ := h
  exact ⟨q, by simpa using h1, by simpa using h2, by simpa using h3⟩

theorem Agree.advance {c : Char} {r1 r2 : List Char} {w1 w2 : IW} (h : Agree c r1 r2 w1 w2)
    (hl : r1.length + 1 < w1.rem.length) : Agree c r1 r2 w1.advance.2 w2.advance.2 := by
  obtain ⟨q, h1, h2, h3⟩ := h
  cases q with
  | nil => rw [h1] at hl; simp at hl
  | cons a q =>
    refine ⟨q, by simp [h1], by simp [h2], ?_⟩
    rw [IW.advance_pos, IW.advance_pos, h1, h2, h3]
    simp only [List.cons_append, advPos]
    have : (q ++ c :: r1).head? = (q ++ c :: r2).head? := by cases q <;> rfl
    rw [this]

theorem consumeGo_local {c : Char} {r1 r2 : List Char} (s : List Char) : ∀ (es : List Char) (k : Nat) (w1 w2 : IW),
    Agree c r1 r2 w1 w2 → (consumeGo s k es w1).Ends r1.length →
    AgreeRes c r1 r2 (consumeGo s k es w1) (consumeGo s k es w2)
  | [], k, w1, w2, h, he => .ok () w1 w2 h
  | x :: es, k, w1, w2, h, he => by
    simp only [consumeGo] at he ⊢
    rw [IW.peek_eq w1] at he ⊢
    rw [IW.peek_eq w2, ← h.head]
    obtain ⟨q, h1, h2, h3⟩ := id h
    cases hh : w1.rem.head? with
    | none => rw [h1] at hh; cases q <;> simp at hh
    | some g =>
      rw [hh] at he
      simp only at he ⊢
      split at he
      · rename_i hg
        rw [if_pos hg, if_pos hg]
        refine consumeGo_local s es (k + 1) _ _ ?_ he
        refine h.peek.advance ?_
        -- the first character is consumed, so it is not `c`
        have hrem : w1.rem.length = w1.rem.tail.length + 1 := by
          cases hw : w1.rem with
          | nil => rw [hw] at hh; cases hh
          | cons a l => simp
        rcases consumeGo_spec s (k + 1) es w1.peek.2.advance.2 with ⟨w', e1, e2, e3, e4⟩ | ⟨m, w', e1, e2, e3, e4, e5, e6, e7, e8⟩
        · rw [e1] at he
          simp only [Res.Ends, e3, List.length_drop, IW.advance_rem, IW.peek_rem] at he
          simp only [IW.peek_rem]
          omega
        · have hw : r1.length < w'.rem.length := by
            rcases e8 with ⟨_, h'⟩ | ⟨_, _, ⟨_, _, h'⟩ | ⟨_, h'⟩⟩ <;> rw [h'] at he <;> first | exact he | exact he.elim
          simp only [e6, List.length_drop, IW.advance_rem, IW.peek_rem] at hw
          simp only [IW.peek_rem]
          omega
      · rename_i hg
        rw [if_neg hg, if_neg hg]
        cases hsl : sliceTo s k with
        | none => rw [hsl] at he; exact he.elim
        | some pre =>
          dsimp only
          have : w1.peek.2.pos = w2.peek.2.pos := by simpa using h3
          rw [this]
          exact .err _ _ _ h.peek

theorem AgreeRes.map {α β : Type} {c : Char} {r1 r2 : List Char} {x y : Res α} (f : α → β) (h : AgreeRes c r1 r2 x y) :
    AgreeRes c r1 r2 (x.map f) (y.map f) := by
  cases h with
  | ok a w1 w2 h => exact .ok _ _ _ h
  | err e w1 w2 h => exact .err _ _ _ h

theorem Res.Ends.of_map {α β : Type} {f : α → β} {x : Res α} {m : Nat} (h : (x.map f).Ends m) : x.Ends m := by
  cases x <;> exact h

theorem Reach.length {w w' : IW} {u : List Char} (h : Reach w u w') : w.rem.length = u.length + w'.rem.length := by
  rw [h.1]; simp

theorem seqTake_local {α : Type} {f : α → IW → Res Tree} {c : Char} {r1 r2 : List Char} : ∀ {l : List α} {w1 w2 : IW},
    (∀ x ∈ l, ∀ w w' t, f x w = .ok t w' → Reach w t.text w') →
    (∀ x ∈ l, ∀ w w' e, f x w = .err e w' → (∃ p, Reach w p w') ∧ e.At w') →
    (∀ x ∈ l, ∀ w1 w2, Agree c r1 r2 w1 w2 → (f x w1).Ends r1.length → AgreeRes c r1 r2 (f x w1) (f x w2)) →
    Agree c r1 r2 w1 w2 → (seqTake f l w1).Ends r1.length → AgreeRes c r1 r2 (seqTake f l w1) (seqTake f l w2)
  | [], w1, w2, _, _, _, h, _ => .ok [] w1 w2 h
  | x :: l, w1, w2, hf, hg, hl, h, he => by
    simp only [seqTake] at he ⊢
    have h1 : (f x w1).Ends r1.length := by
      cases hx : f x w1 with
      | ok t w =>
        rw [hx] at he
        simp only [Res.bind] at he
        cases hs : seqTake f l w with
        | ok ts w' =>
          rw [hs] at he
          have hr := (seqTake_sound (P := fun _ _ => True)
            (fun y hy w w' t e => ⟨trivial, hf y (by simp [hy]) w w' t e⟩) hs).2
          have := hr.length
          simp only [Res.Ends] at he ⊢
          omega
        | err e w' =>
          rw [hs] at he
          obtain ⟨⟨p, hr⟩, _⟩ := seqTake_err (fun y hy => hf y (by simp [hy])) (fun y hy => hg y (by simp [hy])) hs
          have := hr.length
          simp only [Res.Ends] at he ⊢
          omega
        | panic => rw [hs] at he; exact he.elim
        | oof => rw [hs] at he; exact he.elim
      | err e w => rw [hx] at he; exact he
      | panic => rw [hx] at he; exact he
      | oof => rw [hx] at he; exact he
    have h2 := hl x (by simp) w1 w2 h h1
    revert he h2
    generalize f x w1 = y1
    generalize f x w2 = y2
    intro he h2
    cases h2 with
    | ok t v1 v2 hv =>
      simp only [Res.bind] at he ⊢
      have he' : (seqTake f l v1).Ends r1.length := by
        cases hs : seqTake f l v1 with
        | ok ts w' => rw [hs] at he; exact he
        | err e w' => rw [hs] at he; exact he
        | panic => rw [hs] at he; exact he
        | oof => rw [hs] at he; exact he
      have h3 := seqTake_local (fun y hy => hf y (by simp [hy])) (fun y hy => hg y (by simp [hy]))
        (fun y hy => hl y (by simp [hy])) hv he'
      revert h3
      generalize seqTake f l v1 = z1
      generalize seqTake f l v2 = z2
      intro h3
      cases h3 with
      | ok a w1 w2 h => exact .ok _ _ _ h
      | err e w1 w2 h => exact .err _ _ _ h
    | err e v1 v2 hv => exact .err e v1 v2 hv

/-- If a run ends before consuming `c`, it ends in the same way on every input that agrees up to and
including `c`. -/
theorem run_local {α : Type} {f : α → NodeF α} {c : Char} {r1 r2 : List Char} : ∀ (n : Nat) (a : α) (w1 w2 : IW),
    Agree c r1 r2 w1 w2 → (run f n a w1).Ends r1.length → AgreeRes c r1 r2 (run f n a w1) (run f n a w2)
  | 0, _, _, _, _, h => h.elim
  | n + 1, a, w1, w2, h, he => by
    have ih := run_local (f := f) (c := c) (r1 := r1) (r2 := r2) n
    simp only [run] at he ⊢
    cases hs : f a with
    | eps => exact .ok _ _ _ h
    | lit s =>
      rw [hs] at he
      exact (consumeGo_local s s 0 w1 w2 h he.of_map).map _
    | cat l =>
      rw [hs] at he
      exact (seqTake_local (fun x _ => run_text n x) (fun x _ => run_err n x) (fun x _ => ih x) h he.of_map).map _
    | alt tys l =>
      rw [hs] at he
      simp only [altTake] at he ⊢
      rw [IW.peek_eq w1] at he ⊢
      rw [IW.peek_eq w2, ← h.head]
      simp only at he ⊢
      cases hk : altChoose w1.rem.head? tys with
      | none =>
        dsimp only
        have : w1.peek.2.pos = w2.peek.2.pos := by obtain ⟨q, _, _, h3⟩ := h.peek; exact h3
        rw [this]
        exact .err _ _ _ h.peek
      | some k =>
        rw [hk] at he
        simp only at he ⊢
        cases hx : l[k]? with
        | none => rw [hx] at he; exact he.elim
        | some x =>
          rw [hx] at he
          exact (ih x _ _ h.peek he.of_map).map _
    | alias b => rw [hs] at he; exact ih b w1 w2 h he
    | box b =>
      rw [hs] at he
      exact (ih b w1 w2 h he.of_map).map _
    | bad => rw [hs] at he; exact he.elim

end Chomp
