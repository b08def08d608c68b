import Verif.Bench.ArithSpec
import Verif.Chewed.Lemmas

/-! Lemmas about the hand-written arithmetic parser. -/

namespace Chomp

theorem consume1 {c : Char} {cs : List Char} {w : IW} (h : w.rem = c :: cs) :
    ∃ w', consumeStr [c] w = .ok () w' ∧ w'.rem = cs := by
  refine ⟨w.peek.2.advance.2, ?_, by simp [h]⟩
  rw [consumeStr, consumeGo, IW.peek_eq, h]
  simp [consumeGo]

theorem consume1_ok {c : Char} {w w' : IW} {u : Unit} (h : consumeStr [c] w = .ok u w') :
    w.rem = c :: w'.rem := by
  rw [consumeStr, consumeGo, IW.peek_eq] at h
  cases hr : w.rem with
  | nil => rw [hr] at h; simp at h
  | cons d ds =>
    rw [hr] at h
    simp only [List.head?_cons] at h
    split at h
    · rename_i hd
      subst hd
      simp only [consumeGo, Res.ok.injEq, true_and] at h
      rw [← h]; simp [hr]
    · split at h <;> cases h

theorem consume1_total (c : Char) (w : IW) :
    (∃ w', consumeStr [c] w = .ok () w') ∨ ∃ e w', consumeStr [c] w = .err e w' := by
  rw [consumeStr, consumeGo, IW.peek_eq]
  cases hr : w.rem with
  | nil => right; exact ⟨_, _, rfl⟩
  | cons d ds =>
    simp only [List.head?_cons]
    split
    · left; exact ⟨_, rfl⟩
    · right; exact ⟨_, _, rfl⟩

theorem arithSpaces_rem (w : IW) : (arithSpaces w).rem = w.rem.dropWhile (· == ' ') :=
  (skipGo_spec _ _ _ (by rw [IW.left_eq]; exact Nat.le_refl _)).1

theorem dropWhile_spaces (n : Nat) (r : List Char) (h : r.head? ≠ some ' ') :
    (spaces n ++ r).dropWhile (· == ' ') = r := by
  induction n with
  | zero =>
    cases r with
    | nil => rfl
    | cons c cs =>
      simp only [List.head?_cons, ne_eq, Option.some.injEq] at h
      simp [spaces, h]
  | succ n ih =>
    have : spaces (n + 1) = ' ' :: spaces n := rfl
    rw [this, List.cons_append, List.dropWhile_cons]
    simpa using ih

theorem takeWhile_spaces (l : List Char) : ∃ n, l = spaces n ++ l.dropWhile (· == ' ') ∧
    (l.dropWhile (· == ' ')).head? ≠ some ' ' := by
  induction l with
  | nil => exact ⟨0, by simp [spaces]⟩
  | cons c cs ih =>
    obtain ⟨n, h1, h2⟩ := ih
    by_cases hc : c = ' '
    · subst hc
      refine ⟨n + 1, ?_, by simpa using h2⟩
      have : spaces (n + 1) = ' ' :: spaces n := rfl
      simp only [List.dropWhile_cons, beq_self_eq_true, if_true]
      rw [this, List.cons_append, ← h1]
    · exact ⟨0, by simp [spaces, hc]⟩

theorem arithSpaces_spaces {n : Nat} {r : List Char} {w : IW} (hw : w.rem = spaces n ++ r) (h : r.head? ≠ some ' ') :
    (arithSpaces w).rem = r := by
  rw [arithSpaces_rem, hw, dropWhile_spaces n r h]

theorem digitChar_isDigit (d : Fin 10) : (digitChar d).isDigit = true := by revert d; decide
theorem digitVal_digitChar (d : Fin 10) : digitVal (digitChar d) = d.val := by revert d; decide

theorem isDigit_digitChar {c : Char} (h : c.isDigit = true) : ∃ d, c = digitChar d := by
  have h' : 48 ≤ c.toNat ∧ c.toNat ≤ 57 := by
    simp only [Char.isDigit, Bool.and_eq_true, decide_eq_true_eq] at h
    exact ⟨UInt32.le_iff_toNat_le.1 h.1, UInt32.le_iff_toNat_le.1 h.2⟩
  refine ⟨⟨c.toNat - 48, by omega⟩, ?_⟩
  unfold digitChar
  have : 48 + (c.toNat - 48) = c.toNat := by omega
  simp only [this]
  exact (Char.ofNat_toNat c).symm

/-! ### Arithmetic -/

theorem bmod_step (N a d : Nat) :
    ((((a : Int).bmod N * 10).bmod N) + d).bmod N = ((a * 10 + d : Nat) : Int).bmod N := by
  push_cast
  rw [Int.bmod_add_bmod, Int.add_bmod, Int.bmod_mul_bmod, ← Int.add_bmod]

theorem Ovf.fit_wrapping (x : Int) : Ovf.wrapping.fit x = some (x.bmod 18446744073709551616) := by
  unfold Ovf.fit
  split
  · rename_i h
    exact congrArg some (Int.bmod_eq_of_le (by simpa using h.1) (by simpa using h.2)).symm
  · rfl

theorem Ovf.fit_checked_pos {x : Int} (h : InI64 x) : Ovf.checked.fit x = some x := by
  unfold Ovf.fit
  rw [if_pos h]

theorem Ovf.fit_checked_neg {x : Int} (h : ¬ InI64 x) : Ovf.checked.fit x = none := by
  unfold Ovf.fit
  rw [if_neg h]

theorem inI64_down {a d : Nat} (h : InI64 ((a * 10 + d : Nat) : Int)) : InI64 ((a : Int) * 10) ∧ InI64 (a : Int) := by
  obtain ⟨-, h⟩ := h
  push_cast at h
  exact ⟨⟨by omega, by omega⟩, by omega, by omega⟩

theorem Ovf.fit_zero (m : Ovf) : m.fit 0 = some 0 := by cases m <;> decide

attribute [local irreducible] Ovf.fit InI64

theorem Ovf.fit_nat_step (m : Ovf) (a d : Nat) :
    ((m.fit (a : Int)).bind fun x => (m.fit (x * 10)).bind fun x => m.fit (x + d)) = m.fit ((a * 10 + d : Nat) : Int) := by
  cases m with
  | checked =>
    by_cases h : InI64 ((a * 10 + d : Nat) : Int)
    · obtain ⟨h1, h2⟩ := inI64_down h
      rw [Ovf.fit_checked_pos h2, Option.bind_some, Ovf.fit_checked_pos h1, Option.bind_some]
      push_cast
      exact Eq.refl _
    · rw [Ovf.fit_checked_neg h]
      by_cases h1 : InI64 (a : Int)
      · rw [Ovf.fit_checked_pos h1, Option.bind_some]
        by_cases h2 : InI64 ((a : Int) * 10)
        · rw [Ovf.fit_checked_pos h2, Option.bind_some]
          push_cast at h
          exact Ovf.fit_checked_neg h
        · rw [Ovf.fit_checked_neg h2, Option.bind_none]
      · rw [Ovf.fit_checked_neg h1, Option.bind_none]
  | wrapping =>
    rw [Ovf.fit_wrapping, Option.bind_some, Ovf.fit_wrapping, Option.bind_some, Ovf.fit_wrapping, Ovf.fit_wrapping,
      bmod_step]

theorem Ovf.fit_fold_none (m : Ovf) (ds : List (Fin 10)) : ∀ a : Nat, m.fit (a : Int) = none →
    m.fit ((ds.foldl (fun a d => a * 10 + d.val) a : Nat) : Int) = none := by
  induction ds with
  | nil => intro a h; exact h
  | cons d ds ih =>
    intro a h
    refine ih _ ?_
    rw [← Ovf.fit_nat_step m a d.val, h]
    rfl

/-! ### Numbers -/

/-- The parser ends with the given value and the given rest of the input, or panics. -/
def Outc (r : Res Int) (o : Option Int) (rest : List Char) : Prop :=
  match o with
  | some v => ∃ w', r = .ok v w' ∧ w'.rem = rest
  | none => r = .panic

/-- The next character, if any, is not a digit. -/
def NoDigit (r : List Char) : Prop := ∀ c, r.head? = some c → c.isDigit = false

theorem takeNumberGo_digit (m : Ovf) (n : Nat) (out : Option Int) {w : IW} {c : Char} {cs : List Char}
    (h : w.rem = c :: cs) (hc : c.isDigit = true) : ∃ w', w'.rem = cs ∧ takeNumberGo m (n + 1) out w =
      orPanic (m.fit (out.getD 0 * 10)) fun x => orPanic (m.fit (x + digitVal c)) fun x => takeNumberGo m n (some x) w' := by
  obtain ⟨w', h1, h2⟩ := consume1 (w := w.peek.2) (c := c) (cs := cs) (by simp [h])
  refine ⟨w', h2, ?_⟩
  rw [takeNumberGo, IW.peek_eq, h]
  simp only [List.head?_cons, hc, if_true, h1, Res.bind]

theorem takeNumberGo_complete (m : Ovf) (rest : List Char) (hr : NoDigit rest) (ds : List (Fin 10)) :
    ∀ (k : Nat) (a : Nat) (out : Option Int) (w : IW), ds.length + 1 ≤ k → w.rem = ds.map digitChar ++ rest →
      (ds ≠ [] ∨ out.isSome) → m.fit (a : Int) = some (out.getD 0) →
      Outc (takeNumberGo m k out w) (m.fit ((ds.foldl (fun a d => a * 10 + d.val) a : Nat) : Int)) rest := by
  induction ds with
  | nil =>
    intro k a out w hk hw ho hf
    obtain ⟨k, rfl⟩ : ∃ j, k = j + 1 := ⟨k - 1, by simp at hk; omega⟩
    simp only [List.map_nil, List.nil_append] at hw
    simp only [ne_eq, not_true_eq_false, false_or] at ho
    obtain ⟨v, rfl⟩ := Option.isSome_iff_exists.1 ho
    rw [List.foldl_nil, hf]
    show ∃ w', _ = Res.ok v w' ∧ w'.rem = rest
    rw [takeNumberGo, IW.peek_eq, hw]
    cases rest with
    | nil => exact ⟨_, rfl, by simp [hw]⟩
    | cons c cs =>
      have := hr c rfl
      simp only [List.head?_cons, this]
      exact ⟨_, rfl, by simp [hw]⟩
  | cons d ds ih =>
    intro k a out w hk hw ho hf
    obtain ⟨k, rfl⟩ : ∃ j, k = j + 1 := ⟨k - 1, by simp at hk; omega⟩
    obtain ⟨w', h1, h2⟩ := takeNumberGo_digit m k out (w := w) (c := digitChar d) (by rw [hw]; rfl) (digitChar_isDigit d)
    rw [h2, digitVal_digitChar]
    have hs := Ovf.fit_nat_step m a d.val
    rw [hf, Option.bind_some] at hs
    cases h3 : m.fit (out.getD 0 * 10) with
    | none =>
      rw [h3, Option.bind_none] at hs
      rw [List.foldl_cons, Ovf.fit_fold_none m ds _ hs.symm]
      rfl
    | some x =>
      rw [h3, Option.bind_some] at hs
      simp only [orPanic]
      cases h4 : m.fit (x + d.val) with
      | none =>
        rw [h4] at hs
        rw [List.foldl_cons, Ovf.fit_fold_none m ds _ hs.symm]
        rfl
      | some y =>
        rw [h4] at hs
        exact ih k _ (some y) w' (by simp at hk; omega) h1 (.inr rfl) hs.symm


theorem takeNumber_complete (m : Ovf) (n : Numeral) (rest : List Char) (hr : NoDigit rest) (w : IW)
    (hw : w.rem = n.text ++ rest) : Outc (takeNumber m w) (m.fit n.val) rest := by
  refine takeNumberGo_complete m rest hr (n.first :: n.rest) _ 0 none w ?_ hw (.inl (by simp)) (by simpa using m.fit_zero)
  rw [IW.left_eq, hw]
  simp [Numeral.text]

theorem takeNumberGo_sound (m : Ovf) : ∀ (k : Nat) (out : Option Int) (w w' : IW) (v : Int),
    takeNumberGo m k out w = .ok v w' → ∃ ds : List (Fin 10), w.rem = ds.map digitChar ++ w'.rem ∧ NoDigit w'.rem ∧
      (ds ≠ [] ∨ out.isSome) := by
  intro k
  induction k with
  | zero => intro out w w' v h; cases h
  | succ k ih =>
    intro out w w' v h
    cases hr : w.rem with
    | nil =>
      rw [takeNumberGo, IW.peek_eq, hr] at h
      simp only [List.head?_nil] at h
      cases out with
      | none => cases h
      | some x => cases h; exact ⟨[], by simp [hr], by simp [hr, NoDigit], .inr rfl⟩
    | cons c cs =>
      by_cases hc : c.isDigit = true
      · obtain ⟨w1, h1, h2⟩ := takeNumberGo_digit m k out hr hc
        rw [h2] at h
        unfold orPanic at h
        split at h
        · simp only at h
          split at h
          · obtain ⟨ds, h3, h4, -⟩ := ih _ _ _ _ h
            obtain ⟨d, rfl⟩ := isDigit_digitChar hc
            exact ⟨d :: ds, by rw [← h1, h3]; rfl, h4, .inl (by simp)⟩
          · cases h
        · cases h
      · rw [takeNumberGo, IW.peek_eq, hr] at h
        simp only [List.head?_cons, hc] at h
        cases out with
        | none => simp at h
        | some x =>
          simp only [Bool.false_eq_true, if_false, Res.ok.injEq] at h
          obtain ⟨-, rfl⟩ := h
          refine ⟨[], by simp [hr], ?_, .inr rfl⟩
          intro d hd
          simp only [IW.peek_rem, hr, List.head?_cons, Option.some.injEq] at hd
          rw [← hd]; simpa using hc

theorem takeNumber_sound {m : Ovf} {w w' : IW} {v : Int} (h : takeNumber m w = .ok v w') :
    ∃ n : Numeral, w.rem = n.text ++ w'.rem ∧ m.fit n.val = some v ∧ NoDigit w'.rem := by
  obtain ⟨ds, h1, h2, h3⟩ := takeNumberGo_sound m _ _ _ _ _ h
  cases ds with
  | nil => simp at h3
  | cons d ds =>
    refine ⟨⟨d, ds⟩, h1, ?_, h2⟩
    have := takeNumber_complete m ⟨d, ds⟩ _ h2 w h1
    rw [h] at this
    cases ho : m.fit (Numeral.val ⟨d, ds⟩) with
    | none => rw [ho] at this; cases this
    | some u =>
      rw [ho] at this
      obtain ⟨w2, h4, h5⟩ := this
      cases h4
      rfl

end Chomp
