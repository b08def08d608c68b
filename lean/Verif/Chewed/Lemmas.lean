import Verif.Chewed.Model

/-! Helper lemmas about the runtime model. -/

namespace Chomp

/-- The characters still to be delivered. -/
def IW.rem (w : IW) : List Char := w.next.toList ++ w.iter

/-- Position after `next` when `rem` is left before the call. -/
def advPos (p : LineCol) : List Char → LineCol
  | [] => ⟨p.line, p.col + 1⟩
  | c :: cs =>
    if isBreak c then ⟨p.line + 1, 0⟩
    else if c = '\x0D' then
      if cs.head? = some '\n' then ⟨p.line, p.col + 1⟩ else ⟨p.line + 1, 0⟩
    else ⟨p.line, p.col + 1⟩

@[simp] theorem IW.rem_new (t : List Char) : (IW.new t).rem = t := by simp [IW.new, IW.rem]
@[simp] theorem IW.pos_new (t : List Char) : (IW.new t).pos = ⟨1, 0⟩ := rfl

theorem IW.peek_fst (w : IW) : w.peek.1 = w.rem.head? := by
  obtain ⟨p, n, i⟩ := w
  cases n <;> cases i <;> simp [IW.peek, IW.rem]

@[simp] theorem IW.peek_rem (w : IW) : w.peek.2.rem = w.rem := by
  obtain ⟨p, n, i⟩ := w
  cases n <;> cases i <;> simp [IW.peek, IW.rem]

@[simp] theorem IW.peek_pos (w : IW) : w.peek.2.pos = w.pos := by
  obtain ⟨p, n, i⟩ := w
  cases n <;> cases i <;> simp [IW.peek]

theorem IW.peek_eq (w : IW) : w.peek = (w.rem.head?, w.peek.2) := by
  rw [← IW.peek_fst]

theorem IW.pull_fst (w : IW) : w.pull.1 = w.rem.head? := by
  obtain ⟨p, n, i⟩ := w
  cases n <;> cases i <;> simp [IW.pull, IW.rem]

theorem IW.pull_rem (w : IW) : w.pull.2.rem = w.rem.tail := by
  obtain ⟨p, n, i⟩ := w
  cases n <;> cases i <;> simp [IW.pull, IW.rem]

theorem IW.pull_pos (w : IW) : w.pull.2.pos = w.pos := by
  obtain ⟨p, n, i⟩ := w
  cases n <;> cases i <;> simp [IW.pull]

theorem IW.advance_fst (w : IW) : w.advance.1 = w.rem.head? := by
  rw [← IW.pull_fst]
  unfold IW.advance
  rcases h : w.pull with ⟨_ | c, w'⟩
  · rfl
  · dsimp only
    split
    · rfl
    · split
      · rename_i h2
        have : c = '\x0D' := by simpa using h2
        subst this
        split <;> rfl
      · rfl

@[simp] theorem IW.advance_rem (w : IW) : w.advance.2.rem = w.rem.tail := by
  rw [← IW.pull_rem]
  unfold IW.advance
  rcases h : w.pull with ⟨_ | c, w'⟩
  · simp [IW.rem]
  · dsimp only
    split
    · simp [IW.rem]
    · split
      · have := w'.peek_rem
        split <;> simpa [IW.rem] using this
      · simp [IW.rem]

theorem IW.advance_pos (w : IW) : w.advance.2.pos = advPos w.pos w.rem := by
  have h1 := w.pull_fst
  have h2 := w.pull_rem
  have h3 := w.pull_pos
  unfold IW.advance
  rcases h : w.pull with ⟨_ | c, w'⟩
  · rw [h] at h1 h3
    cases hr : w.rem <;> simp_all [advPos]
  · rw [h] at h1 h2 h3
    dsimp only at h1 h2 h3 ⊢
    cases hr : w.rem with
    | nil => rw [hr] at h1; simp at h1
    | cons d ds =>
      rw [hr] at h1 h2
      simp only [List.head?_cons, Option.some.injEq, List.tail_cons] at h1 h2
      subst h1
      simp only [advPos]
      split
      · simp [h3]
      · by_cases hc : c = '\x0D'
        · simp only [hc, beq_self_eq_true, if_true]
          have hp := w'.peek_fst
          rw [h2] at hp
          rw [hp]
          by_cases hn : ds.head? = some '\n'
          · simp [hn, h3]
          · simp [hn, h3]
        · simp [hc, h3]

theorem IW.peek_none {w : IW} : w.peek.1 = none ↔ w.rem = [] := by
  rw [IW.peek_fst]; simp

theorem IW.left_eq (w : IW) : w.left = w.rem.length := by
  simp [IW.left, IW.rem]

/-- Everything observable about an `IterWrapper`. -/
def IW.Equiv (a b : IW) : Prop := a.pos = b.pos ∧ a.rem = b.rem

theorem IW.peek_equiv (w : IW) : w.peek.2.Equiv w := ⟨w.peek_pos, w.peek_rem⟩

/-- State after consuming `n` characters. -/
def IW.adv : Nat → IW → IW
  | 0, w => w
  | n + 1, w => IW.adv n w.advance.2

@[simp] theorem IW.adv_rem (n : Nat) (w : IW) : (w.adv n).rem = w.rem.drop n := by
  induction n generalizing w with
  | zero => simp [IW.adv]
  | succ n ih => simp [IW.adv, ih]

/-- Position after consuming the first `n` characters of `l`. -/
def advPosN (p : LineCol) : Nat → List Char → LineCol
  | 0, _ => p
  | n + 1, l => advPosN (advPos p l) n l.tail

theorem IW.adv_pos (n : Nat) (w : IW) : (w.adv n).pos = advPosN w.pos n w.rem := by
  induction n generalizing w with
  | zero => simp [IW.adv, advPosN]
  | succ n ih => simp [IW.adv, advPosN, ih, IW.advance_pos]

theorem advPosN_add (p : LineCol) (m n : Nat) (l : List Char) :
    advPosN p (m + n) l = advPosN (advPosN p m l) n (l.drop m) := by
  induction m generalizing p l with
  | zero => simp [advPosN]
  | succ m ih =>
    rw [Nat.succ_add]
    simp [advPosN, ih]

theorem advPosN_succ (p : LineCol) (n : Nat) (l : List Char) :
    advPosN p (n + 1) l = advPos (advPosN p n l) (l.drop n) := by
  rw [advPosN_add]; simp [advPosN]

/-! ### consume_str -/

theorem consumeGo_spec (s : List Char) (k : Nat) (es : List Char) (w : IW) :
    (∃ w', consumeGo s k es w = .ok () w' ∧ es <+: w.rem ∧ w'.rem = w.rem.drop es.length ∧
        w'.pos = advPosN w.pos es.length w.rem) ∨
    (∃ m w', ¬ es <+: w.rem ∧ m < es.length ∧ m ≤ w.rem.length ∧ es.take m = w.rem.take m ∧
        es[m]? ≠ w.rem[m]? ∧ w'.rem = w.rem.drop m ∧ w'.pos = advPosN w.pos m w.rem ∧
        ((w.rem.length = m ∧ consumeGo s k es w = .err (.endOfStream w'.pos) w') ∨
         (∃ got, w.rem[m]? = some got ∧
          ((∃ pre, sliceTo s (k + m) = some pre ∧
              consumeGo s k es w = .err (.badString w'.pos (pre ++ [got]) s) w') ∨
           (sliceTo s (k + m) = none ∧ consumeGo s k es w = .panic))))) := by
  induction es generalizing k w with
  | nil => exact .inl ⟨w, rfl, by simp, by simp, rfl⟩
  | cons e es ih =>
    cases hr : w.rem with
    | nil =>
      refine .inr ⟨0, w.peek.2, by simp, by simp, by simp, by simp, by simp, by simp [hr],
        by simp [advPosN], .inl ⟨rfl, ?_⟩⟩
      rw [consumeGo, IW.peek_eq, hr]; simp
    | cons c cs =>
      have hcg : consumeGo s k (e :: es) w =
          if c = e then consumeGo s (k + 1) es w.peek.2.advance.2
          else match sliceTo s k with
            | some pre => .err (.badString w.peek.2.pos (pre ++ [c]) s) w.peek.2
            | none => .panic := by
        rw [consumeGo, IW.peek_eq, hr]; rfl
      rw [hcg]
      by_cases hce : c = e
      · subst hce
        rw [if_pos rfl]
        have hrem : w.peek.2.advance.2.rem = cs := by simp [hr]
        have hpos : w.peek.2.advance.2.pos = advPos w.pos (c :: cs) := by
          rw [IW.advance_pos]; simp [hr]
        rcases ih (k + 1) w.peek.2.advance.2 with ⟨w', h1, h2, h3, h4⟩ | ⟨m, w', h1, h2, h3, h4, h5, h6, h7, h8⟩
        · rw [hrem] at h2 h3 h4
          rw [hpos] at h4
          refine .inl ⟨w', h1, by simpa using h2, by simpa using h3, ?_⟩
          simpa [advPosN] using h4
        · rw [hrem] at h1 h3 h4 h5 h6 h7 h8
          rw [hpos] at h7
          refine .inr ⟨m + 1, w', by simpa using h1, by simpa using h2, by simpa using h3, by simpa using h4,
            by simpa using h5, by simpa using h6, by simpa [advPosN] using h7, ?_⟩
          have : k + 1 + m = k + (m + 1) := by omega
          rw [this] at h8
          simpa using h8
      · rw [if_neg hce]
        refine .inr ⟨0, w.peek.2, by simp [Ne.symm hce], by simp, by simp, by simp, by simp [Ne.symm hce],
          by simp [hr], by simp [advPosN], .inr ⟨c, by simp, ?_⟩⟩
        cases hs : sliceTo s k with
        | none => right; simp
        | some pre => left; exact ⟨pre, by simp , rfl⟩

theorem sliceTo_ascii (s : List Char) (hs : ∀ c ∈ s, c.utf8Size = 1) (n : Nat) (hn : n ≤ s.length) :
    sliceTo s n = some (s.take n) := by
  induction s generalizing n with
  | nil => simp at hn; subst hn; rfl
  | cons c cs ih =>
    cases n with
    | zero => simp [sliceTo]
    | succ n =>
      have hc : c.utf8Size = 1 := hs c (by simp)
      simp only [sliceTo, hc]
      rw [if_pos (by omega)]
      have := ih (fun d hd => hs d (by simp [hd])) n (by simpa using hn)
      simp [this]

/-! ### skip_while, take_chars_from -/

theorem skipGo_spec (f : Char → Bool) (n : Nat) (w : IW) (hn : w.rem.length ≤ n) :
    (skipGo f n w).rem = w.rem.dropWhile f ∧
    (skipGo f n w).pos = advPosN w.pos (w.rem.takeWhile f).length w.rem := by
  induction n generalizing w with
  | zero =>
    have : w.rem = [] := by simpa using hn
    simp [skipGo, this, advPosN]
  | succ n ih =>
    rw [skipGo, IW.peek_eq]
    cases hr : w.rem with
    | nil => simp [hr, advPosN]
    | cons c cs =>
      simp only [List.head?_cons]
      by_cases hf : f c
      · have h1 : w.peek.2.advance.2.rem = cs := by simp [hr]
        have h2 : w.peek.2.advance.2.pos = advPos w.pos (c :: cs) := by
          rw [IW.advance_pos]; simp [hr]
        have := ih w.peek.2.advance.2 (by rw [h1]; simpa [hr] using hn)
        rw [if_pos hf]
        rw [h1, h2] at this
        simpa [hf, advPosN] using this
      · simp [hf, hr, advPosN]

theorem takeCharsFrom_spec (set : List Char) (n : Nat) (w : IW) :
    (n ≤ w.rem.length ∧ (∀ c ∈ w.rem.take n, c ∈ set) ∧
      ∃ w', takeCharsFrom set n w = .ok (w.rem.take n) w' ∧ w'.rem = w.rem.drop n ∧
        w'.pos = advPosN w.pos n w.rem) ∨
    (¬ (n ≤ w.rem.length ∧ (∀ c ∈ w.rem.take n, c ∈ set)) ∧
      ∃ e w', takeCharsFrom set n w = .err e w') := by
  induction n generalizing w with
  | zero => exact .inl ⟨by simp, by simp, w, by simp [takeCharsFrom], by simp, rfl⟩
  | succ n ih =>
    rw [takeCharsFrom]
    have h1 := w.advance_fst
    have h2 := w.advance_rem
    have h3 := w.advance_pos
    rcases hw : w.advance with ⟨_ | c, w'⟩ <;> rw [hw] at h1 h2 h3 <;> dsimp only at h1 h2 h3 ⊢
    · have : w.rem = [] := by simpa using h1.symm
      right
      refine ⟨by simp [this], _, _, rfl⟩
    · cases hr : w.rem with
      | nil => rw [hr] at h1; simp at h1
      | cons d ds =>
        rw [hr] at h1 h2 h3
        simp only [List.head?_cons, Option.some.injEq, List.tail_cons] at h1 h2
        subst h1
        by_cases hc : c ∈ set
        · rw [if_pos (by simpa using hc)]
          rcases ih w' with ⟨a, b, w'', e1, e2, e3⟩ | ⟨a, e, w'', e1⟩
          · left
            rw [h2] at a b e1 e2 e3
            refine ⟨by simpa using a, ?_, w'', by simp [e1, Res.map], by simpa using e2, ?_⟩
            · intro x hx
              rw [List.take_succ_cons, List.mem_cons] at hx
              rcases hx with rfl | hx
              · exact hc
              · exact b x hx
            · simpa [advPosN, ← h3] using e3
          · right
            rw [h2] at a
            refine ⟨?_, e, w'', by rw [e1]; rfl⟩
            rintro ⟨p, q⟩
            apply a
            refine ⟨by simpa using p, fun x hx => q x ?_⟩
            rw [List.take_succ_cons]; exact List.mem_cons_of_mem _ hx
        · right
          rw [if_neg (by simpa using hc)]
          refine ⟨?_, _, _, rfl⟩
          rintro ⟨_, q⟩
          exact hc (q c (by simp))

end Chomp
