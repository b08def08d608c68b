import Verif.Bench.JsonErr

/-! # C05, C07: the errors of `take_chars_from` and `iter_strict` -/

namespace Chomp

/-- **C05** (errors). `take_chars_from` fails at the first character that is not in the set, or at the end of the input if there are too few
characters; the position reported is the one after that character, or one column behind the end. -/
theorem C05_take_chars_from_err (set : List Char) (n : Nat) (w w' : IW) (e : TakeError) (h : takeCharsFrom set n w = .err e w') :
    ∃ u r, w.rem = u ++ r ∧ u.length < n ∧ (∀ c ∈ u, c ∈ set) ∧
      ((r = [] ∧ e = .endOfStream (advPosN w.pos (u.length + 1) w.rem) ∧ w'.rem = []) ∨
        ∃ c s, r = c :: s ∧ c ∉ set ∧ e = .badBranch (advPosN w.pos (u.length + 1) w.rem) c set ∧ w'.rem = s) := by
  induction n generalizing w with
  | zero => cases h
  | succ n ih =>
    have e1 : takeCharsFrom set (n + 1) = nextOr fun c w =>
        (if set.contains c then fun w => (takeCharsFrom set n w).map (c :: ·) else fun w => .err (.badBranch w.pos c set) w) w := by
      funext w
      rw [takeCharsFrom, nextOr]
      rcases w.advance with ⟨_ | c, w'⟩
      · rfl
      · dsimp only; split <;> rfl
    rw [e1] at h
    cases hr : w.rem with
    | nil =>
      rw [nextOr_nil hr] at h
      cases h
      refine ⟨[], [], rfl, Nat.succ_pos _, by simp, .inl ⟨rfl, by rw [IW.advance_pos, hr]; rfl, by simp [hr]⟩⟩
    | cons c r =>
      rw [nextOr_cons hr] at h
      have hrem : w.advance.2.rem = r := by simp [hr]
      by_cases hc : c ∈ set
      · rw [if_pos (by simpa using hc)] at h
        cases hx : takeCharsFrom set n w.advance.2 with
        | ok v w2 => rw [hx] at h; cases h
        | panic => rw [hx] at h; cases h
        | oof => rw [hx] at h; cases h
        | err e2 w2 =>
          rw [hx] at h
          cases h
          obtain ⟨u, s, h1, h2, h3, h4⟩ := ih _ hx
          rw [hrem] at h1
          refine ⟨c :: u, s, by rw [h1]; rfl, Nat.succ_lt_succ h2, ?_, ?_⟩
          · intro x hx
            rcases List.mem_cons.1 hx with rfl | hx
            · exact hc
            · exact h3 x hx
          · have hp : advPosN w.advance.2.pos (u.length + 1) w.advance.2.rem = advPosN w.pos ((c :: u).length + 1) (c :: r) := by
              rw [IW.advance_pos, hrem, hr]; rfl
            rw [hp] at h4
            exact h4
      · rw [if_neg (by simpa using hc)] at h
        cases h
        exact ⟨[], c :: r, rfl, Nat.succ_pos _, by simp, .inr ⟨c, r, rfl, hc, by rw [IW.advance_pos, hr]; rfl, hrem⟩⟩

example : takeCharsFrom ['0', '1'] 3 (IW.new "01x".toList) = .err (.badBranch ⟨1, 3⟩ 'x' ['0', '1']) ⟨⟨1, 3⟩, none, []⟩ := by decide +kernel

/-- What `iter_strict` reports after an item, which ended in state `w` with the error `own`, if any. -/
def AfterItem (cfg : IterCfg) (own : Option TakeError) (w : IW) (e : TakeError) : Prop :=
  (w.rem = [] ∧ e = .endOfStream w.pos) ∨
  (∃ c r, w.rem = c :: r ∧ c ≠ cfg.sep ∧ c ≠ cfg.stop ∧ e = .badBranch w.pos c cfg.sepStop) ∨
  (w.rem = [cfg.sep] ∧ e = .endOfStream (advPosN w.pos 1 w.rem)) ∨
  (∃ c r, w.rem = cfg.sep :: c :: r ∧ c ∉ cfg.first ∧ e = .badBranch (advPosN w.pos 1 w.rem) c cfg.first) ∨
  (own = some e ∧ ((∃ r, w.rem = cfg.stop :: r) ∨ ∃ c r, w.rem = cfg.sep :: c :: r ∧ c ∈ cfg.first))

theorem sepCheck_after (cfg : IterCfg) (w : IW) : (∃ w', sepCheck cfg w = .ok () w' ∧
      ((∃ r, w.rem = cfg.stop :: r ∧ w'.rem = w.rem) ∨ ∃ c r, w.rem = cfg.sep :: c :: r ∧ c ∈ cfg.first ∧ w'.rem = c :: r)) ∨
    ∃ e w', sepCheck cfg w = .err e w' ∧ ∀ own, AfterItem cfg own w e := by
  rw [sepCheck, IW.peek_eq]
  cases hr : w.rem with
  | nil => exact .inr ⟨_, _, rfl, fun own => .inl ⟨hr, by rw [IW.peek_pos]⟩⟩
  | cons c r =>
    dsimp only [List.head?_cons]
    by_cases hs : c = cfg.sep
    · subst hs
      simp only [if_true]
      rw [IW.peek_eq]
      have hx : w.peek.2.advance.2.rem = r := by simp [hr]
      have hp : w.peek.2.advance.2.peek.2.pos = advPosN w.pos 1 w.rem := by
        rw [IW.peek_pos, IW.advance_pos, IW.peek_pos, IW.peek_rem]; rfl
      rw [hx]
      cases hr2 : r with
      | nil => exact .inr ⟨_, _, rfl, fun own => .inr (.inr (.inl ⟨by rw [hr, hr2], by rw [hp]⟩))⟩
      | cons d r2 =>
        dsimp only [List.head?_cons]
        by_cases hd : d ∈ cfg.first
        · rw [if_pos (by simpa using hd)]
          exact .inl ⟨_, rfl, .inr ⟨d, r2, rfl, hd, by rw [IW.peek_rem, hx, hr2]⟩⟩
        · rw [if_neg (by simpa using hd)]
          exact .inr ⟨_, _, rfl, fun own => .inr (.inr (.inr (.inl ⟨d, r2, by rw [hr, hr2], hd, by rw [hp]⟩)))⟩
    · simp only [if_neg hs]
      by_cases ht : c = cfg.stop
      · subst ht
        simp only [if_true]
        exact .inl ⟨_, rfl, .inl ⟨r, rfl, by rw [IW.peek_rem, hr]⟩⟩
      · simp only [if_neg ht]
        exact .inr ⟨_, _, rfl, fun own => .inr (.inl ⟨c, r, hr, hs, ht, by rw [IW.peek_pos]⟩)⟩

/-- **C07** (errors). If collecting the items fails, then some items, each followed by a separator, have been read; there is a further item; and
the error is what `AfterItem` says: about what follows that item if this is not a separator and the beginning of an item or the stop
character, whether or not the item had an error, and otherwise the item's own error. -/
theorem C07_iter_strict_error {α : Type} (cfg : IterCfg) (item : IW → Res α)
    (hitem : ∀ w a w', item w = .ok a w' → ∃ u, w.rem = u ++ w'.rem) (n : Nat) (w w' : IW) (e : TakeError)
    (h : collectIter cfg item n w = .err e w') :
    ∃ (us : List (List Char)) (w1 w2 : IW), w.rem = (us.map (· ++ [cfg.sep])).flatten ++ w1.rem ∧ w1.rem ≠ [] ∧
      w1.rem.head? ≠ some cfg.stop ∧
      ((∃ a, item w1 = .ok a w2 ∧ AfterItem cfg none w2 e) ∨ ∃ own, item w1 = .err own w2 ∧ AfterItem cfg (some own) w2 e) := by
  induction n generalizing w with
  | zero => cases h
  | succ n ih =>
    rw [collectIter_eq] at h
    dsimp only at h
    rw [IW.peek_eq] at h
    cases hr : w.rem with
    | nil => rw [hr] at h; cases h
    | cons c r =>
      rw [hr] at h
      dsimp only [List.head?_cons] at h
      by_cases hc : c = cfg.stop
      · rw [if_pos hc] at h; cases h
      · rw [if_neg hc] at h
        have hrem : w.peek.2.rem = c :: r := by rw [IW.peek_rem, hr]
        have hne : w.peek.2.rem ≠ [] := by rw [hrem]; simp
        have hhd : w.peek.2.rem.head? ≠ some cfg.stop := by rw [hrem]; simpa using hc
        rw [afterwards] at h
        cases hi : item w.peek.2 with
        | panic => rw [hi] at h; cases h
        | oof => rw [hi] at h; cases h
        | err own w2 =>
          rw [hi] at h
          dsimp only at h
          refine ⟨[], w.peek.2, w2, by simp [hrem], hne, hhd, .inr ⟨own, hi, ?_⟩⟩
          rcases sepCheck_after cfg w2 with ⟨w3, h1, h2⟩ | ⟨e3, w3, h1, h2⟩
          · rw [h1] at h
            cases h
            refine .inr (.inr (.inr (.inr ⟨rfl, ?_⟩)))
            rcases h2 with ⟨r, h2, -⟩ | ⟨c, r, h2, h3, -⟩
            · exact .inl ⟨r, h2⟩
            · exact .inr ⟨c, r, h2, h3⟩
          · rw [h1] at h
            cases h
            exact h2 _
        | ok a w2 =>
          rw [hi] at h
          dsimp only at h
          rcases sepCheck_after cfg w2 with ⟨w3, h1, h2⟩ | ⟨e3, w3, h1, h2⟩
          · rw [h1] at h
            have h : (collectIter cfg item n w3).map (a :: ·) = .err e w' := h
            cases hx : collectIter cfg item n w3 with
            | panic => rw [hx] at h; cases h
            | oof => rw [hx] at h; cases h
            | ok v w4 => rw [hx] at h; cases h
            | err e4 w4 =>
              rw [hx] at h
              cases h
              rcases h2 with ⟨r2, h2, h3⟩ | ⟨d, r2, h2, h3, h4⟩
              · -- the stop character: the iteration ends without an error
                exfalso
                cases n with
                | zero => cases hx
                | succ n =>
                  rw [collectIter_eq] at hx
                  dsimp only at hx
                  rw [IW.peek_eq, h3, h2] at hx
                  dsimp only [List.head?_cons] at hx
                  rw [if_pos rfl] at hx
                  cases hx
              · obtain ⟨us, w5, w6, h5, h6⟩ := ih w3 hx
                obtain ⟨u, hu⟩ := hitem _ _ _ hi
                refine ⟨u :: us, w5, w6, ?_, h6⟩
                rw [List.map_cons, List.flatten_cons, List.append_assoc, ← h5, h4, ← hrem, hu, h2]
                simp
          · rw [h1] at h
            cases h
            exact ⟨[], w.peek.2, w2, by simp [hrem], hne, hhd, .inl ⟨a, hi, h2 none⟩⟩

-- `1,2;`: something other than a separator after an item
example : collectIter ⟨',', ']', [',', ']'], ['0', '1']⟩ (takeCharsFrom ['0', '1'] 1) 9 (IW.new "1,0;".toList) =
    .err (.badBranch ⟨1, 3⟩ ';' [',', ']']) ⟨⟨1, 3⟩, some ';', []⟩ := by decide +kernel

end Chomp
