import Verif.Bench.JsonParse

/-! # How deeply the hand-written JSON parser recurses

The nesting of calls of `take` is at most the number of opening brackets and braces in the text, and one. -/

namespace Chomp

/-- An opening bracket or brace. -/
def isOpen (c : Char) : Bool := c == '[' || c == '{'

/-- The number of opening brackets and braces in what is left. -/
def IW.opens (w : IW) : Nat := w.rem.countP isOpen

/-- What is left in `w'` is the end of what is left in `w`. -/
def IW.Suf (w' w : IW) : Prop := ∃ u, w.rem = u ++ w'.rem

theorem IW.Suf.opens {w' w : IW} (h : w'.Suf w) : w'.opens ≤ w.opens := by
  obtain ⟨u, h⟩ := h
  unfold IW.opens
  rw [h, List.countP_append]
  omega

theorem IW.Suf.trans {a b c : IW} (h1 : a.Suf b) (h2 : b.Suf c) : a.Suf c := by
  obtain ⟨u, h1⟩ := h1
  obtain ⟨v, h2⟩ := h2
  exact ⟨v ++ u, by rw [h2, h1, List.append_assoc]⟩

theorem IW.Suf.peek (w : IW) : w.peek.2.Suf w := ⟨[], by rw [IW.peek_rem]; rfl⟩

theorem IW.Suf.advance (w : IW) : w.advance.2.Suf w := by
  refine ⟨w.rem.take 1, ?_⟩
  rw [IW.advance_rem, ← List.drop_one, List.take_append_drop]

theorem IW.Suf.ws (w : IW) : (jsonSkipWs w).Suf w := by
  obtain ⟨a, -, h⟩ := jsonSkipWs_sound w
  exact ⟨_, h⟩

theorem iterAfter_suf {α : Type} (cfg : IterCfg) (r : Except TakeError α) (w : IW) (x : Except TakeError α) (w' : IW)
    (h : iterAfter cfg r w = .item x w') : w'.Suf w := by
  rw [iterAfter, IW.peek_eq] at h
  have h1 := IW.Suf.peek w
  have h2 := (IW.Suf.advance w.peek.2).trans h1
  have h3 := (IW.Suf.peek w.peek.2.advance.2).trans h2
  cases hr : w.rem with
  | nil => rw [hr] at h; cases h; exact h1
  | cons c cs =>
    rw [hr] at h
    simp only [List.head?_cons] at h
    split at h
    · rw [IW.peek_eq] at h
      cases hr2 : w.peek.2.advance.2.rem with
      | nil => rw [hr2] at h; cases h; exact h3
      | cons d ds =>
        rw [hr2] at h
        simp only [List.head?_cons] at h
        split at h <;> (cases h; exact h3)
    · split at h <;> (cases h; exact h1)

theorem collect_ends_opens {α : Type} {cfg : IterCfg} {item : IW → Res α} (N : Nat)
    (hi : ∀ w, w.opens ≤ N → item w ≠ .oof)
    (hc : ∀ w a w', item w = .ok a w' → w'.rem.length < w.rem.length ∧ w'.Suf w) :
    ∀ (n : Nat) (w : IW), w.opens ≤ N → w.rem.length < n → collectIter cfg item n w ≠ .oof
  | 0, w, _, h => by omega
  | n + 1, w, hN, h => by
    have hp : w.peek.2.opens ≤ N := Nat.le_trans (IW.Suf.peek w).opens hN
    rw [collectIter, iterNext, IW.peek_eq]
    cases hr : w.rem with
    | nil => simp
    | cons c cs =>
      simp only [List.head?_cons]
      by_cases hs : c = cfg.stop
      · rw [if_pos hs]; simp
      · rw [if_neg hs]
        cases hit : item w.peek.2 with
        | oof => exact absurd hit (hi _ hp)
        | panic => simp
        | err e w1 =>
          simp only
          cases hia : iterAfter cfg (Except.error e : Except TakeError α) w1 with
          | oof => exact ((iterAfter_not_oof _ _ _).1 hia).elim
          | panic => simp
          | done w2 => simp
          | item x w2 =>
            cases x with
            | error e => simp
            | ok a => exact absurd hia (iterAfter_err _ _ _ _ _)
        | ok a w1 =>
          simp only
          obtain ⟨h1, h1s⟩ := hc _ _ _ hit
          rw [IW.peek_rem] at h1
          cases hia : iterAfter cfg (Except.ok a : Except TakeError α) w1 with
          | oof => exact ((iterAfter_not_oof _ _ _).1 hia).elim
          | panic => simp
          | done w2 => simp
          | item x w2 =>
            cases x with
            | error e => simp
            | ok b =>
              simp only
              have h2 := (iterAfter_not_oof _ _ _).2 _ _ hia
              have h4 := ((iterAfter_suf _ _ _ _ _ hia).trans h1s).opens
              have h3 := collect_ends_opens (cfg := cfg) N hi hc n w2 (by omega) (by omega)
              intro e
              apply h3
              cases hcol : collectIter cfg item n w2 <;> rw [hcol] at e <;> simp [Res.map] at e

theorem takeMember_ends_opens {F : F64} {m : Ovf} {value : IW → Res (JValue F)} {N : Nat} (hv : ∀ w, w.opens ≤ N → value w ≠ .oof)
    (w : IW) (h : w.opens ≤ N) : takeMember m value w ≠ .oof := by
  rw [takeMember]
  cases h1 : jsonTakeStr m (jsonSkipWs w) with
  | oof => exact absurd h1 (takeStr_ends m _)
  | panic => simp [Res.bind]
  | err e w1 => simp [Res.bind]
  | ok key w1 =>
    simp only [Res.bind]
    obtain ⟨s, -, h2, -⟩ := takeStr_sound h1
    have h3 : w1.Suf (jsonSkipWs w) := ⟨'"' :: JChar.textL s ++ ['"'], by rw [h2]; simp⟩
    rcases consume1_total ':' (jsonSkipWs w1) with ⟨w2, h5⟩ | ⟨e, w2, h5⟩
    · rw [h5]
      simp only
      have h6 : w2.Suf (jsonSkipWs w1) := ⟨[':'], consume1_ok h5⟩
      have := (((h6.trans (.ws _)).trans h3).trans (.ws _)).opens
      cases h7 : value w2 with
      | oof => exact absurd h7 (hv _ (by omega))
      | panic => simp [Res.map]
      | err e w1 => simp [Res.map]
      | ok v w1 => simp [Res.map]
    · rw [h5]; simp

theorem takeJson_ends_opens (F : F64) (m : Ovf) : ∀ (n : Nat) (w : IW), w.opens < n → takeJson F m n w ≠ .oof
  | 0, _, h => by omega
  | n + 1, w, h => by
    have h0 := (IW.Suf.ws w).opens
    rw [takeJson, IW.peek_eq]
    refine bind_ne_oof ?_ (by intros; simp)
    cases hr : (jsonSkipWs w).rem with
    | nil => simp
    | cons c cs =>
      simp only [List.head?_cons]
      have hrp : (jsonSkipWs w).peek.2.rem = c :: cs := by rw [IW.peek_rem, hr]
      have h01 := (IW.Suf.peek (jsonSkipWs w)).opens
      generalize (jsonSkipWs w).peek.2 = w1 at hrp h01
      have ih := takeJson_ends_opens F m n
      have hsnd := takeJson_sound F m n
      have step : ∀ {d : Char} {w2 : IW} {u : Unit}, isOpen d = true → consumeStr [d] w1 = .ok u w2 → w2.opens < n := by
        intro d w2 u hd h1
        have h2 := consume1_ok h1
        have : w1.opens = w2.opens + 1 := by
          unfold IW.opens
          rw [h2, List.countP_cons_of_pos hd]
        omega
      unfold jsonBranch
      split
      · exact map_ne_oof (consume_not_oof (by decide) _)
      split
      · exact map_ne_oof (consume_not_oof (by decide) _)
      split
      · exact map_ne_oof (consume_not_oof (by decide) _)
      split
      · exact map_ne_oof (takeNum_ends F _)
      split
      · exact map_ne_oof (takeStr_ends m _)
      split
      · refine bind_ne_oof (consume_not_oof (by decide) _) ?_
        intro _ w2 h1
        have h3 := step rfl h1
        refine bind_ne_oof ?_ (fun _ _ _ => map_ne_oof (consume_not_oof (by decide) _))
        refine collect_ends_opens w2.opens (fun w3 h4 => ih w3 (by omega)) ?_ _ _ (Nat.le_refl _)
          (by rw [IW.left_eq]; exact Nat.lt_succ_self _)
        intro w3 a w4 h4
        obtain ⟨p, ⟨hp, -⟩, h5⟩ := hsnd _ _ _ h4
        have := JPad.text_pos hp
        exact ⟨by rw [h5, List.length_append]; omega, _, h5⟩
      split
      · refine bind_ne_oof (consume_not_oof (by decide) _) ?_
        intro _ w2 h1
        have h3 := step rfl h1
        refine bind_ne_oof ?_ (fun _ _ _ => map_ne_oof (consume_not_oof (by decide) _))
        refine collect_ends_opens w2.opens (takeMember_ends_opens fun w3 h4 => ih w3 (by omega)) ?_ _ _ (Nat.le_refl _)
          (by rw [IW.left_eq]; exact Nat.lt_succ_self _)
        intro w3 a w4 h4
        obtain ⟨p, ⟨hp, -⟩, h5⟩ := takeMember_sound hsnd _ _ _ h4
        have := JMember.text_pos hp
        exact ⟨by rw [h5, List.length_append]; omega, _, h5⟩
      · simp

end Chomp
