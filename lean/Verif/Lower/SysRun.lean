import Verif.Lower.Sys
import Verif.Lower.Cost

/-!
# Systems of generated types: how deep and how long parsers run
-/

namespace Chomp

section
variable {α : Type} {step : α → NodeF α} {S : α → Prop} {ty : α → Ty}

/-- `take` of `a` may call `take` of `b` before anything has been consumed. -/
def LeftOf (step : α → NodeF α) (a b : α) : Prop :=
  (∃ l, step a = .cat (b :: l)) ∨ (∃ tys l, step a = .alt tys l ∧ b ∈ l) ∨ step a = .alias b ∨ step a = .box b

/-- No cycle of calls that consume nothing is longer than `N`; structs have at most `P` fields and literals at most `L` characters. -/
structure Ranked (step : α → NodeF α) (S : α → Prop) (N P L : Nat) (rk : α → Nat) : Prop where
  left : ∀ a b, S a → S b → LeftOf step a b → rk b < rk a
  le : ∀ a, S a → rk a ≤ N
  parts : ∀ a l, S a → step a = .cat l → l.length ≤ P
  lits : ∀ a s, S a → step a = .lit s → s.length ≤ L

theorem TySys.consumes (h : TySys step S ty) {n : Nat} {a : α} (hS : S a) (hn : (ty a).nullable = false) {w w' : IW} {t : Tree}
    (hr : run step n a w = .ok t w') : w'.rem.length + 1 ≤ w.rem.length := by
  have h1 := h.desc (run_value n a w w' t hr) hS
  have h2 := (run_text n a w w' t hr).length
  cases ht : t.text with
  | nil => have := h1.1 ht; simp [hn] at this
  | cons c u => rw [ht] at h2; simp at h2; omega

theorem consumeStr_ne_oof (s : List Char) (w : IW) : consumeStr s w ≠ .oof := by
  rw [consumeStr]
  rcases consumeGo_spec s 0 s w with ⟨w', h, _⟩ | ⟨m, w', _, _, _, _, _, _, _, h⟩
  · simp [h]
  · rcases h with ⟨_, h⟩ | ⟨_, _, ⟨_, _, h⟩ | ⟨_, h⟩⟩ <;> simp [h]

theorem TySys.depth (h : TySys step S ty) {N P L : Nat} {rk : α → Nat} (hR : Ranked step S N P L rk) : ∀ (n : Nat) (a : α) (w : IW), S a →
    w.rem.length * (N + 1) + rk a < n → run step n a w ≠ .oof
  | 0, _, _, _, hn => by omega
  | n + 1, a, w, hS, hn => by
    have ih := h.depth hR n
    simp only [run]
    cases ha : step a with
    | eps => simp
    | lit s => exact Res.map_ne_oof (consumeStr_ne_oof s w)
    | cat l =>
      obtain ⟨b, l', rfl, h1, h2, h3⟩ := h.cat a l hS ha
      apply Res.map_ne_oof
      have hb := h1 b (.head _)
      have hrk := hR.left a b hS hb (.inl ⟨l', ha⟩)
      have ht : run step n b w ≠ .oof := ih b w hb (by omega)
      simp only [seqTake]
      cases hx : run step n b w with
      | oof => exact absurd hx ht
      | panic => simp [Res.bind]
      | err e w' => simp [Res.bind]
      | ok u w1 =>
        have hc := h.consumes hb h2 hx
        have hs : seqTake (run step n) l' w1 ≠ .oof := by
          refine seqTake_oof (Nat.le_refl _) (fun x _ w w' t h => run_text n x w w' t h) ?_
          intro x hx w2 hw2
          refine ih x w2 (h1 x (.tail _ hx)) ?_
          have h5 := hR.le x (h1 x (.tail _ hx))
          have h6 : (w2.rem.length + 1) * (N + 1) ≤ w.rem.length * (N + 1) := Nat.mul_le_mul_right _ (by omega)
          rw [Nat.succ_mul] at h6
          omega
        simp only [Res.bind]
        cases hs' : seqTake (run step n) l' w1 with
        | oof => exact absurd hs' hs
        | panic => simp
        | err e w' => simp
        | ok ts w2 => simp
    | alt tys l =>
      obtain ⟨_, h1, _⟩ := h.alt a tys l hS ha
      simp only [altTake]
      cases altChoose w.peek.1 tys with
      | none => simp
      | some j =>
        dsimp only
        cases hj : l[j]? with
        | none => simp
        | some b =>
          have hb := List.mem_of_getElem? hj
          have hrk := hR.left a b hS (h1 b hb) (.inr (.inl ⟨tys, l, ha, hb⟩))
          exact Res.map_ne_oof (ih b _ (h1 b hb) (by simp only [IW.peek_rem]; omega))
    | alias b =>
      obtain ⟨h1, _⟩ := h.alias a b hS ha
      have hrk := hR.left a b hS h1 (.inr (.inr (.inl ha)))
      exact ih b w h1 (by omega)
    | box b =>
      obtain ⟨h1, _⟩ := h.box a b hS ha
      have hrk := hR.left a b hS h1 (.inr (.inr (.inr ha)))
      exact Res.map_ne_oof (ih b w h1 (by omega))
    | bad => exact absurd ha (h.bad a hS)

theorem TySys.no_panic (h : TySys step S ty) (hl : ∀ a s, S a → step a = .lit s → AsciiButLast s) : ∀ (n : Nat) (a : α) (w : IW), S a →
    run step n a w ≠ .panic
  | 0, _, _, _ => by simp [run]
  | n + 1, a, w, hS => by
    have ih := h.no_panic hl n
    simp only [run]
    cases ha : step a with
    | eps => simp
    | lit s => exact Res.map_ne_panic (consumeStr_no_panic (hl a s hS ha) w)
    | cat l =>
      obtain ⟨b, l', rfl, h1, _⟩ := h.cat a l hS ha
      exact Res.map_ne_panic (seqTake_panic fun x hx w => ih x w (h1 x hx))
    | alt tys l =>
      obtain ⟨h0, h1, _⟩ := h.alt a tys l hS ha
      simp only [altTake]
      cases hc : altChoose w.peek.1 tys with
      | none => simp
      | some j =>
        dsimp only
        cases hj : l[j]? with
        | none =>
          have := altChoose_lt hc
          rw [List.getElem?_eq_none_iff] at hj
          rw [h0] at this
          simp at this
          omega
        | some b => exact Res.map_ne_panic (ih b _ (h1 b (List.mem_of_getElem? hj)))
    | alias b => exact ih b w (h.alias a b hS ha).1
    | box b => exact Res.map_ne_panic (ih b w (h.box a b hS ha).1)
    | bad => exact absurd ha (h.bad a hS)

theorem TySys.costOk (h : TySys step S ty) {N P L : Nat} {rk : α → Nat} (hR : Ranked step S N P L rk) (M U Q : Nat) (hM : M = N + L + 2)
    (hU : U = 1 + P * M) (hQ : Q = M * U) : ∀ (n : Nat) (a : α) (w : IW), S a →
      CostOk Q Q (rk a + 1 + L) ((rk a + 1 + L) * U) (used w (run step n a w)) (runCost step n a w)
  | 0, a, w, hS => by
    simp only [run, runCost, used, CostOk]
    refine ⟨fun _ => Nat.zero_le _, fun h => ?_⟩
    have : Q * 1 ≤ Q * w.rem.length := Nat.mul_le_mul_left _ h
    omega
  | n + 1, a, w, hS => by
    have ih := h.costOk hR M U Q hM hU hQ n
    have hU1 : 1 ≤ U := by omega
    have hmu : rk a + 1 + L ≤ (rk a + 1 + L) * U := Nat.le_mul_of_pos_right _ hU1
    have pass : ∀ (m u c : Nat), m < rk a → CostOk Q Q (m + 1 + L) ((m + 1 + L) * U) u c →
        CostOk Q Q (rk a + 1 + L) ((rk a + 1 + L) * U) u (1 + c) := by
      intro m u c hm h
      have h1 : (m + 1 + L + 1) * U ≤ (rk a + 1 + L) * U := Nat.mul_le_mul_right _ (by omega)
      rw [Nat.succ_mul] at h1
      exact ⟨fun hu => by have := h.1 hu; omega, fun hu => by have := h.2 hu; omega⟩
    simp only [run, runCost]
    cases ha : step a with
    | eps => simp only [used, CostOk]; exact ⟨fun _ => by omega, fun h => by omega⟩
    | lit s =>
      simp only [used_map]
      have h1 := hR.lits a s hS ha
      refine ⟨fun _ => by omega, fun h => ?_⟩
      have : Q * 1 ≤ Q * used w (consumeStr s w) := Nat.mul_le_mul_left _ h
      omega
    | cat l =>
      have hP := hR.parts a l hS ha
      obtain ⟨b, l', rfl, h1, h2, h3⟩ := h.cat a l hS ha
      have hb := h1 b (.head _)
      have hrk := hR.left a b hS hb (.inl ⟨l', ha⟩)
      have ht := ih b w hb
      have hmU : (rk b + 1 + L + 1) * U ≤ (rk a + 1 + L) * U := Nat.mul_le_mul_right _ (by omega)
      rw [Nat.succ_mul] at hmU
      have hrest : ∀ x ∈ l', ∀ w, CostOk Q Q M Q (used w (run step n x w)) (runCost step n x w) := by
        intro x hx w
        have h4 := ih x w (h1 x (.tail _ hx))
        have h5 := hR.le x (h1 x (.tail _ hx))
        have h6 : (rk x + 1 + L) * U ≤ Q := by rw [hQ]; exact Nat.mul_le_mul_right _ (by omega)
        exact ⟨fun h => by have := h4.1 h; omega, fun h => by have := h4.2 h; omega⟩
      have hlen : l'.length * M + 1 ≤ U := by
        have : l'.length * M ≤ P * M := Nat.mul_le_mul_right _ (by simp at hP; omega)
        omega
      have hseq := fun w1 => seqCost_bound (f := run step n) (g := runCost step n) (A := Q) (Q := Q) (Z := M) (w := w1)
        (l := l') (fun x _ => run_text n x) (fun x _ => run_err n x) hrest
      simp only [used_map, seqTake, seqCost]
      cases hx : run step n b w with
      | oof => rw [hx] at ht; exact pass _ _ _ hrk ht
      | panic => rw [hx] at ht; exact pass _ _ _ hrk ht
      | err e w' => rw [hx] at ht; exact pass _ _ _ hrk ht
      | ok u w1 =>
        have hc := h.consumes hb h2 hx
        rw [hx] at ht
        have hu : 1 ≤ used w (Res.ok u w1) := by simp only [used]; omega
        have ht := ht.2 hu
        have hseq := hseq w1
        have h5 : used w (Res.ok u w1) + used w1 (seqTake (run step n) l' w1) =
            used w ((seqTake (run step n) l' w1).bind fun ts w => .ok (u :: ts) w) := by
          cases hs : seqTake (run step n) l' w1 with
          | oof => simp only [Res.bind, used]; omega
          | panic => simp only [Res.bind, used]; omega
          | err e w2 =>
            obtain ⟨⟨p, h6⟩, _⟩ := seqTake_err (fun y _ => run_text n y) (fun y _ => run_err n y) hs
            have := h6.length
            simp only [Res.bind, used]; omega
          | ok ts w2 =>
            have h6 := (seqTake_sound (P := fun _ _ => True)
              (fun y _ w w' t e => ⟨trivial, run_text n y w w' t e⟩) hs).2
            have := h6.length
            simp only [Res.bind, used]; omega
        dsimp only [Res.bind] at h5 ⊢
        rw [← h5]
        refine ⟨fun h => by omega, fun _ => ?_⟩
        rw [Nat.mul_add]
        omega
    | alt tys l =>
      obtain ⟨_, h1, _⟩ := h.alt a tys l hS ha
      simp only [altTake]
      cases altChoose w.peek.1 tys with
      | none =>
        simp only [used, IW.peek_rem]
        exact ⟨fun _ => by omega, fun h => by omega⟩
      | some j =>
        dsimp only
        cases hj : l[j]? with
        | none =>
          simp only [used]
          refine ⟨fun _ => by omega, fun h => ?_⟩
          have : Q * 1 ≤ Q * w.rem.length := Nat.mul_le_mul_left _ h
          omega
        | some b =>
          have hb := List.mem_of_getElem? hj
          have hrk := hR.left a b hS (h1 b hb) (.inr (.inl ⟨tys, l, ha, hb⟩))
          have h4 := ih b w.peek.2 (h1 b hb)
          have hu : used w.peek.2 (run step n b w.peek.2) = used w (run step n b w.peek.2) := by
            cases run step n b w.peek.2 <;> simp [used]
          rw [hu] at h4
          simp only [used_map]
          exact pass _ _ _ hrk h4
    | alias b =>
      obtain ⟨h1, _⟩ := h.alias a b hS ha
      exact pass _ _ _ (hR.left a b hS h1 (.inr (.inr (.inl ha)))) (ih b w h1)
    | box b =>
      obtain ⟨h1, _⟩ := h.box a b hS ha
      simp only [used_map]
      exact pass _ _ _ (hR.left a b hS h1 (.inr (.inr (.inr ha)))) (ih b w h1)
    | bad => exact absurd ha (h.bad a hS)

theorem TySys.cost (h : TySys step S ty) {N P L : Nat} {rk : α → Nat} (hR : Ranked step S N P L rk) (n : Nat) (a : α) (w : IW) (hS : S a) :
    runCost step n a w ≤ (N + L + 2) * (1 + P * (N + L + 2)) * (w.rem.length + 1) := by
  have h1 := h.costOk hR _ _ _ rfl rfl rfl n a w hS
  have h2 := hR.le a hS
  have h3 : used w (run step n a w) ≤ w.rem.length := by
    cases run step n a w <;> simp only [used] <;> omega
  generalize hM : N + L + 2 = M at h1
  generalize hU : 1 + P * M = U at h1
  have h4 : (rk a + 1 + L) * U ≤ M * U := Nat.mul_le_mul_right _ (by omega)
  have h5 : rk a + 1 + L ≤ M * U := Nat.le_trans (by omega) (Nat.le_mul_of_pos_right M (by omega))
  have h6 := Nat.mul_le_mul_left (M * U) h3
  simp only [Nat.mul_add, Nat.mul_one]
  rcases Nat.eq_zero_or_pos (used w (run step n a w)) with h0 | h0
  · have := h1.1 h0; omega
  · have := h1.2 h0; omega

end

end Chomp
