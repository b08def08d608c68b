import Verif.Lower.Bound

/-!
# The reference parser as a run, and its number of steps
-/

namespace Chomp

/-- The definition of the type of an expression in an environment. -/
def stepR : List TE × TE → NodeF (List TE × TE)
  | (_, .eps _) => .eps
  | (_, .lit _ s) => .lit s
  | (ρ, .cat _ _ ts) => .cat (ts.map fun t => (ρ, t))
  | (ρ, .alt _ _ ts) => .alt (ts.map TE.ty) (ts.map fun t => (ρ, t))
  | (ρ, .fix _ b) => .alias (b :: ρ, b)
  | (ρ, .var _ i _) =>
    match ρ.drop i with
    | b :: ρ' => .box (ρ', .fix none b)
    | [] => .bad

theorem seqTake_map {α β : Type} {f : β → IW → Res Tree} {g : α → β} : ∀ (l : List α) (w : IW),
    seqTake f (l.map g) w = seqTake (fun a => f (g a)) l w
  | [], _ => rfl
  | x :: l, w => by
    simp only [List.map_cons, seqTake]
    congr 1; funext t w; rw [seqTake_map l]

theorem takeR_eq_run : ∀ (n : Nat) (ρ : List TE) (te : TE) (w : IW), takeR n ρ te w = run stepR n (ρ, te) w
  | 0, _, _, _ => rfl
  | n + 1, ρ, te, w => by
    have ih : ∀ ρ te, takeR n ρ te = run stepR n (ρ, te) := fun ρ te => funext (takeR_eq_run n ρ te)
    cases te with
    | eps nm => rfl
    | lit nm s => rfl
    | cat nm ty ts =>
      simp only [takeR, run, stepR, seqTake_map]
      have : takeR n ρ = fun a => run stepR n (ρ, a) := funext (ih ρ)
      rw [this]
    | alt nm ty ts =>
      simp only [takeR, run, stepR, altTake]
      cases altChoose w.peek.1 (ts.map TE.ty) with
      | none => rfl
      | some k =>
        simp only [List.getElem?_map]
        cases ts[k]? with
        | none => rfl
        | some x => simp only [Option.map_some, ih]
    | fix nm b => simp only [takeR, run, stepR, ih]
    | var nm i ty =>
      simp only [takeR, run, stepR]
      cases ρ.drop i with
      | nil => rfl
      | cons b ρ' => simp only [ih]

/-- The number of characters consumed; everything, if the run has not come to an end. -/
def used {α : Type} (w : IW) : Res α → Nat
  | .ok _ w' => w.rem.length - w'.rem.length
  | .err _ w' => w.rem.length - w'.rem.length
  | .panic => w.rem.length
  | .oof => w.rem.length

/-- A bound on the cost of a call, given what it consumed. -/
def CostOk (A Q Z S : Nat) (u cost : Nat) : Prop := (u = 0 → cost ≤ Z) ∧ (1 ≤ u → cost + Q ≤ A * u + S)

theorem used_map {α β : Type} (w : IW) (f : α → β) (r : Res α) : used w (r.map f) = used w r := by
  cases r <;> rfl

theorem seqCost_bound {α : Type} {f : α → IW → Res Tree} {g : α → IW → Nat} {A Q Z : Nat} : ∀ {l : List α} {w : IW},
    (∀ x ∈ l, ∀ w w' t, f x w = .ok t w' → Reach w t.text w') →
    (∀ x ∈ l, ∀ w w' e, f x w = .err e w' → (∃ p, Reach w p w') ∧ e.At w') →
    (∀ x ∈ l, ∀ w, CostOk A Q Z Q (used w (f x w)) (g x w)) →
    seqCost f g l w ≤ A * used w (seqTake f l w) + l.length * Z
  | [], w, _, _, _ => by simp [seqCost]
  | x :: l, w, hr, he, hf => by
    have h1 := hf x (by simp) w
    have h2 : g x w ≤ A * used w (f x w) + Z := by
      rcases Nat.eq_zero_or_pos (used w (f x w)) with h | h
      · have := h1.1 h; omega
      · have := h1.2 h; omega
    simp only [seqCost, seqTake, List.length_cons, Nat.succ_mul]
    cases hx : f x w with
    | oof => rw [hx] at h2; simp only [Res.bind, used] at h2 ⊢; omega
    | panic => rw [hx] at h2; simp only [Res.bind, used] at h2 ⊢; omega
    | err e w' => rw [hx] at h2; simp only [Res.bind, used] at h2 ⊢; omega
    | ok t w1 =>
      have h3 := (hr x (by simp) w w1 t hx).length
      have h4 := seqCost_bound (l := l) (w := w1) (fun y hy => hr y (by simp [hy])) (fun y hy => he y (by simp [hy]))
        (fun y hy => hf y (by simp [hy]))
      have h5 : used w (f x w) + used w1 (seqTake f l w1) =
          used w ((seqTake f l w1).bind fun ts w => .ok (t :: ts) w) := by
        rw [hx]
        cases hs : seqTake f l w1 with
        | oof => simp only [Res.bind, used]; omega
        | panic => simp only [Res.bind, used]; omega
        | err e w2 =>
          obtain ⟨⟨p, h6⟩, _⟩ := seqTake_err (fun y hy => hr y (by simp [hy])) (fun y hy => he y (by simp [hy])) hs
          have := h6.length
          simp only [Res.bind, used]; omega
        | ok ts w2 =>
          have h6 := (seqTake_sound (P := fun _ _ => True)
            (fun y hy w w' t e => ⟨trivial, hr y (by simp [hy]) w w' t e⟩) hs).2
          have := h6.length
          simp only [Res.bind, used]; omega
      simp only [Res.bind] at h5 ⊢
      rw [← h5, Nat.mul_add]
      omega

theorem consumeStr_used {s : List Char} {w : IW} (hp : consumeStr s w = .panic) : 1 ≤ w.rem.length := by
  rw [consumeStr] at hp
  rcases consumeGo_spec s 0 s w with ⟨w', h, _⟩ | ⟨m, w', _, h2, h3, _, _, _, _, h⟩
  · rw [h] at hp; cases hp
  · rcases h with ⟨_, h⟩ | ⟨_, h4, ⟨_, _, h⟩ | ⟨h1, h⟩⟩
    · rw [h] at hp; cases hp
    · rw [h] at hp; cases hp
    · have := (List.getElem?_eq_some_iff.1 h4).1
      omega

theorem takeR_cost {N : Nat} : ∀ (n : Nat) (ρ : List TE) (Γ : List Ty) (k : Nat) (te : TE) (w : IW) (U Q : Nat),
    AnnEnv Γ ρ → Ann Γ k te → Fits N ρ te → U = 1 + N * ((N + 1) * (N + 1)) → Q = (N + 1) * (N + 1) * U →
    CostOk Q Q (mu N ρ k te) (mu N ρ k te * U) (used w (takeR n ρ te w)) (runCost stepR n (ρ, te) w)
  | 0, ρ, Γ, k, te, w, U, Q, hE, hA, hF, hU, hQ => by
    simp only [takeR, runCost, used, CostOk]
    refine ⟨fun _ => Nat.zero_le _, fun h => ?_⟩
    have : Q * 1 ≤ Q * w.rem.length := Nat.mul_le_mul_left _ h
    omega
  | n + 1, ρ, Γ, k, te, w, U, Q, hE, hA, hF, hU, hQ => by
    have ih := fun ρ Γ k te w hE hA hF => takeR_cost (N := N) n ρ Γ k te w U Q hE hA hF hU hQ
    have hpos : 1 ≤ mu N ρ k te := by have := te.size_pos; simp only [mu]; omega
    have hU1 : 1 ≤ U := by omega
    have hmu : mu N ρ k te ≤ mu N ρ k te * U := Nat.le_mul_of_pos_right _ hU1
    -- a call that passes its outcome on
    have pass : ∀ (m u c : Nat), m + 1 ≤ mu N ρ k te → CostOk Q Q m (m * U) u c →
        CostOk Q Q (mu N ρ k te) (mu N ρ k te * U) u (1 + c) := by
      intro m u c hm h
      have h1 : (m + 1) * U ≤ mu N ρ k te * U := Nat.mul_le_mul_right _ hm
      rw [Nat.succ_mul] at h1
      exact ⟨fun hu => by have := h.1 hu; omega, fun hu => by have := h.2 hu; omega⟩
    cases te with
    | eps nm => simp only [takeR, runCost, stepR, used, CostOk]; exact ⟨fun _ => hpos, fun h => by omega⟩
    | lit nm s =>
      simp only [takeR, runCost, stepR, used_map]
      have h1 : 1 + s.length ≤ mu N ρ k (.lit nm s) := by simp only [mu, TE.size]; omega
      refine ⟨fun _ => h1, fun h => ?_⟩
      have : Q * 1 ≤ Q * used w (consumeStr s w) := Nat.mul_le_mul_left _ h
      omega
    | cat nm ty ts =>
      cases hA with
      | cat _ _ _ _ t ts h1 h2 h3 =>
        have hsz : t.size < (TE.cat nm ty (t :: ts)).size := by simp only [TE.size, TE.sizeL]; omega
        have ht := ih ρ Γ k t w hE h1 (hF.mem (by omega))
        have hm := mu_mem (N := N) ρ k hsz
        have hmU : (mu N ρ k t + 1) * U ≤ mu N ρ k (.cat nm ty (t :: ts)) * U := Nat.mul_le_mul_right _ hm
        rw [Nat.succ_mul] at hmU
        have hrest : ∀ x ∈ ts.map (fun t => (ρ, t)), ∀ w,
            CostOk Q Q ((N + 1) * (N + 1)) Q (used w (run stepR n x w)) (runCost stepR n x w) := by
          intro x hx w
          obtain ⟨y, hy, rfl⟩ := List.mem_map.1 hx
          have hyF : Fits N ρ y := hF.mem (by
            have := TE.size_mem hy; simp only [TE.size, TE.sizeL]; omega)
          have := ih ρ Γ 0 y w hE (h3.mem y hy) hyF
          have h5 := mu_le hyF 0
          have h6 : mu N ρ 0 y * U ≤ Q := by rw [hQ]; exact Nat.mul_le_mul_right _ (by omega)
          rw [← takeR_eq_run]
          exact ⟨fun h => by have := this.1 h; omega, fun h => by have := this.2 h; omega⟩
        have hlen : ts.length * ((N + 1) * (N + 1)) + 1 ≤ U := by
          have h7 := TE.length_le_sizeL ts
          have h8 := hF.here
          simp only [TE.size, TE.sizeL] at h8
          have : ts.length * ((N + 1) * (N + 1)) ≤ N * ((N + 1) * (N + 1)) := Nat.mul_le_mul_right _ (by omega)
          omega
        have hseq := fun w1 => seqCost_bound (f := run stepR n) (g := runCost stepR n) (A := Q) (Q := Q) (Z := (N + 1) * (N + 1)) (w := w1)
          (l := ts.map (fun t => (ρ, t))) (fun x _ => run_text n x) (fun x _ => run_err n x) hrest
        rw [takeR_eq_run] at ht ⊢
        simp only [run, runCost, stepR, used_map, List.map_cons, seqTake, seqCost]
        cases hx : run stepR n (ρ, t) w with
        | oof => rw [hx] at ht; exact pass _ _ _ hm ht
        | panic => rw [hx] at ht; exact pass _ _ _ hm ht
        | err e w' => rw [hx] at ht; exact pass _ _ _ hm ht
        | ok u w1 =>
          have hc := takeR_consumes (n := n) hE h1 h2 (by rw [takeR_eq_run]; exact hx)
          rw [hx] at ht
          have hu : 1 ≤ used w (Res.ok u w1) := by simp only [used]; omega
          have ht := ht.2 hu
          have hseq := hseq w1
          have h5 : used w (Res.ok u w1) + used w1 (seqTake (run stepR n) (ts.map (fun t => (ρ, t))) w1) =
              used w ((seqTake (run stepR n) (ts.map (fun t => (ρ, t))) w1).bind fun ts w => .ok (u :: ts) w) := by
            cases hs : seqTake (run stepR n) (ts.map (fun t => (ρ, t))) w1 with
            | oof => simp only [Res.bind, used]; omega
            | panic => simp only [Res.bind, used]; omega
            | err e w2 =>
              obtain ⟨⟨p, h6⟩, _⟩ := seqTake_err (fun y _ => run_text n y) (fun y _ => run_err n y) hs
              have := h6.length
              simp only [Res.bind, used]; omega
            | ok ts w2 =>
              have h6 := (seqTake_sound (P := fun _ _ => True)
                (fun y _ w w' t e => ⟨trivial, run_text n y w w' t e⟩) hs).2
              have := h6.length
              simp only [Res.bind, used]; omega
          dsimp only [Res.bind] at h5 ⊢
          rw [← h5]
          refine ⟨fun h => by omega, fun _ => ?_⟩
          rw [Nat.mul_add]
          simp only [List.length_map] at hseq
          omega
    | alt nm ty ts =>
      obtain ⟨i1, _⟩ := hA.alt_inv
      simp only [takeR, altTake, runCost, stepR]
      cases altChoose w.peek.1 (ts.map TE.ty) with
      | none =>
        simp only [used, IW.peek_rem]
        exact ⟨fun _ => hpos, fun h => by omega⟩
      | some j =>
        simp only [List.getElem?_map]
        cases hj : ts[j]? with
        | none =>
          simp only [Option.map_none, used]
          refine ⟨fun _ => hpos, fun h => ?_⟩
          have : Q * 1 ≤ Q * w.rem.length := Nat.mul_le_mul_left _ h
          omega
        | some t =>
          have ht := List.mem_of_getElem? hj
          have hsz : t.size < (TE.alt nm ty ts).size := by
            have := TE.size_mem ht; simp only [TE.size]; omega
          have h := ih ρ Γ k t w.peek.2 hE (i1 t ht) (hF.mem (by omega))
          have hu : used w.peek.2 (takeR n ρ t w.peek.2) = used w (takeR n ρ t w.peek.2) := by
            cases takeR n ρ t w.peek.2 <;> simp [used]
          rw [hu] at h
          simp only [Option.map_some, used_map]
          exact pass _ _ _ (mu_mem ρ k hsz) h
    | fix nm b =>
      cases hA with
      | fix _ _ _ _ hb =>
        simp only [takeR, runCost, stepR]
        exact pass _ _ _ (by rw [mu_fix]; exact Nat.le_refl _)
          (ih (b :: ρ) (b.ty :: Γ) (k + 1) b w (.cons b k hE hb) hb hF.fix)
    | var nm i ty =>
      cases hA with
      | var _ _ _ _ _ h1 h2 =>
        obtain ⟨b, ρ', Γ', k', h3, _, h4, h5⟩ := hE.get h1
        simp only [takeR, runCost, stepR, h3, used_map]
        exact pass _ _ _ (mu_jump hF h3 h2 k' nm ty)
          (ih ρ' Γ' k' (.fix none b) w h4 (.fix _ _ none b h5) (hF.jump h3))

end Chomp
