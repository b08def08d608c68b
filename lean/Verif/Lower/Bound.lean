import Verif.Lower.RunLemmas

/-!
# The reference parser terminates, in linear time and depth
-/

namespace Chomp

mutual
/-- The size of a typed expression: the number of nodes and of characters in literals. -/
def TE.size : TE → Nat
  | .eps _ => 1
  | .lit _ s => 1 + s.length
  | .cat _ _ l => 1 + TE.sizeL l
  | .alt _ _ l => 1 + TE.sizeL l
  | .fix _ b => 1 + b.size
  | .var _ _ _ => 1
def TE.sizeL : List TE → Nat
  | [] => 0
  | e :: l => e.size + TE.sizeL l
end

theorem TE.size_pos (e : TE) : 1 ≤ e.size := by cases e <;> simp only [TE.size] <;> omega

theorem TE.size_mem : ∀ {l : List TE} {e : TE}, e ∈ l → e.size ≤ TE.sizeL l
  | [], _, h => by simp at h
  | x :: l, e, h => by
    simp only [TE.sizeL]
    rcases List.mem_cons.1 h with rfl | h
    · omega
    · have := TE.size_mem h; omega

theorem TE.length_le_sizeL : ∀ l : List TE, l.length ≤ TE.sizeL l
  | [] => Nat.le_refl _
  | x :: l => by
    have := TE.length_le_sizeL l
    have := x.size_pos
    simp only [TE.sizeL, List.length_cons]
    omega

/-- The expression and the bodies in the environment are subexpressions of one of size `N`. -/
structure Fits (N : Nat) (ρ : List TE) (te : TE) : Prop where
  here : ρ.length + te.size ≤ N
  env : ∀ b ρ', (b :: ρ') <:+ ρ → ρ'.length + (1 + b.size) ≤ N

theorem Fits.mem {N : Nat} {ρ : List TE} {te t : TE} (h : Fits N ρ te) (ht : t.size ≤ te.size) : Fits N ρ t :=
  ⟨by have := h.here; omega, h.env⟩

theorem Fits.fix {N : Nat} {ρ : List TE} {nm : Option Name} {b : TE} (h : Fits N ρ (.fix nm b)) : Fits N (b :: ρ) b := by
  have := h.here
  simp only [TE.size] at this
  refine ⟨by simp only [List.length_cons]; omega, ?_⟩
  intro b' ρ' hs
  rcases List.suffix_cons_iff.1 hs with he | hs
  · cases he; omega
  · exact h.env b' ρ' hs

theorem Fits.jump {N : Nat} {ρ : List TE} {te : TE} (h : Fits N ρ te) {i : Nat} {b : TE} {ρ' : List TE}
    (hd : ρ.drop i = b :: ρ') : Fits N ρ' (.fix none b) := by
  have hs : (b :: ρ') <:+ ρ := hd ▸ List.drop_suffix i ρ
  refine ⟨by simp only [TE.size]; exact h.env b ρ' hs, ?_⟩
  intro c ρ'' hc
  exact h.env c ρ'' (hc.trans ((List.suffix_cons b ρ').trans hs))

theorem Fits.root (te : TE) : Fits te.size [] te :=
  ⟨by simp, fun b ρ' h => by simp at h⟩

/-- A run that needs no more input (see below). -/
def mu (N : Nat) (ρ : List TE) (k : Nat) (te : TE) : Nat := (ρ.length - k) * (N + 1) + te.size

theorem mu_le {N : Nat} {ρ : List TE} {te : TE} (h : Fits N ρ te) (k : Nat) : mu N ρ k te + 1 ≤ (N + 1) * (N + 1) := by
  have := h.here
  have h1 : (ρ.length - k) * (N + 1) ≤ N * (N + 1) := Nat.mul_le_mul_right _ (by omega)
  have h2 : (N + 1) * (N + 1) = N * (N + 1) + (N + 1) := Nat.succ_mul _ _
  simp only [mu]
  omega

theorem mu_fix (N : Nat) (ρ : List TE) (k : Nat) (nm : Option Name) (b : TE) :
    mu N (b :: ρ) (k + 1) b + 1 = mu N ρ k (.fix nm b) := by
  simp only [mu, TE.size, List.length_cons, Nat.add_sub_add_right]
  omega

theorem mu_mem {N : Nat} (ρ : List TE) (k : Nat) {t te : TE} (h : t.size < te.size) : mu N ρ k t + 1 ≤ mu N ρ k te := by
  simp only [mu]
  omega

theorem mu_jump {N : Nat} {ρ : List TE} {te : TE} (h : Fits N ρ te) {i k : Nat} {b : TE} {ρ' : List TE}
    (hd : ρ.drop i = b :: ρ') (hk : k ≤ i) (k' : Nat) (nm : Option Name) (ty : Ty) :
    mu N ρ' k' (.fix none b) + 1 ≤ mu N ρ k (.var nm i ty) := by
  have h1 := (h.jump hd).here
  have h2 := congrArg List.length hd
  simp only [List.length_drop, List.length_cons] at h2
  have h3 : (ρ'.length - k' + 1) * (N + 1) ≤ (ρ.length - k) * (N + 1) := Nat.mul_le_mul_right _ (by omega)
  rw [Nat.succ_mul] at h3
  simp only [mu]
  simp only [TE.size] at h1 ⊢
  omega

/-! ## Depth -/

theorem seqTake_oof {α : Type} {f : α → IW → Res Tree} : ∀ {l : List α} {w : IW} {L : Nat}, w.rem.length ≤ L →
    (∀ x ∈ l, ∀ w w' t, f x w = .ok t w' → Reach w t.text w') →
    (∀ x ∈ l, ∀ w, w.rem.length ≤ L → f x w ≠ .oof) → seqTake f l w ≠ .oof
  | [], w, L, _, _, _ => by simp [seqTake]
  | x :: l, w, L, hw, hr, hf => by
    simp only [seqTake]
    have h1 := hf x (by simp) w hw
    cases hx : f x w with
    | oof => exact absurd hx h1
    | panic => simp [Res.bind]
    | err e w' => simp [Res.bind]
    | ok t w1 =>
      have h2 := (hr x (by simp) w w1 t hx).length
      have h3 := seqTake_oof (l := l) (w := w1) (L := L) (by omega) (fun y hy => hr y (by simp [hy]))
        (fun y hy => hf y (by simp [hy]))
      simp only [Res.bind]
      cases hs : seqTake f l w1 with
      | oof => exact absurd hs h3
      | panic => simp
      | err e w' => simp
      | ok ts w2 => simp

theorem Res.map_ne_oof {α β : Type} {f : α → β} {r : Res α} (h : r ≠ .oof) : r.map f ≠ .oof := by
  cases r <;> simp_all [Res.map]

theorem takeR_consumes {n : Nat} {ρ : List TE} {Γ : List Ty} {k : Nat} {te : TE} (hE : AnnEnv Γ ρ) (hA : Ann Γ k te)
    (hn : te.ty.nullable = false) {w w' : IW} {t : Tree} (h : takeR n ρ te w = .ok t w') :
    w'.rem.length + 1 ≤ w.rem.length := by
  obtain ⟨h1, h2⟩ := takeR_sound n ρ te w w' t h
  have h3 := der_desc h1 hE.envTy hA.hasTy
  have h4 := h2.length
  cases ht : t.text with
  | nil => have := h3.1 ht; simp [hn] at this
  | cons c u => rw [ht] at h4; simp at h4; omega

theorem AnnCat.mem : ∀ {Γ : List Ty} {τ υ : Ty} {ts : List TE}, AnnCat Γ τ ts υ → ∀ t ∈ ts, Ann Γ 0 t
  | _, _, _, _, .nil Γ τ, t, ht => by simp at ht
  | _, _, _, _, .cons Γ τ t' ts υ h1 h2 h3, t, ht => by
    rcases List.mem_cons.1 ht with rfl | ht
    · exact h1
    · exact h3.mem t ht

/-- The recursion depth is bounded by the given fuel. -/
theorem takeR_depth {N : Nat} : ∀ (n : Nat) (ρ : List TE) (Γ : List Ty) (k : Nat) (te : TE) (w : IW), AnnEnv Γ ρ →
    Ann Γ k te → Fits N ρ te → w.rem.length * ((N + 1) * (N + 1)) + mu N ρ k te ≤ n → takeR n ρ te w ≠ .oof
  | 0, ρ, Γ, k, te, w, hE, hA, hF, hn => by
    have := te.size_pos
    simp only [mu] at hn
    omega
  | n + 1, ρ, Γ, k, te, w, hE, hA, hF, hn => by
    have ih := takeR_depth (N := N) n
    cases te with
    | eps nm => simp [takeR]
    | lit nm s =>
      simp only [takeR]
      apply Res.map_ne_oof
      rw [consumeStr]
      rcases consumeGo_spec s 0 s w with ⟨w', h, _⟩ | ⟨m, w', _, _, _, _, _, _, _, h⟩
      · simp [h]
      · rcases h with ⟨_, h⟩ | ⟨_, _, ⟨_, _, h⟩ | ⟨_, h⟩⟩ <;> simp [h]
    | cat nm ty ts =>
      cases hA with
      | cat _ _ _ _ t ts h1 h2 h3 =>
        simp only [takeR]
        apply Res.map_ne_oof
        have hsz : t.size < (TE.cat nm ty (t :: ts)).size := by simp only [TE.size, TE.sizeL]; omega
        have ht : takeR n ρ t w ≠ .oof := ih ρ Γ k t w hE h1 (hF.mem (by omega)) (by
          have := mu_mem (N := N) ρ k hsz; omega)
        simp only [seqTake]
        cases hx : takeR n ρ t w with
        | oof => exact absurd hx ht
        | panic => simp [Res.bind]
        | err e w' => simp [Res.bind]
        | ok u w1 =>
          have hc := takeR_consumes hE h1 h2 hx
          have hs : seqTake (takeR n ρ) ts w1 ≠ .oof := by
            refine seqTake_oof (Nat.le_refl _) (fun x _ w w' t h => (takeR_sound n ρ x w w' t h).2) ?_
            intro x hx w2 hw2
            have hxF : Fits N ρ x := hF.mem (by
              have := TE.size_mem hx; simp only [TE.size, TE.sizeL]; omega)
            refine ih ρ Γ 0 x w2 hE (h3.mem x hx) hxF ?_
            have h5 := mu_le hxF 0
            have h6 : (w2.rem.length + 1) * ((N + 1) * (N + 1)) ≤ w.rem.length * ((N + 1) * (N + 1)) :=
              Nat.mul_le_mul_right _ (by omega)
            rw [Nat.succ_mul] at h6
            omega
          simp only [Res.bind]
          cases hs' : seqTake (takeR n ρ) ts w1 with
          | oof => exact absurd hs' hs
          | panic => simp
          | err e w' => simp
          | ok ts w2 => simp
    | alt nm ty ts =>
      obtain ⟨i1, _⟩ := hA.alt_inv
      simp only [takeR, altTake]
      cases altChoose w.peek.1 (ts.map TE.ty) with
      | none => simp
      | some j =>
        dsimp only
        cases hj : ts[j]? with
        | none => simp
        | some t =>
          have ht := List.mem_of_getElem? hj
          have hsz : t.size < (TE.alt nm ty ts).size := by
            have := TE.size_mem ht; simp only [TE.size]; omega
          refine Res.map_ne_oof (ih ρ Γ k t _ hE (i1 t ht) (hF.mem (by omega)) ?_)
          have := mu_mem (N := N) ρ k hsz
          simp only [IW.peek_rem]
          omega
    | fix nm b =>
      cases hA with
      | fix _ _ _ _ hb =>
        simp only [takeR]
        refine ih (b :: ρ) (b.ty :: Γ) (k + 1) b w (.cons b k hE hb) hb hF.fix ?_
        have := mu_fix N ρ k nm b
        omega
    | var nm i ty =>
      cases hA with
      | var _ _ _ _ _ h1 h2 =>
        obtain ⟨b, ρ', Γ', k', h3, _, h4, h5⟩ := hE.get h1
        simp only [takeR, h3]
        refine Res.map_ne_oof (ih ρ' Γ' k' (.fix none b) w h4 (.fix _ _ none b h5) (hF.jump h3) ?_)
        have := mu_jump hF h3 h2 k' nm ty
        omega

/-! ## Panics -/

/-- The characters of a literal before the last take one byte each. -/
def AsciiButLast (s : List Char) : Prop := ∀ c ∈ s.dropLast, c.utf8Size = 1

mutual
/-- The literals of a typed expression. -/
def TE.lits : TE → List (List Char)
  | .eps _ => []
  | .lit _ s => [s]
  | .cat _ _ l => TE.litsL l
  | .alt _ _ l => TE.litsL l
  | .fix _ b => b.lits
  | .var _ _ _ => []
def TE.litsL : List TE → List (List Char)
  | [] => []
  | e :: l => e.lits ++ TE.litsL l
end

theorem TE.lits_mem : ∀ {l : List TE} {e : TE} {s : List Char}, e ∈ l → s ∈ e.lits → s ∈ TE.litsL l
  | [], _, _, h, _ => by simp at h
  | x :: l, e, s, h, hs => by
    simp only [TE.litsL, List.mem_append]
    rcases List.mem_cons.1 h with rfl | h
    · exact .inl hs
    · exact .inr (TE.lits_mem h hs)

theorem sliceTo_asciiButLast : ∀ (s : List Char), AsciiButLast s → ∀ n, n < s.length → sliceTo s n ≠ none
  | [], _, n, h => by simp at h
  | c :: cs, hs, 0, _ => by simp [sliceTo]
  | [c], hs, n + 1, h => by simp at h
  | c :: d :: cs, hs, n + 1, h => by
    have hc : c.utf8Size = 1 := hs c (by simp)
    have ih := sliceTo_asciiButLast (d :: cs) (fun x hx => hs x (by simp [hx])) n (by simpa using h)
    simp only [sliceTo, hc]
    rw [if_pos (by omega)]
    simpa using ih

theorem consumeStr_no_panic {s : List Char} (hs : AsciiButLast s) (w : IW) : consumeStr s w ≠ .panic := by
  rw [consumeStr]
  rcases consumeGo_spec s 0 s w with ⟨w', h, _⟩ | ⟨m, w', _, h2, _, _, _, _, _, h⟩
  · simp [h]
  · rcases h with ⟨_, h⟩ | ⟨_, _, ⟨_, _, h⟩ | ⟨h1, h⟩⟩
    · simp [h]
    · simp [h]
    · exact absurd h1 (sliceTo_asciiButLast s hs _ (by omega))

theorem Res.map_ne_panic {α β : Type} {f : α → β} {r : Res α} (h : r ≠ .panic) : r.map f ≠ .panic := by
  cases r <;> simp_all [Res.map]

theorem seqTake_panic {α : Type} {f : α → IW → Res Tree} : ∀ {l : List α} {w : IW},
    (∀ x ∈ l, ∀ w, f x w ≠ .panic) → seqTake f l w ≠ .panic
  | [], w, _ => by simp [seqTake]
  | x :: l, w, hf => by
    simp only [seqTake]
    have h1 := hf x (by simp) w
    cases hx : f x w with
    | panic => exact absurd hx h1
    | oof => simp [Res.bind]
    | err e w' => simp [Res.bind]
    | ok t w1 =>
      have h3 := seqTake_panic (l := l) (w := w1) (fun y hy => hf y (by simp [hy]))
      simp only [Res.bind]
      cases hs : seqTake f l w1 with
      | panic => exact absurd hs h3
      | oof => simp
      | err e w' => simp
      | ok ts w2 => simp

theorem findIdx_bound {α : Type} {p : α → Bool} : ∀ {l : List α} {k : Nat}, findIdx p l = some k → k < l.length
  | [], k, h => by simp [findIdx] at h
  | x :: l, k, h => by
    simp only [findIdx] at h
    split at h
    · cases h; simp
    · cases hj : findIdx p l with
      | none => rw [hj] at h; cases h
      | some j =>
        rw [hj] at h
        have := findIdx_bound hj
        cases h
        simpa using this

theorem altChoose_lt {p : Option Char} {tys : List Ty} {k : Nat} (h : altChoose p tys = some k) : k < tys.length := by
  simp only [altChoose] at h
  split at h
  · rename_i j hj
    cases h
    cases p with
    | none => cases hj
    | some c => exact findIdx_bound hj
  · exact findIdx_bound h

theorem takeR_no_panic {N : List (List Char)} (hN : ∀ s ∈ N, AsciiButLast s) : ∀ (n : Nat) (ρ : List TE) (Γ : List Ty) (k : Nat) (te : TE) (w : IW), AnnEnv Γ ρ →
    Ann Γ k te → (∀ b ∈ ρ, ∀ s ∈ b.lits, s ∈ N) → (∀ s ∈ te.lits, s ∈ N) → takeR n ρ te w ≠ .panic
  | 0, ρ, Γ, k, te, w, hE, hA, hρ, ht => by simp [takeR]
  | n + 1, ρ, Γ, k, te, w, hE, hA, hρ, ht => by
    have ih := takeR_no_panic hN n
    cases te with
    | eps nm => simp [takeR]
    | lit nm s =>
      simp only [takeR]
      exact Res.map_ne_panic (consumeStr_no_panic (hN s (ht s (by simp [TE.lits]))) w)
    | cat nm ty ts =>
      cases hA with
      | cat _ _ _ _ t ts h1 h2 h3 =>
        simp only [takeR]
        refine Res.map_ne_panic (seqTake_panic ?_)
        intro x hx w
        have hl : ∀ s ∈ x.lits, s ∈ N := fun s hs => ht s (TE.lits_mem hx hs)
        rcases List.mem_cons.1 hx with rfl | hx
        · exact ih ρ Γ k x w hE h1 hρ hl
        · exact ih ρ Γ 0 x w hE (h3.mem x hx) hρ hl
    | alt nm ty ts =>
      obtain ⟨i1, _⟩ := hA.alt_inv
      simp only [takeR, altTake]
      cases hc : altChoose w.peek.1 (ts.map TE.ty) with
      | none => simp
      | some j =>
        dsimp only
        cases hj : ts[j]? with
        | none =>
          have := altChoose_lt hc
          rw [List.getElem?_eq_none_iff] at hj
          simp at this
          omega
        | some t =>
          have hm := List.mem_of_getElem? hj
          exact Res.map_ne_panic (ih ρ Γ k t _ hE (i1 t hm) hρ (fun s hs => ht s (TE.lits_mem hm hs)))
    | fix nm b =>
      cases hA with
      | fix _ _ _ _ hb =>
        simp only [takeR]
        refine ih (b :: ρ) (b.ty :: Γ) (k + 1) b w (.cons b k hE hb) hb ?_ ht
        intro b' hb'
        rcases List.mem_cons.1 hb' with rfl | hb'
        · exact ht
        · exact hρ b' hb'
    | var nm i ty =>
      cases hA with
      | var _ _ _ _ _ h1 h2 =>
        obtain ⟨b, ρ', Γ', k', h3, _, h4, h5⟩ := hE.get h1
        simp only [takeR, h3]
        have hmem : ∀ x ∈ b :: ρ', x ∈ ρ := fun x hx => List.mem_of_mem_drop (h3 ▸ hx)
        exact Res.map_ne_panic (ih ρ' Γ' k' (.fix none b) w h4 (.fix _ _ none b h5)
          (fun x hx => hρ x (hmem x (by simp [hx]))) (fun s hs => hρ b (hmem b (by simp)) s hs))

end Chomp
