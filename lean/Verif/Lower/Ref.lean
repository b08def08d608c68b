import Verif.Lower.Runtime
import Verif.Chewed.Lemmas
import Verif.Gram.Lemmas

/-!
# The reference parser

`takeR` runs the generated `Parse` implementations directly on a typed expression, without the table
of generated types.  It is a proof device: `Verif/Lower/Sim.lean` relates it to the generated table.
-/

namespace Chomp

mutual
/-- The grammar of a typed expression. -/
def TE.gram : TE → Gram
  | .eps _ => .eps
  | .lit _ s => .lit s
  | .cat _ _ l => .cat (TE.gramL l)
  | .alt _ _ l => .alt (TE.gramL l)
  | .fix _ b => .fix b.gram
  | .var _ i _ => .var i
def TE.gramL : List TE → List Gram
  | [] => []
  | e :: l => e.gram :: TE.gramL l
end

@[simp] theorem TE.gramL_map (l : List TE) : TE.gramL l = l.map TE.gram := by
  induction l <;> simp [TE.gramL, *]

mutual
/-- The annotations of a typed expression follow the typing rules. -/
inductive Ann : List Ty → Nat → TE → Prop
  | eps (Γ : List Ty) (k : Nat) (nm : Option Name) : Ann Γ k (.eps nm)
  | lit (Γ : List Ty) (k : Nat) (nm : Option Name) (s : List Char) : Ann Γ k (.lit nm s)
  | cat (Γ : List Ty) (k : Nat) (nm : Option Name) (ty : Ty) (t : TE) (ts : List TE) : Ann Γ k t →
      t.ty.nullable = false → AnnCat Γ t.ty ts ty → Ann Γ k (.cat nm ty (t :: ts))
  | alt (Γ : List Ty) (k : Nat) (nm : Option Name) (ty : Ty) (t : TE) (ts : List TE) : Ann Γ k t →
      AnnAlt Γ k t.ty ts ty → Ann Γ k (.alt nm ty (t :: ts))
  | fix (Γ : List Ty) (k : Nat) (nm : Option Name) (b : TE) : Ann (b.ty :: Γ) (k + 1) b → Ann Γ k (.fix nm b)
  | var (Γ : List Ty) (k : Nat) (nm : Option Name) (i : Nat) (τ : Ty) : Γ[i]? = some τ → k ≤ i →
      Ann Γ k (.var nm i τ)
inductive AnnCat : List Ty → Ty → List TE → Ty → Prop
  | nil (Γ : List Ty) (τ : Ty) : AnnCat Γ τ [] τ
  | cons (Γ : List Ty) (τ : Ty) (t : TE) (ts : List TE) (υ : Ty) : Ann Γ 0 t →
      (∀ c, c ∈ τ.flast → c ∉ t.ty.first) → AnnCat Γ (τ.cat t.ty) ts υ → AnnCat Γ τ (t :: ts) υ
inductive AnnAlt : List Ty → Nat → Ty → List TE → Ty → Prop
  | nil (Γ : List Ty) (k : Nat) (τ : Ty) : AnnAlt Γ k τ [] τ
  | cons (Γ : List Ty) (k : Nat) (τ : Ty) (t : TE) (ts : List TE) (υ : Ty) : Ann Γ k t →
      ¬ (τ.nullable = true ∧ t.ty.nullable = true) → (∀ c, c ∈ τ.first → c ∉ t.ty.first) →
      AnnAlt Γ k (τ.alt t.ty) ts υ → AnnAlt Γ k τ (t :: ts) υ
end

mutual
theorem Ann.hasTy : ∀ {Γ : List Ty} {k : Nat} {te : TE}, Ann Γ k te → HasTy Γ k te.gram te.ty
  | _, _, _, .eps Γ k _ => .eps Γ k
  | _, _, _, .lit Γ k _ s => .lit Γ k s
  | _, _, _, .cat Γ k _ ty t ts h1 h2 h3 => .cat Γ k _ _ _ _ h1.hasTy h2 h3.hasTy
  | _, _, _, .alt Γ k _ ty t ts h1 h2 => .alt Γ k _ _ _ _ h1.hasTy h2.hasTy
  | _, _, _, .fix Γ k _ b h => .fix Γ k _ _ h.hasTy
  | _, _, _, .var Γ k _ i τ h1 h2 => .var Γ k i τ h1 h2
theorem AnnCat.hasTy : ∀ {Γ : List Ty} {τ : Ty} {ts : List TE} {υ : Ty}, AnnCat Γ τ ts υ →
    HasTyCat Γ τ (TE.gramL ts) υ
  | _, _, _, _, .nil Γ τ => .nil Γ τ
  | _, _, _, _, .cons Γ τ t ts υ h1 h2 h3 => .cons Γ τ _ _ _ υ h1.hasTy h2 h3.hasTy
theorem AnnAlt.hasTy : ∀ {Γ : List Ty} {k : Nat} {τ : Ty} {ts : List TE} {υ : Ty}, AnnAlt Γ k τ ts υ →
    HasTyAlt Γ k τ (TE.gramL ts) υ
  | _, _, _, _, _, .nil Γ k τ => .nil Γ k τ
  | _, _, _, _, _, .cons Γ k τ t ts υ h1 h2 h3 h4 => .cons Γ k τ _ _ _ υ h1.hasTy h2 h3 h4.hasTy
end

/-- The branches of an annotated alternation. -/
theorem AnnAlt.inv : ∀ {Γ : List Ty} {k : Nat} {τ : Ty} {ts : List TE} {υ : Ty}, AnnAlt Γ k τ ts υ →
    (∀ t ∈ ts, Ann Γ k t) ∧ (ts.map TE.ty).Pairwise Ty.Sep ∧ (∀ t ∈ ts, τ.Sep t.ty) ∧
      (υ.nullable = true ↔ τ.nullable = true ∨ ∃ t ∈ ts, t.ty.nullable = true) ∧
      (∀ c, c ∈ υ.first ↔ c ∈ τ.first ∨ ∃ t ∈ ts, c ∈ t.ty.first) ∧
      (∀ c, c ∈ υ.flast ↔ c ∈ τ.flast ∨ ∃ t ∈ ts, c ∈ t.ty.flast)
  | _, _, _, _, _, .nil Γ k τ => by simp
  | _, _, _, _, _, .cons Γ k τ t ts υ h1 h2 h3 h4 => by
    obtain ⟨i1, i2, i3, i4, i5, i6⟩ := h4.inv
    have hs : ∀ t' ∈ ts, τ.Sep t'.ty ∧ t.ty.Sep t'.ty := by
      intro t' hm
      have := i3 t' hm
      exact ⟨⟨fun h => this.1 ⟨by simp [Ty.alt, h.1], h.2⟩, fun c hc => this.2 c (by simp [Ty.alt, hc])⟩,
        ⟨fun h => this.1 ⟨by simp [Ty.alt, h.1], h.2⟩, fun c hc => this.2 c (by simp [Ty.alt, hc])⟩⟩
    refine ⟨by simpa using ⟨h1, i1⟩, ?_, ?_, ?_, ?_, ?_⟩
    · rw [List.map_cons, List.pairwise_cons]
      refine ⟨?_, i2⟩
      intro σ hσ
      obtain ⟨t', ht', rfl⟩ := List.mem_map.1 hσ
      exact (hs t' ht').2
    · intro t' hm
      rcases List.mem_cons.1 hm with rfl | hm
      · exact ⟨h2, h3⟩
      · exact (hs t' hm).1
    · rw [i4]; simp [Ty.alt, or_assoc]
    · intro c; rw [i5]; simp [Ty.alt, or_assoc]
    · intro c; rw [i6]; simp [Ty.alt, or_assoc]

theorem Ann.alt_inv {Γ : List Ty} {k : Nat} {nm : Option Name} {ty : Ty} {ts : List TE}
    (h : Ann Γ k (.alt nm ty ts)) :
    (∀ t ∈ ts, Ann Γ k t) ∧ (ts.map TE.ty).Pairwise Ty.Sep ∧
      (ty.nullable = true ↔ ∃ t ∈ ts, t.ty.nullable = true) ∧
      (∀ c, c ∈ ty.first ↔ ∃ t ∈ ts, c ∈ t.ty.first) ∧
      (∀ c, c ∈ ty.flast ↔ ∃ t ∈ ts, c ∈ t.ty.flast) := by
  cases h with
  | alt _ _ _ _ t ts h1 h2 =>
    obtain ⟨i1, i2, i3, i4, i5, i6⟩ := h2.inv
    refine ⟨by simpa using ⟨h1, i1⟩, ?_, by simpa using i4, by simpa using i5, by simpa using i6⟩
    rw [List.map_cons, List.pairwise_cons]
    refine ⟨?_, i2⟩
    intro σ hσ
    obtain ⟨t', ht', rfl⟩ := List.mem_map.1 hσ
    exact i3 t' ht'

/-- The bodies of the enclosing fix points are annotated with the types of their variables. -/
inductive AnnEnv : List Ty → List TE → Prop
  | nil : AnnEnv [] []
  | cons {Γ : List Ty} {ρ : List TE} (b : TE) (k : Nat) : AnnEnv Γ ρ → Ann (b.ty :: Γ) (k + 1) b →
      AnnEnv (b.ty :: Γ) (b :: ρ)

theorem AnnEnv.envTy {Γ : List Ty} {ρ : List TE} (h : AnnEnv Γ ρ) : EnvTy Γ (ρ.map TE.gram) := by
  induction h with
  | nil => exact .nil
  | cons b k h hb ih => exact .cons _ _ k ih hb.hasTy

theorem AnnEnv.drop {Γ : List Ty} {ρ : List TE} (h : AnnEnv Γ ρ) : ∀ i, AnnEnv (Γ.drop i) (ρ.drop i) := by
  induction h with
  | nil => intro i; simp; exact .nil
  | cons b k h hb ih =>
    intro i
    cases i with
    | zero => exact .cons b k h hb
    | succ i => simpa using ih i

theorem AnnEnv.length_eq {Γ : List Ty} {ρ : List TE} (h : AnnEnv Γ ρ) : Γ.length = ρ.length := by
  induction h <;> simp [*]

theorem AnnEnv.get {Γ : List Ty} {ρ : List TE} (h : AnnEnv Γ ρ) {i : Nat} {τ : Ty} (hΓ : Γ[i]? = some τ) :
    ∃ b ρ' Γ' k, ρ.drop i = b :: ρ' ∧ τ = b.ty ∧ AnnEnv Γ' ρ' ∧ Ann (b.ty :: Γ') (k + 1) b := by
  have h1 := h.drop i
  cases hg : Γ.drop i with
  | nil =>
    have : i < Γ.length := by
      rcases Nat.lt_or_ge i Γ.length with h' | h'
      · exact h'
      · rw [List.getElem?_eq_none h'] at hΓ; cases hΓ
    have h2 := congrArg List.length hg
    simp at h2; omega
  | cons σ Γ' =>
    have : σ = τ := by
      have h2 : (Γ.drop i)[0]? = some σ := by rw [hg]; rfl
      rw [List.getElem?_drop, Nat.add_zero, hΓ] at h2
      cases h2; rfl
    subst this
    rw [hg] at h1
    cases hr : ρ.drop i with
    | nil => rw [hr] at h1; cases h1
    | cons b ρ' =>
      rw [hr] at h1
      cases h1 with
      | cons _ k h1 h2 => exact ⟨b, ρ', Γ', k, rfl, rfl, h1, h2⟩

/-- The reference parser. -/
def takeR : Nat → List TE → TE → IW → Res Tree
  | 0, _, _, _ => .oof
  | n + 1, ρ, te, w =>
    match te with
    | .eps _ => .ok .eps w
    | .lit _ s => (consumeStr s w).map fun _ => .lit s
    | .cat _ _ ts => (seqTake (takeR n ρ) ts w).map .cat
    | .alt _ _ ts => altTake (takeR n ρ) (ts.map TE.ty) ts w
    | .fix _ b => takeR n (b :: ρ) b w
    | .var _ i _ =>
      match ρ.drop i with
      | b :: ρ' => (takeR n ρ' (.fix none b) w).map .box
      | [] => .panic

/-- From `w`, the text `u` has been consumed and `w'` reached. -/
def Reach (w : IW) (u : List Char) (w' : IW) : Prop :=
  w.rem = u ++ w'.rem ∧ w'.pos = advPosN w.pos u.length w.rem

theorem Reach.refl (w : IW) : Reach w [] w := ⟨rfl, rfl⟩

theorem Reach.peek (w : IW) : Reach w [] w.peek.2 := ⟨by simp, by simp [advPosN]⟩

theorem Reach.trans {a b c : IW} {u v : List Char} (h1 : Reach a u b) (h2 : Reach b v c) : Reach a (u ++ v) c := by
  refine ⟨by rw [h1.1, h2.1]; simp, ?_⟩
  have : a.rem.drop u.length = b.rem := by rw [h1.1]; simp
  rw [h2.2, List.length_append, advPosN_add, this, h1.2]

theorem Res.map_ok {α β : Type} {f : α → β} {r : Res α} {b : β} {w : IW} (h : r.map f = .ok b w) :
    ∃ a, r = .ok a w ∧ f a = b := by
  cases r <;> simp only [Res.map] at h <;> cases h
  exact ⟨_, rfl, rfl⟩

theorem Res.bind_ok {α β : Type} {r : Res α} {f : α → IW → Res β} {b : β} {w : IW} (h : r.bind f = .ok b w) :
    ∃ a w', r = .ok a w' ∧ f a w' = .ok b w := by
  cases r <;> simp only [Res.bind] at h
  · exact ⟨_, _, rfl, h⟩
  all_goals cases h

theorem consumeStr_ok {s : List Char} {w w' : IW} {u : Unit} (h : consumeStr s w = .ok u w') : Reach w s w' := by
  rcases consumeGo_spec s 0 s w with ⟨w'', h1, h2, h3, h4⟩ | ⟨m, w'', h1, h2, h3, h4, h5, h6, h7, h8⟩
  · rw [consumeStr, h1] at h
    cases h
    obtain ⟨r, hr⟩ := h2
    exact ⟨by rw [h3, ← hr]; simp, h4⟩
  · rw [consumeStr] at h
    rcases h8 with ⟨_, h'⟩ | ⟨_, _, ⟨_, _, h'⟩ | ⟨_, h'⟩⟩ <;> rw [h'] at h <;> cases h

theorem consumeStr_complete {s : List Char} {w : IW} (h : s <+: w.rem) : ∃ w', consumeStr s w = .ok () w' := by
  rcases consumeGo_spec s 0 s w with ⟨w'', h1, _⟩ | ⟨m, w'', h1, _⟩
  · exact ⟨w'', h1⟩
  · exact absurd h h1

/-! ## Soundness -/

theorem seqTake_sound {α : Type} {f : α → IW → Res Tree} {P : α → Tree → Prop} :
    ∀ {l : List α} {w w' : IW} {ts : List Tree},
      (∀ x ∈ l, ∀ w w' t, f x w = .ok t w' → P x t ∧ Reach w t.text w') →
      seqTake f l w = .ok ts w' → All2 P l ts ∧ Reach w (Tree.textL ts) w'
  | [], w, w', ts, _, h => by simp only [seqTake] at h; cases h; exact ⟨.nil, .refl w⟩
  | x :: l, w, w', ts, hf, h => by
    simp only [seqTake] at h
    obtain ⟨t, w1, h1, h⟩ := Res.bind_ok h
    obtain ⟨ts', w2, h2, h⟩ := Res.bind_ok h
    cases h
    obtain ⟨h3, h4⟩ := hf x (by simp) w w1 t h1
    obtain ⟨h5, h6⟩ := seqTake_sound (fun y hy => hf y (by simp [hy])) h2
    exact ⟨.cons h3 h5, h4.trans h6⟩

theorem altTake_sound {α : Type} {f : α → IW → Res Tree} {tys : List Ty} {xs : List α} {w w' : IW} {t : Tree}
    (h : altTake f tys xs w = .ok t w') :
    ∃ k x t', altChoose w.rem.head? tys = some k ∧ xs[k]? = some x ∧ f x w.peek.2 = .ok t' w' ∧ t = .alt k t' := by
  unfold altTake at h
  rw [IW.peek_eq] at h
  dsimp only at h
  split at h
  · rename_i k hk
    split at h
    · rename_i x hx
      obtain ⟨t', h1, rfl⟩ := Res.map_ok h
      exact ⟨k, x, t', hk, hx, h1, rfl⟩
    · cases h
  · cases h

theorem derL_of_all2 {ρ : List Gram} : ∀ {l : List TE} {ts : List Tree},
    All2 (fun te t => Der ρ te.gram t) l ts → DerL ρ (TE.gramL l) ts
  | _, _, .nil => .nil ρ
  | _, _, .cons h1 h2 => .cons ρ _ _ _ _ h1 (derL_of_all2 h2)

theorem takeR_sound : ∀ (n : Nat) (ρ : List TE) (te : TE) (w w' : IW) (t : Tree),
    takeR n ρ te w = .ok t w' → Der (ρ.map TE.gram) te.gram t ∧ Reach w t.text w'
  | 0, _, _, _, _, _, h => by cases h
  | n + 1, ρ, te, w, w', t, h => by
    have ih := takeR_sound n
    cases te with
    | eps nm => simp only [takeR] at h; cases h; exact ⟨.eps _, .refl w⟩
    | lit nm s =>
      simp only [takeR] at h
      obtain ⟨u, h1, rfl⟩ := Res.map_ok h
      exact ⟨.lit _ s, consumeStr_ok h1⟩
    | cat nm ty ts =>
      simp only [takeR] at h
      obtain ⟨us, h1, rfl⟩ := Res.map_ok h
      obtain ⟨h2, h3⟩ := seqTake_sound (P := fun te t => Der (ρ.map TE.gram) te.gram t)
        (fun x _ w w' t hx => ih ρ x w w' t hx) h1
      exact ⟨.cat _ _ us (derL_of_all2 h2), h3⟩
    | alt nm ty ts =>
      simp only [takeR] at h
      obtain ⟨k, x, t', h1, h2, h3, rfl⟩ := altTake_sound h
      obtain ⟨h4, h5⟩ := ih ρ x _ w' t' h3
      refine ⟨.alt _ _ k x.gram t' (by simp [h2]) h4, ?_⟩
      have := (Reach.peek w).trans h5
      simpa [Tree.text] using this
    | fix nm b =>
      simp only [takeR] at h
      obtain ⟨h1, h2⟩ := ih (b :: ρ) b w w' t h
      exact ⟨.fix _ _ t h1, h2⟩
    | var nm i ty =>
      simp only [takeR] at h
      split at h
      · rename_i b ρ' hd
        obtain ⟨t', h1, rfl⟩ := Res.map_ok h
        obtain ⟨h2, h3⟩ := ih ρ' (.fix none b) w w' t' h1
        have h2 : Der (b.gram :: ρ'.map TE.gram) b.gram t' := by cases h2; assumption
        exact ⟨.var _ i b.gram (ρ'.map TE.gram) t' (by rw [← List.map_drop, hd]; rfl) h2, h3⟩
      · cases h

/-! ## Completeness -/

/-- The rest of the input cannot be taken for a continuation of `u`. -/
def Follow (τ : Ty) (u r : List Char) : Prop :=
  ∀ c r', r = c :: r' → (u ≠ [] → c ∉ τ.flast) ∧ (u = [] → c ∉ τ.first)

theorem findIdx_unique {α : Type} {p : α → Bool} {l : List α} {k : Nat} {a : α} (hk : l[k]? = some a)
    (ha : p a = true) (hu : ∀ j b, l[j]? = some b → p b = true → j = k) : findIdx p l = some k := by
  induction l generalizing k with
  | nil => simp at hk
  | cons x l ih =>
    simp only [findIdx]
    split
    · rename_i hx
      have := hu 0 x rfl hx
      rw [this]
    · rename_i hx
      cases k with
      | zero => simp at hk; subst hk; exact absurd ha hx
      | succ k =>
        rw [ih (k := k) (by simpa using hk)]
        · rfl
        · intro j b hj hb
          have := hu (j + 1) b (by simpa using hj) hb
          omega

theorem findIdx_eq_none {α : Type} {p : α → Bool} {l : List α} : findIdx p l = none ↔ ∀ a ∈ l, p a = false := by
  induction l with
  | nil => simp [findIdx]
  | cons x l ih =>
    simp only [findIdx]
    cases hx : p x <;> simp [ih, hx]

/-- The branch of a tree is the one the generated match chooses. -/
theorem altChoose_complete {tys : List Ty} (hsep : tys.Pairwise Ty.Sep) {k : Nat} {σ : Ty} (hk : tys[k]? = some σ)
    {u r : List Char} (hd : σ.Desc u) (hf : u = [] → ∀ c r', r = c :: r' → ∀ τ ∈ tys, c ∉ τ.first) :
    altChoose (u ++ r).head? tys = some k := by
  cases u with
  | cons c u =>
    have hc := hd.2 c u rfl
    simp only [altChoose, List.cons_append, List.head?_cons, Option.bind_some]
    rw [findIdx_unique hk (by simpa using hc)]
    intro j τ hj hcj
    have hcj : c ∈ τ.first := by simpa using hcj
    rcases Decidable.em (j = k) with h | h
    · exact h
    · exact absurd hcj ((pairwise_get (fun _ _ => Ty.Sep.symm) hsep h hj hk).symm.2 c hc)
  | nil =>
    have h1 : (([] ++ r).head?.bind fun c => findIdx (fun ty : Ty => decide (c ∈ ty.first)) tys) = none := by
      cases r with
      | nil => rfl
      | cons c r =>
        simp only [List.nil_append, List.head?_cons, Option.bind_some]
        rw [findIdx_eq_none]
        intro τ hτ
        simpa using hf rfl c r rfl τ hτ
    simp only [altChoose, h1]
    refine findIdx_unique hk (hd.1 rfl) ?_
    intro j τ hj hcj
    rcases Decidable.em (j = k) with h | h
    · exact h
    · exact absurd ⟨hcj, hd.1 rfl⟩ (pairwise_get (fun _ _ => Ty.Sep.symm) hsep h hj hk).1

/-- What follows the front of a concatenation does not continue it. -/
theorem cat_rest_follow : ∀ {Γ : List Ty} {ρ : List Gram} (_ : EnvTy Γ ρ) {ts : List TE} {us : List Tree} {τ υ : Ty},
    AnnCat Γ τ ts υ → DerL ρ (TE.gramL ts) us → ∀ {r : List Char}, (∀ c r', r = c :: r' → c ∉ υ.flast) →
    ∀ c r', Tree.textL us ++ r = c :: r' → c ∉ τ.flast
  | _, _, hE, [], us, τ, υ, hA, hd, r, hr, c, r', h => by
    cases hA; cases hd
    exact hr c r' (by simpa [Tree.textL] using h)
  | _, _, hE, t :: ts, us, τ, υ, hA, hd, r, hr, c, r', h => by
    cases hA with
    | cons _ _ _ _ _ h1 h2 h3 =>
      cases hd with
      | cons _ _ _ u us hd1 hd2 =>
        have hdesc := der_desc hd1 hE h1.hasTy
        cases hu : u.text with
        | cons d v =>
          simp only [Tree.textL, hu, List.cons_append, List.cons.injEq] at h
          rw [← h.1]
          intro hc
          exact h2 d hc (hdesc.2 d v hu)
        | nil =>
          have := cat_rest_follow hE h3 hd2 hr c r' (by simpa [Tree.textL, hu] using h)
          intro hc
          apply this
          simp [Ty.cat, hdesc.1 hu, hc]

theorem flast_cat_of {τ σ : Ty} {u : List Char} (hd : σ.Desc u) {r : List Char}
    (h : ∀ c r', r = c :: r' → c ∉ (τ.cat σ).flast) : Follow σ u r := by
  intro c r' hr
  have := h c r' hr
  constructor
  · intro _ hc
    apply this
    simp only [Ty.cat]
    split <;> simp [hc]
  · intro hu hc
    apply this
    simp [Ty.cat, hd.1 hu, hc]

theorem seqTake_complete : ∀ {Γ : List Ty} {ρ : List TE} {f : TE → IW → Res Tree} (_ : EnvTy Γ (ρ.map TE.gram))
    {ts : List TE} {us : List Tree} {τ υ : Ty},
    (∀ t ∈ ts, ∀ k w u r, Ann Γ k t → Der (ρ.map TE.gram) t.gram u → w.rem = u.text ++ r → Follow t.ty u.text r →
      f t w ≠ .oof → ∃ w', f t w = .ok u w' ∧ w'.rem = r) →
    AnnCat Γ τ ts υ → DerL (ρ.map TE.gram) (TE.gramL ts) us → ∀ {w : IW} {r : List Char},
    w.rem = Tree.textL us ++ r → (∀ c r', r = c :: r' → c ∉ υ.flast) → seqTake f ts w ≠ .oof →
    ∃ w', seqTake f ts w = .ok us w' ∧ w'.rem = r
  | _, _, _, hE, [], us, τ, υ, hf, hA, hd, w, r, hw, hr, ho => by
    cases hd
    exact ⟨w, rfl, by simpa [Tree.textL] using hw⟩
  | _, _, f, hE, t :: ts, us, τ, υ, hf, hA, hd, w, r, hw, hr, ho => by
    cases hA with
    | cons _ _ _ _ _ h1 h2 h3 =>
      cases hd with
      | cons _ _ _ u us hd1 hd2 =>
        have hdesc := der_desc hd1 hE h1.hasTy
        have hfol := flast_cat_of hdesc (cat_rest_follow hE h3 hd2 hr)
        have hw' : w.rem = u.text ++ (Tree.textL us ++ r) := by rw [hw]; simp [Tree.textL]
        have ho1 : f t w ≠ .oof := by
          intro h; apply ho; simp [seqTake, h, Res.bind]
        obtain ⟨w1, e1, e2⟩ := hf t (by simp) 0 w u _ h1 hd1 hw' hfol ho1
        have ho2 : seqTake f ts w1 ≠ .oof := by
          intro h; apply ho; simp [seqTake, e1, h, Res.bind]
        obtain ⟨w2, e3, e4⟩ := seqTake_complete hE (fun t ht => hf t (by simp [ht])) h3 hd2 e2 hr ho2
        exact ⟨w2, by simp [seqTake, e1, e3, Res.bind], e4⟩

theorem takeR_complete : ∀ (n : Nat) (ρ : List TE) (Γ : List Ty) (te : TE) (k : Nat) (w : IW) (u : Tree) (r : List Char),
    AnnEnv Γ ρ → Ann Γ k te → Der (ρ.map TE.gram) te.gram u → w.rem = u.text ++ r → Follow te.ty u.text r →
    takeR n ρ te w ≠ .oof → ∃ w', takeR n ρ te w = .ok u w' ∧ w'.rem = r
  | 0, _, _, _, _, _, _, _, _, _, _, _, _, ho => absurd rfl ho
  | n + 1, ρ, Γ, te, k, w, u, r, hE, hA, hd, hw, hfol, ho => by
    have ih := takeR_complete n
    cases te with
    | eps nm =>
      cases hd
      exact ⟨w, rfl, by simpa [Tree.text] using hw⟩
    | lit nm s =>
      cases hd
      obtain ⟨w', h1⟩ := consumeStr_complete (s := s) (w := w) ⟨r, hw.symm⟩
      refine ⟨w', by simp [takeR, h1, Res.map], ?_⟩
      have := (consumeStr_ok h1).1
      rw [hw] at this
      simpa [Tree.text] using this.symm
    | cat nm ty ts =>
      cases hd with
      | cat _ _ us hd =>
        cases hA with
        | cat _ _ _ _ t ts h1 h2 h3 =>
          cases hd with
          | cons _ _ _ u us hd1 hd2 =>
            have hdesc := der_desc hd1 hE.envTy h1.hasTy
            have hne : u.text ≠ [] := fun h => by have := hdesc.1 h; simp [h2] at this
            have hr : ∀ c r', r = c :: r' → c ∉ ty.flast := fun c r' h =>
              (hfol c r' h).1 (by simp [Tree.text, Tree.textL, hne])
            have hcr := cat_rest_follow hE.envTy h3 hd2 hr
            have hw' : w.rem = u.text ++ (Tree.textL us ++ r) := by rw [hw]; simp [Tree.text, Tree.textL]
            have ho1 : takeR n ρ t w ≠ .oof := by
              intro h; apply ho; simp [takeR, seqTake, h, Res.bind, Res.map]
            obtain ⟨w1, e1, e2⟩ := ih ρ Γ t k w u _ hE h1 hd1 hw'
              (fun c r' h => ⟨fun _ => hcr c r' h, fun h => absurd h hne⟩) ho1
            have ho2 : seqTake (takeR n ρ) ts w1 ≠ .oof := by
              intro h; apply ho; simp [takeR, seqTake, e1, h, Res.bind, Res.map]
            obtain ⟨w2, e3, e4⟩ := seqTake_complete hE.envTy
              (fun t _ k w u r hA hd hw hfol ho => ih ρ Γ t k w u r hE hA hd hw hfol ho) h3 hd2 e2 hr ho2
            exact ⟨w2, by simp [takeR, seqTake, e1, e3, Res.bind, Res.map], e4⟩
    | alt nm ty ts =>
      obtain ⟨i1, i2, i3, i4, i5⟩ := hA.alt_inv
      cases hd with
      | alt _ _ j g u hj hd =>
        simp only [TE.gramL_map, List.getElem?_map, Option.map_eq_some_iff] at hj
        obtain ⟨t, hj, rfl⟩ := hj
        have ht := List.mem_of_getElem? hj
        have hdesc := der_desc hd hE.envTy (i1 t ht).hasTy
        have hch : altChoose w.rem.head? (ts.map TE.ty) = some j := by
          rw [hw]
          refine altChoose_complete i2 (σ := t.ty) (by simp [hj]) hdesc ?_
          intro hu c r' hr τ hτ
          obtain ⟨t', ht', rfl⟩ := List.mem_map.1 hτ
          intro hc
          exact (hfol c r' hr).2 (by simpa [Tree.text] using hu) ((i4 c).2 ⟨t', ht', hc⟩)
        have heq : takeR (n + 1) ρ (.alt nm ty ts) w = (takeR n ρ t w.peek.2).map (.alt j) := by
          simp only [takeR, altTake]
          rw [IW.peek_eq]
          simp only [hch, hj]
        rw [heq] at ho ⊢
        have ho1 : takeR n ρ t w.peek.2 ≠ .oof := by
          intro h; apply ho; simp [h, Res.map]
        obtain ⟨w1, e1, e2⟩ := ih ρ Γ t k w.peek.2 u r hE (i1 t ht) hd (by simpa [Tree.text] using hw)
          (fun c r' h => ⟨fun hu hc => (hfol c r' h).1 (by simpa [Tree.text] using hu) ((i5 c).2 ⟨t, ht, hc⟩),
            fun hu hc => (hfol c r' h).2 (by simpa [Tree.text] using hu) ((i4 c).2 ⟨t, ht, hc⟩)⟩) ho1
        exact ⟨w1, by simp [e1, Res.map], e2⟩
    | fix nm b =>
      cases hd with
      | fix _ _ _ hd =>
        cases hA with
        | fix _ _ _ _ hb =>
          exact ih (b :: ρ) (b.ty :: Γ) b (k + 1) w u r (.cons b k hE hb) hb hd hw hfol ho
    | var nm i ty =>
      cases hA with
      | var _ _ _ _ _ h1 h2 =>
        obtain ⟨b, ρ', Γ', k', h3, rfl, h4, h5⟩ := hE.get h1
        cases hd with
        | var _ _ b' ρ'' u hi hd =>
          rw [← List.map_drop, h3] at hi
          simp only [List.map_cons, List.cons.injEq] at hi
          obtain ⟨rfl, rfl⟩ := hi
          have heq : takeR (n + 1) ρ (.var nm i b.ty) w = (takeR n ρ' (.fix none b) w).map .box := by
            simp only [takeR, h3]
          rw [heq] at ho ⊢
          have ho1 : takeR n ρ' (.fix none b) w ≠ .oof := by
            intro h; apply ho; simp [h, Res.map]
          obtain ⟨w1, e1, e2⟩ := ih ρ' Γ' (.fix none b) k' w u r h4 (.fix _ _ none b h5) (.fix _ _ _ hd) hw hfol ho1
          exact ⟨w1, by simp [e1, Res.map], e2⟩

end Chomp
