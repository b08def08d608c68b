import Verif.Typed.Model
import Verif.Lower.Ref
import Verif.Ast.ReduceLemmas

/-!
# Facts about type inference
-/

namespace Chomp

theorem Inf.bind_snd {α β : Type} {x : Inf α} {f : α → TCtx → Inf β} {c : TCtx} (hx : x.2 = c)
    (hf : ∀ a, (f a c).2 = c) : (x.bind f).2 = c := by
  obtain ⟨r, c'⟩ := x
  subst hx
  cases r <;> simp [Inf.bind, hf]

theorem withUnguard_snd {α : Type} {c : TCtx} {f : TCtx → Inf α} (hf : ∀ c, (f c).2 = c) :
    (c.withUnguard f).2 = c := by
  simp [TCtx.withUnguard, hf]

theorem withVar_snd {α : Type} {c : TCtx} {ty : Ty} {f : TCtx → Inf α} (hf : ∀ c, (f c).2 = c) :
    (c.withVar ty f).2 = c := by
  simp [TCtx.withVar, hf]

theorem fixLoop_snd {f : Ty → TCtx → Inf TE} (hf : ∀ t c, (f t c).2 = c) :
    ∀ (n : Nat) (t : Ty) (c : TCtx), (fixLoop f n t c).2 = c
  | 0, _, _ => rfl
  | n + 1, t, c => by
    simp only [fixLoop]
    refine Inf.bind_snd (hf t c) fun a => ?_
    split
    · rfl
    · exact fixLoop_snd hf n _ c

mutual
theorem infer_snd (n : Nat) : ∀ (nm : Option Name) (e : NE) (c : TCtx), (infer n nm e c).2 = c
  | _, .eps _, _ => rfl
  | _, .lit _ _, _ => rfl
  | nm, .cat _ f rest, c => by
    simp only [infer]
    refine Inf.bind_snd (infer_snd n _ f c) fun a => ?_
    split
    · rfl
    · exact Inf.bind_snd (withUnguard_snd fun c => inferCat_snd n _ rest c) fun _ => rfl
  | nm, .alt _ f rest, c => by
    simp only [infer]
    exact Inf.bind_snd (infer_snd n _ f c) fun a => Inf.bind_snd (inferAlt_snd n _ rest c) fun _ => rfl
  | nm, .fix _ (.lam j _ b), c => by
    simp only [infer]
    exact Inf.bind_snd (fixLoop_snd (fun t c => withVar_snd fun c => infer_snd n _ b c) _ _ _) fun _ => rfl
  | nm, .var i k, c => by
    simp only [infer]
    split <;> rfl
  | _, .call _ _ _, _ => rfl
  | _, .lam _ _ _, _ => rfl
  | _, .letE _ _ _ _, _ => rfl
  | _, .fix _ (.eps _), _ | _, .fix _ (.lit _ _), _ | _, .fix _ (.cat _ _ _), _ | _, .fix _ (.alt _ _ _), _
  | _, .fix _ (.fix _ _), _ | _, .fix _ (.var _ _), _ | _, .fix _ (.call _ _ _), _
  | _, .fix _ (.letE _ _ _ _), _ => rfl
theorem inferCat_snd (n : Nat) : ∀ (ty : Ty) (l : List (Nat × NE)) (c : TCtx), (inferCat n ty l c).2 = c
  | _, [], _ => rfl
  | ty, (p, e) :: l, c => by
    simp only [inferCat]
    refine Inf.bind_snd (infer_snd n _ e c) fun a => ?_
    split
    · exact Inf.bind_snd (inferCat_snd n _ l c) fun _ => rfl
    · rfl
theorem inferAlt_snd (n : Nat) : ∀ (ty : Ty) (l : List (Nat × NE)) (c : TCtx), (inferAlt n ty l c).2 = c
  | _, [], _ => rfl
  | ty, (p, e) :: l, c => by
    simp only [inferAlt]
    refine Inf.bind_snd (infer_snd n _ e c) fun a => ?_
    split
    · rfl
    split
    · exact Inf.bind_snd (inferAlt_snd n _ l c) fun _ => rfl
    · rfl
end

/-! ## Inference without the shared context

Since every inference restores the context, only outcomes matter. -/

theorem Inf.bind_fst {α β : Type} {x : Inf α} {f : α → TCtx → Inf β} {c : TCtx} (hx : x.2 = c) :
    (x.bind f).1 = x.1.bind fun a => (f a c).1 := by
  obtain ⟨r, c'⟩ := x
  subst hx
  cases r <;> rfl

theorem withUnguard_fst {α : Type} {c : TCtx} {f : TCtx → Inf α} :
    (c.withUnguard f).1 = (f ⟨c.vars, c.unguard ++ [c.vars.length]⟩).1 := rfl

theorem withVar_fst {α : Type} {c : TCtx} {ty : Ty} {f : TCtx → Inf α} :
    (c.withVar ty f).1 = (f ⟨c.vars ++ [ty], c.unguard⟩).1 := rfl

/-- The number of guarded variables of a context. -/
def TCtx.guard (c : TCtx) : Nat := c.vars.length - c.unguard.getLast?.getD 0

/-- The guard stack only refers to existing variables. -/
def TCtx.ok (c : TCtx) : Prop := c.unguard.getLast?.getD 0 ≤ c.vars.length

theorem TCtx.ok_push {c : TCtx} (ty : Ty) (h : c.ok) : TCtx.ok ⟨c.vars ++ [ty], c.unguard⟩ := by
  simp only [TCtx.ok, List.length_append, List.length_singleton] at *; omega

theorem TCtx.ok_unguard (c : TCtx) : TCtx.ok ⟨c.vars, c.unguard ++ [c.vars.length]⟩ := by
  simp [TCtx.ok]

theorem TCtx.guard_push {c : TCtx} (ty : Ty) (h : c.ok) : TCtx.guard ⟨c.vars ++ [ty], c.unguard⟩ = c.guard + 1 := by
  simp only [TCtx.ok, TCtx.guard, List.length_append, List.length_singleton] at *; omega

theorem TCtx.guard_unguard (c : TCtx) : TCtx.guard ⟨c.vars, c.unguard ++ [c.vars.length]⟩ = 0 := by
  simp [TCtx.guard]

theorem TCtx.getVar_ok {c : TCtx} {i : Nat} {ty : Ty} :
    c.getVar i = .ok ty ↔ c.vars.reverse[i]? = some ty ∧ c.guard ≤ i := by
  simp only [TCtx.getVar, TCtx.guard]
  split
  · simp [*]
  · rename_i t h
    split
    · simp only [Except.ok.injEq, h, Option.some.injEq]
      constructor
      · rintro rfl; exact ⟨rfl, by omega⟩
      · exact fun h => h.1
    · simp only [reduceCtorEq, false_iff, not_and]
      intro _; omega

theorem fixLoop_ok {f : Ty → TCtx → Inf TE} (hf : ∀ t c, (f t c).2 = c) :
    ∀ {n : Nat} {t : Ty} {c : TCtx} {te : TE}, (fixLoop f n t c).1 = .ok te →
      ∃ t', (f t' c).1 = .ok te ∧ te.ty = t'
  | 0, _, _, _, h => by cases h
  | n + 1, t, c, te, h => by
    simp only [fixLoop] at h
    rw [Inf.bind_fst (hf t c)] at h
    obtain ⟨a, h1, h⟩ := Out.bind_ok h
    split at h
    · cases h; rename_i h2; exact ⟨t, h1, h2.symm⟩
    · exact fixLoop_ok hf h

/-! ## Soundness -/

mutual
theorem infer_sound (n : Nat) : ∀ (nm : Option Name) (e : NE) (c : TCtx) (te : TE), c.ok → (infer n nm e c).1 = .ok te →
    Ann c.vars.reverse c.guard te ∧ e.erase.gram (fun _ => true) = some te.gram
  | nm, .eps _, c, te, hc, h => by simp only [infer] at h; cases h; exact ⟨.eps _ _ _, rfl⟩
  | nm, .lit _ s, c, te, hc, h => by simp only [infer] at h; cases h; exact ⟨.lit _ _ _ s, rfl⟩
  | nm, .cat _ f rest, c, te, hc, h => by
    simp only [infer] at h
    rw [Inf.bind_fst (infer_snd n _ f c)] at h
    obtain ⟨t, h1, h⟩ := Out.bind_ok h
    obtain ⟨i1, i2⟩ := infer_sound n _ f c t hc h1
    split at h
    · cases h
    · rename_i h2
      rw [Inf.bind_fst (withUnguard_snd fun c => inferCat_snd n _ rest c), withUnguard_fst] at h
      obtain ⟨⟨ts, ty⟩, h3, h⟩ := Out.bind_ok h
      cases h
      obtain ⟨i3, i4⟩ := inferCat_sound n _ rest _ ts ty (TCtx.ok_unguard c) (TCtx.guard_unguard c) h3
      refine ⟨.cat _ _ _ _ t ts i1 (by simpa using h2) i3, ?_⟩
      simp only [NE.erase, Core.gram, Core.gramL, i2, i4, TE.gram, TE.gramL, Option.bind_some, Option.map_some]
  | nm, .alt _ f rest, c, te, hc, h => by
    simp only [infer] at h
    rw [Inf.bind_fst (infer_snd n _ f c)] at h
    obtain ⟨t, h1, h⟩ := Out.bind_ok h
    obtain ⟨i1, i2⟩ := infer_sound n _ f c t hc h1
    rw [Inf.bind_fst (inferAlt_snd n _ rest c)] at h
    obtain ⟨⟨ts, ty⟩, h3, h⟩ := Out.bind_ok h
    cases h
    obtain ⟨i3, i4⟩ := inferAlt_sound n _ rest _ ts ty hc h3
    refine ⟨.alt _ _ _ _ t ts i1 i3, ?_⟩
    simp only [NE.erase, Core.gram, Core.gramL, i2, i4, TE.gram, TE.gramL, Option.bind_some, Option.map_some]
  | nm, .fix _ (.lam j _ b), c, te, hc, h => by
    simp only [infer] at h
    rw [Inf.bind_fst (fixLoop_snd (fun t c => withVar_snd fun c => infer_snd n _ b c) _ _ _)] at h
    obtain ⟨t, h1, h⟩ := Out.bind_ok h
    cases h
    obtain ⟨t', h2, rfl⟩ := fixLoop_ok (fun t c => withVar_snd fun c => infer_snd n _ b c) h1
    rw [withVar_fst] at h2
    obtain ⟨i1, i2⟩ := infer_sound n _ b _ t (TCtx.ok_push _ hc) h2
    rw [TCtx.guard_push _ hc] at i1
    simp only [List.reverse_append, List.reverse_cons, List.reverse_nil, List.nil_append, List.singleton_append] at i1
    refine ⟨.fix _ _ _ t i1, ?_⟩
    simp [NE.erase, Core.gram, i2, TE.gram]
  | nm, .var i k, c, te, hc, h => by
    simp only [infer] at h
    split at h
    · rename_i ty h1
      cases h
      obtain ⟨h2, h3⟩ := TCtx.getVar_ok.1 h1
      exact ⟨.var _ _ _ _ _ h2 h3, rfl⟩
    · cases h
  | _, .call _ _ _, _, _, _, h | _, .lam _ _ _, _, _, _, h | _, .letE _ _ _ _, _, _, _, h
  | _, .fix _ (.eps _), _, _, _, h | _, .fix _ (.lit _ _), _, _, _, h | _, .fix _ (.cat _ _ _), _, _, _, h
  | _, .fix _ (.alt _ _ _), _, _, _, h | _, .fix _ (.fix _ _), _, _, _, h | _, .fix _ (.var _ _), _, _, _, h
  | _, .fix _ (.call _ _ _), _, _, _, h | _, .fix _ (.letE _ _ _ _), _, _, _, h => by
    simp only [infer] at h; cases h
theorem inferCat_sound (n : Nat) : ∀ (ty : Ty) (l : List (Nat × NE)) (c : TCtx) (ts : List TE) (υ : Ty), c.ok →
    c.guard = 0 → (inferCat n ty l c).1 = .ok (ts, υ) →
    AnnCat c.vars.reverse ty ts υ ∧ Core.gramL (fun _ => true) (NE.eraseP l) = some (TE.gramL ts)
  | ty, [], c, ts, υ, hc, hg, h => by
    simp only [inferCat] at h; cases h
    exact ⟨.nil _ _, rfl⟩
  | ty, (p, e) :: l, c, ts, υ, hc, hg, h => by
    simp only [inferCat] at h
    rw [Inf.bind_fst (infer_snd n _ e c)] at h
    obtain ⟨t, h1, h⟩ := Out.bind_ok h
    obtain ⟨i1, i2⟩ := infer_sound n _ e c t hc h1
    rw [hg] at i1
    split at h
    · rename_i h2
      rw [Inf.bind_fst (inferCat_snd n _ l c)] at h
      obtain ⟨⟨ts', υ'⟩, h3, h⟩ := Out.bind_ok h
      cases h
      obtain ⟨i3, i4⟩ := inferCat_sound n _ l c _ _ hc hg h3
      refine ⟨.cons _ _ _ _ _ i1 (CharSet.disjoint_iff.1 h2) i3, ?_⟩
      simp only [NE.eraseP, Core.gramL, i2, i4, TE.gramL, Option.bind_some, Option.map_some]
    · cases h
theorem inferAlt_sound (n : Nat) : ∀ (ty : Ty) (l : List (Nat × NE)) (c : TCtx) (ts : List TE) (υ : Ty), c.ok →
    (inferAlt n ty l c).1 = .ok (ts, υ) →
    AnnAlt c.vars.reverse c.guard ty ts υ ∧ Core.gramL (fun _ => true) (NE.eraseP l) = some (TE.gramL ts)
  | ty, [], c, ts, υ, hc, h => by
    simp only [inferAlt] at h; cases h
    exact ⟨.nil _ _ _, rfl⟩
  | ty, (p, e) :: l, c, ts, υ, hc, h => by
    simp only [inferAlt] at h
    rw [Inf.bind_fst (infer_snd n _ e c)] at h
    obtain ⟨t, h1, h⟩ := Out.bind_ok h
    obtain ⟨i1, i2⟩ := infer_sound n _ e c t hc h1
    split at h
    · cases h
    rename_i h0
    split at h
    · rename_i h2
      rw [Inf.bind_fst (inferAlt_snd n _ l c)] at h
      obtain ⟨⟨ts', υ'⟩, h3, h⟩ := Out.bind_ok h
      cases h
      obtain ⟨i3, i4⟩ := inferAlt_sound n _ l c _ _ hc h3
      refine ⟨.cons _ _ _ _ _ _ i1 (by simpa using h0) (CharSet.disjoint_iff.1 h2) i3, ?_⟩
      simp only [NE.eraseP, Core.gramL, i2, i4, TE.gramL, Option.bind_some, Option.map_some]
    · cases h
end

/-! ## Completeness -/

/-- The information order on types. -/
structure Ty.le (a b : Ty) : Prop where
  nullable : a.nullable = true → b.nullable = true
  first : a.first ⊆ b.first
  flast : a.flast ⊆ b.flast

theorem Ty.le_refl (a : Ty) : a.le a := ⟨id, fun _ h => h, fun _ h => h⟩

theorem Ty.default_le (a : Ty) : Ty.default.le a :=
  ⟨by simp [Ty.default], fun c h => by simp [Ty.default] at h, fun c h => by simp [Ty.default] at h⟩

theorem Ty.le_antisymm {a b : Ty} (h1 : a.le b) (h2 : b.le a) : a = b := by
  obtain ⟨an, af, al⟩ := a
  obtain ⟨bn, bf, bl⟩ := b
  have := h1.nullable
  have := h2.nullable
  have hf : af = bf := CharSet.subset_antisymm h1.first h2.first
  have hl : al = bl := CharSet.subset_antisymm h1.flast h2.flast
  subst hf hl
  cases an <;> cases bn <;> simp_all

theorem Ty.cat_le {a b a' b' : Ty} (h1 : a.le a') (h2 : b.le b') : (a.cat b).le (a'.cat b') := by
  obtain ⟨n1, f1, l1⟩ := h1
  obtain ⟨n2, f2, l2⟩ := h2
  refine ⟨?_, ?_, ?_⟩
  · simp only [Ty.cat, Bool.and_eq_true]
    exact fun h => ⟨n1 h.1, n2 h.2⟩
  · intro c hc
    simp only [Ty.cat] at hc ⊢
    cases hb : a.nullable <;> cases hb' : a'.nullable <;> simp only [hb, hb', Bool.false_eq_true, if_true, if_false, CharSet.mem_union] at hc ⊢
    · exact f1 c hc
    · exact .inl (f1 c hc)
    · simp [n1 hb] at hb'
    · exact hc.imp (f1 c) (f2 c)
  · intro c hc
    simp only [Ty.cat] at hc ⊢
    cases hb : b.nullable <;> cases hb' : b'.nullable <;> simp only [hb, hb', Bool.false_eq_true, if_true, if_false, CharSet.mem_union] at hc ⊢
    · exact l2 c hc
    · exact .inr (l2 c hc)
    · simp [n2 hb] at hb'
    · exact hc.imp (Or.imp (l1 c) (f2 c)) (l2 c)

theorem Ty.alt_le {a b a' b' : Ty} (h1 : a.le a') (h2 : b.le b') : (a.alt b).le (a'.alt b') := by
  obtain ⟨n1, f1, l1⟩ := h1
  obtain ⟨n2, f2, l2⟩ := h2
  refine ⟨?_, ?_, ?_⟩
  · simp only [Ty.alt, Bool.or_eq_true]
    exact Or.imp n1 n2
  · intro c hc
    simp only [Ty.alt, CharSet.mem_union] at hc ⊢
    exact hc.imp (f1 c) (f2 c)
  · intro c hc
    simp only [Ty.alt, CharSet.mem_union] at hc ⊢
    exact hc.imp (l1 c) (l2 c)

/-- Either out of fuel or a value satisfying `P`. -/
def OkOr {ε α : Type} (r : Out ε α) (P : α → Prop) : Prop := r = .oof ∨ ∃ a, r = .ok a ∧ P a

theorem OkOr.bind {ε α β : Type} {r : Out ε α} {f : α → Out ε β} {P : α → Prop} {Q : β → Prop} (h : OkOr r P)
    (hf : ∀ a, P a → OkOr (f a) Q) : OkOr (r.bind f) Q := by
  rcases h with rfl | ⟨a, rfl, ha⟩
  · exact .inl rfl
  · exact hf a ha

theorem fixLoop_okOr {f : Ty → TCtx → Inf TE} (hf : ∀ t c, (f t c).2 = c) {c : TCtx} {τ : Ty}
    (h : ∀ t : Ty, t.le τ → OkOr (f t c).1 fun te => te.ty.le τ) :
    ∀ (n : Nat) (t : Ty), t.le τ → OkOr (fixLoop f n t c).1 fun te => te.ty.le τ
  | 0, _, _ => .inl rfl
  | n + 1, t, ht => by
    simp only [fixLoop]
    rw [Inf.bind_fst (hf t c)]
    refine (h t ht).bind fun te hte => ?_
    split
    · exact .inr ⟨te, rfl, hte⟩
    · exact fixLoop_okOr hf h n _ hte

theorem gram_fix_eq {u : Nat → Bool} {b : Core} {g : Gram} (h : Core.gram u (.fix b) = some g) :
    ∃ n b' g', b = .lam n b' ∧ u n = true ∧ b'.gram u = some g' ∧ g = .fix g' := by
  cases b <;> simp only [Core.gram] at h <;> try cases h
  rename_i n b'
  split at h
  · rw [Option.map_eq_some_iff] at h
    obtain ⟨g', h1, rfl⟩ := h
    exact ⟨n, b', g', rfl, by assumption, h1, rfl⟩
  · cases h

mutual
theorem infer_complete (n : Nat) : ∀ (nm : Option Name) (e : NE) (c : TCtx) (Γ : List Ty) (g : Gram) (τ : Ty), c.ok →
    e.erase.gram (fun _ => true) = some g → All2 Ty.le c.vars.reverse Γ → HasTy Γ c.guard g τ →
    OkOr (infer n nm e c).1 fun te => te.ty.le τ
  | nm, .eps _, c, Γ, g, τ, hc, hg, hΓ, hT => by
    simp only [NE.erase, Core.gram] at hg
    cases hg; cases hT
    exact .inr ⟨_, rfl, Ty.le_refl _⟩
  | nm, .lit _ s, c, Γ, g, τ, hc, hg, hΓ, hT => by
    simp only [NE.erase, Core.gram] at hg
    cases hg; cases hT
    exact .inr ⟨_, rfl, Ty.le_refl _⟩
  | nm, .cat _ f rest, c, Γ, g, τ, hc, hg, hΓ, hT => by
    simp only [NE.erase, Core.gram, Core.gramL] at hg
    rw [Option.map_eq_some_iff] at hg
    obtain ⟨gs, hg, rfl⟩ := hg
    rw [Option.bind_eq_some_iff] at hg
    obtain ⟨g, hg1, hg⟩ := hg
    rw [Option.map_eq_some_iff] at hg
    obtain ⟨gs, hg2, rfl⟩ := hg
    cases hT with
    | cat _ _ _ _ σ _ h1 h2 h3 =>
      simp only [infer]
      rw [Inf.bind_fst (infer_snd n _ f c)]
      refine (infer_complete n _ f c Γ g σ hc hg1 hΓ h1).bind fun t ht => ?_
      rw [if_neg (fun h => by simp [ht.nullable h] at h2)]
      rw [Inf.bind_fst (withUnguard_snd fun c => inferCat_snd n _ rest c), withUnguard_fst]
      exact (inferCat_complete n _ rest _ Γ gs σ τ (TCtx.ok_unguard c) (TCtx.guard_unguard c) hg2 hΓ ht h3).bind
        fun r hr => .inr ⟨_, rfl, hr⟩
  | nm, .alt _ f rest, c, Γ, g, τ, hc, hg, hΓ, hT => by
    simp only [NE.erase, Core.gram, Core.gramL] at hg
    rw [Option.map_eq_some_iff] at hg
    obtain ⟨gs, hg, rfl⟩ := hg
    rw [Option.bind_eq_some_iff] at hg
    obtain ⟨g, hg1, hg⟩ := hg
    rw [Option.map_eq_some_iff] at hg
    obtain ⟨gs, hg2, rfl⟩ := hg
    cases hT with
    | alt _ _ _ _ σ _ h1 h2 =>
      simp only [infer]
      rw [Inf.bind_fst (infer_snd n _ f c)]
      refine (infer_complete n _ f c Γ g σ hc hg1 hΓ h1).bind fun t ht => ?_
      rw [Inf.bind_fst (inferAlt_snd n _ rest c)]
      exact (inferAlt_complete n _ rest _ Γ gs σ τ hc hg2 hΓ ht h2).bind fun r hr => .inr ⟨_, rfl, hr⟩
  | nm, .fix _ (.lam j a b), c, Γ, g, τ, hc, hg, hΓ, hT => by
    simp only [NE.erase] at hg
    obtain ⟨_, _, g', heq, _, hg', rfl⟩ := gram_fix_eq hg
    cases heq
    cases hT with
    | fix _ _ _ _ hT =>
      simp only [infer]
      rw [Inf.bind_fst (fixLoop_snd (fun t c => withVar_snd fun c => infer_snd n _ b c) _ _ _)]
      refine (fixLoop_okOr (fun t c => withVar_snd fun c => infer_snd n _ b c) (τ := τ) ?_ n _
        (Ty.default_le τ)).bind fun t ht => .inr ⟨_, rfl, ht⟩
      intro t ht
      rw [withVar_fst]
      refine infer_complete n _ b _ (τ :: Γ) g' τ (TCtx.ok_push _ hc) hg' ?_ ?_
      · simpa using All2.cons ht hΓ
      · rw [TCtx.guard_push _ hc]; exact hT
  | nm, .var i k, c, Γ, g, τ, hc, hg, hΓ, hT => by
    simp only [NE.erase, Core.gram] at hg
    cases hg
    cases hT with
    | var _ _ _ _ h1 h2 =>
      obtain ⟨ty, h3, h4⟩ : ∃ ty, c.vars.reverse[k]? = some ty ∧ ty.le τ := by
        have hl : k < c.vars.reverse.length := by
          rw [hΓ.length_eq]
          rcases Nat.lt_or_ge k Γ.length with h' | h'
          · exact h'
          · rw [List.getElem?_eq_none h'] at h1; cases h1
        obtain ⟨σ, e1, e2⟩ := hΓ.get (List.getElem?_eq_getElem hl)
        rw [h1] at e1
        cases e1
        exact ⟨_, List.getElem?_eq_getElem hl, e2⟩
      simp only [infer]
      rw [TCtx.getVar_ok.2 ⟨h3, h2⟩]
      exact .inr ⟨_, rfl, h4⟩
  | _, .call _ _ _, _, _, _, _, _, h, _, _ | _, .lam _ _ _, _, _, _, _, _, h, _, _
  | _, .letE _ _ _ _, _, _, _, _, _, h, _, _
  | _, .fix _ (.eps _), _, _, _, _, _, h, _, _ | _, .fix _ (.lit _ _), _, _, _, _, _, h, _, _
  | _, .fix _ (.cat _ _ _), _, _, _, _, _, h, _, _
  | _, .fix _ (.alt _ _ _), _, _, _, _, _, h, _, _ | _, .fix _ (.fix _ _), _, _, _, _, _, h, _, _
  | _, .fix _ (.var _ _), _, _, _, _, _, h, _, _
  | _, .fix _ (.call _ _ _), _, _, _, _, _, h, _, _ | _, .fix _ (.letE _ _ _ _), _, _, _, _, _, h, _, _ => by
    simp only [NE.erase, Core.gram] at h; cases h
theorem inferCat_complete (n : Nat) : ∀ (ty : Ty) (l : List (Nat × NE)) (c : TCtx) (Γ : List Ty) (gs : List Gram)
    (σ τ : Ty), c.ok → c.guard = 0 → Core.gramL (fun _ => true) (NE.eraseP l) = some gs →
    All2 Ty.le c.vars.reverse Γ → ty.le σ → HasTyCat Γ σ gs τ → OkOr (inferCat n ty l c).1 fun r => r.2.le τ
  | ty, [], c, Γ, gs, σ, τ, hc, hz, hg, hΓ, hσ, hT => by
    simp only [NE.eraseP, Core.gramL] at hg
    cases hg; cases hT
    exact .inr ⟨_, rfl, hσ⟩
  | ty, (p, e) :: l, c, Γ, gs, σ, τ, hc, hz, hg, hΓ, hσ, hT => by
    simp only [NE.eraseP, Core.gramL] at hg
    rw [Option.bind_eq_some_iff] at hg
    obtain ⟨g, hg1, hg⟩ := hg
    rw [Option.map_eq_some_iff] at hg
    obtain ⟨gs, hg2, rfl⟩ := hg
    cases hT with
    | cons _ _ _ _ σ' _ h1 h2 h3 =>
      simp only [inferCat]
      rw [Inf.bind_fst (infer_snd n _ e c)]
      refine (infer_complete n _ e c Γ g σ' hc hg1 hΓ (by rw [hz]; exact h1)).bind fun t ht => ?_
      rw [if_pos (CharSet.disjoint_iff.2 fun x hx hx' => h2 x (hσ.flast x hx) (ht.first x hx'))]
      rw [Inf.bind_fst (inferCat_snd n _ l c)]
      exact (inferCat_complete n _ l c Γ gs _ τ hc hz hg2 hΓ (Ty.cat_le hσ ht) h3).bind
        fun r hr => .inr ⟨_, rfl, hr⟩
theorem inferAlt_complete (n : Nat) : ∀ (ty : Ty) (l : List (Nat × NE)) (c : TCtx) (Γ : List Ty) (gs : List Gram)
    (σ τ : Ty), c.ok → Core.gramL (fun _ => true) (NE.eraseP l) = some gs →
    All2 Ty.le c.vars.reverse Γ → ty.le σ → HasTyAlt Γ c.guard σ gs τ → OkOr (inferAlt n ty l c).1 fun r => r.2.le τ
  | ty, [], c, Γ, gs, σ, τ, hc, hg, hΓ, hσ, hT => by
    simp only [NE.eraseP, Core.gramL] at hg
    cases hg; cases hT
    exact .inr ⟨_, rfl, hσ⟩
  | ty, (p, e) :: l, c, Γ, gs, σ, τ, hc, hg, hΓ, hσ, hT => by
    simp only [NE.eraseP, Core.gramL] at hg
    rw [Option.bind_eq_some_iff] at hg
    obtain ⟨g, hg1, hg⟩ := hg
    rw [Option.map_eq_some_iff] at hg
    obtain ⟨gs, hg2, rfl⟩ := hg
    cases hT with
    | cons _ _ _ _ _ σ' _ h1 h2 h3 h4 =>
      simp only [inferAlt]
      rw [Inf.bind_fst (infer_snd n _ e c)]
      refine (infer_complete n _ e c Γ g σ' hc hg1 hΓ h1).bind fun t ht => ?_
      rw [if_neg (by simpa using fun a b => h2 ⟨hσ.nullable a, ht.nullable b⟩)]
      rw [if_pos (CharSet.disjoint_iff.2 fun x hx hx' => h3 x (hσ.first x hx) (ht.first x hx'))]
      rw [Inf.bind_fst (inferAlt_snd n _ l c)]
      exact (inferAlt_complete n _ l c Γ gs _ τ hc hg2 hΓ (Ty.alt_le hσ ht) h4).bind
        fun r hr => .inr ⟨_, rfl, hr⟩
end

end Chomp
