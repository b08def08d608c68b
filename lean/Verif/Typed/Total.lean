import Verif.Typed.Lemmas

/-!
# Type inference terminates
-/

namespace Chomp

mutual
/-- The literals of an expression. -/
def Core.lits : Core → List (List Char)
  | .eps => []
  | .lit s => [s]
  | .cat l => Core.litsL l
  | .alt l => Core.litsL l
  | .fix b => b.lits
  | .var _ => []
  | .call o a => o.lits ++ Core.litsL a
  | .lam _ b => b.lits
  | .letE b c => b.lits ++ c.lits
def Core.litsL : List Core → List (List Char)
  | [] => []
  | e :: l => e.lits ++ Core.litsL l
end

/-- The sets of a type only contain characters of `U`. -/
def Ty.within (U : CharSet) (t : Ty) : Prop := t.first ⊆ U ∧ t.flast ⊆ U

theorem Ty.within_cat {U : CharSet} {a b : Ty} (ha : a.within U) (hb : b.within U) : (a.cat b).within U := by
  constructor
  · intro c hc
    simp only [Ty.cat] at hc
    split at hc
    · rcases CharSet.mem_union.1 hc with h | h
      · exact ha.1 c h
      · exact hb.1 c h
    · exact ha.1 c hc
  · intro c hc
    simp only [Ty.cat] at hc
    split at hc
    · rcases CharSet.mem_union.1 hc with h | h
      · rcases CharSet.mem_union.1 h with h | h
        · exact ha.2 c h
        · exact hb.1 c h
      · exact hb.2 c h
    · exact hb.2 c hc

theorem Ty.within_alt {U : CharSet} {a b : Ty} (ha : a.within U) (hb : b.within U) : (a.alt b).within U := by
  constructor
  · intro c hc
    rcases CharSet.mem_union.1 hc with h | h
    · exact ha.1 c h
    · exact hb.1 c h
  · intro c hc
    rcases CharSet.mem_union.1 hc with h | h
    · exact ha.2 c h
    · exact hb.2 c h

theorem Ty.within_default (U : CharSet) : Ty.default.within U :=
  ⟨fun c h => by simp [Ty.default] at h, fun c h => by simp [Ty.default] at h⟩

/-- The height of a type in the information order. -/
def Ty.rank (t : Ty) : Nat := (if t.nullable then 1 else 0) + t.first.chars.length + t.flast.chars.length

theorem Ty.rank_le {U : CharSet} {t : Ty} (h : t.within U) : t.rank ≤ 2 * U.chars.length + 1 := by
  have := CharSet.size_le h.1
  have := CharSet.size_le h.2
  simp only [Ty.rank]
  split <;> omega

theorem Ty.rank_lt {a b : Ty} (h : a.le b) (hne : a ≠ b) : a.rank < b.rank := by
  rcases Nat.lt_or_ge a.rank b.rank with h' | h'
  · exact h'
  exfalso
  apply hne
  have h1 := CharSet.size_le h.first
  have h2 := CharSet.size_le h.flast
  have h3 := h.nullable
  obtain ⟨an, af, al⟩ := a
  obtain ⟨bn, bf, bl⟩ := b
  simp only [Ty.rank] at *
  have h4 : (if an = true then 1 else 0) ≤ (if bn = true then 1 else 0) := by
    cases an <;> cases bn <;> simp_all
  have hf : af = bf := CharSet.eq_of_size h.first (by omega)
  have hl : al = bl := CharSet.eq_of_size h.flast (by omega)
  subst hf hl
  cases an <;> cases bn <;> simp_all <;> omega

/-- A value satisfying `P` or an error: neither a panic nor out of fuel. -/
def Done {ε α : Type} (r : Out ε α) (P : α → Prop) : Prop := (∃ a, r = .ok a ∧ P a) ∨ ∃ e, r = .err e

theorem Done.bind {ε α β : Type} {r : Out ε α} {f : α → Out ε β} {P : α → Prop} {Q : β → Prop} (h : Done r P)
    (hf : ∀ a, P a → Done (f a) Q) : Done (r.bind f) Q := by
  rcases h with ⟨a, rfl, ha⟩ | ⟨e, rfl⟩
  · exact hf a ha
  · exact .inr ⟨e, rfl⟩

theorem fixLoop_done {f : Ty → TCtx → Inf TE} (hf : ∀ t c, (f t c).2 = c) {c : TCtx} {U : CharSet}
    (h1 : ∀ t : Ty, t.within U → Done (f t c).1 fun te => te.ty.within U)
    (h2 : ∀ t t' te te', Ty.le t t' → (f t c).1 = .ok te → (f t' c).1 = .ok te' → te.ty.le te'.ty) :
    ∀ (n : Nat) (t : Ty), t.within U → (∀ te, (f t c).1 = .ok te → t.le te.ty) →
      2 * U.chars.length + 2 - t.rank ≤ n → Done (fixLoop f n t c).1 fun te => te.ty.within U
  | 0, t, ht, _, hn => by have := Ty.rank_le ht; omega
  | n + 1, t, ht, hle, hn => by
    simp only [fixLoop]
    rw [Inf.bind_fst (hf t c)]
    rcases h1 t ht with ⟨te, e, hw⟩ | ⟨x, e⟩
    · rw [e]
      simp only [Out.bind]
      split
      · exact .inl ⟨te, rfl, hw⟩
      · rename_i hne
        refine fixLoop_done hf h1 h2 n te.ty hw ?_ ?_
        · intro te' e'
          exact h2 _ _ _ _ (hle te e) e e'
        · have := Ty.rank_lt (hle te e) hne
          omega
    · rw [e]; exact .inr ⟨x, rfl⟩

theorem All2.refl_of {α : Type} {R : α → α → Prop} (h : ∀ a, R a a) : ∀ l : List α, All2 R l l
  | [] => .nil
  | a :: l => .cons (h a) (All2.refl_of h l)

/-- Inferred types grow with the types of the variables. -/
theorem infer_mono (n m : Nat) (nm : Option Name) (e : NE) (c c' : TCtx) (te te' : TE) (hc : c.ok) (hc' : c'.ok)
    (hg : c.guard = c'.guard) (hv : All2 Ty.le c.vars.reverse c'.vars.reverse)
    (h : (infer n nm e c).1 = .ok te) (h' : (infer m nm e c').1 = .ok te') : te.ty.le te'.ty := by
  obtain ⟨i1, i2⟩ := infer_sound m nm e c' te' hc' h'
  have := infer_complete n nm e c _ _ _ hc i2 hv (by rw [hg]; exact i1.hasTy)
  rw [h] at this
  rcases this with h | ⟨a, h, hle⟩
  · cases h
  · cases h; exact hle

mutual
theorem infer_done (n : Nat) (U : CharSet) (hn : 2 * U.chars.length + 2 ≤ n) :
    ∀ (nm : Option Name) (e : NE) (c : TCtx), c.ok → (∀ t ∈ c.vars, t.within U) →
      (∀ s ∈ e.erase.lits, ∀ x, s.head? = some x → x ∈ U) → Done (infer n nm e c).1 fun te => te.ty.within U
  | nm, .eps _, c, hc, hv, hl => .inl ⟨_, rfl, fun _ h => by simp [TE.ty, Ty.eps] at h, fun _ h => by simp [TE.ty, Ty.eps] at h⟩
  | nm, .lit _ s, c, hc, hv, hl => by
    refine .inl ⟨_, rfl, fun x h => ?_, fun _ h => by simp [TE.ty, Ty.ofStr] at h⟩
    exact hl s (by simp [NE.erase, Core.lits]) x (CharSet.mem_ofStr.1 h)
  | nm, .cat _ f rest, c, hc, hv, hl => by
    simp only [NE.erase, Core.lits, Core.litsL, List.mem_append] at hl
    simp only [infer]
    rw [Inf.bind_fst (infer_snd n _ f c)]
    refine (infer_done n U hn _ f c hc hv (fun s hs => hl s (.inl hs))).bind fun t ht => ?_
    split
    · exact .inr ⟨_, rfl⟩
    · rw [Inf.bind_fst (withUnguard_snd fun c => inferCat_snd n _ rest c), withUnguard_fst]
      exact (inferCat_done n U hn _ rest _ (TCtx.ok_unguard c) hv (fun s hs => hl s (.inr hs)) ht).bind
        fun r hr => .inl ⟨_, rfl, hr⟩
  | nm, .alt _ f rest, c, hc, hv, hl => by
    simp only [NE.erase, Core.lits, Core.litsL, List.mem_append] at hl
    simp only [infer]
    rw [Inf.bind_fst (infer_snd n _ f c)]
    refine (infer_done n U hn _ f c hc hv (fun s hs => hl s (.inl hs))).bind fun t ht => ?_
    rw [Inf.bind_fst (inferAlt_snd n _ rest c)]
    exact (inferAlt_done n U hn _ rest _ hc hv (fun s hs => hl s (.inr hs)) ht).bind
      fun r hr => .inl ⟨_, rfl, hr⟩
  | nm, .fix _ (.lam j a b), c, hc, hv, hl => by
    simp only [NE.erase, Core.lits] at hl
    simp only [infer]
    have hsnd := fun (t : Ty) (c : TCtx) => withVar_snd (c := c) (ty := t)
      (fun c => infer_snd n (Name.mergeAll [j.name, b.info.name, nm]) b c)
    rw [Inf.bind_fst (fixLoop_snd hsnd _ _ _)]
    refine (fixLoop_done (U := U) hsnd ?_ ?_ n _ (Ty.within_default U) (fun te _ => Ty.default_le _) ?_).bind
      fun t ht => .inl ⟨_, rfl, ht⟩
    · intro t ht
      rw [withVar_fst]
      refine infer_done n U hn _ b _ (TCtx.ok_push _ hc) ?_ hl
      intro t' ht'
      rcases List.mem_append.1 ht' with h | h
      · exact hv t' h
      · simp at h; subst h; exact ht
    · intro t t' te te' hle h h'
      rw [withVar_fst] at h h'
      refine infer_mono n n _ b _ _ te te' (TCtx.ok_push _ hc) (TCtx.ok_push _ hc) ?_ ?_ h h'
      · rw [TCtx.guard_push _ hc, TCtx.guard_push _ hc]
      · simpa using All2.cons hle (All2.refl_of Ty.le_refl c.vars.reverse)
    · omega
  | nm, .var i k, c, hc, hv, hl => by
    simp only [infer]
    split
    · rename_i ty h
      refine .inl ⟨_, rfl, hv ty ?_⟩
      have := (TCtx.getVar_ok.1 h).1
      exact List.mem_reverse.1 (List.mem_of_getElem? this)
    · exact .inr ⟨_, rfl⟩
  | _, .call _ _ _, _, _, _, _ | _, .lam _ _ _, _, _, _, _ | _, .letE _ _ _ _, _, _, _, _
  | _, .fix _ (.eps _), _, _, _, _ | _, .fix _ (.lit _ _), _, _, _, _ | _, .fix _ (.cat _ _ _), _, _, _, _
  | _, .fix _ (.alt _ _ _), _, _, _, _ | _, .fix _ (.fix _ _), _, _, _, _ | _, .fix _ (.var _ _), _, _, _, _
  | _, .fix _ (.call _ _ _), _, _, _, _ | _, .fix _ (.letE _ _ _ _), _, _, _, _ => .inr ⟨_, rfl⟩
theorem inferCat_done (n : Nat) (U : CharSet) (hn : 2 * U.chars.length + 2 ≤ n) :
    ∀ (ty : Ty) (l : List (Nat × NE)) (c : TCtx), c.ok → (∀ t ∈ c.vars, t.within U) →
      (∀ s ∈ Core.litsL (NE.eraseP l), ∀ x, s.head? = some x → x ∈ U) → ty.within U →
      Done (inferCat n ty l c).1 fun r => r.2.within U
  | ty, [], c, hc, hv, hl, ht => .inl ⟨_, rfl, ht⟩
  | ty, (p, e) :: l, c, hc, hv, hl, ht => by
    simp only [NE.eraseP, Core.litsL, List.mem_append] at hl
    simp only [inferCat]
    rw [Inf.bind_fst (infer_snd n _ e c)]
    refine (infer_done n U hn _ e c hc hv (fun s hs => hl s (.inl hs))).bind fun t ht' => ?_
    split
    · rw [Inf.bind_fst (inferCat_snd n _ l c)]
      exact (inferCat_done n U hn _ l c hc hv (fun s hs => hl s (.inr hs)) (Ty.within_cat ht ht')).bind
        fun r hr => .inl ⟨_, rfl, hr⟩
    · exact .inr ⟨_, rfl⟩
theorem inferAlt_done (n : Nat) (U : CharSet) (hn : 2 * U.chars.length + 2 ≤ n) :
    ∀ (ty : Ty) (l : List (Nat × NE)) (c : TCtx), c.ok → (∀ t ∈ c.vars, t.within U) →
      (∀ s ∈ Core.litsL (NE.eraseP l), ∀ x, s.head? = some x → x ∈ U) → ty.within U →
      Done (inferAlt n ty l c).1 fun r => r.2.within U
  | ty, [], c, hc, hv, hl, ht => .inl ⟨_, rfl, ht⟩
  | ty, (p, e) :: l, c, hc, hv, hl, ht => by
    simp only [NE.eraseP, Core.litsL, List.mem_append] at hl
    simp only [inferAlt]
    rw [Inf.bind_fst (infer_snd n _ e c)]
    refine (infer_done n U hn _ e c hc hv (fun s hs => hl s (.inl hs))).bind fun t ht' => ?_
    split
    · exact .inr ⟨_, rfl⟩
    split
    · rw [Inf.bind_fst (inferAlt_snd n _ l c)]
      exact (inferAlt_done n U hn _ l c hc hv (fun s hs => hl s (.inr hs)) (Ty.within_alt ht ht')).bind
        fun r hr => .inl ⟨_, rfl, hr⟩
    · exact .inr ⟨_, rfl⟩
end

/-! ## Fuel does not matter -/

theorem Inf.bind_fuel {α β : Type} {x y : Inf α} {f g : α → TCtx → Inf β} (hx : x.1 ≠ .oof → y = x)
    (hf : ∀ a c, (f a c).1 ≠ .oof → g a c = f a c) (h : (x.bind f).1 ≠ .oof) : y.bind g = x.bind f := by
  have hx1 : x.1 ≠ .oof := by
    intro he; apply h
    obtain ⟨r, c⟩ := x
    simp only at he; subst he; rfl
  rw [hx hx1]
  obtain ⟨r, c⟩ := x
  cases r with
  | ok a => exact hf a c h
  | err e => rfl
  | panic => rfl
  | oof => rfl

theorem withUnguard_fuel {α : Type} {c : TCtx} {f g : TCtx → Inf α} (hf : ∀ c, (f c).1 ≠ .oof → g c = f c)
    (h : (c.withUnguard f).1 ≠ .oof) : c.withUnguard g = c.withUnguard f := by
  simp only [TCtx.withUnguard] at h ⊢
  rw [hf _ h]

theorem withVar_fuel {α : Type} {c : TCtx} {t : Ty} {f g : TCtx → Inf α} (hf : ∀ c, (f c).1 ≠ .oof → g c = f c)
    (h : (c.withVar t f).1 ≠ .oof) : c.withVar t g = c.withVar t f := by
  simp only [TCtx.withVar] at h ⊢
  rw [hf _ h]

theorem fixLoop_fuel {f g : Ty → TCtx → Inf TE} (hf : ∀ t c, (f t c).1 ≠ .oof → g t c = f t c) :
    ∀ {n m : Nat} {t : Ty} {c : TCtx}, n ≤ m → (fixLoop f n t c).1 ≠ .oof → fixLoop g m t c = fixLoop f n t c
  | 0, _, _, _, _, h => absurd rfl h
  | n + 1, 0, _, _, hm, _ => by omega
  | n + 1, m + 1, t, c, hm, h => by
    simp only [fixLoop] at h ⊢
    refine Inf.bind_fuel (hf t c) (fun a c h => ?_) h
    split
    · rfl
    · rename_i hne
      rw [if_neg hne] at h
      exact fixLoop_fuel hf (by omega) h

mutual
theorem infer_fuel {n m : Nat} (hm : n ≤ m) : ∀ (nm : Option Name) (e : NE) (c : TCtx),
    (infer n nm e c).1 ≠ .oof → infer m nm e c = infer n nm e c
  | _, .eps _, _, _ => rfl
  | _, .lit _ _, _, _ => rfl
  | nm, .cat _ f rest, c, h => by
    simp only [infer] at h ⊢
    refine Inf.bind_fuel (infer_fuel hm _ f c) (fun a c h => ?_) h
    split
    · rfl
    · rename_i hne
      rw [if_neg hne] at h
      exact Inf.bind_fuel (withUnguard_fuel fun c => inferCat_fuel hm _ rest c) (fun _ _ _ => rfl) h
  | nm, .alt _ f rest, c, h => by
    simp only [infer] at h ⊢
    refine Inf.bind_fuel (infer_fuel hm _ f c) (fun a c h => ?_) h
    exact Inf.bind_fuel (inferAlt_fuel hm _ rest c) (fun _ _ _ => rfl) h
  | nm, .fix _ (.lam j _ b), c, h => by
    simp only [infer] at h ⊢
    exact Inf.bind_fuel (fixLoop_fuel (fun t c => withVar_fuel fun c => infer_fuel hm _ b c) hm) (fun _ _ _ => rfl) h
  | nm, .var i k, c, h => by simp only [infer]
  | _, .call _ _ _, _, _ | _, .lam _ _ _, _, _ | _, .letE _ _ _ _, _, _
  | _, .fix _ (.eps _), _, _ | _, .fix _ (.lit _ _), _, _ | _, .fix _ (.cat _ _ _), _, _
  | _, .fix _ (.alt _ _ _), _, _ | _, .fix _ (.fix _ _), _, _ | _, .fix _ (.var _ _), _, _
  | _, .fix _ (.call _ _ _), _, _ | _, .fix _ (.letE _ _ _ _), _, _ => rfl
theorem inferCat_fuel {n m : Nat} (hm : n ≤ m) : ∀ (ty : Ty) (l : List (Nat × NE)) (c : TCtx),
    (inferCat n ty l c).1 ≠ .oof → inferCat m ty l c = inferCat n ty l c
  | _, [], _, _ => rfl
  | ty, (p, e) :: l, c, h => by
    simp only [inferCat] at h ⊢
    refine Inf.bind_fuel (infer_fuel hm _ e c) (fun a c h => ?_) h
    split
    · rename_i hne
      rw [if_pos hne] at h
      exact Inf.bind_fuel (inferCat_fuel hm _ l c) (fun _ _ _ => rfl) h
    · rfl
theorem inferAlt_fuel {n m : Nat} (hm : n ≤ m) : ∀ (ty : Ty) (l : List (Nat × NE)) (c : TCtx),
    (inferAlt n ty l c).1 ≠ .oof → inferAlt m ty l c = inferAlt n ty l c
  | _, [], _, _ => rfl
  | ty, (p, e) :: l, c, h => by
    simp only [inferAlt] at h ⊢
    refine Inf.bind_fuel (infer_fuel hm _ e c) (fun a c h => ?_) h
    split
    · rfl
    rename_i hne
    rw [if_neg hne] at h
    split
    · rename_i hne
      rw [if_pos hne] at h
      exact Inf.bind_fuel (inferAlt_fuel hm _ l c) (fun _ _ _ => rfl) h
    · rfl
end

/-- A set containing the given characters, no larger than the list. -/
def litUniverse (ls : List (List Char)) : CharSet := ls.foldr (fun s U => (CharSet.ofStr s).union U) .empty

theorem mem_litUniverse {ls : List (List Char)} {s : List Char} {x : Char} (hs : s ∈ ls) (hx : s.head? = some x) :
    x ∈ litUniverse ls := by
  induction ls with
  | nil => simp at hs
  | cons a ls ih =>
    simp only [litUniverse, List.foldr_cons, CharSet.mem_union]
    rcases List.mem_cons.1 hs with rfl | hs
    · exact .inl (CharSet.mem_ofStr.2 hx)
    · exact .inr (ih hs)

theorem insertChar_length (c : Char) : ∀ l : List Char, (insertChar c l).length ≤ l.length + 1
  | [] => by simp [insertChar]
  | a :: l => by
    have := insertChar_length c l
    simp only [insertChar]
    split
    · simp
    · split
      · simp
      · simp; omega

theorem CharSet.size_union (a b : CharSet) : (a.union b).chars.length ≤ a.chars.length + b.chars.length := by
  obtain ⟨b, hb⟩ := b
  simp only [CharSet.union]
  clear hb
  induction b with
  | nil => simp
  | cons x b ih =>
    have := insertChar_length x (b.foldr CharSet.insert a).chars
    simp only [List.foldr_cons, CharSet.insert, List.length_cons] at this ⊢
    omega

theorem size_litUniverse (ls : List (List Char)) : (litUniverse ls).chars.length ≤ ls.length := by
  induction ls with
  | nil => simp [litUniverse, CharSet.empty]
  | cons s ls ih =>
    have h1 := CharSet.size_union (CharSet.ofStr s) (litUniverse ls)
    have h2 : (CharSet.ofStr s).chars.length ≤ 1 := by
      cases s <;> simp [CharSet.ofStr, CharSet.empty]
    simp only [litUniverse, List.foldr_cons, List.length_cons] at h1 ih ⊢
    omega

end Chomp
