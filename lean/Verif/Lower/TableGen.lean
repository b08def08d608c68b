import Verif.Lower.TableTy

/-!
# Code generation keeps the invariant of `TableTy`
-/

namespace Chomp

/-- The tables have grown; the context is the same. -/
structure TStep (s : BState) (τ : List Ty) (s' : BState) (τ' : List Ty) : Prop where
  ctx : s'.context = s.context
  ext : Ext s.data s'.data
  ty : τ <+: τ'
  inv : TyInv s' τ'
  fixNew : ∀ b id, (b, id) ∈ s'.fixMap → (b, id) ∈ s.fixMap ∨ s.data.length ≤ id

theorem TStep.refl {s : BState} {τ : List Ty} (h : TyInv s τ) : TStep s τ s τ := ⟨rfl, .refl _, List.prefix_refl _, h, fun _ _ h => .inl h⟩

theorem TStep.trans {s s' s'' : BState} {τ τ' τ'' : List Ty} (h : TStep s τ s' τ') (h' : TStep s' τ' s'' τ'') : TStep s τ s'' τ'' := by
  refine ⟨h'.ctx.trans h.ctx, h.ext.trans h'.ext, h.ty.trans h'.ty, h'.inv, fun b id hm => ?_⟩
  rcases h'.fixNew b id hm with h1 | h1
  · exact h.fixNew b id h1
  · exact .inr (Nat.le_trans h.ext.len h1)

theorem TStep.of_same {s s1 s' : BState} {τ τ' : List Ty} (hs : SameTables s s1) (h : TStep s1 τ s' τ') : TStep s τ s' τ' :=
  ⟨h.ctx.trans hs.ctx, by rw [← hs.data]; exact h.ext, h.ty, h.inv, by rw [← hs.data, ← hs.fix]; exact h.fixNew⟩

/-- No complete fix point from `G` on has the first characters of `t`. -/
def NoneFrom (D : List Entry) (τ : List Ty) (G : Nat) (t : Ty) : Prop :=
  ∀ h j t', G ≤ h → nodeAt D h = .alias j → TyAt τ h t' → ¬ SameFirst t' t

/-- What is known about the id generated for an expression of type `t`, `k` of whose variables are guarded. -/
structure TRes (s : BState) (τ : List Ty) (k : Nat) (t : Ty) (id : Nat) (s' : BState) (τ' : List Ty) : Prop where
  step : TStep s τ s' τ'
  ty : TyAt τ' id t
  done : NodeDone s'.data id
  guard : ∀ i G, i < k → s.context.reverse[i]? = some G → NoneFrom s.data τ G t → ∀ f, FPath s'.data τ' id f → f < G
  empty : (∀ c, c ∉ t.first) → ∀ h j t', s.data.length ≤ h → nodeAt s'.data h = .alias j → TyAt τ' h t' → ∀ c, c ∉ t'.first

theorem TRes.of_same {s s1 s' : BState} {τ τ' : List Ty} {k : Nat} {t : Ty} {id : Nat} (hs : SameTables s s1) (h : TRes s1 τ k t id s' τ') :
    TRes s τ k t id s' τ' :=
  ⟨h.step.of_same hs, h.ty, h.done, by rw [← hs.ctx, ← hs.data]; exact h.guard, by rw [← hs.data]; exact h.empty⟩

/-- Adding a complete definition that is not a fix point. -/
theorem TyInv.push {s s' : BState} {τ : List Ty} (h : TyInv s τ) (e : Entry) (t : Ty)
    (hd : s'.data = s.data ++ [e]) (heps : s'.epsId = none) (hdone : NodeDone (s.data ++ [e]) s.data.length) (hal : ∀ j, e.node ≠ .alias j)
    (hbox : ∀ f, e.node = .box f → f ∈ s.context)
    (htyped : NodeTy (s.data ++ [e]) (τ ++ [t]) s.data.length)
    (hlit : s'.litMap = s.litMap ∨ ∃ str, s'.litMap = (str, s.data.length) :: s.litMap ∧ e.node = .lit str)
    (hcat : s'.catMap = s.catMap ∨ ∃ ids, s'.catMap = (ids, s.data.length) :: s.catMap ∧ e.node = .cat ids)
    (halt : s'.altMap = s.altMap ∨ ∃ ids tys, s'.altMap = (ids, s.data.length) :: s.altMap ∧ e.node = .alt tys ids)
    (hvar : s'.varMap = s.varMap ∨ ∃ f, s'.varMap = (f, s.data.length) :: s.varMap ∧ e.node = .box f)
    (hfix : s'.fixMap = s.fixMap) (hctx : s'.context = s.context) : TStep s τ s' (τ ++ [t]) := by
  have hext : Ext s.data (s.data ++ [e]) := .append _ _
  have hpre : τ <+: τ ++ [t] := List.prefix_append _ _
  have hnew : nodeAt (s.data ++ [e]) s.data.length = e.node := by simp [nodeAt_append]
  have hold : ∀ id n, nodeAt s.data id = n → n ≠ .bad → nodeAt (s.data ++ [e]) id = n := by
    intro id n hn hb
    rw [hext.keep id (by rw [hn]; exact hb), hn]
  have hnod : ∀ id, nodeAt (s.data ++ [e]) id ≠ .bad → id ≠ s.data.length → nodeAt s.data id = nodeAt (s.data ++ [e]) id := by
    intro id _ hid
    rw [nodeAt_append, if_neg hid]
  refine ⟨hctx, by rw [hd]; exact hext, hpre, ?_, fun b id hm => .inl (by rwa [hfix] at hm)⟩
  refine ⟨heps, by simp [h.len, hd], ?_, ?_, ?_, ?_, ?_, ?_, ?_, ?_, ?_, ?_, ?_⟩
  · intro str id hm
    rw [hd]
    rcases hlit with h1 | ⟨str', h1, h2⟩
    · rw [h1] at hm; exact hold _ _ (h.lit str id hm) (by simp)
    · rw [h1] at hm
      rcases List.mem_cons.1 hm with he | hm
      · cases he; rw [hnew, h2]
      · exact hold _ _ (h.lit str id hm) (by simp)
  · intro ids id hm
    rw [hd]
    rcases hcat with h1 | ⟨ids', h1, h2⟩
    · rw [h1] at hm; exact hold _ _ (h.cat ids id hm) (by simp)
    · rw [h1] at hm
      rcases List.mem_cons.1 hm with he | hm
      · cases he; rw [hnew, h2]
      · exact hold _ _ (h.cat ids id hm) (by simp)
  · intro ids id hm
    rw [hd]
    have old : (ids, id) ∈ s.altMap → ∃ tys, nodeAt (s.data ++ [e]) id = .alt tys ids := by
      intro hm
      obtain ⟨tys, h3⟩ := h.alt ids id hm
      exact ⟨tys, hold _ _ h3 (by simp)⟩
    rcases halt with h1 | ⟨ids', tys, h1, h2⟩
    · rw [h1] at hm; exact old hm
    · rw [h1] at hm
      rcases List.mem_cons.1 hm with he | hm
      · cases he; exact ⟨tys, by rw [hnew, h2]⟩
      · exact old hm
  · intro f id hm
    rw [hd]
    rcases hvar with h1 | ⟨f', h1, h2⟩
    · rw [h1] at hm; exact hold _ _ (h.var f id hm) (by simp)
    · rw [h1] at hm
      rcases List.mem_cons.1 hm with he | hm
      · cases he; rw [hnew, h2]
      · exact hold _ _ (h.var f id hm) (by simp)
  · intro b id hm
    rw [hfix] at hm
    obtain ⟨h1, h2⟩ := h.fix b id hm
    refine ⟨h1.mono hpre, ?_⟩
    rw [hctx, hd]
    rcases h2 with h2 | ⟨j, h2⟩
    · exact .inl h2
    · exact .inr ⟨j, hold _ _ h2 (by simp)⟩
  · intro f hf
    rw [hctx] at hf
    obtain ⟨h1, h2⟩ := h.ctx f hf
    rw [hd]
    refine ⟨by simp; omega, ?_⟩
    rw [nodeAt_append, if_neg (by omega)]
    exact h2
  · rw [hctx]; exact h.inc
  · intro id hid
    rw [hctx, hd]
    rw [hd] at hid
    simp only [List.length_append, List.length_singleton] at hid
    by_cases he : id = s.data.length
    · right; rw [he]; exact hdone
    · rcases h.done id (by omega) with h1 | h1
      · exact .inl h1
      · exact .inr (h1.mono hext)
  · intro id
    rw [hd]
    by_cases he : id = s.data.length
    · rw [he]; exact htyped
    · by_cases hb : nodeAt s.data id = .bad
      · have : nodeAt (s.data ++ [e]) id = .bad := by rw [nodeAt_append, if_neg he, hb]
        simp only [NodeTy, this]
      · exact (h.typed id).mono hext hpre hb
  · intro id j hj f hf
    rw [hd] at hj hf
    have hne : id ≠ s.data.length := by
      rintro rfl
      rw [hnew] at hj
      exact hal j hj
    rw [nodeAt_append, if_neg hne] at hj
    have hdj : NodeDone s.data j := by
      have := h.done_of (id := id) (by rw [hj]; simp)
      cases this with
      | alias _ j' h1 h2 => rw [hj] at h1; cases h1; exact h2
      | _ => simp_all
    exact h.left id j hj f (hf.back hext hpre h.len hdj)
  · intro id f hn
    rw [hd] at hn ⊢
    rw [hctx]
    by_cases he : id = s.data.length
    · rw [he, hnew] at hn
      exact .inl (hbox f hn)
    · rw [nodeAt_append, if_neg he] at hn
      rcases h.boxes id f hn with h1 | ⟨j, h1⟩
      · exact .inl h1
      · exact .inr ⟨j, hold _ _ h1 (by simp)⟩

/-- An id whose definition was just added, or one found in the tables, which is not a fix point. -/
theorem TRes.leaf {s s' : BState} {τ τ' : List Ty} {k : Nat} {t : Ty} {id : Nat} (hs : TStep s τ s' τ') (ht : TyAt τ' id t)
    (hd : NodeDone s'.data id) (hf : ∀ i G, i < k → s.context.reverse[i]? = some G → ∀ f, FPath s'.data τ' id f → f < G)
    (hn : ∀ h j, s.data.length ≤ h → nodeAt s'.data h ≠ .alias j) : TRes s τ k t id s' τ' :=
  ⟨hs, ht, hd, fun i G hi hG _ => hf i G hi hG, fun _ h j _ hh hj => absurd hj (hn h j hh)⟩

theorem nodeAt_ge {D : List Entry} {h : Nat} (hh : D.length ≤ h) : nodeAt D h = .bad := by
  simp [nodeAt, List.getElem?_eq_none hh]

theorem nodeAt_push_alias {D : List Entry} {e : Entry} (hal : ∀ j, e.node ≠ .alias j) {h j : Nat} (hh : D.length ≤ h) : nodeAt (D ++ [e]) h ≠ .alias j := by
  rw [nodeAt_append]
  split
  · exact hal j
  · rw [nodeAt_ge hh]; simp

/-- What is known about the ids generated for a list of expressions. -/
structure TResL (s : BState) (τ : List Ty) (kk : Nat → Nat) (l : List TE) (ids : List Nat) (s' : BState) (τ' : List Ty) : Prop where
  step : TStep s τ s' τ'
  ty : All2 (TyAt τ') ids (l.map TE.ty)
  done : ∀ id ∈ ids, NodeDone s'.data id
  guard : ∀ (m : Nat) (t : TE) (id : Nat), l[m]? = some t → ids[m]? = some id → (∀ m' t', m' < m → l[m']? = some t' → ∀ c, c ∉ t'.ty.first) →
    (m = 0 ∨ ∃ c, c ∈ t.ty.first) → ∀ i G, i < kk m → s.context.reverse[i]? = some G → NoneFrom s.data τ G t.ty → ∀ f, FPath s'.data τ' id f → f < G
  empty : (∀ t ∈ l, ∀ c, c ∉ t.ty.first) → ∀ h j t', s.data.length ≤ h → nodeAt s'.data h = .alias j → TyAt τ' h t' → ∀ c, c ∉ t'.first

/-- The context fits the types of the variables. -/
def CtxTy (context : List Nat) (τ : List Ty) (Γ : List Ty) : Prop :=
  context.length = Γ.length ∧ ∀ (i : Nat) (t : Ty), Γ[i]? = some t → ∃ f, context.reverse[i]? = some f ∧ TyAt τ f t

theorem CtxTy.mono {c : List Nat} {τ τ' Γ : List Ty} (h : CtxTy c τ Γ) (hτ : τ <+: τ') : CtxTy c τ' Γ :=
  ⟨h.1, fun i t hi => by obtain ⟨f, h1, h2⟩ := h.2 i t hi; exact ⟨f, h1, h2.mono hτ⟩⟩

/-- The expression is smaller than the bodies of the fix points around it. -/
def Within (s : BState) (n : Nat) : Prop := ∀ b id, (b, id) ∈ s.fixMap → id ∈ s.context → n ≤ b.size

theorem Within.step {s s' : BState} {τ τ' : List Ty} {n : Nat} (h : Within s n) (hI : TyInv s τ) (hs : TStep s τ s' τ') : Within s' n := by
  intro b id hm hc
  rw [hs.ctx] at hc
  rcases hs.fixNew b id hm with h1 | h1
  · exact h b id h1 hc
  · have := (hI.ctx id hc).1; omega

theorem Within.le {s : BState} {n m : Nat} (h : Within s n) (hm : m ≤ n) : Within s m := fun b id h1 h2 => Nat.le_trans hm (h b id h1 h2)

theorem AnnCat.catTys : ∀ {Γ : List Ty} {τ υ : Ty} {ts : List TE}, AnnCat Γ τ ts υ → CatTys τ (ts.map TE.ty) υ
  | _, _, _, _, .nil Γ τ => .nil τ
  | _, _, _, _, .cons Γ τ t ts υ h1 h2 h3 => .cons τ t.ty _ υ h2 h3.catTys

theorem inc_reverse {c : List Nat} (h : c.Pairwise (· < ·)) {i j f g : Nat} (hij : i < j) (hi : c.reverse[i]? = some g) (hj : c.reverse[j]? = some f) : f < g := by
  have h1 : c.reverse.Pairwise (fun a b => b < a) := List.pairwise_reverse.2 h
  obtain ⟨a1, rfl⟩ := List.getElem?_eq_some_iff.1 hi
  obtain ⟨a2, rfl⟩ := List.getElem?_eq_some_iff.1 hj
  exact (List.pairwise_iff_getElem.1 h1) i j a1 a2 hij


theorem All2.lt_of {s : BState} {τ : List Ty} (h : TyInv s τ) : ∀ {ids : List Nat} {tys : List Ty}, All2 (TyAt τ) ids tys → ∀ i ∈ ids, i < s.data.length
  | _, _, .nil, i, hi => by simp at hi
  | _, _, .cons h1 h2, i, hi => by
    rcases List.mem_cons.1 hi with rfl | hi
    · exact h.lt h1
    · exact h2.lt_of h i hi

/-- The guard of a concatenation is that of its first part. -/
theorem cat_guard {s s' : BState} {τ τ' : List Ty} {k : Nat} {kk : Nat → Nat} (hkk : kk 0 = k) {Γ : List Ty} {nm : Option Name} {ty : Ty} {l : List TE}
    (hA : Ann Γ k (.cat nm ty l)) {ids : List Nat} (h : TResL s τ kk l ids s' τ') {s2 : BState} {τ2 : List Ty} (hs : TStep s' τ' s2 τ2) {id : Nat}
    (hn : nodeAt s2.data id = .cat ids) :
    ∀ i G, i < k → s.context.reverse[i]? = some G → NoneFrom s.data τ G ty → ∀ f, FPath s2.data τ2 id f → f < G := by
  intro i G hi hG hN f hf
  cases hf with
  | cat _ b _ l' h1 h2 =>
    rw [hn] at h1
    cases h1
    have h0 : ∃ t ts, l = t :: ts := by cases hA; exact ⟨_, _, rfl⟩
    obtain ⟨t, ts, rfl⟩ := h0
    have hfst := hA.cat_first.1
    refine h.guard 0 t b rfl rfl (by intro m' _ hm'; omega) (.inl rfl) i G (by omega) hG ?_ f (h2.back hs.ext hs.ty h.step.inv.len (h.done b (.head _)))
    intro h j t' hh hj ht' hsf
    exact hN h j t' hh hj ht' (hsf.trans fun c => (hfst c).symm)
  | _ => simp_all

theorem altTy_first : ∀ (l : List Ty) (t : Ty) (c : Char), c ∈ (l.foldl Ty.alt t).first ↔ c ∈ t.first ∨ ∃ x ∈ l, c ∈ x.first
  | [], t, c => by simp
  | a :: l, t, c => by
    rw [List.foldl_cons, altTy_first l]
    simp [Ty.alt, or_assoc]

/-- The guard of an alternation. -/
theorem alt_guard {s s' : BState} {τ τ' : List Ty} {k : Nat} {Γ : List Ty} (hΓ : ∀ t ∈ Γ, FirstOrNull t) {nm : Option Name} {ty : Ty} {l : List TE}
    (hA : Ann Γ k (.alt nm ty l)) {ids : List Nat} (h : TResL s τ (fun _ => k) l ids s' τ') {s2 : BState} {τ2 : List Ty} (hs : TStep s' τ' s2 τ2) {id : Nat}
    {tys : List Ty} (hn : nodeAt s2.data id = .alt tys ids) (hty : TyAt τ2 id ty) :
    ∀ i G, i < k → s.context.reverse[i]? = some G → NoneFrom s.data τ G ty → ∀ f, FPath s2.data τ2 id f → f < G := by
  intro i G hi hG hN f hf
  cases hf with
  | alt _ b _ tys' l' h1 hb hsf h2 =>
    rw [hn] at h1
    cases h1
    obtain ⟨m, hm⟩ := List.mem_iff_getElem?.1 hb
    -- the branch
    have hbr : ∃ t, l[m]? = some t ∧ TyAt τ' b t.ty := by
      rcases h.ty.getElem? m with ⟨h3, _⟩ | ⟨a, c, h3, h4, h5⟩
      · rw [hm] at h3; cases h3
      · rw [hm] at h3; cases h3
        rw [List.getElem?_map, Option.map_eq_some_iff] at h4
        obtain ⟨t, h4, rfl⟩ := h4
        exact ⟨t, h4, h5⟩
    obtain ⟨t, hlm, htb⟩ := hbr
    have hsame : SameFirst ty t.ty := by
      obtain ⟨ta, tb, h3, h4, h5⟩ := hsf
      have h6 := htb.mono hs.ty
      rw [TyAt] at h3 h4 h6 hty
      rw [hty] at h3
      rw [h6] at h4
      cases h3; cases h4
      exact h5
    obtain ⟨i1, i2, i3, i4, i5⟩ := hA.alt_inv
    -- the other branches have no first characters
    have hoth : ∀ (m' : Nat) (t' : TE), m' ≠ m → l[m']? = some t' → ∀ c, c ∉ t'.ty.first := by
      intro m' t' hne hlm' c hc
      have hsep : t'.ty.Sep t.ty :=
        pairwise_get (fun _ _ => Ty.Sep.symm) i2 hne (by rw [List.getElem?_map, hlm']; rfl) (by rw [List.getElem?_map, hlm]; rfl)
      exact hsep.2 c hc ((hsame c).1 ((i4 c).2 ⟨t', List.mem_of_getElem? hlm', hc⟩))
    refine h.guard m t b hlm hm (fun m' t' hm' => hoth m' t' (by omega)) ?_ i G hi hG ?_ f (h2.back hs.ext hs.ty h.step.inv.len (h.done b hb))
    · rcases Nat.eq_zero_or_pos m with h0 | h0
      · exact .inl h0
      · right
        apply Classical.byContradiction
        intro hne
        have he : ∀ c, c ∉ t.ty.first := fun c hc => hne ⟨c, hc⟩
        have hlt : 0 < l.length := by have := (List.getElem?_eq_some_iff.1 hlm).1; omega
        have hl0 : l[0]? = some l[0] := List.getElem?_eq_getElem hlt
        have hsep : l[0].ty.Sep t.ty :=
          pairwise_get (i := 0) (j := m) (fun _ _ => Ty.Sep.symm) i2 (by omega) (by rw [List.getElem?_map, hl0]; rfl) (by rw [List.getElem?_map, hlm]; rfl)
        exact hsep.1 ⟨(i1 _ (List.mem_of_getElem? hl0)).firstOrNull _ _ _ hΓ (hoth 0 _ (by omega) hl0), (i1 t (List.mem_of_getElem? hlm)).firstOrNull _ _ _ hΓ he⟩
    · intro h j t' hh hj ht' hsf
      exact hN h j t' hh hj ht' (hsf.trans hsame.symm)
  | _ => simp_all

mutual
theorem gen_tabled (cas : Casing) : ∀ (te : TE) (s : BState) (τ : List Ty) (Γ : List Ty) (k : Nat), TyInv s τ → CtxTy s.context τ Γ →
    (∀ t ∈ Γ, FirstOrNull t) → Ann Γ k te → Within s te.size → GenOk (gen cas te s) (fun id s' => ∃ τ', TRes s τ k te.ty id s' τ')
  | .eps nm, s, τ, Γ, k, hI, hc, hN, hA, hW => by
    simp only [gen, genEps, hI.eps]
    have hnode : nodeAt (s.data ++ [⟨"Epsilon", .eps, [], [], false⟩]) s.data.length = .eps := by simp [nodeAt_append]
    refine ⟨τ ++ [.eps], .leaf ?_ ?_ (.eps _ hnode) ?_ ?_⟩
    · refine hI.push ⟨"Epsilon", .eps, [], [], false⟩ .eps ?_ ?_ (.eps _ hnode) (by simp) (by simp) ?_ (.inl ?_) (.inl ?_) (.inl ?_) (.inl ?_) ?_ ?_ <;> try rfl
      simp only [NodeTy, hnode]; simp [TyAt, ← hI.len]
    · simp [TyAt, ← hI.len, TE.ty]
    · intro i G _ _ f hf
      cases hf <;> simp_all
    · intro h j hh
      exact nodeAt_push_alias (by simp) hh
  | .lit nm str, s, τ, Γ, k, hI, hc, hN, hA, hW => by
    simp only [gen, genLit]
    cases hl : s.litMap.lookup str with
    | some id =>
      have h1 := hI.lit str id (mem_of_lookup hl)
      have h2 := hI.typed id
      simp only [NodeTy, h1] at h2
      refine ⟨τ, .leaf (.refl hI) h2 (.lit _ _ h1) ?_ ?_⟩
      · intro i G _ _ f hf
        cases hf <;> simp_all
      · intro h j hh
        rw [nodeAt_ge hh]; simp
    | none =>
      have h1 := newTypeName_ok cas "Lit" nm s
      revert h1
      cases s.newTypeName cas "Lit" nm with
      | error e => exact id
      | ok p =>
        obtain ⟨name, s1⟩ := p
        intro hs
        have hs : SameTables s s1 := hs
        simp only [Except.map]
        have hI1 := hI.same hs
        have hnode : ∀ b : Bool, nodeAt (s1.data ++ [⟨name, .lit str, [], [], b⟩]) s1.data.length = .lit str := by simp [nodeAt_append]
        refine ⟨τ ++ [.ofStr str], .of_same hs (.leaf ?_ ?_ (.lit _ str (hnode _)) ?_ ?_)⟩
        · refine hI1.push ⟨name, .lit str, [], [], match str with | [_] => true | _ => false⟩ (.ofStr str) ?_ ?_ (.lit _ str (hnode _)) (by simp) (by simp) ?_ (.inr ⟨str, ?_, ?_⟩) (.inl ?_) (.inl ?_) (.inl ?_) ?_ ?_ <;> try rfl
          · exact hI1.eps
          · simp only [NodeTy, hnode]; simp [TyAt, ← hI1.len]
        · simp [TyAt, ← hI1.len, TE.ty]
        · intro i G _ _ f hf
          cases hf with
          | box _ _ h1 => dsimp only at h1; rw [hnode] at h1; cases h1
          | cat _ _ _ _ h1 => dsimp only at h1; rw [hnode] at h1; cases h1
          | alt _ _ _ _ _ h1 => dsimp only at h1; rw [hnode] at h1; cases h1
          | alias _ _ _ h1 => dsimp only at h1; rw [hnode] at h1; cases h1
        · intro h j hh
          exact nodeAt_push_alias (by simp) hh
  | .cat nm ty l, s, τ, Γ, k, hI, hc, hN, hA, hW => by
    simp only [gen]
    have hann : ∀ m t, l[m]? = some t → Ann Γ (if m = 0 then k else 0) t := by
      intro m t hm
      cases hA with
      | cat _ _ _ _ t0 ts h1 h2 h3 =>
        cases m with
        | zero => simp at hm; subst hm; exact h1
        | succ m => exact h3.mem t (List.mem_of_getElem? (by simpa using hm))
    refine GenOk.bind (genL_tabled cas l s τ Γ (fun m => if m = 0 then k else 0) hI hc hN hann ?_) ?_
    · intro t ht
      exact hW.le (by have := TE.size_mem ht; simp only [TE.size]; omega)
    rintro ids s1 ⟨τ1, hL⟩
    simp only [genCat]
    have hty : (TE.cat nm ty l).ty = catTy (l.map TE.ty) := hA.cat_ty
    have hfne : ¬ ∀ c, c ∉ (TE.cat nm ty l).ty.first := by
      intro he
      have h1 := hA.firstOrNull _ _ _ hN he
      have h2 : ∃ t ts, l = t :: ts := by cases hA; exact ⟨_, _, rfl⟩
      obtain ⟨t, ts, rfl⟩ := h2
      rw [TE.ty, hA.cat_first.2] at h1
      cases h1
    cases hl : s1.catMap.lookup ids with
    | some id =>
      have h1 := hL.step.inv.cat ids id (mem_of_lookup hl)
      have h2 := hL.step.inv.typed id
      simp only [NodeTy, h1] at h2
      obtain ⟨tb, tys, h3, h4, h5, h6⟩ := h2
      have he := All2.fun_eq hL.ty h3
      refine ⟨τ1, hL.step, by rw [hty, he]; exact h6, .cat _ ids h1 hL.done, cat_guard rfl hA hL (.refl hL.step.inv) h1, fun he => absurd he hfne⟩
    | none =>
      have h1 := newTypeName_ok cas "Cat" nm s1
      revert h1
      cases s1.newTypeName cas "Cat" nm with
      | error e => exact id
      | ok p =>
        obtain ⟨name, s2⟩ := p
        intro hs
        have hs : SameTables s1 s2 := hs
        have hI2 := hL.step.inv.same hs
        obtain ⟨r, hr⟩ := tyNames_ok s2 ids (hL.ty.lt_of hI2)
        simp only [Except.bind, hr]
        rcases partNames_ok cas.snake "part" (l.map TE.name) 0 [] with ⟨parts, hp⟩ | hp
        · rw [hp]
          simp only [Except.map]
          have hnode : nodeAt (s2.data ++ [⟨name, .cat ids, if (l.map TE.name).any Option.isSome then parts else [], ids, false⟩]) s2.data.length = .cat ids := by simp [nodeAt_append]
          have hdone : NodeDone (s2.data ++ [⟨name, .cat ids, if (l.map TE.name).any Option.isSome then parts else [], ids, false⟩]) s2.data.length := by
            refine .cat _ ids hnode fun x hx => ?_
            have := hL.done x hx
            rw [← hs.data] at this
            exact this.mono (.append _ _)
          have hp := hI2.push (s' := { s2 with data := s2.data ++ [⟨name, .cat ids, if (l.map TE.name).any Option.isSome then parts else [], ids, false⟩], catMap := (ids, s2.data.length) :: s2.catMap })
            _ (catTy (l.map TE.ty)) rfl hI2.eps hdone (by simp) (by simp) (by
              simp only [NodeTy, hnode]
              cases hA with
              | cat _ _ _ _ t ts h1 h2 h3 =>
                refine ⟨t.ty, ts.map TE.ty, hL.ty.mono (fun _ _ => TyAt.mono (List.prefix_append _ _)), h2, ?_, ?_⟩
                · have := h3.catTys; rw [h3.ty_eq] at this; exact this
                · simp [TyAt, ← hI2.len]) (.inl rfl)
            (.inr ⟨ids, rfl, rfl⟩) (.inl rfl) (.inl rfl) rfl rfl
          have hst := hp.of_same hs
          refine ⟨_, hL.step.trans hst, ?_, hdone, cat_guard rfl hA hL hst hnode, fun he => absurd he hfne⟩
          rw [hty]; simp [TyAt, ← hI2.len]
        · rw [hp]; rfl
  | .alt nm ty l, s, τ, Γ, k, hI, hc, hN, hA, hW => by
    simp only [gen]
    refine GenOk.bind (genL_tabled cas l s τ Γ (fun _ => k) hI hc hN (fun m t hm => hA.alt_inv.1 t (List.mem_of_getElem? hm)) ?_) ?_
    · intro t ht
      exact hW.le (by have := TE.size_mem ht; simp only [TE.size]; omega)
    rintro ids s1 ⟨τ1, hL⟩
    simp only [genAlt]
    have hty : (TE.alt nm ty l).ty = altTy (l.map TE.ty) := hA.alt_ty
    have hemp : (∀ c, c ∉ (TE.alt nm ty l).ty.first) → ∀ t ∈ l, ∀ c, c ∉ t.ty.first :=
      fun he t ht c hc => he c ((hA.alt_inv.2.2.2.1 c).2 ⟨t, ht, hc⟩)
    cases hl : s1.altMap.lookup ids with
    | some id =>
      obtain ⟨tys, h1⟩ := hL.step.inv.alt ids id (mem_of_lookup hl)
      have h2 := hL.step.inv.typed id
      simp only [NodeTy, h1] at h2
      obtain ⟨h3, h4, h5, h6⟩ := h2
      have he := All2.fun_eq hL.ty h3
      have ht : TyAt τ1 id (TE.alt nm ty l).ty := by rw [hty, he]; exact h6
      exact ⟨τ1, hL.step, ht, .alt _ tys ids h1 hL.done, alt_guard hN hA hL (.refl hL.step.inv) h1 ht, fun he => hL.empty (hemp he)⟩
    | none =>
      have h1 := newTypeName_ok cas "Alt" nm s1
      revert h1
      cases s1.newTypeName cas "Alt" nm with
      | error e => exact id
      | ok p =>
        obtain ⟨name, s2⟩ := p
        intro hs
        have hs : SameTables s1 s2 := hs
        have hI2 := hL.step.inv.same hs
        obtain ⟨r, hr⟩ := tyNames_ok s2 ids (hL.ty.lt_of hI2)
        simp only [Except.bind, hr]
        rcases partNames_ok cas.camel "Branch" (l.map TE.name) 0 [] with ⟨parts, hp⟩ | hp
        · rw [hp]
          simp only [Except.map]
          have hnode : nodeAt (s2.data ++ [⟨name, .alt (l.map TE.ty) ids, parts, ids, ids.all fun id => s2.canChar.contains id⟩]) s2.data.length = .alt (l.map TE.ty) ids := by
            simp [nodeAt_append]
          have hdone : NodeDone (s2.data ++ [⟨name, .alt (l.map TE.ty) ids, parts, ids, ids.all fun id => s2.canChar.contains id⟩]) s2.data.length := by
            refine .alt _ _ ids hnode fun x hx => ?_
            have := hL.done x hx
            rw [← hs.data] at this
            exact this.mono (.append _ _)
          have hp := hI2.push (s' := { s2 with data := s2.data ++ [⟨name, .alt (l.map TE.ty) ids, parts, ids, ids.all fun id => s2.canChar.contains id⟩], altMap := (ids, s2.data.length) :: s2.altMap, canChar := if (ids.all fun id => s2.canChar.contains id) then s2.data.length :: s2.canChar else s2.canChar })
            _ (altTy (l.map TE.ty)) rfl hI2.eps hdone (by simp) (by simp) (by
              simp only [NodeTy, hnode]
              refine ⟨hL.ty.mono (fun _ _ => TyAt.mono (List.prefix_append _ _)), hA.alt_inv.2.1, ?_, ?_⟩
              · cases hA; simp
              · simp [TyAt, ← hI2.len]) (.inl rfl) (.inl rfl)
            (.inr ⟨ids, _, rfl, rfl⟩) (.inl rfl) rfl rfl
          have hst := hp.of_same hs
          have ht : TyAt (τ1 ++ [altTy (l.map TE.ty)]) s2.data.length (TE.alt nm ty l).ty := by rw [hty]; simp [TyAt, ← hI2.len]
          refine ⟨_, hL.step.trans hst, ht, hdone, alt_guard hN hA hL hst hnode ht, fun he h j t' hh hj ht' => ?_⟩
          dsimp only at hj
          have hne : h ≠ s2.data.length := by
            rintro rfl
            rw [hnode] at hj; cases hj
          rw [nodeAt_append, if_neg hne, hs.data] at hj
          refine hL.empty (hemp he) h j t' hh hj (ht'.back (List.prefix_append _ _) ?_)
          rw [hL.step.inv.len]
          exact nodeAt_lt (by rw [hj]; simp)
        · rw [hp]; rfl
  | .fix nm b, s, τ, Γ, k, hI, hc, hN, hA, hW => by
    simp only [gen]
    cases hf : s.findFix b with
    | some id =>
      obtain ⟨b0, h1, h2⟩ := findFix_mem hf
      obtain ⟨h3, h4⟩ := hI.fix b0 id h1
      rw [TE.eqv_ty h2] at h3
      have h5 : ∃ j, nodeAt s.data id = .alias j := by
        rcases h4 with h4 | h4
        · have h5 := hW b0 id h1 h4
          rw [TE.eqv_size_of h2] at h5
          simp only [TE.size] at h5
          omega
        · exact h4
      obtain ⟨j, hj⟩ := h5
      refine ⟨τ, .refl hI, h3, hI.done_of (by rw [hj]; simp), ?_, ?_⟩
      · intro i G hi hG hno f hfp
        have h6 : id < G := by
          rcases Nat.lt_or_ge id G with h6 | h6
          · exact h6
          · exact absurd (fun c => Iff.rfl) (hno id j b.ty h6 hj h3)
        cases hfp with
        | alias _ b' _ h7 h8 =>
          rw [hj] at h7; cases h7
          have := hI.left id j hj f h8
          omega
        | _ => simp_all
      · intro _ h j' t' hh hj'
        rw [nodeAt_ge hh] at hj'; cases hj'
    | none =>
      have h1 := newTypeName_ok cas "Fix" nm s
      revert h1
      cases s.newTypeName cas "Fix" nm with
      | error e => exact id
      | ok p =>
        obtain ⟨name, s1⟩ := p
        intro hs
        have hs : SameTables s s1 := hs
        have hI1 := hI.same hs
        simp only [Except.bind]
        have hbn : FirstOrNull b.ty := hA.firstOrNull (.fix nm b) Γ k hN
        cases hA with
        | fix _ _ _ _ hb =>
        have hext : Ext s1.data (s1.data ++ [⟨name, .bad, [], [], false⟩]) := .append _ _
        have hpre : τ <+: τ ++ [b.ty] := List.prefix_append _ _
        have hlast : nodeAt (s1.data ++ [⟨name, .bad, [], [], false⟩]) s1.data.length = .bad := by simp [nodeAt_append]
        have hI2 : TyInv { s1 with
            fixMap := (b, s1.data.length) :: s1.fixMap
            data := s1.data ++ [⟨name, .bad, [], [], false⟩]
            context := s1.context ++ [s1.data.length] } (τ ++ [b.ty]) := by
          have hold : ∀ id n, nodeAt s1.data id = n → n ≠ .bad →
              nodeAt (s1.data ++ [⟨name, .bad, [], [], false⟩]) id = n := by
            intro id n hn hb
            rw [hext.keep id (by rw [hn]; exact hb), hn]
          refine ⟨hI1.eps, by simp [hI1.len], ?_, ?_, ?_, ?_, ?_, ?_, ?_, ?_, ?_, ?_, ?_⟩
          · intro str id hm; exact hold _ _ (hI1.lit str id hm) (by simp)
          · intro ids id hm; exact hold _ _ (hI1.cat ids id hm) (by simp)
          · intro ids id hm
            obtain ⟨tys, h1⟩ := hI1.alt ids id hm
            exact ⟨tys, hold _ _ h1 (by simp)⟩
          · intro f id hm; exact hold _ _ (hI1.var f id hm) (by simp)
          · intro b' id hm
            rcases List.mem_cons.1 hm with he | hm
            · cases he
              exact ⟨by rw [TyAt, ← hI1.len]; simp, .inl (by simp)⟩
            · obtain ⟨h1, h2⟩ := hI1.fix b' id hm
              refine ⟨h1.mono hpre, ?_⟩
              rcases h2 with h2 | ⟨j, h2⟩
              · exact .inl (by simp [h2])
              · exact .inr ⟨j, hold _ _ h2 (by simp)⟩
          · intro f hf
            simp only [List.mem_append, List.mem_singleton] at hf
            rcases hf with hf | rfl
            · obtain ⟨h1, h2⟩ := hI1.ctx f hf
              refine ⟨by simp; omega, ?_⟩
              rw [nodeAt_append, if_neg (by omega)]
              exact h2
            · exact ⟨by simp, hlast⟩
          · refine List.pairwise_append.2 ⟨hI1.inc, by simp, ?_⟩
            intro a ha b hb
            simp only [List.mem_singleton] at hb
            rw [hb]
            exact (hI1.ctx a ha).1
          · intro id hid
            simp only [List.length_append, List.length_singleton] at hid
            by_cases he : id = s1.data.length
            · left; simp [he]
            · rcases hI1.done id (by omega) with h1 | h1
              · left; simp [h1]
              · exact .inr (h1.mono hext)
          · intro id
            by_cases hbad : nodeAt s1.data id = .bad
            · have : nodeAt (s1.data ++ [⟨name, .bad, [], [], false⟩]) id = .bad := by
                rw [nodeAt_append]; split <;> simp [hbad]
              simp only [NodeTy, this]
            · exact (hI1.typed id).mono hext hpre hbad
          · intro id j hj f hf
            have hne : id ≠ s1.data.length := by
              rintro rfl
              rw [hlast] at hj; cases hj
            dsimp only at hj
            rw [nodeAt_append, if_neg hne] at hj
            have hdj : NodeDone s1.data j := by
              have := hI1.done_of (id := id) (by rw [hj]; simp)
              cases this with
              | alias _ j' h1 h2 => rw [hj] at h1; cases h1; exact h2
              | _ => simp_all
            exact hI1.left id j hj f (hf.back hext hpre hI1.len hdj)
          · intro id f hn
            dsimp only at hn ⊢
            have hne : id ≠ s1.data.length := by
              rintro rfl
              rw [hlast] at hn; cases hn
            rw [nodeAt_append, if_neg hne] at hn
            rcases hI1.boxes id f hn with h1 | ⟨j, h1⟩
            · left; simp [h1]
            · exact .inr ⟨j, hold _ _ h1 (by simp)⟩
        have hc2 : CtxTy (s1.context ++ [s1.data.length]) (τ ++ [b.ty]) (b.ty :: Γ) := by
          refine ⟨by simp [hs.ctx, hc.1], ?_⟩
          intro i t hi
          cases i with
          | zero =>
            simp only [List.getElem?_cons_zero, Option.some.injEq] at hi
            subst hi
            exact ⟨s1.data.length, by simp, by rw [TyAt, ← hI1.len]; simp⟩
          | succ i =>
            obtain ⟨f, h1, h2⟩ := hc.2 i t (by simpa using hi)
            exact ⟨f, by simpa [hs.ctx] using h1, h2.mono hpre⟩
        have hN2 : ∀ t ∈ b.ty :: Γ, FirstOrNull t := by
          intro t ht
          rcases List.mem_cons.1 ht with rfl | ht
          · exact hbn
          · exact hN t ht
        have hW2 : Within { s1 with
            fixMap := (b, s1.data.length) :: s1.fixMap
            data := s1.data ++ [⟨name, .bad, [], [], false⟩]
            context := s1.context ++ [s1.data.length] } b.size := by
          intro b' id hm hcx
          rcases List.mem_cons.1 hm with he | hm
          · cases he; exact Nat.le_refl _
          · simp only [List.mem_append, List.mem_singleton] at hcx
            rcases hcx with hcx | rfl
            · have := hW b' id (by rw [← hs.fix]; exact hm) (by rw [← hs.ctx]; exact hcx)
              simp only [TE.size] at this
              omega
            · have := hI1.lt (hI1.fix b' _ hm).1
              omega
        have hrec := gen_tabled cas b _ _ (b.ty :: Γ) (k + 1) hI2 hc2 hN2 hb hW2
        revert hrec
        generalize gen cas b _ = r
        intro hrec
        rcases r with e | ⟨j, s3⟩
        · exact hrec
        · obtain ⟨τ3, hg⟩ := hrec
          have hI3 := hg.step.inv
          have hj := hI3.lt hg.ty
          simp only [List.getElem?_eq_getElem hj]
          have hctx3 : s3.context = s1.context ++ [s1.data.length] := hg.step.ctx
          have hid := hI3.ctx s1.data.length (by rw [hctx3]; simp)
          have hlt : ∀ f ∈ s1.context, f ≠ s1.data.length := by
            intro f hf
            have := (hI1.ctx f hf).1
            omega
          have hext4 : Ext s3.data (s3.data.set s1.data.length ⟨name, .alias j, [], [j], false⟩) := .set hid.2 _
          have hnode : nodeAt (s3.data.set s1.data.length ⟨name, .alias j, [], [j], false⟩) s1.data.length = .alias j := by
            rw [nodeAt_set, if_pos ⟨rfl, hid.1⟩]
          have hother : ∀ id, id ≠ s1.data.length → nodeAt (s3.data.set s1.data.length ⟨name, .alias j, [], [j], false⟩) id = nodeAt s3.data id := by
            intro id hne
            rw [nodeAt_set, if_neg (fun h => hne h.1)]
          have hidty : TyAt τ3 s1.data.length b.ty := by
            have : TyAt (τ ++ [b.ty]) s1.data.length b.ty := by rw [TyAt, ← hI1.len]; simp
            exact this.mono hg.step.ty
          have hdone : NodeDone (s3.data.set s1.data.length ⟨name, .alias j, [], [j], false⟩) s1.data.length := .alias _ j hnode (hg.done.mono hext4)
          -- the context and the complete fix points seen by the body
          have hnone : ∀ G, NoneFrom s.data τ G b.ty → NoneFrom (s1.data ++ [⟨name, .bad, [], [], false⟩]) (τ ++ [b.ty]) G b.ty := by
            intro G h h' j' t' hh hj' ht'
            have hne : h' ≠ s1.data.length := by
              rintro rfl
              rw [hlast] at hj'; cases hj'
            rw [nodeAt_append, if_neg hne, hs.data] at hj'
            exact h h' j' t' hh hj' (ht'.back hpre (by rw [hI.len]; exact nodeAt_lt (by rw [hj']; simp)))
          have hback : ∀ f, FPath (s3.data.set s1.data.length ⟨name, .alias j, [], [j], false⟩) τ3 j f → FPath s3.data τ3 j f :=
            fun f hf => hf.back hext4 (List.prefix_refl _) hI3.len hg.done
          refine ⟨τ3, ⟨?_, ?_, hpre.trans hg.step.ty, ?_, ?_⟩, hidty, hdone, ?_, ?_⟩
          · simp [hctx3, hs.ctx]
          · rw [← hs.data]
            exact hext.trans (hg.step.ext.trans hext4)
          · have hold : ∀ id n, nodeAt s3.data id = n → n ≠ .bad →
                nodeAt (s3.data.set s1.data.length ⟨name, .alias j, [], [j], false⟩) id = n := by
              intro id n hn hb
              rw [hext4.keep id (by rw [hn]; exact hb), hn]
            refine ⟨hI3.eps, by simp [hI3.len], ?_, ?_, ?_, ?_, ?_, ?_, ?_, ?_, ?_, ?_, ?_⟩
            · intro str id hm; exact hold _ _ (hI3.lit str id hm) (by simp)
            · intro ids id hm; exact hold _ _ (hI3.cat ids id hm) (by simp)
            · intro ids id hm
              obtain ⟨tys, h1⟩ := hI3.alt ids id hm
              exact ⟨tys, hold _ _ h1 (by simp)⟩
            · intro f id hm; exact hold _ _ (hI3.var f id hm) (by simp)
            · intro b' id hm
              obtain ⟨h1, h2⟩ := hI3.fix b' id hm
              refine ⟨h1, ?_⟩
              simp only [hctx3, List.dropLast_concat]
              rcases h2 with h2 | ⟨j', h2⟩
              · rw [hctx3] at h2
                simp only [List.mem_append, List.mem_singleton] at h2
                rcases h2 with h2 | rfl
                · exact .inl h2
                · exact .inr ⟨j, hnode⟩
              · exact .inr ⟨j', hold _ _ h2 (by simp)⟩
            · intro f hf
              simp only [hctx3, List.dropLast_concat] at hf
              obtain ⟨h1, h2⟩ := hI3.ctx f (by rw [hctx3]; simp [hf])
              refine ⟨by simpa using h1, ?_⟩
              rw [hother f (hlt f hf)]
              exact h2
            · simp only [hctx3, List.dropLast_concat]
              exact hI1.inc
            · intro id hid'
              simp only [List.length_set] at hid'
              simp only [hctx3, List.dropLast_concat]
              by_cases he : id = s1.data.length
              · right; rw [he]; exact hdone
              · rcases hI3.done id hid' with h1 | h1
                · rw [hctx3] at h1
                  simp only [List.mem_append, List.mem_singleton] at h1
                  rcases h1 with h1 | h1
                  · exact .inl h1
                  · exact absurd h1 he
                · exact .inr (h1.mono hext4)
            · intro id
              by_cases he : id = s1.data.length
              · subst he
                simp only [NodeTy, hnode]
                exact ⟨b.ty, hg.ty, hidty⟩
              · have h1 := hI3.typed id
                simp only [NodeTy, hother id he] at h1 ⊢
                exact h1
            · intro id j' hj' f hf
              by_cases he : id = s1.data.length
              · subst he
                dsimp only at hj'
                rw [hnode] at hj'
                cases hj'
                refine hg.guard 0 s1.data.length (by omega) (by simp) ?_ f (hback f hf)
                intro h j' t' hh hj' ht'
                dsimp only at hj'
                rw [nodeAt_append] at hj'
                split at hj'
                · cases hj'
                · rw [nodeAt_ge hh] at hj'; cases hj'
              · dsimp only at hj'
                rw [hother id he] at hj'
                have hdj : NodeDone s3.data j' := by
                  have := hI3.done_of (id := id) (by rw [hj']; simp)
                  cases this with
                  | alias _ j'' h1 h2 => rw [hj'] at h1; cases h1; exact h2
                  | _ => simp_all
                exact hI3.left id j' hj' f (hf.back hext4 (List.prefix_refl _) hI3.len hdj)
            · intro id f hn
              dsimp only at hn ⊢
              have hne : id ≠ s1.data.length := by
                rintro rfl
                rw [hnode] at hn; cases hn
              rw [hother id hne] at hn
              simp only [hctx3, List.dropLast_concat]
              rcases hI3.boxes id f hn with h1 | ⟨j', h1⟩
              · rw [hctx3] at h1
                simp only [List.mem_append, List.mem_singleton] at h1
                rcases h1 with h1 | rfl
                · exact .inl h1
                · exact .inr ⟨j, hnode⟩
              · exact .inr ⟨j', hold _ _ h1 (by simp)⟩
          · intro b' id hm
            rcases hg.step.fixNew b' id hm with h1 | h1
            · rcases List.mem_cons.1 h1 with he | h1
              · cases he
                right; rw [hs.data]; exact Nat.le_refl _
              · rw [hs.fix] at h1; exact .inl h1
            · right
              simp only [List.length_append, hs.data] at h1
              omega
          · intro i G hi hG hno f hf
            cases hf with
            | alias _ b' _ h7 h8 =>
              dsimp only at h7
              rw [hnode] at h7; cases h7
              refine hg.guard (i + 1) G (by omega) ?_ (hnone G hno) f (hback f h8)
              simpa [hs.ctx] using hG
            | _ => simp_all
          · intro he h j' t' hh hj' ht'
            by_cases heq : h = s1.data.length
            · subst heq
              rw [TyAt, hidty] at ht'
              cases ht'
              exact he
            · dsimp only at hj'
              rw [hother h heq] at hj'
              refine hg.empty he h j' t' ?_ hj' ht'
              simp only [List.length_append, List.length_singleton]
              rw [← hs.data] at hh
              omega
  | .var nm i ty, s, τ, Γ, k, hI, hc, hN, hA, hW => by
    cases hA with
    | var _ _ _ _ _ h1 h2 =>
      obtain ⟨f, h6, hft⟩ := hc.2 i ty h1
      have hi : i < s.context.length := by
        rw [hc.1]; exact (List.getElem?_eq_some_iff.1 h1).1
      have hfl := hI.lt hft
      have hguard : ∀ i' G, i' < k → s.context.reverse[i']? = some G → f < G := fun i' G hi' hG => inc_reverse hI.inc (by omega) hG h6
      rw [reverse_get hi] at h6
      simp only [gen, genVar, if_pos hi, h6]
      cases hl : s.varMap.lookup f with
      | some id =>
        have h8 := hI.var f id (mem_of_lookup hl)
        have h9 := hI.typed id
        simp only [NodeTy, h8] at h9
        obtain ⟨t, h9, h10⟩ := h9
        rw [TyAt, hft] at h9
        cases h9
        refine ⟨τ, .leaf (.refl hI) h10 (.box _ f h8) ?_ ?_⟩
        · intro i' G hi' hG f' hf
          cases hf with
          | box _ _ h11 => rw [h8] at h11; cases h11; exact hguard i' G hi' hG
          | _ => simp_all
        · intro h j hh
          rw [nodeAt_ge hh]; simp
      | none =>
        simp only [List.getElem?_eq_getElem hfl]
        have hnode : ∀ nme : String, nodeAt (s.data ++ [⟨nme, .box f, [], [], false⟩]) s.data.length = .box f := by simp [nodeAt_append]
        refine ⟨τ ++ [ty], .leaf ?_ ?_ (.box _ f (hnode _)) ?_ ?_⟩
        · refine hI.push ⟨"Box<" ++ s.data[f].name ++ ">", .box f, [], [], false⟩ ty ?_ ?_ (.box _ f (hnode _)) (by simp) ?_ ?_ (.inl ?_) (.inl ?_) (.inl ?_) (.inr ⟨f, ?_, ?_⟩) ?_ ?_ <;> try rfl
          · exact hI.eps
          · intro f' hf'
            cases hf'
            exact List.mem_of_getElem? h6
          · simp only [NodeTy, hnode]
            exact ⟨ty, hft.mono (List.prefix_append _ _), by simp [TyAt, ← hI.len]⟩
        · simp [TyAt, ← hI.len, TE.ty]
        · intro i' G hi' hG f' hf
          cases hf with
          | box _ _ h11 => dsimp only at h11; rw [hnode] at h11; cases h11; exact hguard i' G hi' hG
          | _ => simp_all
        · intro h j hh
          exact nodeAt_push_alias (by simp) hh
theorem genL_tabled (cas : Casing) : ∀ (l : List TE) (s : BState) (τ : List Ty) (Γ : List Ty) (kk : Nat → Nat), TyInv s τ → CtxTy s.context τ Γ →
    (∀ t ∈ Γ, FirstOrNull t) → (∀ m t, l[m]? = some t → Ann Γ (kk m) t) → (∀ t ∈ l, Within s t.size) →
    GenOk (genL cas l s) (fun ids s' => ∃ τ', TResL s τ kk l ids s' τ')
  | [], s, τ, Γ, kk, hI, hc, hN, hA, hW => by
    refine ⟨τ, .refl hI, .nil, by simp, by simp, ?_⟩
    intro _ h j t' hh hj
    rw [nodeAt_ge hh] at hj; cases hj
  | e :: l, s, τ, Γ, kk, hI, hc, hN, hA, hW => by
    simp only [genL]
    refine GenOk.bind (gen_tabled cas e s τ Γ (kk 0) hI hc hN (hA 0 e rfl) (hW e (.head _))) ?_
    rintro id s1 ⟨τ1, hg⟩
    have hrec := genL_tabled cas l s1 τ1 Γ (fun m => kk (m + 1)) hg.step.inv (by rw [hg.step.ctx]; exact hc.mono hg.step.ty) hN
      (fun m t h => hA (m + 1) t (by simpa using h)) (fun t ht => (hW t (.tail _ ht)).step hI hg.step)
    revert hrec
    generalize genL cas l s1 = r
    intro hrec
    rcases r with e' | ⟨ids, s2⟩
    · exact hrec
    · obtain ⟨τ2, hL⟩ := hrec
      refine ⟨τ2, hg.step.trans hL.step, .cons (hg.ty.mono hL.step.ty) hL.ty, ?_, ?_, ?_⟩
      · intro x hx
        rcases List.mem_cons.1 hx with rfl | hx
        · exact hg.done.mono hL.step.ext
        · exact hL.done x hx
      · intro m t id' hm hid' hbef hne i G hi hG hno f hf
        cases m with
        | zero =>
          simp only [List.getElem?_cons_zero, Option.some.injEq] at hm hid'
          subst hm; subst hid'
          exact hg.guard i G hi hG hno f (hf.back hL.step.ext hL.step.ty hg.step.inv.len hg.done)
        | succ m =>
          have hc0 : ∃ c, c ∈ t.ty.first := by
            rcases hne with h | h
            · omega
            · exact h
          obtain ⟨c0, hc0⟩ := hc0
          refine hL.guard m t id' (by simpa using hm) (by simpa using hid') (fun m' t' hm' h => hbef (m' + 1) t' (by omega) (by simpa using h))
            (.inr ⟨c0, hc0⟩) i G hi (by rw [hg.step.ctx]; exact hG) ?_ f hf
          intro h j t' hh hj ht' hsf
          rcases Nat.lt_or_ge h s.data.length with hlt | hge
          · -- it was there before
            have hnb : nodeAt s.data h ≠ .bad := by
              intro hb
              rcases hI.done h hlt with h1 | h1
              · have h2 := hg.step.inv.ctx h (by rw [hg.step.ctx]; exact h1)
                rw [h2.2] at hj; cases hj
              · exact h1.ne_bad hb
            rw [hg.step.ext.keep h hnb] at hj
            exact hno h j t' hh hj (ht'.back hg.step.ty (by rw [hI.len]; exact hlt)) hsf
          · exact hg.empty (hbef 0 e (by omega) rfl) h j t' hge hj ht' c0 ((hsf c0).2 hc0)
      · intro he h j t' hh hj ht' c
        rcases Nat.lt_or_ge h s1.data.length with hlt | hge
        · have hnb : nodeAt s1.data h ≠ .bad := by
            intro hb
            rcases hg.step.inv.done h hlt with h1 | h1
            · have h2 := hL.step.inv.ctx h (by rw [hL.step.ctx]; exact h1)
              rw [h2.2] at hj; cases hj
            · exact h1.ne_bad hb
          rw [hL.step.ext.keep h hnb] at hj
          exact hg.empty (he e (.head _)) h j t' hh hj (ht'.back hL.step.ty (by rw [hg.step.inv.len]; exact hlt)) c
        · exact hL.empty (fun t ht => he t (.tail _ ht)) h j t' hge hj ht' c
end

end Chomp
