import Verif.Lower.Model
import Verif.Lower.Cost

/-!
# The generated table implements the typed expression
-/

namespace Chomp

/-- The definition with the given id. -/
def nodeAt (D : List Entry) (id : Nat) : NodeF Nat :=
  match D[id]? with
  | some e => e.node
  | none => .bad

theorem BState.step_eq (s : BState) : s.step = nodeAt s.data := rfl

/-- A record: the fix point with this body and environment was generated as this id. -/
abbrev Records := List (Nat × List TE × TE)

mutual
/-- `id` implements the expression in the environment `ρ`. -/
def Impl (D : List Entry) (R : Records) (ρ : List TE) : TE → Nat → Prop
  | .eps _, id => nodeAt D id = .eps
  | .lit _ s, id => nodeAt D id = .lit s
  | .cat _ _ l, id => ∃ ids, nodeAt D id = .cat ids ∧ ImplL D R ρ l ids
  | .alt _ _ l, id => ∃ ids, nodeAt D id = .alt (l.map TE.ty) ids ∧ ImplL D R ρ l ids
  | .fix _ b, id => ∃ ρ0 b0, (id, ρ0, b0) ∈ R ∧ b0.eqv b = true
  | .var _ i _, id => ∃ f b ρ', nodeAt D id = .box f ∧ ρ.drop i = b :: ρ' ∧ (f, ρ', b) ∈ R
def ImplL (D : List Entry) (R : Records) (ρ : List TE) : List TE → List Nat → Prop
  | [], ids => ids = []
  | e :: l, ids => ∃ id ids', ids = id :: ids' ∧ Impl D R ρ e id ∧ ImplL D R ρ l ids'
end

/-- Definitions are only added or completed. -/
structure Ext (D D' : List Entry) : Prop where
  len : D.length ≤ D'.length
  keep : ∀ id, nodeAt D id ≠ .bad → nodeAt D' id = nodeAt D id

theorem Ext.refl (D : List Entry) : Ext D D := ⟨Nat.le_refl _, fun _ _ => rfl⟩

theorem Ext.trans {A B C : List Entry} (h1 : Ext A B) (h2 : Ext B C) : Ext A C :=
  ⟨Nat.le_trans h1.len h2.len, fun id h => by
    rw [h2.keep id (by rw [h1.keep id h]; exact h), h1.keep id h]⟩

theorem nodeAt_append (D : List Entry) (e : Entry) (id : Nat) :
    nodeAt (D ++ [e]) id = if id = D.length then e.node else nodeAt D id := by
  simp only [nodeAt, List.getElem?_append]
  rcases Nat.lt_trichotomy id D.length with h | h | h
  · rw [if_pos h, if_neg (by omega)]
  · subst h; simp
  · rw [if_neg (by omega), if_neg (by omega), List.getElem?_eq_none (by simp; omega), List.getElem?_eq_none (by omega)]

theorem nodeAt_lt {D : List Entry} {id : Nat} (h : nodeAt D id ≠ .bad) : id < D.length := by
  rcases Nat.lt_or_ge id D.length with h' | h'
  · exact h'
  · exact absurd (by simp [nodeAt, List.getElem?_eq_none h']) h

theorem Ext.append (D : List Entry) (e : Entry) : Ext D (D ++ [e]) :=
  ⟨by simp, fun id h => by
    rw [nodeAt_append, if_neg]
    have := nodeAt_lt h
    omega⟩

theorem nodeAt_set (D : List Entry) (k : Nat) (e : Entry) (id : Nat) :
    nodeAt (D.set k e) id = if id = k ∧ k < D.length then e.node else nodeAt D id := by
  simp only [nodeAt, List.getElem?_set]
  by_cases h : k = id
  · subst h
    by_cases h' : k < D.length
    · simp [h']
    · simp [h']
  · rw [if_neg h, if_neg (fun hc => h hc.1.symm)]

theorem Ext.set {D : List Entry} {k : Nat} (h : nodeAt D k = .bad) (e : Entry) : Ext D (D.set k e) :=
  ⟨by simp, fun id hid => by
    rw [nodeAt_set, if_neg]
    rintro ⟨rfl, _⟩
    exact hid h⟩

mutual
theorem Impl.mono {D D' : List Entry} {R R' : Records} (hD : Ext D D') (hR : R ⊆ R') : ∀ (te : TE) (ρ : List TE) (id : Nat),
    Impl D R ρ te id → Impl D' R' ρ te id
  | .eps _, ρ, id, h => by simp only [Impl] at h ⊢; rw [hD.keep id (by rw [h]; simp), h]
  | .lit _ s, ρ, id, h => by simp only [Impl] at h ⊢; rw [hD.keep id (by rw [h]; simp), h]
  | .cat _ _ l, ρ, id, h => by
    simp only [Impl] at h ⊢
    obtain ⟨ids, h1, h2⟩ := h
    exact ⟨ids, by rw [hD.keep id (by rw [h1]; simp), h1], ImplL.mono hD hR l ρ ids h2⟩
  | .alt _ _ l, ρ, id, h => by
    simp only [Impl] at h ⊢
    obtain ⟨ids, h1, h2⟩ := h
    exact ⟨ids, by rw [hD.keep id (by rw [h1]; simp), h1], ImplL.mono hD hR l ρ ids h2⟩
  | .fix _ b, ρ, id, h => by
    simp only [Impl] at h ⊢
    obtain ⟨ρ0, b0, h1, h2⟩ := h
    exact ⟨ρ0, b0, hR h1, h2⟩
  | .var _ i _, ρ, id, h => by
    simp only [Impl] at h ⊢
    obtain ⟨f, b, ρ', h1, h2, h3⟩ := h
    exact ⟨f, b, ρ', by rw [hD.keep id (by rw [h1]; simp), h1], h2, hR h3⟩
theorem ImplL.mono {D D' : List Entry} {R R' : Records} (hD : Ext D D') (hR : R ⊆ R') : ∀ (l : List TE) (ρ : List TE) (ids : List Nat),
    ImplL D R ρ l ids → ImplL D' R' ρ l ids
  | [], ρ, ids, h => by simpa only [ImplL] using h
  | e :: l, ρ, ids, h => by
    simp only [ImplL] at h ⊢
    obtain ⟨id, ids', h1, h2, h3⟩ := h
    exact ⟨id, ids', h1, Impl.mono hD hR e ρ id h2, ImplL.mono hD hR l ρ ids' h3⟩
end

/-! ## Types -/

/-- The type of a concatenation of expressions of the given types. -/
def catTy : List Ty → Ty
  | [] => .default
  | t :: l => l.foldl Ty.cat t

/-- The type of an alternation of expressions of the given types. -/
def altTy : List Ty → Ty
  | [] => .default
  | t :: l => l.foldl Ty.alt t

theorem AnnCat.ty_eq : ∀ {Γ : List Ty} {τ υ : Ty} {ts : List TE}, AnnCat Γ τ ts υ → υ = (ts.map TE.ty).foldl Ty.cat τ
  | _, _, _, _, .nil Γ τ => rfl
  | _, _, _, _, .cons Γ τ t ts υ h1 h2 h3 => by simpa using h3.ty_eq

theorem AnnAlt.ty_eq : ∀ {Γ : List Ty} {k : Nat} {τ υ : Ty} {ts : List TE}, AnnAlt Γ k τ ts υ →
    υ = (ts.map TE.ty).foldl Ty.alt τ
  | _, _, _, _, _, .nil Γ k τ => rfl
  | _, _, _, _, _, .cons Γ k τ t ts υ h1 h2 h3 h4 => by simpa using h4.ty_eq

theorem Ann.cat_ty {Γ : List Ty} {k : Nat} {nm : Option Name} {ty : Ty} {ts : List TE} (h : Ann Γ k (.cat nm ty ts)) :
    ty = catTy (ts.map TE.ty) := by
  cases h with
  | cat _ _ _ _ t ts h1 h2 h3 => exact h3.ty_eq

theorem Ann.alt_ty {Γ : List Ty} {k : Nat} {nm : Option Name} {ty : Ty} {ts : List TE} (h : Ann Γ k (.alt nm ty ts)) :
    ty = altTy (ts.map TE.ty) := by
  cases h with
  | alt _ _ _ _ t ts h1 h2 => exact h2.ty_eq

/-- The parts of a concatenation are annotated, each with its own guard. -/
theorem Ann.cat_mem {Γ : List Ty} {k : Nat} {nm : Option Name} {ty : Ty} {ts : List TE} (h : Ann Γ k (.cat nm ty ts)) :
    ∀ t ∈ ts, ∃ k, Ann Γ k t := by
  cases h with
  | cat _ _ _ _ t ts h1 h2 h3 =>
    intro x hx
    rcases List.mem_cons.1 hx with rfl | hx
    · exact ⟨k, h1⟩
    · exact ⟨0, h3.mem x hx⟩

mutual
theorem TE.eqv_ty : ∀ {a b : TE}, a.eqv b = true → a.ty = b.ty
  | .eps _, b, h => by cases b <;> simp_all [TE.eqv, TE.ty]
  | .lit _ s, b, h => by cases b <;> simp_all [TE.eqv, TE.ty]
  | .cat _ _ l, b, h => by cases b <;> simp_all [TE.eqv, TE.ty]
  | .alt _ _ l, b, h => by cases b <;> simp_all [TE.eqv, TE.ty]
  | .fix _ a, b, h => by
    cases b with
    | fix n' b => simp only [TE.eqv, Bool.and_eq_true] at h; simpa [TE.ty] using TE.eqv_ty h.1
    | _ => simp [TE.eqv] at h
  | .var _ _ _, b, h => by cases b <;> simp_all [TE.eqv, TE.ty]
end

theorem Content.eqv_self (c : Content) : c.eqv c = true := by cases c <;> simp [Content.eqv]

theorem optNameEqv_self (n : Option Name) : optNameEqv n n = true := by
  cases n <;> simp [optNameEqv, Name.eqv, Content.eqv_self]

mutual
theorem TE.eqv_refl : ∀ a : TE, a.eqv a = true
  | .eps _ => by simp [TE.eqv, optNameEqv_self]
  | .lit _ s => by simp [TE.eqv, optNameEqv_self]
  | .cat _ _ l => by simp [TE.eqv, optNameEqv_self, TE.eqvL_refl l]
  | .alt _ _ l => by simp [TE.eqv, optNameEqv_self, TE.eqvL_refl l]
  | .fix _ a => by simp [TE.eqv, optNameEqv_self, TE.eqv_refl a]
  | .var _ _ _ => by simp [TE.eqv, optNameEqv_self]
theorem TE.eqvL_refl : ∀ l : List TE, TE.eqvL l l = true
  | [] => rfl
  | e :: l => by simp [TE.eqvL, TE.eqv_refl e, TE.eqvL_refl l]
end

/-! ## Occurrences -/

/-- `Occ root ρ te`: `te` occurs in `root` below the fix points with bodies `ρ`, innermost first. -/
inductive Occ (root : TE) : List TE → TE → Prop
  | root : Occ root [] root
  | cat {ρ : List TE} {nm : Option Name} {ty : Ty} {ts : List TE} {t : TE} : Occ root ρ (.cat nm ty ts) → t ∈ ts → Occ root ρ t
  | alt {ρ : List TE} {nm : Option Name} {ty : Ty} {ts : List TE} {t : TE} : Occ root ρ (.alt nm ty ts) → t ∈ ts → Occ root ρ t
  | fix {ρ : List TE} {nm : Option Name} {b : TE} : Occ root ρ (.fix nm b) → Occ root (b :: ρ) b

mutual
/-- The fix points for which code is generated, newest first: those found among `K` are skipped with everything below them. -/
def TE.visit : TE → List TE → List (List TE × TE) → List (List TE × TE)
  | .eps _, _, K => K
  | .lit _ _, _, K => K
  | .cat _ _ l, ρ, K => TE.visitL l ρ K
  | .alt _ _ l, ρ, K => TE.visitL l ρ K
  | .fix _ b, ρ, K => if K.any fun p => p.2.eqv b then K else b.visit (b :: ρ) ((ρ, b) :: K)
  | .var _ _ _, _, K => K
def TE.visitL : List TE → List TE → List (List TE × TE) → List (List TE × TE)
  | [], _, K => K
  | e :: l, ρ, K => TE.visitL l ρ (e.visit ρ K)
end

/-! ## Invariant -/

/-- Types of ids. -/
def TyAt (τ : List Ty) (id : Nat) (t : Ty) : Prop := τ[id]? = some t

structure Inv (root : TE) (s : BState) (R : Records) (τ : List Ty) : Prop where
  eps : s.epsId = none
  len : τ.length = s.data.length
  lit : ∀ str id, (str, id) ∈ s.litMap → nodeAt s.data id = .lit str ∧ TyAt τ id (.ofStr str)
  cat : ∀ ids id, (ids, id) ∈ s.catMap → nodeAt s.data id = .cat ids ∧
    ∃ tys, All2 (TyAt τ) ids tys ∧ TyAt τ id (catTy tys)
  alt : ∀ ids id, (ids, id) ∈ s.altMap → ∃ tys, nodeAt s.data id = .alt tys ids ∧
    All2 (TyAt τ) ids tys ∧ TyAt τ id (altTy tys)
  var : ∀ f id, (f, id) ∈ s.varMap → nodeAt s.data id = .box f ∧ ∃ t, TyAt τ f t ∧ TyAt τ id t
  fix : s.fixMap = R.map fun r => (r.2.2, r.1)
  ctx : ∀ f ∈ s.context, f < s.data.length ∧ nodeAt s.data f = .bad
  recTy : ∀ id ρ b, (id, ρ, b) ∈ R → TyAt τ id b.ty ∧ ∃ nm, Occ root ρ (.fix nm b)
  recFun : ∀ id ρ b ρ' b', (id, ρ, b) ∈ R → (id, ρ', b') ∈ R → ρ = ρ' ∧ b = b'
  done : ∀ id ρ b, (id, ρ, b) ∈ R → id ∈ s.context ∨
    ∃ j, nodeAt s.data id = .alias j ∧ Impl s.data R (b :: ρ) b j

/-- The context holds the ids of the enclosing fix points. -/
def CtxOk (context : List Nat) (ρ : List TE) (R : Records) : Prop :=
  context.length = ρ.length ∧
  ∀ i b ρ', ρ.drop i = b :: ρ' → ∃ f, context.reverse[i]? = some f ∧ (f, ρ', b) ∈ R

theorem CtxOk.mono {c : List Nat} {ρ : List TE} {R R' : Records} (h : CtxOk c ρ R) (hR : R ⊆ R') : CtxOk c ρ R' :=
  ⟨h.1, fun i b ρ' hd => by obtain ⟨f, h1, h2⟩ := h.2 i b ρ' hd; exact ⟨f, h1, hR h2⟩⟩

theorem TyAt.mono {τ τ' : List Ty} (h : τ <+: τ') {id : Nat} {t : Ty} (ht : TyAt τ id t) : TyAt τ' id t := by
  obtain ⟨r, rfl⟩ := h
  rw [TyAt, List.getElem?_append_left (List.getElem?_eq_some_iff.1 ht).1]
  exact ht

theorem All2.mono {α β : Type} {P Q : α → β → Prop} (h : ∀ a b, P a b → Q a b) : ∀ {l : List α} {l' : List β},
    All2 P l l' → All2 Q l l'
  | _, _, .nil => .nil
  | _, _, .cons h1 h2 => .cons (h _ _ h1) (h2.mono h)

theorem All2.fun_eq {τ : List Ty} : ∀ {ids : List Nat} {a b : List Ty}, All2 (TyAt τ) ids a → All2 (TyAt τ) ids b → a = b
  | _, _, _, .nil, .nil => rfl
  | _, _, _, .cons h1 h2, .cons h3 h4 => by
    rw [TyAt, h1] at h3
    cases h3
    rw [All2.fun_eq h2 h4]

/-- The outcome of generating code for a part. -/
structure GStep (root : TE) (s : BState) (R : Records) (τ : List Ty) (s' : BState) (R' : Records) (τ' : List Ty) : Prop where
  ctx : s'.context = s.context
  ext : Ext s.data s'.data
  recs : R ⊆ R'
  ty : τ <+: τ'
  inv : Inv root s' R' τ'

theorem GStep.refl {root : TE} {s : BState} {R : Records} {τ : List Ty} (h : Inv root s R τ) : GStep root s R τ s R τ :=
  ⟨rfl, .refl _, fun _ h => h, List.prefix_refl _, h⟩

theorem GStep.trans {root : TE} {s s' s'' : BState} {R R' R'' : Records} {τ τ' τ'' : List Ty}
    (h1 : GStep root s R τ s' R' τ') (h2 : GStep root s' R' τ' s'' R'' τ'') : GStep root s R τ s'' R'' τ'' :=
  ⟨h2.ctx.trans h1.ctx, h1.ext.trans h2.ext, fun _ h => h2.recs (h1.recs h), h1.ty.trans h2.ty, h2.inv⟩

/-- A panic is caused by a name that is not an identifier; otherwise `P` holds. -/
def GenOk {α : Type} (r : Except GenPanic (α × BState)) (P : α → BState → Prop) : Prop :=
  match r with
  | .ok (a, s) => P a s
  | .error e => e = .badName

theorem GenOk.bind {α β : Type} {r : Except GenPanic (α × BState)} {f : α × BState → Except GenPanic (β × BState)}
    {P : α → BState → Prop} {Q : β → BState → Prop} (h : GenOk r P) (hf : ∀ a s, P a s → GenOk (f (a, s)) Q) :
    GenOk (r.bind f) Q := by
  rcases r with e | ⟨a, s⟩
  · exact h
  · exact hf a s h

/-- States with the same tables. -/
structure SameTables (s s' : BState) : Prop where
  data : s'.data = s.data
  eps : s'.epsId = s.epsId
  lit : s'.litMap = s.litMap
  cat : s'.catMap = s.catMap
  alt : s'.altMap = s.altMap
  fix : s'.fixMap = s.fixMap
  var : s'.varMap = s.varMap
  canChar : s'.canChar = s.canChar
  ctx : s'.context = s.context

theorem Inv.same {root : TE} {s s' : BState} {R : Records} {τ : List Ty} (h : Inv root s R τ) (hs : SameTables s s') :
    Inv root s' R τ := by
  obtain ⟨h1, h2, h3, h4, h5, h6, h7, h8, h9, h10, h11⟩ := h
  constructor <;> (try simp only [hs.data, hs.eps, hs.lit, hs.cat, hs.alt, hs.fix, hs.var, hs.ctx]) <;> assumption

theorem newTypeName_ok (cas : Casing) (pre : String) (nm : Option Name) (s : BState) :
    GenOk (s.newTypeName cas pre nm) fun _ s' => SameTables s s' := by
  cases nm with
  | none => exact ⟨rfl, rfl, rfl, rfl, rfl, rfl, rfl, rfl, rfl⟩
  | some n =>
    simp only [BState.newTypeName]
    cases cas.camel n.content.hashed with
    | none => rfl
    | some c => exact ⟨rfl, rfl, rfl, rfl, rfl, rfl, rfl, rfl, rfl⟩

theorem partNames_ok (conv : String → Option String) (dflt : String) : ∀ (l : List (Option Name)) (i : Nat) (m : List (String × Nat)),
    (∃ r, partNames conv dflt i m l = .ok r) ∨ partNames conv dflt i m l = .error .badName
  | [], i, m => .inl ⟨_, rfl⟩
  | none :: l, i, m => by
    simp only [partNames]
    rcases partNames_ok conv dflt l (i + 1) m with ⟨r, h⟩ | h
    · exact .inl ⟨_, by rw [h]; rfl⟩
    · exact .inr (by rw [h]; rfl)
  | some n :: l, i, m => by
    simp only [partNames]
    cases conv n.content.hashed with
    | none => exact .inr rfl
    | some c =>
      dsimp only
      rcases partNames_ok conv dflt l (i + 1) ((c, (m.lookup c).getD 0 + 1) :: m) with ⟨r, h⟩ | h
      · exact .inl ⟨_, by rw [h]; rfl⟩
      · exact .inr (by rw [h]; rfl)

theorem tyNames_ok (s : BState) : ∀ (ids : List Nat), (∀ i ∈ ids, i < s.data.length) → ∃ r, s.tyNames ids = .ok r
  | [], _ => ⟨_, rfl⟩
  | i :: l, h => by
    obtain ⟨r, hr⟩ := tyNames_ok s l (fun j hj => h j (by simp [hj]))
    simp only [BState.tyNames, List.getElem?_eq_getElem (h i (by simp)), hr]
    exact ⟨_, rfl⟩

theorem mem_of_lookup {α β : Type} [BEq α] [LawfulBEq α] : ∀ {l : List (α × β)} {a : α} {b : β}, l.lookup a = some b → (a, b) ∈ l
  | [], _, _, h => by cases h
  | (x, y) :: l, a, b, h => by
    simp only [List.lookup] at h
    split at h
    · rename_i he
      cases h
      rw [eq_of_beq he]; simp
    · simp [mem_of_lookup h]

/-- Adding a complete definition. -/
theorem Inv.push {root : TE} {s s' : BState} {R : Records} {τ : List Ty} (h : Inv root s R τ) (e : Entry) (t : Ty)
    (hne : e.node ≠ .bad)
    (hd : s'.data = s.data ++ [e]) (heps : s'.epsId = none)
    (hlit : s'.litMap = s.litMap ∨ ∃ str, s'.litMap = (str, s.data.length) :: s.litMap ∧ e.node = .lit str ∧ t = .ofStr str)
    (hcat : s'.catMap = s.catMap ∨ ∃ ids tys, s'.catMap = (ids, s.data.length) :: s.catMap ∧ e.node = .cat ids ∧
      All2 (TyAt τ) ids tys ∧ t = catTy tys)
    (halt : s'.altMap = s.altMap ∨ ∃ ids tys, s'.altMap = (ids, s.data.length) :: s.altMap ∧ e.node = .alt tys ids ∧
      All2 (TyAt τ) ids tys ∧ t = altTy tys)
    (hvar : s'.varMap = s.varMap ∨ ∃ f, s'.varMap = (f, s.data.length) :: s.varMap ∧ e.node = .box f ∧ TyAt τ f t)
    (hfix : s'.fixMap = s.fixMap) (hctx : s'.context = s.context) : GStep root s R τ s' R (τ ++ [t]) := by
  have hext : Ext s.data s'.data := by rw [hd]; exact .append _ _
  have hpre : τ <+: τ ++ [t] := List.prefix_append _ _
  have hnew : nodeAt s'.data s.data.length = e.node := by rw [hd, nodeAt_append, if_pos rfl]
  have hty : TyAt (τ ++ [t]) s.data.length t := by rw [TyAt, ← h.len]; simp
  have hold : ∀ id n, nodeAt s.data id = n → n ≠ .bad → nodeAt s'.data id = n := by
    intro id n hn hb
    rw [hext.keep id (by rw [hn]; exact hb), hn]
  refine ⟨hctx, hext, fun _ h => h, hpre, ?_⟩
  refine ⟨heps, ?_, ?_, ?_, ?_, ?_, ?_, ?_, ?_, h.recFun, ?_⟩
  · rw [hd]; simp [h.len]
  · have : ∀ str id, (str, id) ∈ s.litMap → nodeAt s'.data id = .lit str ∧ TyAt (τ ++ [t]) id (.ofStr str) := by
      intro str id hm
      obtain ⟨h1, h2⟩ := h.lit str id hm
      exact ⟨hold _ _ h1 (by simp), h2.mono hpre⟩
    intro str id hm
    rcases hlit with hl | ⟨str', hl, h1, h2⟩
    · rw [hl] at hm; exact this str id hm
    · rw [hl] at hm
      rcases List.mem_cons.1 hm with he | hm
      · cases he; exact ⟨by rw [hnew, h1], h2 ▸ hty⟩
      · exact this str id hm
  · have : ∀ ids id, (ids, id) ∈ s.catMap → nodeAt s'.data id = .cat ids ∧
        ∃ tys, All2 (TyAt (τ ++ [t])) ids tys ∧ TyAt (τ ++ [t]) id (catTy tys) := by
      intro ids id hm
      obtain ⟨h1, tys, h2, h3⟩ := h.cat ids id hm
      exact ⟨hold _ _ h1 (by simp), tys, h2.mono (fun _ _ => TyAt.mono hpre), h3.mono hpre⟩
    intro ids id hm
    rcases hcat with hl | ⟨ids', tys, hl, h1, h2, h3⟩
    · rw [hl] at hm; exact this ids id hm
    · rw [hl] at hm
      rcases List.mem_cons.1 hm with he | hm
      · cases he; exact ⟨by rw [hnew, h1], tys, h2.mono (fun _ _ => TyAt.mono hpre), h3 ▸ hty⟩
      · exact this ids id hm
  · have : ∀ ids id, (ids, id) ∈ s.altMap → ∃ tys, nodeAt s'.data id = .alt tys ids ∧
        All2 (TyAt (τ ++ [t])) ids tys ∧ TyAt (τ ++ [t]) id (altTy tys) := by
      intro ids id hm
      obtain ⟨tys, h1, h2, h3⟩ := h.alt ids id hm
      exact ⟨tys, hold _ _ h1 (by simp), h2.mono (fun _ _ => TyAt.mono hpre), h3.mono hpre⟩
    intro ids id hm
    rcases halt with hl | ⟨ids', tys, hl, h1, h2, h3⟩
    · rw [hl] at hm; exact this ids id hm
    · rw [hl] at hm
      rcases List.mem_cons.1 hm with he | hm
      · cases he; exact ⟨tys, by rw [hnew, h1], h2.mono (fun _ _ => TyAt.mono hpre), h3 ▸ hty⟩
      · exact this ids id hm
  · have : ∀ f id, (f, id) ∈ s.varMap → nodeAt s'.data id = .box f ∧
        ∃ t', TyAt (τ ++ [t]) f t' ∧ TyAt (τ ++ [t]) id t' := by
      intro f id hm
      obtain ⟨h1, t', h2, h3⟩ := h.var f id hm
      exact ⟨hold _ _ h1 (by simp), t', h2.mono hpre, h3.mono hpre⟩
    intro f id hm
    rcases hvar with hl | ⟨f', hl, h1, h2⟩
    · rw [hl] at hm; exact this f id hm
    · rw [hl] at hm
      rcases List.mem_cons.1 hm with he | hm
      · cases he; exact ⟨by rw [hnew, h1], t, h2.mono hpre, hty⟩
      · exact this f id hm
  · rw [hfix]; exact h.fix
  · rw [hctx]
    intro f hf
    obtain ⟨h1, h2⟩ := h.ctx f hf
    refine ⟨by rw [hd]; simp; omega, ?_⟩
    rw [hd, nodeAt_append, if_neg (by omega)]
    exact h2
  · intro id ρ b hm
    obtain ⟨h1, h2⟩ := h.recTy id ρ b hm
    exact ⟨h1.mono hpre, h2⟩
  · intro id ρ b hm
    rw [hctx]
    rcases h.done id ρ b hm with h1 | ⟨j, h1, h2⟩
    · exact .inl h1
    · exact .inr ⟨j, hold _ _ h1 (by simp), h2.mono hext (fun _ h => h) b _ j⟩

theorem GStep.of_same {root : TE} {s s1 s' : BState} {R R' : Records} {τ τ' : List Ty} (hs : SameTables s s1)
    (h : GStep root s1 R τ s' R' τ') : GStep root s R τ s' R' τ' :=
  ⟨h.ctx.trans hs.ctx, by rw [← hs.data]; exact h.ext, h.recs, h.ty, h.inv⟩

theorem findFix_mem {s : BState} {b : TE} {id : Nat} (h : s.findFix b = some id) : ∃ b0, (b0, id) ∈ s.fixMap ∧ b0.eqv b = true := by
  simp only [BState.findFix, Option.map_eq_some_iff] at h
  obtain ⟨⟨b0, id'⟩, h1, rfl⟩ := h
  exact ⟨b0, List.mem_of_find?_eq_some h1, by simpa using List.find?_some h1⟩

/-- What `gen` achieves. -/
def Post (root : TE) (s : BState) (R : Records) (τ : List Ty) (ρ : List TE) (te : TE) (id : Nat) (s' : BState) : Prop :=
  ∃ R' τ', GStep root s R τ s' R' τ' ∧ Impl s'.data R' ρ te id ∧ TyAt τ' id te.ty ∧
    R'.map Prod.snd = te.visit ρ (R.map Prod.snd)

def PostL (root : TE) (s : BState) (R : Records) (τ : List Ty) (ρ : List TE) (l : List TE) (ids : List Nat) (s' : BState) : Prop :=
  ∃ R' τ', GStep root s R τ s' R' τ' ∧ ImplL s'.data R' ρ l ids ∧ All2 (TyAt τ') ids (l.map TE.ty) ∧
    R'.map Prod.snd = TE.visitL l ρ (R.map Prod.snd)

theorem TyAt.lt {root : TE} {s : BState} {R : Records} {τ : List Ty} (h : Inv root s R τ) {id : Nat} {t : Ty} (ht : TyAt τ id t) :
    id < s.data.length := by
  rw [← h.len]; exact (List.getElem?_eq_some_iff.1 ht).1

theorem All2.left_lt {root : TE} {s : BState} {R : Records} {τ : List Ty} (h : Inv root s R τ) : ∀ {ids : List Nat} {tys : List Ty},
    All2 (TyAt τ) ids tys → ∀ i ∈ ids, i < s.data.length
  | _, _, .nil, i, hi => by simp at hi
  | _, _, .cons h1 h2, i, hi => by
    rcases List.mem_cons.1 hi with rfl | hi
    · exact h1.lt h
    · exact h2.left_lt h i hi

theorem reverse_get {c : List Nat} {i : Nat} (h : i < c.length) : c.reverse[i]? = c[c.length - i - 1]? := by
  rw [List.getElem?_reverse h]
  congr 1
  omega

mutual
theorem gen_sim (cas : Casing) (root : TE) : ∀ (te : TE) (s : BState) (R : Records) (τ : List Ty) (ρ : List TE)
    (Γ : List Ty) (k : Nat), Inv root s R τ → CtxOk s.context ρ R → AnnEnv Γ ρ → Ann Γ k te → Occ root ρ te →
    GenOk (gen cas te s) (Post root s R τ ρ te)
  | .eps nm, s, R, τ, ρ, Γ, k, hI, hc, hE, hA, hO => by
    simp only [gen, genEps, hI.eps]
    refine ⟨R, τ ++ [.eps], ?_, ?_, ?_, rfl⟩
    · apply hI.push ⟨"Epsilon", .eps, [], [], false⟩ .eps <;> first | rfl | exact .inl rfl | simp
    · simp [Impl, nodeAt_append]
    · simp [TyAt, ← hI.len, TE.ty]
  | .lit nm str, s, R, τ, ρ, Γ, k, hI, hc, hE, hA, hO => by
    simp only [gen, genLit]
    cases hl : s.litMap.lookup str with
    | some id =>
      obtain ⟨h1, h2⟩ := hI.lit str id (mem_of_lookup hl)
      exact ⟨R, τ, .refl hI, h1, h2, rfl⟩
    | none =>
      have h1 := newTypeName_ok cas "Lit" nm s
      revert h1
      cases s.newTypeName cas "Lit" nm with
      | error e => exact id
      | ok p =>
        obtain ⟨name, s1⟩ := p
        intro hs
        have hs : SameTables s s1 := hs
        simp only [Except.map]
        have hI1 := hI.same hs
        refine ⟨R, τ ++ [.ofStr str], ?_, ?_, ?_, rfl⟩
        · apply GStep.of_same hs
          apply hI1.push ⟨name, .lit str, [], [], _⟩ (.ofStr str)
          · simp
          · rfl
          · exact hI1.eps
          · exact .inr ⟨str, rfl, rfl, rfl⟩
          all_goals first | rfl | exact .inl rfl
        · simp [Impl, nodeAt_append]
        · simp [TyAt, ← hI1.len, TE.ty]
  | .cat nm ty l, s, R, τ, ρ, Γ, k, hI, hc, hE, hA, hO => by
    simp only [gen]
    refine GenOk.bind (genL_sim cas root l s R τ ρ Γ hI hc hE hA.cat_mem (fun t ht => hO.cat ht)) ?_
    rintro ids s1 ⟨R1, τ1, hg, hi, ht, hv⟩
    simp only [genCat]
    have hty : (TE.cat nm ty l).ty = catTy (l.map TE.ty) := hA.cat_ty
    cases hl : s1.catMap.lookup ids with
    | some id =>
      obtain ⟨h1, tys, h2, h3⟩ := hg.inv.cat ids id (mem_of_lookup hl)
      refine ⟨R1, τ1, hg, ⟨ids, h1, hi⟩, ?_, hv⟩
      rw [hty, All2.fun_eq ht h2]
      exact h3
    | none =>
      have h1 := newTypeName_ok cas "Cat" nm s1
      revert h1
      cases s1.newTypeName cas "Cat" nm with
      | error e => exact id
      | ok p =>
        obtain ⟨name, s2⟩ := p
        intro hs
        have hs : SameTables s1 s2 := hs
        have hI2 := hg.inv.same hs
        obtain ⟨r, hr⟩ := tyNames_ok s2 ids (ht.left_lt hI2)
        simp only [Except.bind, hr]
        rcases partNames_ok cas.snake "part" (l.map TE.name) 0 [] with ⟨parts, hp⟩ | hp
        · rw [hp]
          simp only [Except.map]
          have hp := hI2.push (s' := { s2 with data := s2.data ++ [⟨name, .cat ids, if (l.map TE.name).any Option.isSome then parts else [], ids, false⟩], catMap := (ids, s2.data.length) :: s2.catMap })
            _ (catTy (l.map TE.ty)) (by simp) rfl hI2.eps (.inl rfl)
            (.inr ⟨ids, _, rfl, rfl, ht, rfl⟩) (.inl rfl) (.inl rfl) rfl rfl
          refine ⟨R1, _, hg.trans (GStep.of_same hs hp), ⟨ids, by simp [nodeAt_append], ?_⟩, ?_, hv⟩
          · rw [← hs.data] at hi
            exact hi.mono hp.ext (fun _ h => h) l ρ ids
          · rw [hty]; simp [TyAt, ← hI2.len]
        · rw [hp]; rfl
  | .alt nm ty l, s, R, τ, ρ, Γ, k, hI, hc, hE, hA, hO => by
    simp only [gen]
    refine GenOk.bind (genL_sim cas root l s R τ ρ Γ hI hc hE (fun t ht => ⟨k, hA.alt_inv.1 t ht⟩) (fun t ht => hO.alt ht)) ?_
    rintro ids s1 ⟨R1, τ1, hg, hi, ht, hv⟩
    simp only [genAlt]
    have hty : (TE.alt nm ty l).ty = altTy (l.map TE.ty) := hA.alt_ty
    cases hl : s1.altMap.lookup ids with
    | some id =>
      obtain ⟨tys, h1, h2, h3⟩ := hg.inv.alt ids id (mem_of_lookup hl)
      have he := All2.fun_eq ht h2
      refine ⟨R1, τ1, hg, ⟨ids, by rw [he]; exact h1, hi⟩, ?_, hv⟩
      rw [hty, he]
      exact h3
    | none =>
      have h1 := newTypeName_ok cas "Alt" nm s1
      revert h1
      cases s1.newTypeName cas "Alt" nm with
      | error e => exact id
      | ok p =>
        obtain ⟨name, s2⟩ := p
        intro hs
        have hs : SameTables s1 s2 := hs
        have hI2 := hg.inv.same hs
        obtain ⟨r, hr⟩ := tyNames_ok s2 ids (ht.left_lt hI2)
        simp only [Except.bind, hr]
        rcases partNames_ok cas.camel "Branch" (l.map TE.name) 0 [] with ⟨parts, hp⟩ | hp
        · rw [hp]
          simp only [Except.map]
          have hp := hI2.push (s' := { s2 with data := s2.data ++ [⟨name, .alt (l.map TE.ty) ids, parts, ids, ids.all fun id => s2.canChar.contains id⟩], altMap := (ids, s2.data.length) :: s2.altMap, canChar := if (ids.all fun id => s2.canChar.contains id) then s2.data.length :: s2.canChar else s2.canChar })
            _ (altTy (l.map TE.ty)) (by simp) rfl hI2.eps (.inl rfl) (.inl rfl)
            (.inr ⟨ids, _, rfl, rfl, ht, rfl⟩) (.inl rfl) rfl rfl
          refine ⟨R1, _, hg.trans (GStep.of_same hs hp), ⟨ids, by simp [nodeAt_append], ?_⟩, ?_, hv⟩
          · rw [← hs.data] at hi
            exact hi.mono hp.ext (fun _ h => h) l ρ ids
          · rw [hty]; simp [TyAt, ← hI2.len]
        · rw [hp]; rfl
  | .fix nm b, s, R, τ, ρ, Γ, k, hI, hc, hE, hA, hO => by
    simp only [gen]
    cases hf : s.findFix b with
    | some id =>
      obtain ⟨b0, h1, h2⟩ := findFix_mem hf
      obtain ⟨ρ0, h3⟩ : ∃ ρ0, (id, ρ0, b0) ∈ R := by
        rw [hI.fix, List.mem_map] at h1
        obtain ⟨⟨id', ρ0, b'⟩, h4, h5⟩ := h1
        cases h5
        exact ⟨ρ0, h4⟩
      refine ⟨R, τ, .refl hI, ⟨ρ0, b0, h3, h2⟩, ?_, ?_⟩
      rotate_left
      · rw [TE.visit, if_pos]
        rw [List.any_map, List.any_eq_true]
        exact ⟨_, h3, h2⟩
      have := (hI.recTy id ρ0 b0 h3).1
      rw [TE.eqv_ty h2] at this
      exact this
    | none =>
      have h1 := newTypeName_ok cas "Fix" nm s
      revert h1
      cases s.newTypeName cas "Fix" nm with
      | error e => exact id
      | ok p =>
        obtain ⟨name, s1⟩ := p
        intro hs
        have hs : SameTables s s1 := hs
        have hI1 := hI.same hs
        simp only [Except.bind]
        cases hA with
        | fix _ _ _ _ hb =>
        -- the state in which the body is generated
        have hnew : ∀ ρ' b', (s1.data.length, ρ', b') ∈ R → False := by
          intro ρ' b' hm
          have := (hI1.recTy _ _ _ hm).1.lt hI1
          omega
        have hext : Ext s1.data (s1.data ++ [⟨name, .bad, [], [], false⟩]) := .append _ _
        have hpre : τ <+: τ ++ [b.ty] := List.prefix_append _ _
        have hR : R ⊆ (s1.data.length, ρ, b) :: R := fun _ h => by simp [h]
        have hI2 : Inv root { s1 with
            fixMap := (b, s1.data.length) :: s1.fixMap
            data := s1.data ++ [⟨name, .bad, [], [], false⟩]
            context := s1.context ++ [s1.data.length] } ((s1.data.length, ρ, b) :: R) (τ ++ [b.ty]) := by
          have hold : ∀ id n, nodeAt s1.data id = n → n ≠ .bad →
              nodeAt (s1.data ++ [⟨name, .bad, [], [], false⟩]) id = n := by
            intro id n hn hb
            rw [hext.keep id (by rw [hn]; exact hb), hn]
          refine ⟨hI1.eps, by simp [hI1.len], ?_, ?_, ?_, ?_, ?_, ?_, ?_, ?_, ?_⟩
          · intro str id hm
            obtain ⟨h1, h2⟩ := hI1.lit str id hm
            exact ⟨hold _ _ h1 (by simp), h2.mono hpre⟩
          · intro ids id hm
            obtain ⟨h1, tys, h2, h3⟩ := hI1.cat ids id hm
            exact ⟨hold _ _ h1 (by simp), tys, h2.mono (fun _ _ => TyAt.mono hpre), h3.mono hpre⟩
          · intro ids id hm
            obtain ⟨tys, h1, h2, h3⟩ := hI1.alt ids id hm
            exact ⟨tys, hold _ _ h1 (by simp), h2.mono (fun _ _ => TyAt.mono hpre), h3.mono hpre⟩
          · intro f id hm
            obtain ⟨h1, t', h2, h3⟩ := hI1.var f id hm
            exact ⟨hold _ _ h1 (by simp), t', h2.mono hpre, h3.mono hpre⟩
          · simp [hI1.fix]
          · intro f hf
            simp only [List.mem_append, List.mem_singleton] at hf
            rcases hf with hf | rfl
            · obtain ⟨h1, h2⟩ := hI1.ctx f hf
              refine ⟨by simp; omega, ?_⟩
              rw [nodeAt_append, if_neg (by omega)]
              exact h2
            · refine ⟨by simp, ?_⟩
              rw [nodeAt_append, if_pos rfl]
          · intro id ρ' b' hm
            rcases List.mem_cons.1 hm with he | hm
            · cases he
              exact ⟨by rw [TyAt, ← hI1.len]; simp, nm, hO⟩
            · obtain ⟨h1, h2⟩ := hI1.recTy id ρ' b' hm
              exact ⟨h1.mono hpre, h2⟩
          · intro id ρ1 b1 ρ2 b2 hm1 hm2
            rcases List.mem_cons.1 hm1 with he1 | hm1 <;> rcases List.mem_cons.1 hm2 with he2 | hm2
            · cases he1; cases he2; exact ⟨rfl, rfl⟩
            · cases he1; exact (hnew _ _ hm2).elim
            · cases he2; exact (hnew _ _ hm1).elim
            · exact hI1.recFun id ρ1 b1 ρ2 b2 hm1 hm2
          · intro id ρ' b' hm
            rcases List.mem_cons.1 hm with he | hm
            · cases he
              left; simp
            · rcases hI1.done id ρ' b' hm with h1 | ⟨j, h1, h2⟩
              · left; simp [h1]
              · exact .inr ⟨j, hold _ _ h1 (by simp), h2.mono hext hR b' _ j⟩
        have hc2 : CtxOk (s1.context ++ [s1.data.length]) (b :: ρ) ((s1.data.length, ρ, b) :: R) := by
          refine ⟨by simp [hs.ctx, hc.1], ?_⟩
          intro i b' ρ' hd
          cases i with
          | zero =>
            simp only [List.drop_zero, List.cons.injEq] at hd
            obtain ⟨rfl, rfl⟩ := hd
            exact ⟨s1.data.length, by simp, by simp⟩
          | succ i =>
            obtain ⟨f, h1, h2⟩ := hc.2 i b' ρ' (by simpa using hd)
            exact ⟨f, by simpa [hs.ctx] using h1, by simp [h2]⟩
        have hrec := gen_sim cas root b _ _ _ (b :: ρ) (b.ty :: Γ) (k + 1) hI2 hc2 (.cons b k hE hb) hb hO.fix
        revert hrec
        generalize gen cas b _ = r
        intro hrec
        rcases r with e | ⟨j, s3⟩
        · exact hrec
        · obtain ⟨R3, τ3, hg, hi, ht, hv⟩ := hrec
          have hj := ht.lt hg.inv
          simp only [List.getElem?_eq_getElem hj]
          have hctx3 : s3.context = s1.context ++ [s1.data.length] := hg.ctx
          have hid := hg.inv.ctx s1.data.length (by rw [hctx3]; simp)
          have hlt : ∀ f ∈ s1.context, f ≠ s1.data.length := by
            intro f hf
            have := (hI1.ctx f hf).1
            omega
          have hext4 : Ext s3.data (s3.data.set s1.data.length ⟨name, .alias j, [], [j], false⟩) := .set hid.2 _
          have hnode : nodeAt (s3.data.set s1.data.length ⟨name, .alias j, [], [j], false⟩) s1.data.length = .alias j := by
            rw [nodeAt_set, if_pos ⟨rfl, hid.1⟩]
          have hmem : (s1.data.length, ρ, b) ∈ R3 := hg.recs (by simp)
          refine ⟨R3, τ3, ⟨?_, ?_, fun _ h => hg.recs (by simp [h]), hpre.trans hg.ty, ?_⟩, ?_, ?_, ?_⟩
          · simp [hctx3, hs.ctx]
          · rw [← hs.data]
            exact hext.trans (hg.ext.trans hext4)
          · have hI3 := hg.inv
            have hold : ∀ id n, nodeAt s3.data id = n → n ≠ .bad →
                nodeAt (s3.data.set s1.data.length ⟨name, .alias j, [], [j], false⟩) id = n := by
              intro id n hn hb
              rw [hext4.keep id (by rw [hn]; exact hb), hn]
            refine ⟨hI3.eps, by simp [hI3.len], ?_, ?_, ?_, ?_, hI3.fix, ?_, hI3.recTy, hI3.recFun, ?_⟩
            · intro str id hm
              obtain ⟨h1, h2⟩ := hI3.lit str id hm
              exact ⟨hold _ _ h1 (by simp), h2⟩
            · intro ids id hm
              obtain ⟨h1, tys, h2, h3⟩ := hI3.cat ids id hm
              exact ⟨hold _ _ h1 (by simp), tys, h2, h3⟩
            · intro ids id hm
              obtain ⟨tys, h1, h2, h3⟩ := hI3.alt ids id hm
              exact ⟨tys, hold _ _ h1 (by simp), h2, h3⟩
            · intro f id hm
              obtain ⟨h1, t', h2, h3⟩ := hI3.var f id hm
              exact ⟨hold _ _ h1 (by simp), t', h2, h3⟩
            · intro f hf
              simp only [hctx3, List.dropLast_concat] at hf
              obtain ⟨h1, h2⟩ := hI3.ctx f (by rw [hctx3]; simp [hf])
              refine ⟨by simpa using h1, ?_⟩
              rw [nodeAt_set, if_neg (fun h => hlt f hf h.1)]
              exact h2
            · intro id ρ' b' hm
              simp only [hctx3, List.dropLast_concat]
              rcases hI3.done id ρ' b' hm with h1 | ⟨j', h1, h2⟩
              · rw [hctx3] at h1
                simp only [List.mem_append, List.mem_singleton] at h1
                rcases h1 with h1 | rfl
                · exact .inl h1
                · obtain ⟨rfl, rfl⟩ := hI3.recFun _ _ _ _ _ hm hmem
                  exact .inr ⟨j, hnode, hi.mono hext4 (fun _ h => h) b' _ j⟩
              · exact .inr ⟨j', hold _ _ h1 (by simp), h2.mono hext4 (fun _ h => h) b' _ j'⟩
          · exact ⟨ρ, b, hmem, by
              -- an expression equals itself
              exact TE.eqv_refl b⟩
          · exact (hg.inv.recTy _ _ _ hmem).1
          · rw [hv, TE.visit, if_neg]
            · rfl
            · rw [List.any_map, List.any_eq_true]
              rintro ⟨⟨id', ρ', b'⟩, h1, h2⟩
              have h3 : (b', id') ∈ s.fixMap := by rw [hI.fix, List.mem_map]; exact ⟨_, h1, rfl⟩
              simp only [BState.findFix, Option.map_eq_none_iff, List.find?_eq_none] at hf
              exact hf _ h3 h2
  | .var nm i ty, s, R, τ, ρ, Γ, k, hI, hc, hE, hA, hO => by
    cases hA with
    | var _ _ _ _ _ h1 h2 =>
      obtain ⟨b, ρ', Γ', k', h3, rfl, h4, h5⟩ := hE.get h1
      obtain ⟨f, h6, h7⟩ := hc.2 i b ρ' h3
      have hi : i < s.context.length := by
        have := congrArg List.length h3
        simp at this
        rw [hc.1]; omega
      have hft := (hI.recTy f ρ' b h7).1
      have hfl := hft.lt hI
      rw [reverse_get hi] at h6
      simp only [gen, genVar, if_pos hi, h6]
      cases hl : s.varMap.lookup f with
      | some id =>
        obtain ⟨h8, t, h9, h10⟩ := hI.var f id (mem_of_lookup hl)
        refine ⟨R, τ, .refl hI, ⟨f, b, ρ', h8, h3, h7⟩, ?_, rfl⟩
        rw [TyAt, hft] at h9
        cases h9
        exact h10
      | none =>
        simp only [List.getElem?_eq_getElem hfl]
        refine ⟨R, τ ++ [b.ty], hI.push _ b.ty ?_ rfl hI.eps (.inl rfl) (.inl rfl) (.inl rfl)
          (.inr ⟨f, rfl, rfl, hft⟩) rfl rfl, ⟨f, b, ρ', ?_, h3, h7⟩, ?_, rfl⟩
        · simp
        · simp [nodeAt_append]
        · simp [TyAt, ← hI.len, TE.ty]
theorem genL_sim (cas : Casing) (root : TE) : ∀ (l : List TE) (s : BState) (R : Records) (τ : List Ty) (ρ : List TE)
    (Γ : List Ty), Inv root s R τ → CtxOk s.context ρ R → AnnEnv Γ ρ → (∀ t ∈ l, ∃ k, Ann Γ k t) →
    (∀ t ∈ l, Occ root ρ t) → GenOk (genL cas l s) (PostL root s R τ ρ l)
  | [], s, R, τ, ρ, Γ, hI, hc, hE, hA, hO => ⟨R, τ, .refl hI, rfl, .nil, rfl⟩
  | e :: l, s, R, τ, ρ, Γ, hI, hc, hE, hA, hO => by
    obtain ⟨k, hk⟩ := hA e (by simp)
    simp only [genL]
    refine GenOk.bind (gen_sim cas root e s R τ ρ Γ k hI hc hE hk (hO e (by simp))) ?_
    rintro id s1 ⟨R1, τ1, hg, hi, ht, hv⟩
    have hrec := genL_sim cas root l s1 R1 τ1 ρ Γ hg.inv (by rw [hg.ctx]; exact hc.mono hg.recs) hE
      (fun t h => hA t (by simp [h])) (fun t h => hO t (by simp [h]))
    revert hrec
    generalize genL cas l s1 = r
    intro hrec
    rcases r with e | ⟨ids, s2⟩
    · exact hrec
    · obtain ⟨R2, τ2, hg2, hi2, ht2, hv2⟩ := hrec
      exact ⟨R2, τ2, hg.trans hg2, ⟨id, ids, rfl, hi.mono hg2.ext hg2.recs e ρ id, hi2⟩, .cons (ht.mono hg2.ty) ht2, by rw [hv2, hv, TE.visitL]⟩
end

end Chomp
