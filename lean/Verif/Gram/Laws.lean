import Verif.Ast.Refactor
import Verif.Gram.Lemmas

/-! # The laws of `Ast/Refactor.lean` preserve types and languages -/

namespace Chomp

/-- What can be done with the first grammar can be done with the second, and they have the same
language. -/
structure Gram.Keeps (g g' : Gram) : Prop where
  ty : ∀ Γ k τ, HasTy Γ k g τ → HasTy Γ k g' τ
  lang : ∀ (ρ : Nat → Lang) (w : List Char), g.lang ρ w ↔ g'.lang ρ w

/-! ### Types -/

theorem Ty.ext' {a b : Ty} (hn : a.nullable = true ↔ b.nullable = true) (hf : ∀ c, c ∈ a.first ↔ c ∈ b.first)
    (hl : ∀ c, c ∈ a.flast ↔ c ∈ b.flast) : a = b := by
  obtain ⟨n, f, l⟩ := a
  obtain ⟨n', f', l'⟩ := b
  have h1 : n = n' := Bool.eq_iff_iff.2 hn
  have h2 : f = f' := CharSet.ext hf
  have h3 : l = l' := CharSet.ext hl
  subst h1 h2 h3
  rfl

mutual
/-- Fewer guarded variables. -/
theorem HasTy.unguard : ∀ {Γ : List Ty} {k : Nat} {g : Gram} {τ : Ty}, HasTy Γ k g τ → ∀ {k' : Nat}, k' ≤ k → HasTy Γ k' g τ
  | _, _, _, _, .eps Γ k, _, _ => .eps _ _
  | _, _, _, _, .lit Γ k s, _, _ => .lit _ _ _
  | _, _, _, _, .cat _ _ _ _ _ _ h1 h2 h3, _, hk => .cat _ _ _ _ _ _ (h1.unguard hk) h2 h3
  | _, _, _, _, .alt _ _ _ _ _ _ h1 h2, _, hk => .alt _ _ _ _ _ _ (h1.unguard hk) (h2.unguard hk)
  | _, _, _, _, .fix _ _ _ _ h, _, hk => .fix _ _ _ _ (h.unguard (Nat.succ_le_succ hk))
  | _, _, _, _, .var _ _ _ _ h1 h2, _, hk => .var _ _ _ _ h1 (Nat.le_trans hk h2)
theorem HasTyAlt.unguard : ∀ {Γ : List Ty} {k : Nat} {τ : Ty} {l : List Gram} {σ : Ty}, HasTyAlt Γ k τ l σ →
    ∀ {k' : Nat}, k' ≤ k → HasTyAlt Γ k' τ l σ
  | _, _, _, _, _, .nil _ _ _, _, _ => .nil _ _ _
  | _, _, _, _, _, .cons _ _ _ _ _ _ _ h1 h2 h3 h4, _, hk =>
    .cons _ _ _ _ _ _ _ (h1.unguard hk) h2 h3 (h4.unguard hk)
end

/-- The type of an alternation of the given types. -/
structure Ty.Union (σ : Ty) (τs : List Ty) : Prop where
  nullable : σ.nullable = true ↔ ∃ τ ∈ τs, τ.nullable = true
  first : ∀ c, c ∈ σ.first ↔ ∃ τ ∈ τs, c ∈ τ.first
  flast : ∀ c, c ∈ σ.flast ↔ ∃ τ ∈ τs, c ∈ τ.flast

theorem Ty.Union.unique {σ σ' : Ty} {τs : List Ty} (h : σ.Union τs) (h' : σ'.Union τs) : σ = σ' :=
  Ty.ext' (h.nullable.trans h'.nullable.symm) (fun c => (h.first c).trans (h'.first c).symm)
    fun c => (h.flast c).trans (h'.flast c).symm

theorem Ty.Union.of_mem {σ : Ty} {τs τs' : List Ty} (h : σ.Union τs) (hm : ∀ τ, τ ∈ τs ↔ τ ∈ τs') : σ.Union τs' := by
  refine ⟨h.nullable.trans ?_, fun c => (h.first c).trans ?_, fun c => (h.flast c).trans ?_⟩ <;>
  simp only [hm]

theorem Ty.Union.cons {τ : Ty} {τs : List Ty} (σ : Ty) (h : σ.Union ((τ.alt ρ) :: τs)) : σ.Union (τ :: ρ :: τs) := by
  refine ⟨h.nullable.trans ?_, fun c => (h.first c).trans ?_, fun c => (h.flast c).trans ?_⟩ <;>
  simp [Ty.alt, or_assoc]

theorem Ty.union_foldl : ∀ (τs : List Ty) (τ : Ty), (τs.foldl Ty.alt τ).Union (τ :: τs)
  | [], τ => ⟨by simp, by simp, by simp⟩
  | ρ :: τs, τ => (Ty.union_foldl τs (τ.alt ρ)).cons

theorem Ty.Sep.alt {τ ρ σ : Ty} (h1 : τ.Sep σ) (h2 : ρ.Sep σ) : (τ.alt ρ).Sep σ := by
  refine ⟨?_, ?_⟩
  · rintro ⟨h, h'⟩
    simp only [Ty.alt, Bool.or_eq_true] at h
    rcases h with h | h
    · exact h1.1 ⟨h, h'⟩
    · exact h2.1 ⟨h, h'⟩
  · intro c hc
    simp only [Ty.alt, CharSet.mem_union] at hc
    rcases hc with hc | hc
    · exact h1.2 c hc
    · exact h2.2 c hc

theorem alt_foldl {Γ : List Ty} {k : Nat} : ∀ {l : List Gram} {τs : List Ty} {τ : Ty}, All2 (HasTy Γ k) l τs →
    τs.Pairwise Ty.Sep → (∀ τ' ∈ τs, τ.Sep τ') → HasTyAlt Γ k τ l (τs.foldl Ty.alt τ)
  | _, _, _, .nil, _, _ => .nil _ _ _
  | _, _, τ, .cons (b := σ) h1 h2, hp, hs => by
    rw [List.pairwise_cons] at hp
    have h0 := hs σ (by simp)
    exact .cons _ _ _ _ _ _ _ h1 h0.1 h0.2
      (alt_foldl h2 hp.2 fun τ' hm => (hs τ' (by simp [hm])).alt (hp.1 τ' hm))

/-- The branches of an alternation, their types and its type. -/
theorem hasTy_alt_iff {Γ : List Ty} {k : Nat} {l : List Gram} {σ : Ty} :
    HasTy Γ k (.alt l) σ ↔ ∃ τs, All2 (HasTy Γ k) l τs ∧ τs.Pairwise Ty.Sep ∧ l ≠ [] ∧ σ.Union τs := by
  constructor
  · intro h
    obtain ⟨τs, h1, h2, h3, h4, h5⟩ := alt_inv' h
    refine ⟨τs, h1, h2, ?_, h3, h4, h5⟩
    cases h; simp
  · rintro ⟨τs, h1, h2, h3, h4⟩
    cases h1 with
    | nil => exact absurd rfl h3
    | @cons g τ l τs h1 h1' =>
      rw [List.pairwise_cons] at h2
      rw [h4.unique (Ty.union_foldl τs τ)]
      exact .alt _ _ _ _ _ _ h1 (alt_foldl h1' h2.2 h2.1)

theorem All2.perm {α β : Type} {R : α → β → Prop} {l l' : List α} (h : l.Perm l') : ∀ {m : List β}, All2 R l m →
    ∃ m', m.Perm m' ∧ All2 R l' m' := by
  induction h with
  | nil => intro m h; exact ⟨m, .refl _, h⟩
  | cons x _ ih =>
    intro m h
    cases h with
    | cons h1 h2 =>
      obtain ⟨m', h3, h4⟩ := ih h2
      exact ⟨_, h3.cons _, .cons h1 h4⟩
  | swap x y l =>
    intro m h
    cases h with
    | cons h1 h2 =>
      cases h2 with
      | cons h2 h3 => exact ⟨_, .swap _ _ _, .cons h2 (.cons h1 h3)⟩
  | trans _ _ ih1 ih2 =>
    intro m h
    obtain ⟨m1, h1, h2⟩ := ih1 h
    obtain ⟨m2, h3, h4⟩ := ih2 h2
    exact ⟨m2, h1.trans h3, h4⟩

theorem All2.append {α β : Type} {R : α → β → Prop} {a b : List α} {c d : List β} (h1 : All2 R a c) (h2 : All2 R b d) :
    All2 R (a ++ b) (c ++ d) := by
  induction h1 with
  | nil => exact h2
  | cons h _ ih => exact .cons h ih

theorem All2.append_inv {α β : Type} {R : α → β → Prop} : ∀ {a b : List α} {m : List β}, All2 R (a ++ b) m →
    ∃ c d, m = c ++ d ∧ All2 R a c ∧ All2 R b d
  | [], _, m, h => ⟨[], m, rfl, .nil, h⟩
  | x :: a, b, _, .cons h1 h2 => by
    obtain ⟨c, d, rfl, h3, h4⟩ := All2.append_inv (a := a) h2
    exact ⟨_ :: c, d, rfl, .cons h1 h3, h4⟩

theorem Ty.Union.sep {σ ρ : Ty} {τs : List Ty} (h : σ.Union τs) : σ.Sep ρ ↔ ∀ τ ∈ τs, τ.Sep ρ := by
  constructor
  · intro hs τ hm
    exact ⟨fun h' => hs.1 ⟨h.nullable.2 ⟨τ, hm, h'.1⟩, h'.2⟩, fun c hc => hs.2 c ((h.first c).2 ⟨τ, hm, hc⟩)⟩
  · intro hs
    refine ⟨?_, ?_⟩
    · rintro ⟨h1, h2⟩
      obtain ⟨τ, hm, h1⟩ := h.nullable.1 h1
      exact (hs τ hm).1 ⟨h1, h2⟩
    · intro c hc
      obtain ⟨τ, hm, h1⟩ := (h.first c).1 hc
      exact (hs τ hm).2 c h1

theorem Ty.Union.nest {σ ρ : Ty} {p τs q : List Ty} (h : ρ.Union τs) : σ.Union (p ++ ρ :: q) ↔ σ.Union (p ++ τs ++ q) := by
  have h1 : (∃ τ ∈ p ++ ρ :: q, τ.nullable = true) ↔ ∃ τ ∈ p ++ τs ++ q, τ.nullable = true := by
    have := h.nullable
    grind
  have h2 : ∀ c, (∃ τ ∈ p ++ ρ :: q, c ∈ τ.first) ↔ ∃ τ ∈ p ++ τs ++ q, c ∈ τ.first := by
    intro c
    have := h.first c
    grind
  have h3 : ∀ c, (∃ τ ∈ p ++ ρ :: q, c ∈ τ.flast) ↔ ∃ τ ∈ p ++ τs ++ q, c ∈ τ.flast := by
    intro c
    have := h.flast c
    grind
  exact ⟨fun h => ⟨h.nullable.trans h1, fun c => (h.first c).trans (h2 c), fun c => (h.flast c).trans (h3 c)⟩,
    fun h => ⟨h.nullable.trans h1.symm, fun c => (h.first c).trans (h2 c).symm, fun c => (h.flast c).trans (h3 c).symm⟩⟩

theorem Ty.Sep.comm {a b : Ty} : a.Sep b ↔ b.Sep a := ⟨.symm, .symm⟩

theorem Ty.Union.pairwise {ρ : Ty} {p τs q : List Ty} (h : ρ.Union τs) (hp : τs.Pairwise Ty.Sep) :
    (p ++ ρ :: q).Pairwise Ty.Sep ↔ (p ++ τs ++ q).Pairwise Ty.Sep := by
  have h1 : ∀ x, ρ.Sep x ↔ ∀ τ ∈ τs, τ.Sep x := fun x => h.sep
  have h2 : ∀ x : Ty, x.Sep ρ ↔ ∀ τ ∈ τs, x.Sep τ := fun x => by
    rw [Ty.Sep.comm, h1]
    exact forall_congr' fun τ => forall_congr' fun _ => Ty.Sep.comm
  simp only [List.append_assoc, List.pairwise_append, List.pairwise_cons, List.mem_cons, List.mem_append]
  constructor
  · rintro ⟨a1, ⟨a2, a3⟩, a4⟩
    refine ⟨a1, ⟨hp, a3, fun τ ht x hx => (h1 x).1 (a2 x hx) τ ht⟩, ?_⟩
    intro x hx y hy
    rcases hy with hy | hy
    · exact (h2 x).1 (a4 x hx ρ (.inl rfl)) y hy
    · exact a4 x hx y (.inr hy)
  · rintro ⟨a1, ⟨_, a3, a2⟩, a4⟩
    refine ⟨a1, ⟨fun x hx => (h1 x).2 fun τ ht => a2 τ ht x hx, a3⟩, ?_⟩
    intro x hx y hy
    rcases hy with rfl | hy
    · exact (h2 x).2 fun τ ht => a4 x hx τ (.inl ht)
    · exact a4 x hx y (.inr hy)

theorem hasTy_alt_perm {Γ : List Ty} {k : Nat} {l l' : List Gram} {σ : Ty} (hp : l.Perm l') (h : HasTy Γ k (.alt l) σ) :
    HasTy Γ k (.alt l') σ := by
  obtain ⟨τs, h1, h2, h3, h4⟩ := hasTy_alt_iff.1 h
  obtain ⟨τs', h5, h6⟩ := h1.perm hp
  refine hasTy_alt_iff.2 ⟨τs', h6, (h5.pairwise_iff (fun h => Ty.Sep.symm h)).1 h2, ?_, h4.of_mem fun τ => h5.mem_iff⟩
  intro hn
  subst hn
  exact h3 hp.eq_nil

theorem hasTy_alt_flat {Γ : List Ty} {k : Nat} {pre l post : List Gram} {σ : Ty} (hl : l ≠ []) :
    HasTy Γ k (.alt (pre ++ .alt l :: post)) σ ↔ HasTy Γ k (.alt (pre ++ l ++ post)) σ := by
  constructor
  · intro h
    obtain ⟨τs, h1, h2, h3, h4⟩ := hasTy_alt_iff.1 h
    obtain ⟨τp, τq, rfl, h5, h6⟩ := h1.append_inv
    cases h6 with
    | @cons _ ρ _ τq h6 h7 =>
      obtain ⟨τl, h8, h9, h10, h11⟩ := hasTy_alt_iff.1 h6
      exact hasTy_alt_iff.2 ⟨τp ++ τl ++ τq, (h5.append h8).append h7, (h11.pairwise h9).1 h2, by simp [hl], h11.nest.1 h4⟩
  · intro h
    obtain ⟨τs, h1, h2, h3, h4⟩ := hasTy_alt_iff.1 h
    obtain ⟨τs', τq, rfl, h5, h6⟩ := h1.append_inv
    obtain ⟨τp, τl, rfl, h7, h8⟩ := h5.append_inv
    have hp : τl.Pairwise Ty.Sep := by
      simp only [List.append_assoc, List.pairwise_append] at h2
      exact h2.2.1.1
    obtain ⟨ρ, hρ⟩ : ∃ ρ : Ty, ρ.Union τl := by
      cases h8 with
      | nil => exact absurd rfl hl
      | @cons _ τ _ τl => exact ⟨_, Ty.union_foldl τl τ⟩
    exact hasTy_alt_iff.2 ⟨τp ++ ρ :: τq, h7.append (.cons (hasTy_alt_iff.2 ⟨τl, h8, hp, hl, hρ⟩) h6),
      (hρ.pairwise hp).2 h2, by simp, hρ.nest.2 h4⟩

theorem hasTyCat_append {Γ : List Ty} {l' : List Gram} {υ : Ty} : ∀ {l : List Gram} {τ : Ty},
    HasTyCat Γ τ (l ++ l') υ ↔ ∃ σ, HasTyCat Γ τ l σ ∧ HasTyCat Γ σ l' υ
  | [], τ => ⟨fun h => ⟨τ, .nil _ _, h⟩, by rintro ⟨_, h1, h2⟩; cases h1; exact h2⟩
  | g :: l, τ => by
    constructor
    · intro h
      cases h with
      | cons _ _ _ _ σ _ h1 h2 h3 =>
        obtain ⟨ρ, h4, h5⟩ := hasTyCat_append.1 h3
        exact ⟨ρ, .cons _ _ _ _ _ _ h1 h2 h4, h5⟩
    · rintro ⟨ρ, h4, h5⟩
      cases h4 with
      | cons _ _ _ _ σ _ h1 h2 h3 => exact .cons _ _ _ _ _ _ h1 h2 (hasTyCat_append.2 ⟨ρ, h3, h5⟩)

theorem Ty.cat_assoc {a b c : Ty} (hb : b.nullable = false) : (a.cat b).cat c = a.cat (b.cat c) := by
  apply Ty.ext'
  · simp [Ty.cat, hb]
  · intro x; simp only [Ty.cat, hb]; cases a.nullable <;> simp
  · intro x; simp only [Ty.cat, hb]; cases c.nullable <;> simp

/-- What precedes a concatenation that cannot be empty only matters for how it starts. -/
theorem HasTyCat.prefix {Γ : List Ty} (τ : Ty) : ∀ {l : List Gram} {σ υ : Ty}, HasTyCat Γ σ l υ → σ.nullable = false →
    HasTyCat Γ (τ.cat σ) l (τ.cat υ) ∧ υ.nullable = false ∧ υ.first = σ.first
  | [], _, _, h, hn => by cases h; exact ⟨.nil _ _, hn, rfl⟩
  | g :: l, σ, υ, h, hn => by
    cases h with
    | cons _ _ _ _ η _ h1 h2 h3 =>
      have hn' : (σ.cat η).nullable = false := by simp [Ty.cat, hn]
      obtain ⟨h4, h5, h6⟩ := HasTyCat.prefix τ h3 hn'
      refine ⟨.cons _ _ _ _ η _ h1 ?_ ?_, h5, h6.trans (by simp [Ty.cat, hn])⟩
      · intro c hc
        refine h2 c ?_
        simpa [Ty.cat, hn] using hc
      · rw [Ty.cat_assoc hn]; exact h4

theorem hasTy_cat_flat {Γ : List Ty} {k : Nat} {pre l post : List Gram} {σ : Ty}
    (h : HasTy Γ k (.cat (pre ++ .cat l :: post)) σ) : HasTy Γ k (.cat (pre ++ l ++ post)) σ := by
  cases pre with
  | nil =>
    cases h with
    | cat _ _ _ _ τ _ h1 h2 h3 =>
      cases h1 with
      | cat _ _ g l τ' _ h4 h5 h6 => exact .cat _ _ _ _ _ _ h4 h5 (hasTyCat_append.2 ⟨τ, h6, h3⟩)
  | cons p pre =>
    cases h with
    | cat _ _ _ _ τ _ h1 h2 h3 =>
      refine .cat _ _ _ _ _ _ h1 h2 ?_
      obtain ⟨τ1, h4, h5⟩ := hasTyCat_append.1 h3
      show HasTyCat Γ τ (pre ++ l ++ post) σ
      rw [List.append_assoc]
      refine hasTyCat_append.2 ⟨τ1, h4, ?_⟩
      cases h5 with
      | cons _ _ _ _ η _ h6 h7 h8 =>
        cases h6 with
        | cat _ _ g l η' _ h9 h10 h11 =>
          obtain ⟨h12, _, h13⟩ := h11.prefix τ1 h10
          refine .cons _ _ _ _ η' _ h9 ?_ (hasTyCat_append.2 ⟨_, h12, h8⟩)
          rw [← h13]; exact h7

theorem hasTy_cat_nest {Γ : List Ty} {k : Nat} {l post : List Gram} {σ : Ty} (hl : l ≠ [])
    (h : HasTy Γ k (.cat (l ++ post)) σ) : HasTy Γ k (.cat (.cat l :: post)) σ := by
  cases l with
  | nil => exact absurd rfl hl
  | cons g l =>
    cases h with
    | cat _ _ _ _ τ _ h1 h2 h3 =>
      obtain ⟨τ1, h4, h5⟩ := hasTyCat_append.1 h3
      exact .cat _ _ _ _ _ _ (.cat _ _ _ _ _ _ h1 h2 h4) (h4.prefix τ h2).2.1 h5

theorem Ty.cat_eps (τ : Ty) : τ.cat ⟨true, .empty, .empty⟩ = τ := by
  apply Ty.ext'
  · simp [Ty.cat]
  · intro c; simp only [Ty.cat]; cases τ.nullable <;> simp
  · intro c; simp [Ty.cat]

theorem hasTy_cat_eps {Γ : List Ty} {k : Nat} {pre post : List Gram} {σ : Ty} (hp : pre ≠ []) :
    HasTy Γ k (.cat (pre ++ .eps :: post)) σ ↔ HasTy Γ k (.cat (pre ++ post)) σ := by
  cases pre with
  | nil => exact absurd rfl hp
  | cons g pre =>
    constructor
    · intro h
      cases h with
      | cat _ _ _ _ τ _ h1 h2 h3 =>
        refine .cat _ _ _ _ _ _ h1 h2 ?_
        obtain ⟨τ1, h4, h5⟩ := hasTyCat_append.1 h3
        refine hasTyCat_append.2 ⟨τ1, h4, ?_⟩
        cases h5 with
        | cons _ _ _ _ η _ h6 h7 h8 =>
          cases h6
          rwa [Ty.cat_eps] at h8
    · intro h
      cases h with
      | cat _ _ _ _ τ _ h1 h2 h3 =>
        refine .cat _ _ _ _ _ _ h1 h2 ?_
        obtain ⟨τ1, h4, h5⟩ := hasTyCat_append.1 h3
        refine hasTyCat_append.2 ⟨τ1, h4, .cons _ _ _ _ _ _ (.eps _ _) (by simp) ?_⟩
        rwa [Ty.cat_eps]

theorem Ty.cat_lit {s t : List Char} (hs : s ≠ []) :
    (⟨(s ++ t).isEmpty, .ofStr (s ++ t), .empty⟩ : Ty) = Ty.cat ⟨s.isEmpty, .ofStr s, .empty⟩ ⟨t.isEmpty, .ofStr t, .empty⟩ := by
  cases s with
  | nil => exact absurd rfl hs
  | cons c s =>
    apply Ty.ext'
    · simp [Ty.cat]
    · intro x; simp [Ty.cat, CharSet.ofStr]
    · intro x
      cases t with
      | nil => simp [Ty.cat, CharSet.ofStr]
      | cons d t => simp [Ty.cat]

theorem hasTy_lit_split {Γ : List Ty} {k : Nat} {s t : List Char} {σ : Ty} (hs : s ≠ [])
    (h : HasTy Γ k (.lit (s ++ t)) σ) : HasTy Γ k (.cat [.lit s, .lit t]) σ := by
  cases h
  rw [Ty.cat_lit hs]
  exact .cat _ _ _ _ _ _ (.lit _ _ _) (by simpa using hs) (.cons _ _ _ _ _ _ (.lit _ _ _) (by simp) (.nil _ _))

theorem hasTy_lit_join {Γ : List Ty} {k : Nat} {s t : List Char} {σ : Ty}
    (h : HasTy Γ k (.cat [.lit s, .lit t]) σ) : HasTy Γ k (.lit (s ++ t)) σ := by
  cases h with
  | cat _ _ _ _ τ _ h1 h2 h3 =>
    cases h1
    cases h3 with
    | cons _ _ _ _ η _ h4 h5 h6 =>
      cases h4
      cases h6
      have hs : s ≠ [] := by
        intro h
        subst h
        simp at h2
      rw [← Ty.cat_lit hs]
      exact .lit _ _ _

theorem Ty.Union.cat {σ : Ty} {τs : List Ty} (h : σ.Union τs) (hne : τs ≠ []) (hn : ∀ τ ∈ τs, τ.nullable = false) (η : Ty) :
    (σ.cat η).Union (τs.map fun τ => τ.cat η) := by
  have hs : σ.nullable = false := by
    cases hs : σ.nullable with
    | false => rfl
    | true =>
      obtain ⟨τ, hm, h'⟩ := h.nullable.1 hs
      rw [hn τ hm] at h'
      cases h'
  refine ⟨?_, ?_, ?_⟩
  · simp only [Ty.cat, hs, Bool.false_and, List.mem_map]
    constructor
    · intro h; cases h
    · rintro ⟨_, ⟨τ, hm, rfl⟩, h⟩
      simp [hn τ hm] at h
  · intro c
    simp only [Ty.cat, hs, List.mem_map]
    simp only [Bool.false_eq_true, if_false, h.first]
    constructor
    · rintro ⟨τ, hm, hc⟩
      exact ⟨_, ⟨τ, hm, rfl⟩, by simpa [hn τ hm] using hc⟩
    · rintro ⟨_, ⟨τ, hm, rfl⟩, hc⟩
      exact ⟨τ, hm, by simpa [hn τ hm] using hc⟩
  · intro c
    obtain ⟨τ0, h0⟩ := List.exists_mem_of_ne_nil _ hne
    simp only [Ty.cat, List.mem_map]
    cases hη : η.nullable with
    | false =>
      simp only [Bool.false_eq_true, if_false]
      exact ⟨fun hc => ⟨_, ⟨τ0, h0, rfl⟩, hc⟩, by rintro ⟨_, ⟨τ, hm, rfl⟩, hc⟩; exact hc⟩
    | true =>
      simp only [if_true, CharSet.mem_union, h.flast]
      constructor
      · rintro ((⟨τ, hm, hc⟩ | hc) | hc)
        · exact ⟨_, ⟨τ, hm, rfl⟩, by simp [hc]⟩
        · exact ⟨_, ⟨τ0, h0, rfl⟩, by simp [hc]⟩
        · exact ⟨_, ⟨τ0, h0, rfl⟩, by simp [hc]⟩
      · rintro ⟨_, ⟨τ, hm, rfl⟩, hc⟩
        simp only [CharSet.mem_union] at hc
        rcases hc with (hc | hc) | hc
        · exact .inl (.inl ⟨τ, hm, hc⟩)
        · exact .inl (.inr hc)
        · exact .inr hc

theorem hasTyCat_union {Γ : List Ty} : ∀ {post : List Gram} {τ σ : Ty} {τs : List Ty}, HasTyCat Γ τ post σ → τ.Union τs →
    τs ≠ [] → (∀ τ ∈ τs, τ.nullable = false) →
    ∃ σs, All2 (fun τ σ => HasTyCat Γ τ post σ ∧ σ.nullable = false ∧ σ.first = τ.first) τs σs ∧ σ.Union σs
  | [], _, _, τs, h, hu, hne, hn => by
    cases h
    exact ⟨τs, All2.same fun τ hm => ⟨.nil _ _, hn τ hm, rfl⟩, hu⟩
  | g :: post, τ, σ, τs, h, hu, hne, hn => by
    cases h with
    | cons _ _ _ _ η _ h1 h2 h3 =>
      obtain ⟨σs, h4, h5⟩ := hasTyCat_union h3 (hu.cat hne hn η) (by simpa using hne) (by
        intro τ' hm
        obtain ⟨τ1, hm1, rfl⟩ := List.mem_map.1 hm
        simp [Ty.cat, hn τ1 hm1])
      refine ⟨σs, ?_, h5⟩
      have key : ∀ (τs : List Ty) (σs : List Ty), (∀ τ' ∈ τs, τ'.nullable = false ∧ ∀ c, c ∈ τ'.flast → c ∈ τ.flast) →
          All2 (fun τ σ => HasTyCat Γ τ post σ ∧ σ.nullable = false ∧ σ.first = τ.first) (τs.map fun τ => τ.cat η) σs →
          All2 (fun τ σ => HasTyCat Γ τ (g :: post) σ ∧ σ.nullable = false ∧ σ.first = τ.first) τs σs := by
        intro τs
        induction τs with
        | nil => intro σs _ h; cases h; exact .nil
        | cons τ' τs ih =>
          intro σs hτ h
          cases h with
          | cons h h' =>
            refine .cons ⟨.cons _ _ _ _ _ _ h1 ?_ h.1, h.2.1, h.2.2.trans ?_⟩ (ih _ (fun x hx => hτ x (by simp [hx])) h')
            · intro c hc
              exact h2 c ((hτ τ' (by simp)).2 c hc)
            · simp [Ty.cat, (hτ τ' (by simp)).1]
      exact key τs σs (fun τ' hm => ⟨hn τ' hm, fun c hc => (hu.flast c).2 ⟨τ', hm, hc⟩⟩) h4

theorem hasTy_distrib {Γ : List Ty} {k : Nat} {l post : List Gram} {σ : Ty} (h : HasTy Γ k (.cat (.alt l :: post)) σ) :
    HasTy Γ k (.alt (l.map fun g => .cat (g :: post))) σ := by
  cases h with
  | cat _ _ _ _ τ _ h1 h2 h3 =>
    obtain ⟨τs, h4, h5, h6, h7⟩ := hasTy_alt_iff.1 h1
    have hn : ∀ τ' ∈ τs, τ'.nullable = false := by
      intro τ' hm
      cases h : τ'.nullable with
      | false => rfl
      | true => rw [h7.nullable.2 ⟨τ', hm, h⟩] at h2; cases h2
    have hne : τs ≠ [] := by
      intro h
      subst h
      cases h4
      exact h6 rfl
    obtain ⟨σs, h8, h9⟩ := hasTyCat_union h3 h7 hne hn
    refine hasTy_alt_iff.2 ⟨σs, ?_, ?_, by simpa using h6, h9⟩
    · clear h1 h7 h9 hne h5 h6
      induction h4 generalizing σs with
      | nil => cases h8; exact .nil
      | cons h _ ih =>
        cases h8 with
        | cons h8 h8' =>
          exact .cons (.cat _ _ _ _ _ _ h (hn _ (by simp)) h8.1) (ih (fun τ' hm => hn τ' (by simp [hm])) _ h8')
    · clear h1 h4 h7 h9 hne h6 hn
      induction h8 with
      | nil => exact .nil
      | @cons τ0 σ0 τs σs h _ ih =>
        rw [List.pairwise_cons] at h5 ⊢
        refine ⟨?_, ih h5.2⟩
        rename_i hall
        intro σ' hm
        have : ∃ τ' ∈ τs, σ'.nullable = false ∧ σ'.first = τ'.first := by
          clear ih h5
          induction hall with
          | nil => simp at hm
          | cons h' _ ih' =>
            rcases List.mem_cons.1 hm with rfl | hm
            · exact ⟨_, by simp, h'.2⟩
            · obtain ⟨τ', h1, h2⟩ := ih' hm
              exact ⟨τ', by simp [h1], h2⟩
        obtain ⟨τ', hm', h1, h2⟩ := this
        refine ⟨fun h' => by rw [h1] at h'; exact absurd h'.2 (by simp), ?_⟩
        intro c hc
        rw [h2]
        rw [h.2.2] at hc
        exact (h5.1 τ' hm').2 c hc

/-! ### Renaming and substitution -/

mutual
/-- Rename the free variables of a grammar. -/
def Gram.rn (f : Nat → Nat) : Gram → Gram
  | .eps => .eps
  | .lit s => .lit s
  | .cat l => .cat (Gram.rnL f l)
  | .alt l => .alt (Gram.rnL f l)
  | .fix b => .fix (b.rn (upr 1 f))
  | .var k => .var (f k)
def Gram.rnL (f : Nat → Nat) : List Gram → List Gram
  | [] => []
  | e :: l => e.rn f :: Gram.rnL f l
end

/-- Below a fix point. -/
def gup (γ : Nat → Gram) : Nat → Gram := fun i => if i < 1 then .var i else (γ (i - 1)).rn (· + 1)

mutual
/-- Substitute for the free variables of a grammar. -/
def Gram.sb (γ : Nat → Gram) : Gram → Gram
  | .eps => .eps
  | .lit s => .lit s
  | .cat l => .cat (Gram.sbL γ l)
  | .alt l => .alt (Gram.sbL γ l)
  | .fix b => .fix (b.sb (gup γ))
  | .var k => γ k
def Gram.sbL (γ : Nat → Gram) : List Gram → List Gram
  | [] => []
  | e :: l => e.sb γ :: Gram.sbL γ l
end

/-- Fix points over lambdas with one parameter only. -/
abbrev unary : Nat → Bool := fun n => n == 1

mutual
theorem gram_rn : ∀ (c : Core) (g : Gram) (f : Nat → Nat), c.gram unary = some g → (c.ren f).gram unary = some (g.rn f)
  | .eps, g, f, h => by simp only [Core.gram] at h; cases h; rfl
  | .lit s, g, f, h => by simp only [Core.gram] at h; cases h; rfl
  | .var k, g, f, h => by simp only [Core.gram] at h; cases h; rfl
  | .cat l, g, f, h => by
    simp only [Core.gram, Option.map_eq_some_iff] at h
    obtain ⟨gs, h, rfl⟩ := h
    simp only [Core.ren, Core.gram, gramL_rn l gs f h, Gram.rn, Option.map_some]
  | .alt l, g, f, h => by
    simp only [Core.gram, Option.map_eq_some_iff] at h
    obtain ⟨gs, h, rfl⟩ := h
    simp only [Core.ren, Core.gram, gramL_rn l gs f h, Gram.rn, Option.map_some]
  | .fix (.lam n b), g, f, h => by
    simp only [Core.gram] at h
    split at h
    · rename_i hn
      simp only [unary, beq_iff_eq] at hn
      subst hn
      simp only [Option.map_eq_some_iff] at h
      obtain ⟨g', h, rfl⟩ := h
      simp only [Core.ren, Core.gram, gram_rn b g' _ h, Gram.rn, Option.map_some]
      rfl
    · cases h
  | .call _ _, _, _, h | .lam _ _, _, _, h | .letE _ _, _, _, h => by simp only [Core.gram] at h; cases h
  | .fix .eps, _, _, h | .fix (.lit _), _, _, h | .fix (.cat _), _, _, h | .fix (.alt _), _, _, h
  | .fix (.fix _), _, _, h | .fix (.var _), _, _, h | .fix (.call _ _), _, _, h
  | .fix (.letE _ _), _, _, h => by simp only [Core.gram] at h; cases h
theorem gramL_rn : ∀ (l : List Core) (gs : List Gram) (f : Nat → Nat), Core.gramL unary l = some gs →
    Core.gramL unary (Core.renL f l) = some (Gram.rnL f gs)
  | [], gs, f, h => by simp only [Core.gramL] at h; cases h; rfl
  | e :: l, gs, f, h => by
    simp only [Core.gramL, Option.bind_eq_some_iff, Option.map_eq_some_iff] at h
    obtain ⟨g, h1, gs, h2, rfl⟩ := h
    simp only [Core.renL, Core.gramL, gram_rn e g f h1, gramL_rn l gs f h2, Gram.rnL, Option.bind_some, Option.map_some]
end

mutual
theorem gram_sb : ∀ (c : Core) (g : Gram) (σ : Nat → Core) (γ : Nat → Gram), c.gram unary = some g →
    (∀ i, (σ i).gram unary = some (γ i)) → (c.sub σ).gram unary = some (g.sb γ)
  | .eps, g, σ, γ, h, _ => by simp only [Core.gram] at h; cases h; rfl
  | .lit s, g, σ, γ, h, _ => by simp only [Core.gram] at h; cases h; rfl
  | .var k, g, σ, γ, h, hs => by simp only [Core.gram] at h; cases h; exact hs k
  | .cat l, g, σ, γ, h, hs => by
    simp only [Core.gram, Option.map_eq_some_iff] at h
    obtain ⟨gs, h, rfl⟩ := h
    simp only [Core.sub, Core.gram, gramL_sb l gs σ γ h hs, Gram.sb, Option.map_some]
  | .alt l, g, σ, γ, h, hs => by
    simp only [Core.gram, Option.map_eq_some_iff] at h
    obtain ⟨gs, h, rfl⟩ := h
    simp only [Core.sub, Core.gram, gramL_sb l gs σ γ h hs, Gram.sb, Option.map_some]
  | .fix (.lam n b), g, σ, γ, h, hs => by
    simp only [Core.gram] at h
    split at h
    · rename_i hn
      simp only [unary, beq_iff_eq] at hn
      subst hn
      simp only [Option.map_eq_some_iff] at h
      obtain ⟨g', h, rfl⟩ := h
      have hs' : ∀ i, (up 1 σ i).gram unary = some (gup γ i) := by
        intro i
        simp only [up, gup]
        split
        · rfl
        · exact gram_rn _ _ _ (hs _)
      simp only [Core.sub, Core.gram, gram_sb b g' _ _ h hs', Gram.sb, Option.map_some]
      rfl
    · cases h
  | .call _ _, _, _, _, h, _ | .lam _ _, _, _, _, h, _ | .letE _ _, _, _, _, h, _ => by simp only [Core.gram] at h; cases h
  | .fix .eps, _, _, _, h, _ | .fix (.lit _), _, _, _, h, _ | .fix (.cat _), _, _, _, h, _ | .fix (.alt _), _, _, _, h, _
  | .fix (.fix _), _, _, _, h, _ | .fix (.var _), _, _, _, h, _ | .fix (.call _ _), _, _, _, h, _
  | .fix (.letE _ _), _, _, _, h, _ => by simp only [Core.gram] at h; cases h
theorem gramL_sb : ∀ (l : List Core) (gs : List Gram) (σ : Nat → Core) (γ : Nat → Gram), Core.gramL unary l = some gs →
    (∀ i, (σ i).gram unary = some (γ i)) → Core.gramL unary (Core.subL σ l) = some (Gram.sbL γ gs)
  | [], gs, σ, γ, h, _ => by simp only [Core.gramL] at h; cases h; rfl
  | e :: l, gs, σ, γ, h, hs => by
    simp only [Core.gramL, Option.bind_eq_some_iff, Option.map_eq_some_iff] at h
    obtain ⟨g, h1, gs, h2, rfl⟩ := h
    simp only [Core.subL, Core.gramL, gram_sb e g σ γ h1 hs, gramL_sb l gs σ γ h2 hs, Gram.sbL, Option.bind_some,
      Option.map_some]
end

theorem push_upr (X : Lang) (ρ : Nat → Lang) (f : Nat → Nat) : (fun i => X.push ρ (upr 1 f i)) = X.push fun i => ρ (f i) := by
  funext i
  cases i with
  | zero => simp [upr, Lang.push]
  | succ i => simp [upr, Lang.push]

mutual
theorem lang_rn : ∀ (g : Gram) (f : Nat → Nat) (ρ : Nat → Lang), (g.rn f).lang ρ = g.lang fun i => ρ (f i)
  | .eps, f, ρ => rfl
  | .lit s, f, ρ => rfl
  | .cat l, f, ρ => by simp only [Gram.rn, Gram.lang]; exact langCat_rn l f ρ
  | .alt l, f, ρ => by simp only [Gram.rn, Gram.lang]; exact langAlt_rn l f ρ
  | .fix b, f, ρ => by
    simp only [Gram.rn, Gram.lang]
    funext w
    refine propext (forall_congr' fun X => ?_)
    rw [lang_rn b (upr 1 f) (X.push ρ), push_upr]
  | .var k, f, ρ => rfl
theorem langCat_rn : ∀ (l : List Gram) (f : Nat → Nat) (ρ : Nat → Lang),
    Gram.langCat (Gram.rnL f l) ρ = Gram.langCat l fun i => ρ (f i)
  | [], f, ρ => rfl
  | g :: l, f, ρ => by simp only [Gram.rnL, Gram.langCat, lang_rn g f ρ, langCat_rn l f ρ]
theorem langAlt_rn : ∀ (l : List Gram) (f : Nat → Nat) (ρ : Nat → Lang),
    Gram.langAlt (Gram.rnL f l) ρ = Gram.langAlt l fun i => ρ (f i)
  | [], f, ρ => rfl
  | g :: l, f, ρ => by simp only [Gram.rnL, Gram.langAlt, lang_rn g f ρ, langAlt_rn l f ρ]
end

theorem push_gup (X : Lang) (ρ : Nat → Lang) (γ : Nat → Gram) :
    (fun i => (gup γ i).lang (X.push ρ)) = X.push fun i => (γ i).lang ρ := by
  funext i
  cases i with
  | zero => simp [gup, Lang.push, Gram.lang]
  | succ i => simp [gup, Lang.push, lang_rn]

mutual
theorem lang_sb : ∀ (g : Gram) (γ : Nat → Gram) (ρ : Nat → Lang), (g.sb γ).lang ρ = g.lang fun i => (γ i).lang ρ
  | .eps, γ, ρ => rfl
  | .lit s, γ, ρ => rfl
  | .cat l, γ, ρ => by simp only [Gram.sb, Gram.lang]; exact langCat_sb l γ ρ
  | .alt l, γ, ρ => by simp only [Gram.sb, Gram.lang]; exact langAlt_sb l γ ρ
  | .fix b, γ, ρ => by
    simp only [Gram.sb, Gram.lang]
    funext w
    refine propext (forall_congr' fun X => ?_)
    rw [lang_sb b (gup γ) (X.push ρ), push_gup]
  | .var k, γ, ρ => rfl
theorem langCat_sb : ∀ (l : List Gram) (γ : Nat → Gram) (ρ : Nat → Lang),
    Gram.langCat (Gram.sbL γ l) ρ = Gram.langCat l fun i => (γ i).lang ρ
  | [], γ, ρ => rfl
  | g :: l, γ, ρ => by simp only [Gram.sbL, Gram.langCat, lang_sb g γ ρ, langCat_sb l γ ρ]
theorem langAlt_sb : ∀ (l : List Gram) (γ : Nat → Gram) (ρ : Nat → Lang),
    Gram.langAlt (Gram.sbL γ l) ρ = Gram.langAlt l fun i => (γ i).lang ρ
  | [], γ, ρ => rfl
  | g :: l, γ, ρ => by simp only [Gram.sbL, Gram.langAlt, lang_sb g γ ρ, langAlt_sb l γ ρ]
end

mutual
theorem lang_le : ∀ (g : Gram) {ρ ρ' : Nat → Lang}, (∀ k w, ρ k w → ρ' k w) → ∀ w, g.lang ρ w → g.lang ρ' w
  | .eps, _, _, _, _, h => h
  | .lit _, _, _, _, _, h => h
  | .cat l, _, _, hρ, w, h => by simp only [Gram.lang] at h ⊢; exact langCat_le l hρ w h
  | .alt l, _, _, hρ, w, h => by simp only [Gram.lang] at h ⊢; exact langAlt_le l hρ w h
  | .fix b, _, _, hρ, w, h => by
    simp only [Gram.lang] at h ⊢
    intro X hX
    refine h X fun v hv => hX v (lang_le b (fun k w hk => ?_) v hv)
    cases k with
    | zero => exact hk
    | succ k => exact hρ k w hk
  | .var k, _, _, hρ, w, h => hρ k w h
theorem langCat_le : ∀ (l : List Gram) {ρ ρ' : Nat → Lang}, (∀ k w, ρ k w → ρ' k w) → ∀ w, Gram.langCat l ρ w →
    Gram.langCat l ρ' w
  | [], _, _, _, _, h => h
  | g :: l, _, _, hρ, w, h => by
    simp only [Gram.langCat] at h ⊢
    obtain ⟨u, v, rfl, h1, h2⟩ := h
    exact ⟨u, v, rfl, lang_le g hρ u h1, langCat_le l hρ v h2⟩
theorem langAlt_le : ∀ (l : List Gram) {ρ ρ' : Nat → Lang}, (∀ k w, ρ k w → ρ' k w) → ∀ w, Gram.langAlt l ρ w →
    Gram.langAlt l ρ' w
  | [], _, _, _, _, h => h
  | g :: l, _, _, hρ, w, h => by
    simp only [Gram.langAlt] at h ⊢
    exact h.imp (lang_le g hρ w) (langAlt_le l hρ w)
end

/-- The fix-point equation. -/
theorem lang_fix (b : Gram) (ρ : Nat → Lang) (w : List Char) :
    (Gram.fix b).lang ρ w ↔ b.lang (((Gram.fix b).lang ρ).push ρ) w := by
  have h1 : ∀ w, b.lang (((Gram.fix b).lang ρ).push ρ) w → (Gram.fix b).lang ρ w := by
    intro w h
    simp only [Gram.lang] at h ⊢
    intro X hX
    refine hX w (lang_le b (fun k v hk => ?_) w h)
    cases k with
    | zero => exact hk X hX
    | succ k => exact hk
  refine ⟨fun h => ?_, h1 w⟩
  have h' := h
  simp only [Gram.lang] at h'
  refine h' (b.lang (((Gram.fix b).lang ρ).push ρ)) fun v hv => lang_le b (fun k u hk => ?_) v hv
  cases k with
  | zero => exact h1 u hk
  | succ k => exact hk

mutual
theorem HasTy.rn : ∀ {Γ : List Ty} {k : Nat} {g : Gram} {τ : Ty}, HasTy Γ k g τ → ∀ {Γ' : List Ty} {k' : Nat} {f : Nat → Nat},
    (∀ i τ, Γ[i]? = some τ → Γ'[f i]? = some τ ∧ (k ≤ i → k' ≤ f i)) → HasTy Γ' k' (g.rn f) τ
  | _, _, _, _, .eps _ _, _, _, _, _ => .eps _ _
  | _, _, _, _, .lit _ _ _, _, _, _, _ => .lit _ _ _
  | _, _, _, _, .cat _ _ _ _ _ _ h1 h2 h3, _, _, _, hf => .cat _ _ _ _ _ _ (h1.rn hf) h2 (h3.rn fun i τ h => (hf i τ h).1)
  | _, _, _, _, .alt _ _ _ _ _ _ h1 h2, _, _, _, hf => .alt _ _ _ _ _ _ (h1.rn hf) (h2.rn hf)
  | _, _, _, _, .fix _ _ _ τ h, _, _, f, hf => by
    refine .fix _ _ _ _ (h.rn fun i σ hi => ?_)
    cases i with
    | zero => simpa [upr] using hi
    | succ i =>
      have := hf i σ (by simpa using hi)
      refine ⟨by simpa [upr] using this.1, fun hk => ?_⟩
      have := this.2 (by omega)
      simp only [upr, Nat.add_sub_cancel]
      split <;> omega
  | _, _, _, _, .var _ _ i τ h1 h2, _, _, _, hf => .var _ _ _ _ (hf i τ h1).1 ((hf i τ h1).2 h2)
theorem HasTyCat.rn : ∀ {Γ : List Ty} {τ : Ty} {l : List Gram} {σ : Ty}, HasTyCat Γ τ l σ → ∀ {Γ' : List Ty} {f : Nat → Nat},
    (∀ i τ, Γ[i]? = some τ → Γ'[f i]? = some τ) → HasTyCat Γ' τ (Gram.rnL f l) σ
  | _, _, _, _, .nil _ _, _, _, _ => .nil _ _
  | _, _, _, _, .cons _ _ _ _ _ _ h1 h2 h3, _, _, hf =>
    .cons _ _ _ _ _ _ (h1.rn fun i τ h => ⟨hf i τ h, fun _ => Nat.zero_le _⟩) h2 (h3.rn hf)
theorem HasTyAlt.rn : ∀ {Γ : List Ty} {k : Nat} {τ : Ty} {l : List Gram} {σ : Ty}, HasTyAlt Γ k τ l σ →
    ∀ {Γ' : List Ty} {k' : Nat} {f : Nat → Nat},
    (∀ i τ, Γ[i]? = some τ → Γ'[f i]? = some τ ∧ (k ≤ i → k' ≤ f i)) → HasTyAlt Γ' k' τ (Gram.rnL f l) σ
  | _, _, _, _, _, .nil _ _ _, _, _, _, _ => .nil _ _ _
  | _, _, _, _, _, .cons _ _ _ _ _ _ _ h1 h2 h3 h4, _, _, _, hf => .cons _ _ _ _ _ _ _ (h1.rn hf) h2 h3 (h4.rn hf)
end

mutual
theorem HasTy.sb : ∀ {Γ : List Ty} {k : Nat} {g : Gram} {τ : Ty}, HasTy Γ k g τ → ∀ {Γ' : List Ty} {k' : Nat} {γ : Nat → Gram},
    (∀ i τ, Γ[i]? = some τ → HasTy Γ' 0 (γ i) τ ∧ (k ≤ i → HasTy Γ' k' (γ i) τ)) → HasTy Γ' k' (g.sb γ) τ
  | _, _, _, _, .eps _ _, _, _, _, _ => .eps _ _
  | _, _, _, _, .lit _ _ _, _, _, _, _ => .lit _ _ _
  | _, _, _, _, .cat _ _ _ _ _ _ h1 h2 h3, _, _, _, hf => .cat _ _ _ _ _ _ (h1.sb hf) h2 (h3.sb fun i τ h => (hf i τ h).1)
  | _, _, _, _, .alt _ _ _ _ _ _ h1 h2, _, _, _, hf => .alt _ _ _ _ _ _ (h1.sb hf) (h2.sb hf)
  | _, _, _, _, .fix _ _ _ τ h, _, _, γ, hf => by
    refine .fix _ _ _ _ (h.sb fun i σ hi => ?_)
    cases i with
    | zero =>
      simp only [gup]
      refine ⟨?_, fun h => by omega⟩
      exact .var _ _ _ _ (by simpa using hi) (Nat.zero_le _)
    | succ i =>
      have := hf i σ (by simpa using hi)
      simp only [gup, Nat.add_sub_cancel]
      refine ⟨?_, fun hk => ?_⟩
      · exact this.1.rn fun j ρ hj => ⟨by simpa using hj, fun _ => Nat.zero_le _⟩
      · exact (this.2 (by omega)).rn fun j ρ hj => ⟨by simpa using hj, fun _ => by omega⟩
  | _, _, _, _, .var _ _ i τ h1 h2, _, _, _, hf => (hf i τ h1).2 h2
theorem HasTyCat.sb : ∀ {Γ : List Ty} {τ : Ty} {l : List Gram} {σ : Ty}, HasTyCat Γ τ l σ → ∀ {Γ' : List Ty} {γ : Nat → Gram},
    (∀ i τ, Γ[i]? = some τ → HasTy Γ' 0 (γ i) τ) → HasTyCat Γ' τ (Gram.sbL γ l) σ
  | _, _, _, _, .nil _ _, _, _, _ => .nil _ _
  | _, _, _, _, .cons _ _ _ _ _ _ h1 h2 h3, _, _, hf =>
    .cons _ _ _ _ _ _ (h1.sb fun i τ h => ⟨hf i τ h, fun _ => hf i τ h⟩) h2 (h3.sb hf)
theorem HasTyAlt.sb : ∀ {Γ : List Ty} {k : Nat} {τ : Ty} {l : List Gram} {σ : Ty}, HasTyAlt Γ k τ l σ →
    ∀ {Γ' : List Ty} {k' : Nat} {γ : Nat → Gram},
    (∀ i τ, Γ[i]? = some τ → HasTy Γ' 0 (γ i) τ ∧ (k ≤ i → HasTy Γ' k' (γ i) τ)) → HasTyAlt Γ' k' τ (Gram.sbL γ l) σ
  | _, _, _, _, _, .nil _ _ _, _, _, _, _ => .nil _ _ _
  | _, _, _, _, _, .cons _ _ _ _ _ _ _ h1 h2 h3 h4, _, _, _, hf => .cons _ _ _ _ _ _ _ (h1.sb hf) h2 h3 (h4.sb hf)
end

/-- What a fix point is replaced by when it is unfolded. -/
def ginst (g : Gram) : Nat → Gram
  | 0 => g
  | i + 1 => .var i

theorem hasTy_unfold {Γ : List Ty} {k : Nat} {b : Gram} {τ : Ty} (h : HasTy Γ k (.fix b) τ) :
    HasTy Γ k (b.sb (ginst (.fix b))) τ := by
  have h0 : HasTy Γ 0 (.fix b) τ := h.unguard (Nat.zero_le _)
  cases h with
  | fix _ _ _ _ h =>
    refine h.sb fun i σ hi => ?_
    cases i with
    | zero =>
      simp only [List.getElem?_cons_zero, Option.some.injEq] at hi
      subst hi
      exact ⟨h0, fun h => by omega⟩
    | succ i =>
      have hi : Γ[i]? = some σ := by simpa using hi
      exact ⟨.var _ _ _ _ hi (Nat.zero_le _), fun h => .var _ _ _ _ hi (by omega)⟩

theorem lang_unfold (b : Gram) (ρ : Nat → Lang) (w : List Char) :
    (Gram.fix b).lang ρ w ↔ (b.sb (ginst (.fix b))).lang ρ w := by
  rw [lang_sb, lang_fix]
  have : (fun i => (ginst (.fix b) i).lang ρ) = ((Gram.fix b).lang ρ).push ρ := by
    funext i
    cases i <;> rfl
  rw [this]

/-! ### Languages of lists -/

theorem langAlt_iff {l : List Gram} {ρ : Nat → Lang} {w : List Char} : Gram.langAlt l ρ w ↔ ∃ g ∈ l, g.lang ρ w := by
  induction l with
  | nil => simp [Gram.langAlt]
  | cons g l ih => simp [Gram.langAlt, ih]

theorem langCat_append {l l' : List Gram} {ρ : Nat → Lang} : ∀ {w : List Char},
    Gram.langCat (l ++ l') ρ w ↔ ∃ u v, w = u ++ v ∧ Gram.langCat l ρ u ∧ Gram.langCat l' ρ v := by
  induction l with
  | nil =>
    intro w
    refine ⟨fun h => ⟨[], w, rfl, rfl, h⟩, ?_⟩
    rintro ⟨u, v, rfl, h1, h⟩
    cases (show u = [] from h1)
    exact h
  | cons g l ih =>
    intro w
    simp only [List.cons_append, Gram.langCat, ih]
    constructor
    · rintro ⟨u, _, rfl, h1, u', v', rfl, h2, h3⟩
      exact ⟨u ++ u', v', by simp, ⟨u, u', rfl, h1, h2⟩, h3⟩
    · rintro ⟨_, v, rfl, ⟨u, u', rfl, h1, h2⟩, h3⟩
      exact ⟨u, u' ++ v, by simp, h1, u', v, rfl, h2, h3⟩

theorem langCat_one {g : Gram} {ρ : Nat → Lang} {w : List Char} : Gram.langCat [g] ρ w ↔ g.lang ρ w := by
  simp [Gram.langCat]

theorem langCat_cons {g : Gram} {l : List Gram} {ρ : Nat → Lang} {w : List Char} :
    Gram.langCat (g :: l) ρ w ↔ ∃ u v, w = u ++ v ∧ g.lang ρ u ∧ Gram.langCat l ρ v := Iff.rfl

theorem langCat_nested {pre l post : List Gram} {ρ : Nat → Lang} {w : List Char} :
    Gram.langCat (pre ++ .cat l :: post) ρ w ↔ Gram.langCat (pre ++ l ++ post) ρ w := by
  rw [List.append_assoc, langCat_append, langCat_append]
  refine exists_congr fun u => exists_congr fun v => and_congr_right fun _ => and_congr_right fun _ => ?_
  rw [langCat_append]
  rfl

/-! ### Congruence -/

theorem Gram.Keeps.refl (g : Gram) : g.Keeps g := ⟨fun _ _ _ h => h, fun _ _ => .rfl⟩

theorem Gram.Keeps.trans {a b c : Gram} (h1 : a.Keeps b) (h2 : b.Keeps c) : a.Keeps c :=
  ⟨fun _ _ _ h => h2.ty _ _ _ (h1.ty _ _ _ h), fun ρ w => (h1.lang ρ w).trans (h2.lang ρ w)⟩

theorem keeps_cat {l l' : List Gram} (h : All2 Gram.Keeps l l') : (Gram.cat l).Keeps (.cat l') := by
  have hc : ∀ {l l' : List Gram}, All2 Gram.Keeps l l' → ∀ {Γ τ σ}, HasTyCat Γ τ l σ → HasTyCat Γ τ l' σ := by
    intro l l' h
    induction h with
    | nil => exact fun h => h
    | cons h _ ih =>
      intro Γ τ σ ht
      cases ht with
      | cons _ _ _ _ _ _ h1 h2 h3 => exact .cons _ _ _ _ _ _ (h.ty _ _ _ h1) h2 (ih h3)
  constructor
  · intro Γ k τ ht
    cases h with
    | nil => exact ht
    | cons h h' =>
      cases ht with
      | cat _ _ _ _ _ _ h1 h2 h3 => exact .cat _ _ _ _ _ _ (h.ty _ _ _ h1) h2 (hc h' h3)
  · intro ρ
    simp only [Gram.lang]
    induction h with
    | nil => exact fun _ => .rfl
    | cons h _ ih =>
      intro w
      simp only [langCat_cons]
      exact exists_congr fun u => exists_congr fun v => and_congr_right fun _ => and_congr (h.lang ρ u) (ih v)

theorem keeps_alt {l l' : List Gram} (h : All2 Gram.Keeps l l') : (Gram.alt l).Keeps (.alt l') := by
  constructor
  · intro Γ k τ ht
    obtain ⟨τs, h1, h2, h3, h4⟩ := hasTy_alt_iff.1 ht
    refine hasTy_alt_iff.2 ⟨τs, ?_, h2, ?_, h4⟩
    · clear h2 h3 h4 ht
      induction h generalizing τs with
      | nil => exact h1
      | cons h _ ih =>
        cases h1 with
        | cons h1 h1' => exact .cons (h.ty _ _ _ h1) (ih _ h1')
    · intro hn
      subst hn
      cases h
      exact h3 rfl
  · intro ρ w
    simp only [Gram.lang]
    induction h with
    | nil => exact .rfl
    | cons h _ ih =>
      simp only [Gram.langAlt]
      exact or_congr (h.lang ρ w) ih

theorem keeps_fix {b b' : Gram} (h : b.Keeps b') : (Gram.fix b).Keeps (.fix b') := by
  constructor
  · intro Γ k τ ht
    cases ht with
    | fix _ _ _ _ h1 => exact .fix _ _ _ _ (h.ty _ _ _ h1)
  · intro ρ w
    simp only [Gram.lang]
    refine forall_congr' fun X => ?_
    constructor
    · intro h1 h2; exact h1 fun v hv => h2 v ((h.lang _ v).1 hv)
    · intro h1 h2; exact h1 fun v hv => h2 v ((h.lang _ v).2 hv)

/-! ### Grammars of lists -/

theorem gramL_iff {u : Nat → Bool} {l : List Core} {gs : List Gram} :
    Core.gramL u l = some gs ↔ All2 (fun e g => e.gram u = some g) l gs := by
  induction l generalizing gs with
  | nil =>
    constructor
    · intro h; simp only [Core.gramL] at h; cases h; exact .nil
    · intro h; cases h; rfl
  | cons e l ih =>
    simp only [Core.gramL, Option.bind_eq_some_iff, Option.map_eq_some_iff]
    constructor
    · rintro ⟨g, h1, gs, h2, rfl⟩
      exact .cons h1 (ih.1 h2)
    · intro h
      cases h with
      | cons h1 h2 => exact ⟨_, h1, _, ih.2 h2, rfl⟩

theorem gram_cat_iff {u : Nat → Bool} {l : List Core} {g : Gram} :
    (Core.cat l).gram u = some g ↔ ∃ gs, All2 (fun e g => e.gram u = some g) l gs ∧ g = .cat gs := by
  simp only [Core.gram, Option.map_eq_some_iff, gramL_iff]
  constructor
  · rintro ⟨gs, h, rfl⟩; exact ⟨gs, h, rfl⟩
  · rintro ⟨gs, h, rfl⟩; exact ⟨gs, h, rfl⟩

theorem gram_alt_iff {u : Nat → Bool} {l : List Core} {g : Gram} :
    (Core.alt l).gram u = some g ↔ ∃ gs, All2 (fun e g => e.gram u = some g) l gs ∧ g = .alt gs := by
  simp only [Core.gram, Option.map_eq_some_iff, gramL_iff]
  constructor
  · rintro ⟨gs, h, rfl⟩; exact ⟨gs, h, rfl⟩
  · rintro ⟨gs, h, rfl⟩; exact ⟨gs, h, rfl⟩

/-- What a law does to a grammar. -/
theorem Core.Law.gram {a b : Core} {g : Gram} (h : Core.Law a b) (hg : a.gram unary = some g) :
    ∃ g', b.gram unary = some g' ∧ g.Keeps g' := by
  cases h with
  | altPerm l l' h =>
    obtain ⟨gs, h1, rfl⟩ := gram_alt_iff.1 hg
    obtain ⟨gs', h2, h3⟩ := h1.perm h
    refine ⟨_, gram_alt_iff.2 ⟨gs', h3, rfl⟩, fun Γ k τ ht => hasTy_alt_perm h2 ht, fun ρ w => ?_⟩
    simp only [Gram.lang, langAlt_iff, h2.mem_iff]
  | altFlat pre l post =>
    obtain ⟨gs, h1, rfl⟩ := gram_alt_iff.1 hg
    obtain ⟨gp, gq, rfl, h2, h3⟩ := h1.append_inv
    cases h3 with
    | cons h3 h4 =>
      obtain ⟨gl, h5, rfl⟩ := gram_alt_iff.1 h3
      refine ⟨_, gram_alt_iff.2 ⟨_, (h2.append h5).append h4, rfl⟩, fun Γ k τ ht => ?_, fun ρ w => ?_⟩
      · refine (hasTy_alt_flat ?_).1 ht
        obtain ⟨τs, h6, _⟩ := hasTy_alt_iff.1 ht
        obtain ⟨_, _, _, _, h7⟩ := h6.append_inv
        cases h7 with
        | cons h7 _ => exact (hasTy_alt_iff.1 h7).choose_spec.2.2.1
      · simp only [Gram.lang, langAlt_iff]
        have : (Gram.alt gl).lang ρ w ↔ ∃ g ∈ gl, g.lang ρ w := by simp only [Gram.lang, langAlt_iff]
        simp only [List.mem_append, List.mem_cons]
        grind
  | altNest pre l post hl =>
    obtain ⟨gs, h1, rfl⟩ := gram_alt_iff.1 hg
    obtain ⟨gs', gq, rfl, h2, h3⟩ := h1.append_inv
    obtain ⟨gp, gl, rfl, h4, h5⟩ := h2.append_inv
    have hl' : gl ≠ [] := by
      intro h
      subst h
      cases h5
      exact hl rfl
    refine ⟨_, gram_alt_iff.2 ⟨_, h4.append (.cons (gram_alt_iff.2 ⟨gl, h5, rfl⟩) h3), rfl⟩,
      fun Γ k τ ht => (hasTy_alt_flat hl').2 ht, fun ρ w => ?_⟩
    simp only [Gram.lang, langAlt_iff]
    have : (Gram.alt gl).lang ρ w ↔ ∃ g ∈ gl, g.lang ρ w := by simp only [Gram.lang, langAlt_iff]
    simp only [List.mem_append, List.mem_cons]
    grind
  | altOne =>
    obtain ⟨gs, h1, rfl⟩ := gram_alt_iff.1 hg
    cases h1 with
    | @cons _ g _ _ h1 h2 =>
      cases h2
      refine ⟨g, h1, fun Γ k τ ht => ?_, fun ρ w => by simp [Gram.lang, Gram.langAlt]⟩
      cases ht with
      | alt _ _ _ _ _ _ h3 h4 => cases h4; exact h3
  | catFlat pre l post =>
    obtain ⟨gs, h1, rfl⟩ := gram_cat_iff.1 hg
    obtain ⟨gp, gq, rfl, h2, h3⟩ := h1.append_inv
    cases h3 with
    | cons h3 h4 =>
      obtain ⟨gl, h5, rfl⟩ := gram_cat_iff.1 h3
      refine ⟨_, gram_cat_iff.2 ⟨_, (h2.append h5).append h4, rfl⟩, fun Γ k τ ht => hasTy_cat_flat ht, fun ρ w => ?_⟩
      simp only [Gram.lang]
      exact langCat_nested
  | catNest l post hl =>
    obtain ⟨gs, h1, rfl⟩ := gram_cat_iff.1 hg
    obtain ⟨gl, gq, rfl, h2, h3⟩ := h1.append_inv
    have hl' : gl ≠ [] := by
      intro h
      subst h
      cases h2
      exact hl rfl
    refine ⟨_, gram_cat_iff.2 ⟨_, .cons (gram_cat_iff.2 ⟨gl, h2, rfl⟩) h3, rfl⟩, fun Γ k τ ht => hasTy_cat_nest hl' ht,
      fun ρ w => ?_⟩
    simp only [Gram.lang]
    exact (langCat_nested (pre := [])).symm
  | catOne =>
    obtain ⟨gs, h1, rfl⟩ := gram_cat_iff.1 hg
    cases h1 with
    | @cons _ g _ _ h1 h2 =>
      cases h2
      refine ⟨g, h1, fun Γ k τ ht => ?_, fun ρ w => by simp only [Gram.lang]; exact langCat_one⟩
      cases ht with
      | cat _ _ _ _ _ _ h3 _ h4 => cases h4; exact h3
  | litSplit s t hs =>
    simp only [Core.gram] at hg
    cases hg
    refine ⟨.cat [.lit s, .lit t], rfl, fun Γ k τ ht => hasTy_lit_split hs ht, fun ρ w => ?_⟩
    simp [Gram.lang, Gram.langCat]
  | litJoin s t =>
    have : g = .cat [.lit s, .lit t] := by
      have h2 : (Core.cat [.lit s, .lit t]).gram unary = some (.cat [.lit s, .lit t]) := rfl
      rw [h2] at hg
      cases hg; rfl
    subst this
    refine ⟨.lit (s ++ t), rfl, fun Γ k τ ht => hasTy_lit_join ht, fun ρ w => ?_⟩
    simp [Gram.lang, Gram.langCat]
  | epsLit =>
    simp only [Core.gram] at hg
    cases hg
    refine ⟨.lit [], rfl, fun Γ k τ ht => ?_, fun ρ w => .rfl⟩
    cases ht
    exact .lit _ _ _
  | litEps =>
    simp only [Core.gram] at hg
    cases hg
    refine ⟨.eps, rfl, fun Γ k τ ht => ?_, fun ρ w => .rfl⟩
    cases ht
    exact .eps _ _
  | catEps pre post hp =>
    obtain ⟨gs, h1, rfl⟩ := gram_cat_iff.1 hg
    obtain ⟨gp, gq, rfl, h2, h3⟩ := h1.append_inv
    have hp' : gp ≠ [] := by
      intro h
      subst h
      cases h2
      exact hp rfl
    refine ⟨_, gram_cat_iff.2 ⟨_, h2.append (.cons (by simp only [Core.gram]) h3), rfl⟩,
      fun Γ k τ ht => (hasTy_cat_eps hp').2 ht, fun ρ w => ?_⟩
    simp only [Gram.lang, langCat_append, langCat_cons]
    constructor
    · rintro ⟨u, v, rfl, h5, h6⟩; exact ⟨u, v, rfl, h5, [], v, rfl, rfl, h6⟩
    · rintro ⟨u, _, rfl, h5, u', v, rfl, h6, h7⟩
      cases (show u' = [] from h6)
      exact ⟨u, v, rfl, h5, h7⟩
  | catNoEps pre post =>
    obtain ⟨gs, h1, rfl⟩ := gram_cat_iff.1 hg
    obtain ⟨gp, gq, rfl, h2, h3⟩ := h1.append_inv
    cases h3 with
    | cons h3 h4 =>
      simp only [Core.gram] at h3
      cases h3
      refine ⟨_, gram_cat_iff.2 ⟨_, h2.append h4, rfl⟩, fun Γ k τ ht => ?_, fun ρ w => ?_⟩
      · refine (hasTy_cat_eps ?_).1 ht
        intro h
        subst h
        cases ht with
        | cat _ _ _ _ _ _ h5 h6 _ => cases h5; cases h6
      · simp only [Gram.lang, langCat_append, langCat_cons]
        constructor
        · rintro ⟨u, _, rfl, h5, u', v, rfl, h6, h7⟩
          cases (show u' = [] from h6)
          exact ⟨u, v, rfl, h5, h7⟩
        · rintro ⟨u, v, rfl, h5, h6⟩; exact ⟨u, v, rfl, h5, [], v, rfl, rfl, h6⟩
  | unfold b =>
    have hg' := hg
    simp only [Core.gram, unary, beq_self_eq_true, if_true, Option.map_eq_some_iff] at hg
    obtain ⟨gb, h1, rfl⟩ := hg
    refine ⟨_, gram_sb b gb _ (ginst (.fix gb)) h1 ?_, fun Γ k τ ht => hasTy_unfold ht, lang_unfold gb⟩
    intro i
    cases i with
    | zero => simpa [inst, ginst] using hg'
    | succ i => simp [inst, ginst, Core.gram]
  | distrib l post =>
    obtain ⟨gs, h1, rfl⟩ := gram_cat_iff.1 hg
    cases h1 with
    | @cons _ ga _ gq h1 h2 =>
      obtain ⟨gl, h3, rfl⟩ := gram_alt_iff.1 h1
      refine ⟨.alt (gl.map fun g => .cat (g :: gq)), gram_alt_iff.2 ⟨_, ?_, rfl⟩, fun Γ k τ ht => hasTy_distrib ht, fun ρ w => ?_⟩
      · clear h1 hg
        induction h3 with
        | nil => exact .nil
        | cons h _ ih => exact .cons (gram_cat_iff.2 ⟨_, .cons h h2, rfl⟩) ih
      · simp only [Gram.lang, langCat_cons, langAlt_iff, List.mem_map]
        constructor
        · rintro ⟨u, v, rfl, ⟨g, hm, h⟩, h'⟩
          exact ⟨_, ⟨g, hm, rfl⟩, u, v, rfl, h, h'⟩
        · rintro ⟨_, ⟨g, hm, rfl⟩, h⟩
          simp only [Gram.lang, langCat_cons] at h
          obtain ⟨u, v, rfl, h1, h2⟩ := h
          exact ⟨u, v, rfl, ⟨g, hm, h1⟩, h2⟩

mutual
/-- Applying laws to an expression that is a grammar gives a grammar with the same language and at least
the same types. -/
theorem Core.Refac.gram : ∀ {a b : Core}, Core.Refac a b →
    (∀ g, a.gram unary = some g → ∃ g', b.gram unary = some g' ∧ g.Keeps g') ∧
      ∀ n c, a = .lam n c → ∀ g, c.gram unary = some g → ∃ c' g', b = .lam n c' ∧ c'.gram unary = some g' ∧ g.Keeps g'
  | _, _, .eps => ⟨fun g h => ⟨g, h, .refl g⟩, by intro _ _ h; cases h⟩
  | _, _, .lit s => ⟨fun g h => ⟨g, h, .refl g⟩, by intro _ _ h; cases h⟩
  | _, _, .var k => ⟨fun g h => ⟨g, h, .refl g⟩, by intro _ _ h; cases h⟩
  | _, _, .cat l l' h => by
    refine ⟨fun g hg => ?_, by intro _ _ h; cases h⟩
    obtain ⟨gs, h1, rfl⟩ := gram_cat_iff.1 hg
    obtain ⟨gs', h2, h3⟩ := h.gram gs h1
    exact ⟨_, gram_cat_iff.2 ⟨gs', h2, rfl⟩, keeps_cat h3⟩
  | _, _, .alt l l' h => by
    refine ⟨fun g hg => ?_, by intro _ _ h; cases h⟩
    obtain ⟨gs, h1, rfl⟩ := gram_alt_iff.1 hg
    obtain ⟨gs', h2, h3⟩ := h.gram gs h1
    exact ⟨_, gram_alt_iff.2 ⟨gs', h2, rfl⟩, keeps_alt h3⟩
  | _, _, .fix b b' h => by
    refine ⟨fun g hg => ?_, by intro _ _ h; cases h⟩
    have ih := h.gram.2
    cases b with
    | lam n c =>
      simp only [Core.gram] at hg
      split at hg
      · rename_i hn
        simp only [Option.map_eq_some_iff] at hg
        obtain ⟨gb, h1, rfl⟩ := hg
        obtain ⟨c', g', rfl, h2, h3⟩ := ih n c rfl gb h1
        exact ⟨.fix g', by simp [Core.gram, hn, h2], keeps_fix h3⟩
      · cases hg
    | _ => simp only [Core.gram] at hg; cases hg
  | _, _, .call _ _ _ _ _ _ => ⟨(by intro g h; simp only [Core.gram] at h; cases h), (by intro _ _ h; cases h)⟩
  | _, _, .letE _ _ _ _ _ _ => ⟨(by intro g h; simp only [Core.gram] at h; cases h), (by intro _ _ h; cases h)⟩
  | _, _, .lam n b b' h => by
    refine ⟨(by intro g h; simp only [Core.gram] at h; cases h), ?_⟩
    intro n' c hc g hg
    cases hc
    obtain ⟨g', h1, h2⟩ := h.gram.1 g hg
    exact ⟨b', g', rfl, h1, h2⟩
  | _, _, .law a b c h hl => by
    have ih := h.gram
    refine ⟨fun g hg => ?_, fun n c' hc g hg => ?_⟩
    · obtain ⟨g1, h1, h2⟩ := ih.1 g hg
      obtain ⟨g2, h3, h4⟩ := hl.gram h1
      exact ⟨g2, h3, h2.trans h4⟩
    · obtain ⟨c1, g1, rfl, _⟩ := ih.2 n c' hc g hg
      cases hl
theorem Core.RefacL.gram : ∀ {l l' : List Core}, Core.RefacL l l' → ∀ gs, All2 (fun e g => e.gram unary = some g) l gs →
    ∃ gs', All2 (fun e g => e.gram unary = some g) l' gs' ∧ All2 Gram.Keeps gs gs'
  | _, _, .nil, gs, h => by cases h; exact ⟨[], .nil, .nil⟩
  | _, _, .cons e e' l l' h1 h2, gs, h => by
    cases h with
    | cons h3 h4 =>
      obtain ⟨g', h5, h6⟩ := h1.gram.1 _ h3
      obtain ⟨gs', h7, h8⟩ := h2.gram _ h4
      exact ⟨g' :: gs', .cons h5 h7, .cons h6 h8⟩
end

end Chomp
