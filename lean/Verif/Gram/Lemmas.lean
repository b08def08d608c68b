import Verif.Gram.Spec
import Verif.Ast.CoreLemmas

/-! Trees and languages; soundness of the typing rules; unambiguity. -/

namespace Chomp

/-! ## Trees describe the language -/

/-- The languages of the fix points of an environment. -/
def envLang (ρ : List Gram) : Nat → Lang := fun i w =>
  match ρ.drop i with
  | b :: ρ' => ∃ t, Der (b :: ρ') b t ∧ t.text = w
  | [] => False

theorem envLang_cons (b : Gram) (ρ : List Gram) :
    envLang (b :: ρ) = Lang.push (fun w => ∃ t, Der (b :: ρ) b t ∧ t.text = w) (envLang ρ) := by
  funext i
  cases i <;> rfl

mutual
theorem lang_der : ∀ (g : Gram) (ρ : List Gram) (w : List Char),
    g.lang (envLang ρ) w → ∃ t, Der ρ g t ∧ t.text = w
  | .eps, ρ, w, h => ⟨.eps, .eps ρ, h.symm⟩
  | .lit s, ρ, w, h => ⟨.lit s, .lit ρ s, h.symm⟩
  | .cat l, ρ, w, h => by
    obtain ⟨ts, h1, h2⟩ := langCat_der l ρ w h
    exact ⟨.cat ts, .cat ρ l ts h1, h2⟩
  | .alt l, ρ, w, h => by
    obtain ⟨k, g, t, h1, h2, h3⟩ := langAlt_der l ρ w h
    exact ⟨.alt k t, .alt ρ l k g t h1 h2, h3⟩
  | .fix b, ρ, w, h => by
    obtain ⟨t, h1, h2⟩ := h (fun w => ∃ t, Der (b :: ρ) b t ∧ t.text = w) (by
      intro v hv
      rw [← envLang_cons] at hv
      exact lang_der b (b :: ρ) v hv)
    exact ⟨t, .fix ρ b t h1, h2⟩
  | .var k, ρ, w, h => by
    simp only [Gram.lang, envLang] at h
    split at h
    · rename_i b ρ' hd
      obtain ⟨t, h1, h2⟩ := h
      exact ⟨.box t, .var ρ k b ρ' t hd h1, h2⟩
    · exact h.elim
theorem langCat_der : ∀ (l : List Gram) (ρ : List Gram) (w : List Char),
    Gram.langCat l (envLang ρ) w → ∃ ts, DerL ρ l ts ∧ Tree.textL ts = w
  | [], ρ, w, h => ⟨[], .nil ρ, h.symm⟩
  | g :: l, ρ, w, h => by
    obtain ⟨u, v, rfl, h1, h2⟩ := h
    obtain ⟨t, h3, rfl⟩ := lang_der g ρ u h1
    obtain ⟨ts, h4, rfl⟩ := langCat_der l ρ v h2
    exact ⟨t :: ts, .cons ρ g l t ts h3 h4, rfl⟩
theorem langAlt_der : ∀ (l : List Gram) (ρ : List Gram) (w : List Char),
    Gram.langAlt l (envLang ρ) w → ∃ (k : Nat) (g : Gram) (t : Tree), l[k]? = some g ∧ Der ρ g t ∧ t.text = w
  | [], ρ, w, h => h.elim
  | g :: l, ρ, w, h => by
    rcases h with h | h
    · obtain ⟨t, h1, h2⟩ := lang_der g ρ w h
      exact ⟨0, g, t, rfl, h1, h2⟩
    · obtain ⟨k, g', t, h1, h2, h3⟩ := langAlt_der l ρ w h
      exact ⟨k + 1, g', t, h1, h2, h3⟩
end

/-- `E` gives languages to the fix points of `ρ` that are closed under their bodies. -/
def PreModel (ρ : List Gram) (E : Nat → Lang) : Prop :=
  ∀ (i : Nat) (b : Gram) (ρ' : List Gram), ρ.drop i = b :: ρ' → ∀ v, b.lang (fun j => E (i + j)) v → E i v

theorem PreModel.push {ρ : List Gram} {E : Nat → Lang} (h : PreModel ρ E) {b : Gram} {X : Lang}
    (hX : ∀ v, b.lang (X.push E) v → X v) : PreModel (b :: ρ) (X.push E) := by
  intro i b' ρ' hd v hv
  cases i with
  | zero =>
    simp only [List.drop_zero, List.cons.injEq] at hd
    obtain ⟨rfl, rfl⟩ := hd
    have : (fun j => Lang.push X E (0 + j)) = X.push E := by funext j; simp
    rw [this] at hv
    exact hX v hv
  | succ i =>
    simp only [List.drop_succ_cons] at hd
    have : (fun j => Lang.push X E (i + 1 + j)) = fun j => E (i + j) := by
      funext j
      rw [show i + 1 + j = (i + j) + 1 by omega]; rfl
    rw [this] at hv
    exact h i b' ρ' hd v hv

theorem PreModel.drop {ρ : List Gram} {E : Nat → Lang} (h : PreModel ρ E) (k : Nat) :
    PreModel (ρ.drop k) (fun j => E (k + j)) := by
  intro i b ρ' hd v hv
  rw [List.drop_drop] at hd
  refine h (k + i) b ρ' hd v ?_
  have : (fun j => E (k + i + j)) = fun j => E (k + (i + j)) := by funext j; rw [Nat.add_assoc]
  rw [this]; exact hv

mutual
theorem der_lang : ∀ {ρ : List Gram} {g : Gram} {t : Tree}, Der ρ g t → ∀ E, PreModel ρ E → g.lang E t.text
  | _, _, _, .eps ρ, E, h => rfl
  | _, _, _, .lit ρ s, E, h => rfl
  | _, _, _, .cat ρ l ts hd, E, h => derL_lang hd E h
  | _, _, _, .alt ρ l k g t hk hd, E, h => langAlt_of (der_lang hd E h) hk
  | _, _, _, .fix ρ b t hd, E, h => by
    intro X hX
    exact hX _ (der_lang hd (X.push E) (h.push hX))
  | _, _, _, .var ρ k b ρ' t hk hd, E, h => by
    have h1 := der_lang hd (fun j => E (k + j)) (by rw [← hk]; exact h.drop k)
    exact h k b ρ' hk _ h1
theorem derL_lang : ∀ {ρ : List Gram} {l : List Gram} {ts : List Tree}, DerL ρ l ts →
    ∀ E, PreModel ρ E → Gram.langCat l E (Tree.textL ts)
  | _, _, _, .nil ρ, E, h => rfl
  | _, _, _, .cons ρ g l t ts h1 h2, E, h => ⟨t.text, Tree.textL ts, rfl, der_lang h1 E h, derL_lang h2 E h⟩
theorem langAlt_of {E : Nat → Lang} {w : List Char} {g : Gram} (h : g.lang E w) :
    ∀ {l : List Gram} {k : Nat}, l[k]? = some g → Gram.langAlt l E w
  | [], k, hk => by simp at hk
  | g' :: l, 0, hk => by simp at hk; subst hk; exact .inl h
  | g' :: l, k + 1, hk => .inr (langAlt_of h (by simpa using hk))
end

theorem preModel_envLang (ρ : List Gram) : PreModel ρ (envLang ρ) := by
  intro i b ρ' hd v hv
  have he : (fun j => envLang ρ (i + j)) = envLang (b :: ρ') := by
    funext j w
    rw [← hd]
    unfold envLang
    rw [List.drop_drop]
  rw [he] at hv
  obtain ⟨t, h1, h2⟩ := lang_der b (b :: ρ') v hv
  simp only [envLang, hd]
  exact ⟨t, h1, h2⟩

/-- The words of a grammar are the texts of its trees. -/
theorem lang_iff_der (g : Gram) (ρ : List Gram) (w : List Char) :
    g.lang (envLang ρ) w ↔ ∃ t, Der ρ g t ∧ t.text = w := by
  constructor
  · exact lang_der g ρ w
  · rintro ⟨t, h, rfl⟩
    exact der_lang h _ (preModel_envLang ρ)

theorem envLang_nil : envLang [] = fun _ _ => False := by
  funext i w
  simp [envLang]

theorem language_iff_der (g : Gram) (w : List Char) : g.language w ↔ ∃ t, Der [] g t ∧ t.text = w := by
  rw [Gram.language, ← envLang_nil]
  exact lang_iff_der g [] w

/-! ## Types describe words -/

/-- The bodies of the enclosing fix points have the types of their variables. -/
inductive EnvTy : List Ty → List Gram → Prop
  | nil : EnvTy [] []
  | cons {Γ : List Ty} {ρ : List Gram} (τ : Ty) (b : Gram) (k : Nat) : EnvTy Γ ρ → HasTy (τ :: Γ) (k + 1) b τ →
      EnvTy (τ :: Γ) (b :: ρ)

theorem EnvTy.drop {Γ : List Ty} {ρ : List Gram} (h : EnvTy Γ ρ) : ∀ i, EnvTy (Γ.drop i) (ρ.drop i) := by
  induction h with
  | nil => intro i; simp; exact .nil
  | cons τ b k h hb ih =>
    intro i
    cases i with
    | zero => exact .cons τ b k h hb
    | succ i => simpa using ih i

/-- The closure of a variable. -/
theorem EnvTy.get {Γ : List Ty} {ρ : List Gram} (h : EnvTy Γ ρ) {i : Nat} {b : Gram} {ρ' : List Gram} {τ : Ty}
    (hd : ρ.drop i = b :: ρ') (hΓ : Γ[i]? = some τ) :
    ∃ Γ' k, EnvTy (τ :: Γ') (b :: ρ') ∧ HasTy (τ :: Γ') (k + 1) b τ := by
  have h1 := h.drop i
  rw [hd] at h1
  cases hg : Γ.drop i with
  | nil => rw [hg] at h1; cases h1
  | cons σ Γ' =>
    have : σ = τ := by
      have h2 : (Γ.drop i)[0]? = some σ := by rw [hg]; rfl
      rw [List.getElem?_drop, Nat.add_zero, hΓ] at h2
      cases h2; rfl
    subst this
    rw [hg] at h1
    cases h1 with
    | cons _ _ k h1 h2 => exact ⟨Γ', k, .cons _ _ k h1 h2, h2⟩

/-- Two types are separated: at most one nullable and disjoint first sets. -/
def Ty.Sep (a b : Ty) : Prop :=
  ¬ (a.nullable = true ∧ b.nullable = true) ∧ ∀ c, c ∈ a.first → c ∉ b.first

theorem Ty.Sep.symm {a b : Ty} (h : a.Sep b) : b.Sep a :=
  ⟨fun h' => h.1 ⟨h'.2, h'.1⟩, fun c hb ha => h.2 c ha hb⟩

/-- The types of the branches of an alternation. -/
theorem alt_inv {Γ : List Ty} {k : Nat} : ∀ {τ : Ty} {l : List Gram} {σ : Ty}, HasTyAlt Γ k τ l σ →
    ∃ τs, All2 (HasTy Γ k) l τs ∧ τs.Pairwise Ty.Sep ∧ (∀ τ' ∈ τs, τ.Sep τ') ∧
      (σ.nullable = true ↔ τ.nullable = true ∨ ∃ τ' ∈ τs, τ'.nullable = true) ∧
      (∀ c, c ∈ σ.first ↔ c ∈ τ.first ∨ ∃ τ' ∈ τs, c ∈ τ'.first) ∧
      (∀ c, c ∈ σ.flast ↔ c ∈ τ.flast ∨ ∃ τ' ∈ τs, c ∈ τ'.flast)
  | τ, _, _, .nil _ _ _ => ⟨[], .nil, .nil, by simp, by simp, by simp, by simp⟩
  | τ, _, υ, .cons _ _ _ g l σ _ h1 h2 h3 h4 => by
    obtain ⟨τs, i1, i2, i3, i4, i5, i6⟩ := alt_inv h4
    refine ⟨σ :: τs, .cons h1 i1, List.pairwise_cons.2 ⟨?_, i2⟩, ?_, ?_, ?_, ?_⟩
    · intro τ' hm
      have := i3 τ' hm
      refine ⟨fun h => this.1 ⟨by simp [Ty.alt, h.1], h.2⟩, fun c hc => this.2 c (by simp [Ty.alt, hc])⟩
    · intro τ' hm
      rcases List.mem_cons.1 hm with rfl | hm
      · exact ⟨h2, h3⟩
      · have := i3 τ' hm
        exact ⟨fun h => this.1 ⟨by simp [Ty.alt, h.1], h.2⟩, fun c hc => this.2 c (by simp [Ty.alt, hc])⟩
    · rw [i4]; simp [Ty.alt, or_assoc]
    · intro c; rw [i5]; simp [Ty.alt, or_assoc]
    · intro c; rw [i6]; simp [Ty.alt, or_assoc]

/-- The same for the whole alternation. -/
theorem alt_inv' {Γ : List Ty} {k : Nat} {l : List Gram} {σ : Ty} (h : HasTy Γ k (.alt l) σ) :
    ∃ τs, All2 (HasTy Γ k) l τs ∧ τs.Pairwise Ty.Sep ∧
      (σ.nullable = true ↔ ∃ τ' ∈ τs, τ'.nullable = true) ∧
      (∀ c, c ∈ σ.first ↔ ∃ τ' ∈ τs, c ∈ τ'.first) ∧
      (∀ c, c ∈ σ.flast ↔ ∃ τ' ∈ τs, c ∈ τ'.flast) := by
  cases h with
  | alt _ _ g l τ _ h1 h2 =>
    obtain ⟨τs, i1, i2, i3, i4, i5, i6⟩ := alt_inv h2
    exact ⟨τ :: τs, .cons h1 i1, List.pairwise_cons.2 ⟨i3, i2⟩, by simpa using i4, by simpa using i5,
      by simpa using i6⟩

theorem All2.get {α β : Type} {R : α → β → Prop} : ∀ {l : List α} {l' : List β}, All2 R l l' →
    ∀ {i : Nat} {a : α}, l[i]? = some a → ∃ b, l'[i]? = some b ∧ R a b
  | _, _, .nil, i, a, h => by simp at h
  | _, _, .cons (b := b) h1 h2, 0, a, h => by
    simp only [List.getElem?_cons_zero, Option.some.injEq] at h
    subst h; exact ⟨b, rfl, h1⟩
  | _, _, .cons h1 h2, i + 1, a, h => by simpa using h2.get (by simpa using h)

theorem All2.length_eq {α β : Type} {R : α → β → Prop} {l : List α} {l' : List β} (h : All2 R l l') :
    l.length = l'.length := by
  induction h <;> simp [*]

theorem pairwise_get {α : Type} {R : α → α → Prop} (hs : ∀ a b, R a b → R b a) {l : List α} (h : l.Pairwise R)
    {i j : Nat} {a b : α} (hij : i ≠ j) (hi : l[i]? = some a) (hj : l[j]? = some b) : R a b := by
  rw [List.getElem?_eq_some_iff] at hi hj
  obtain ⟨hi, rfl⟩ := hi
  obtain ⟨hj, rfl⟩ := hj
  rw [List.pairwise_iff_getElem] at h
  rcases Nat.lt_or_gt_of_ne hij with hlt | hlt
  · exact h i j hi hj hlt
  · exact hs _ _ (h j i hj hi hlt)

/-- The type describes the start of a word. -/
def Ty.Desc (τ : Ty) (w : List Char) : Prop :=
  (w = [] → τ.nullable = true) ∧ ∀ c r, w = c :: r → c ∈ τ.first

theorem Ty.Desc.cat {τ σ : Ty} {u v : List Char} (h1 : τ.Desc u) (h2 : σ.Desc v) : (τ.cat σ).Desc (u ++ v) := by
  constructor
  · intro h
    rw [List.append_eq_nil_iff] at h
    simp [Ty.cat, h1.1 h.1, h2.1 h.2]
  · intro c r h
    cases u with
    | nil => simp only [List.nil_append] at h; simp [Ty.cat, h1.1 rfl, h2.2 c r h]
    | cons a u =>
      simp only [List.cons_append, List.cons.injEq] at h
      have := h1.2 a u rfl
      rw [h.1] at this
      simp only [Ty.cat]
      split <;> simp [this]

mutual
theorem der_desc : ∀ {ρ : List Gram} {g : Gram} {t : Tree}, Der ρ g t → ∀ {Γ : List Ty} {k : Nat} {τ : Ty},
    EnvTy Γ ρ → HasTy Γ k g τ → τ.Desc t.text
  | _, _, _, .eps ρ, Γ, k, τ, hE, hT => by cases hT; simp [Ty.Desc, Tree.text]
  | _, _, _, .lit ρ s, Γ, k, τ, hE, hT => by
    cases hT
    refine ⟨fun h => by simpa [Tree.text] using h, fun c r h => ?_⟩
    rw [CharSet.mem_ofStr]
    simp only [Tree.text] at h
    simp [h]
  | _, _, _, .cat ρ l ts hd, Γ, k, τ, hE, hT => by
    cases hT with
    | cat _ _ g l τ' _ h1 h2 h3 =>
      cases hd with
      | cons _ _ _ t ts hd1 hd2 => exact derL_desc hd2 hE h3 _ (der_desc hd1 hE h1)
  | _, _, _, .alt ρ l i g t hi hd, Γ, k, τ, hE, hT => by
    obtain ⟨τs, h1, h2, h3, h4, h5⟩ := alt_inv' hT
    obtain ⟨σ, h6, h7⟩ := h1.get hi
    have hd := der_desc hd hE h7
    have hm : σ ∈ τs := List.mem_of_getElem? h6
    exact ⟨fun h => h3.2 ⟨σ, hm, hd.1 h⟩, fun c r h => (h4 c).2 ⟨σ, hm, hd.2 c r h⟩⟩
  | _, _, _, .fix ρ b t hd, Γ, k, τ, hE, hT => by
    cases hT with
    | fix _ _ _ _ h => exact der_desc hd (.cons τ b k hE h) h
  | _, _, _, .var ρ i b ρ' t hi hd, Γ, k, τ, hE, hT => by
    cases hT with
    | var _ _ _ _ h _ =>
      obtain ⟨Γ', k', h1, h2⟩ := hE.get hi h
      exact der_desc hd h1 h2
theorem derL_desc : ∀ {ρ : List Gram} {l : List Gram} {ts : List Tree}, DerL ρ l ts →
    ∀ {Γ : List Ty} {τ σ : Ty}, EnvTy Γ ρ → HasTyCat Γ τ l σ → ∀ p, τ.Desc p → σ.Desc (p ++ Tree.textL ts)
  | _, _, _, .nil ρ, Γ, τ, σ, hE, hT, p, hp => by cases hT; simpa [Tree.textL] using hp
  | _, _, _, .cons ρ g l t ts h1 h2, Γ, τ, υ, hE, hT, p, hp => by
    cases hT with
    | cons _ _ _ _ σ _ h3 h4 h5 =>
      have := derL_desc h2 hE h5 (p ++ t.text) (hp.cat (der_desc h1 hE h3))
      simpa [Tree.textL] using this
end

/-! ## Uniqueness and follow characters -/

/-- `c` follows `u` in `v`. -/
def Follows (u v : List Char) (c : Char) : Prop := u ≠ [] ∧ ∃ w, v = u ++ c :: w

/-- What the type says about two trees of the same grammar. -/
structure Uniq (τ : Ty) (same : Prop) (u v : List Char) : Prop where
  eq : u = v → same
  left : ∀ c, Follows u v c → c ∈ τ.flast
  right : ∀ c, Follows v u c → c ∈ τ.flast

/-- How two words can compare. -/
theorem words_cmp (u v x y : List Char) (h : u ++ x = v ++ y) :
    u = v ∨ (∃ c w, v = u ++ c :: w) ∨ (∃ c w, u = v ++ c :: w) := by
  rcases List.append_eq_append_iff.1 h with ⟨a, rfl, _⟩ | ⟨a, rfl, _⟩
  · cases a with
    | nil => exact .inl (by simp)
    | cons c w => exact .inr (.inl ⟨c, w, rfl⟩)
  · cases a with
    | nil => exact .inl (by simp)
    | cons c w => exact .inr (.inr ⟨c, w, rfl⟩)

theorem cat_follow {τ σ : Ty} {p1 p2 v1 v2 : List Char} {A B : Prop} (hp1 : p1 ≠ []) (hp2 : p2 ≠ [])
    (hp : Uniq τ A p1 p2) (hv : Uniq σ B v1 v2) (hd1 : σ.Desc v1) (hd2 : σ.Desc v2)
    (hsep : ∀ c, c ∈ τ.flast → c ∉ σ.first) (c : Char) (h : Follows (p1 ++ v1) (p2 ++ v2) c) :
    c ∈ (τ.cat σ).flast := by
  obtain ⟨_, w, h⟩ := h
  rw [List.append_assoc] at h
  rcases words_cmp _ _ _ _ h with h' | ⟨d, w', h'⟩ | ⟨d, w', h'⟩
  · subst h'
    rw [List.append_cancel_left_eq] at h
    cases v1 with
    | nil =>
      have := hd2.2 c w h
      simp [Ty.cat, hd1.1 rfl, this]
    | cons a v1 =>
      have := hv.left c ⟨by simp, w, h⟩
      simp only [Ty.cat]
      split <;> simp [this]
  · -- p1 is longer than p2
    have hf := hp.right d ⟨hp2, w', h'⟩
    subst h'
    rw [List.append_assoc, List.append_cancel_left_eq] at h
    exact absurd (hd2.2 d _ h) (hsep d hf)
  · -- p2 is longer than p1
    have hf := hp.left d ⟨hp1, w', h'⟩
    subst h'
    rw [List.append_assoc, List.append_cancel_left_eq] at h
    cases v1 with
    | nil =>
      simp only [List.cons_append, List.nil_append, List.cons.injEq] at h
      rw [← h.1]
      simp [Ty.cat, hd1.1 rfl, hf]
    | cons a v1 =>
      simp only [List.cons_append, List.cons.injEq] at h
      have := hd1.2 a v1 rfl
      rw [← h.1] at this
      exact absurd this (hsep d hf)

theorem Uniq.swap {τ : Ty} {A : Prop} {u v : List Char} (h : Uniq τ A u v) : Uniq τ A v u :=
  ⟨fun e => h.eq e.symm, h.right, h.left⟩

theorem Uniq.cat {τ σ : Ty} {p1 p2 v1 v2 : List Char} {A B : Prop} (hp1 : p1 ≠ []) (hp2 : p2 ≠ [])
    (hp : Uniq τ A p1 p2) (hv : Uniq σ B v1 v2) (hd1 : σ.Desc v1) (hd2 : σ.Desc v2)
    (hsep : ∀ c, c ∈ τ.flast → c ∉ σ.first) : Uniq (τ.cat σ) (A ∧ B) (p1 ++ v1) (p2 ++ v2) where
  eq := by
    intro h
    rcases words_cmp _ _ _ _ h with h' | ⟨d, w', h'⟩ | ⟨d, w', h'⟩
    · subst h'
      rw [List.append_cancel_left_eq] at h
      exact ⟨hp.eq rfl, hv.eq h⟩
    · have hf := hp.left d ⟨hp1, w', h'⟩
      subst h'
      rw [List.append_assoc, List.append_cancel_left_eq] at h
      exact absurd (hd1.2 d _ h) (hsep d hf)
    · have hf := hp.right d ⟨hp2, w', h'⟩
      subst h'
      rw [List.append_assoc, List.append_cancel_left_eq] at h
      exact absurd (hd2.2 d _ h.symm) (hsep d hf)
  left := cat_follow hp1 hp2 hp hv hd1 hd2 hsep
  right := cat_follow hp2 hp1 hp.swap hv.swap hd2 hd1 hsep

theorem Uniq.mono {τ σ : Ty} {A B : Prop} {u v : List Char} (h : Uniq τ A u v) (hAB : A → B)
    (hf : ∀ c, c ∈ τ.flast → c ∈ σ.flast) : Uniq σ B u v :=
  ⟨fun e => hAB (h.eq e), fun c hc => hf c (h.left c hc), fun c hc => hf c (h.right c hc)⟩

mutual
theorem der_uniq : ∀ {ρ : List Gram} {g : Gram} {t : Tree}, Der ρ g t → ∀ {Γ : List Ty} {k : Nat} {τ : Ty},
    EnvTy Γ ρ → HasTy Γ k g τ → ∀ t', Der ρ g t' → Uniq τ (t = t') t.text t'.text
  | _, _, _, .eps ρ, Γ, k, τ, hE, hT, t', h' => by
    cases h'
    exact ⟨fun _ => rfl, by simp [Follows, Tree.text], by simp [Follows, Tree.text]⟩
  | _, _, _, .lit ρ s, Γ, k, τ, hE, hT, t', h' => by
    cases h'
    refine ⟨fun _ => rfl, ?_, ?_⟩
    · rintro c ⟨_, w, h⟩
      have := congrArg List.length h
      simp at this
    · rintro c ⟨_, w, h⟩
      have := congrArg List.length h
      simp at this
  | _, _, _, .cat ρ l ts hd, Γ, k, τ, hE, hT, t', h' => by
    cases h' with
    | cat _ _ ts' hd' =>
      cases hT with
      | cat _ _ g l τ' _ h1 h2 h3 =>
        cases hd with
        | cons _ _ _ t ts hd1 hd2 =>
          cases hd' with
          | cons _ _ _ t' ts' hd1' hd2' =>
            have n1 : t.text ≠ [] := fun h => by have := (der_desc hd1 hE h1).1 h; simp [h2] at this
            have n2 : t'.text ≠ [] := fun h => by have := (der_desc hd1' hE h1).1 h; simp [h2] at this
            have := derL_uniq hd2 hE h3 ts' hd2' (t = t') t.text t'.text n1 n2
              (der_uniq hd1 hE h1 t' hd1')
            refine this.mono ?_ (fun _ h => h)
            rintro ⟨rfl, rfl⟩
            rfl
  | _, _, _, .alt ρ l i g t hi hd, Γ, k, τ, hE, hT, t', h' => by
    obtain ⟨τs, h1, h2, h3, h4, h5⟩ := alt_inv' hT
    obtain ⟨σ, h6, h7⟩ := h1.get hi
    have hdesc := der_desc hd hE h7
    have hm : σ ∈ τs := List.mem_of_getElem? h6
    cases h' with
    | alt _ _ i' g' t' hi' hd' =>
      by_cases hii : i = i'
      · subst hii
        rw [hi] at hi'
        cases hi'
        refine (der_uniq hd hE h7 t' hd').mono (fun h => by rw [h]) (fun c hc => (h5 c).2 ⟨σ, hm, hc⟩)
      · obtain ⟨σ', h6', h7'⟩ := h1.get hi'
        have hdesc' := der_desc hd' hE h7'
        have hsep := pairwise_get (fun _ _ => Ty.Sep.symm) h2 hii h6 h6'
        have key : ∀ {u v : List Char} {a b : Ty}, a.Desc u → b.Desc v → a.Sep b → ∀ c, ¬ Follows u v c := by
          rintro u v a b ha hb hs c ⟨hne, w, he⟩
          cases u with
          | nil => exact hne rfl
          | cons x u => exact hs.2 x (ha.2 x u rfl) (hb.2 x _ he)
        refine ⟨?_, fun c hc => absurd hc (key hdesc hdesc' hsep c),
          fun c hc => absurd hc (key hdesc' hdesc hsep.symm c)⟩
        intro he
        simp only [Tree.text] at he
        exfalso
        cases hw : t.text with
        | nil => exact hsep.1 ⟨hdesc.1 hw, hdesc'.1 (he ▸ hw)⟩
        | cons c w => exact hsep.2 c (hdesc.2 c w hw) (hdesc'.2 c w (he ▸ hw))
  | _, _, _, .fix ρ b t hd, Γ, k, τ, hE, hT, t', h' => by
    cases h' with
    | fix _ _ _ hd' =>
      cases hT with
      | fix _ _ _ _ h => exact der_uniq hd (.cons τ b k hE h) h t' hd'
  | _, _, _, .var ρ i b ρ' t hi hd, Γ, k, τ, hE, hT, t', h' => by
    cases h' with
    | var _ _ b' ρ'' t' hi' hd' =>
      rw [hi] at hi'
      cases hi'
      cases hT with
      | var _ _ _ _ h _ =>
        obtain ⟨Γ', k', h1, h2⟩ := hE.get hi h
        exact (der_uniq hd h1 h2 t' hd').mono (fun h => by rw [h]) (fun _ h => h)
theorem derL_uniq : ∀ {ρ : List Gram} {l : List Gram} {ts : List Tree}, DerL ρ l ts →
    ∀ {Γ : List Ty} {τ σ : Ty}, EnvTy Γ ρ → HasTyCat Γ τ l σ → ∀ ts', DerL ρ l ts' →
    ∀ (A : Prop) (p p' : List Char), p ≠ [] → p' ≠ [] → Uniq τ A p p' →
      Uniq σ (A ∧ ts = ts') (p ++ Tree.textL ts) (p' ++ Tree.textL ts')
  | _, _, _, .nil ρ, Γ, τ, σ, hE, hT, ts', h', A, p, p', n1, n2, hu => by
    cases h'
    cases hT
    simpa [Tree.textL] using hu
  | _, _, _, .cons ρ g l t ts h1 h2, Γ, τ, υ, hE, hT, ts', h', A, p, p', n1, n2, hu => by
    cases h' with
    | cons _ _ _ t' ts' h1' h2' =>
      cases hT with
      | cons _ _ _ _ σ _ h3 h4 h5 =>
        have hc := hu.cat n1 n2 (der_uniq h1 hE h3 t' h1') (der_desc h1 hE h3) (der_desc h1' hE h3) h4
        have := derL_uniq h2 hE h5 ts' h2' _ (p ++ t.text) (p' ++ t'.text)
          (by simp [n1]) (by simp [n2]) hc
        simp only [Tree.textL, ← List.append_assoc]
        refine this.mono ?_ (fun _ h => h)
        rintro ⟨⟨h6, rfl⟩, rfl⟩
        exact ⟨h6, rfl⟩
end

end Chomp
