import Verif.Ast.Swap
import Verif.Gram.Laws
import Verif.Props.Order

/-!
# Replacing closed parts of grammars

If closed parts of a grammar are replaced by closed parts with more precise types, the grammar keeps
being typable, with a type at least as precise; if the new parts have smaller languages, so has the whole.
-/

namespace Chomp

theorem Ty.le_trans {a b c : Ty} (h1 : a.le b) (h2 : b.le c) : a.le c :=
  ⟨fun h => h2.nullable (h1.nullable h), fun x h => h2.first x (h1.first x h), fun x h => h2.flast x (h1.flast x h)⟩

/-! ### Grammars as expressions -/

private def gi : Info := ⟨none, 0⟩

mutual
/-- An expression that stands for a given grammar. -/
def Gram.toNE : Gram → NE
  | .eps => .eps gi
  | .lit s => .lit gi s
  | .cat [] => .eps gi
  | .cat (g :: l) => .cat gi g.toNE (Gram.toNEs l)
  | .alt [] => .eps gi
  | .alt (g :: l) => .alt gi g.toNE (Gram.toNEs l)
  | .fix b => .fix gi (.lam gi [.newVariable (.spanless "x")] b.toNE)
  | .var k => .var gi k
def Gram.toNEs : List Gram → List (Nat × NE)
  | [] => []
  | g :: l => (0, g.toNE) :: Gram.toNEs l
end

mutual
theorem HasTy.toNE : ∀ {Γ : List Ty} {k : Nat} {g : Gram} {τ : Ty}, HasTy Γ k g τ →
    g.toNE.erase.gram (fun _ => true) = some g
  | _, _, _, _, .eps _ _ => rfl
  | _, _, _, _, .lit _ _ _ => rfl
  | _, _, _, _, .cat _ _ _ _ _ _ h1 _ h3 => by
    simp only [Gram.toNE, NE.erase, Core.gram, Core.gramL, h1.toNE, h3.toNE, Option.bind_some, Option.map_some]
  | _, _, _, _, .alt _ _ _ _ _ _ h1 h2 => by
    simp only [Gram.toNE, NE.erase, Core.gram, Core.gramL, h1.toNE, h2.toNE, Option.bind_some, Option.map_some]
  | _, _, _, _, .fix _ _ _ _ h => by
    simp only [Gram.toNE, NE.erase, Core.gram, h.toNE, if_true, Option.map_some]
  | _, _, _, _, .var _ _ _ _ _ _ => rfl
theorem HasTyCat.toNE : ∀ {Γ : List Ty} {τ : Ty} {l : List Gram} {σ : Ty}, HasTyCat Γ τ l σ →
    Core.gramL (fun _ => true) (NE.eraseP (Gram.toNEs l)) = some l
  | _, _, _, _, .nil _ _ => rfl
  | _, _, _, _, .cons _ _ _ _ _ _ h1 _ h3 => by
    simp only [Gram.toNEs, NE.eraseP, Core.gramL, h1.toNE, h3.toNE, Option.bind_some, Option.map_some]
theorem HasTyAlt.toNE : ∀ {Γ : List Ty} {k : Nat} {τ : Ty} {l : List Gram} {σ : Ty}, HasTyAlt Γ k τ l σ →
    Core.gramL (fun _ => true) (NE.eraseP (Gram.toNEs l)) = some l
  | _, _, _, _, _, .nil _ _ _ => rfl
  | _, _, _, _, _, .cons _ _ _ _ _ _ _ h1 _ _ h4 => by
    simp only [Gram.toNEs, NE.eraseP, Core.gramL, h1.toNE, h4.toNE, Option.bind_some, Option.map_some]
end

/-! ### Contexts -/

theorem built_vars : ∀ (l : List Ty) (c : TCtx), c.Built → TCtx.Built ⟨c.vars ++ l, c.unguard⟩
  | [], c, h => by simpa using h
  | t :: l, c, h => by
    have := built_vars l ⟨c.vars ++ [t], c.unguard⟩ (.withVar c t h)
    simpa [List.append_assoc] using this

/-- A context for given types with a given number of guarded variables. -/
theorem exists_ctx (Γ : List Ty) (k : Nat) (hk : k ≤ Γ.length) : ∃ c : TCtx, c.Built ∧ c.vars.reverse = Γ ∧ c.guard = k := by
  have h1 := built_vars (Γ.drop k).reverse ⟨[], []⟩ .default
  have h2 := built_vars (Γ.take k).reverse _ (.withUnguard _ h1)
  refine ⟨_, h2, ?_, ?_⟩
  · simp
  · simp [TCtx.guard]
    omega

/-- The least solution of a typing equation exists: if `b` is typable with a type below `τ` whatever type
below `τ` its innermost variable has, its fix point is typable with a type below `τ`. -/
theorem fix_least {Γ : List Ty} {k : Nat} {b : Gram} {τ : Ty} (hk : k ≤ Γ.length)
    (h : ∀ t : Ty, t.le τ → ∃ σ : Ty, σ.le τ ∧ HasTy (t :: Γ) (k + 1) b σ) : ∃ σ : Ty, σ.le τ ∧ HasTy Γ k (.fix b) σ := by
  obtain ⟨c, hc, rfl, rfl⟩ := exists_ctx Γ k hk
  obtain ⟨σ0, _, h0⟩ := h _ (Ty.default_le τ)
  have hg : (Gram.fix b).toNE.erase.gram (fun _ => true) = some (.fix b) := by
    simp only [Gram.toNE, NE.erase, Core.gram, h0.toNE, if_true, Option.map_some]
  obtain ⟨N, r, hr, hi⟩ := C22_inference_terminates (Gram.fix b).toNE c hc
  have hN := hi N (Nat.le_refl _)
  have hok : OkOr (inferTop N (Gram.fix b).toNE c).1 fun te => te.ty.le τ := by
    simp only [inferTop, Gram.toNE, infer]
    rw [Inf.bind_fst (fixLoop_snd (fun t c => withVar_snd fun c => infer_snd N _ _ c) _ _ _)]
    refine (fixLoop_okOr (fun t c => withVar_snd fun c => infer_snd N _ _ c) (τ := τ) ?_ N _
      (Ty.default_le τ)).bind fun t ht => .inr ⟨_, rfl, ht⟩
    intro t ht
    obtain ⟨σ, h1, h2⟩ := h t ht
    rw [withVar_fst]
    have := infer_complete N (Name.mergeAll [gi.name, b.toNE.info.name, (Gram.fix b).toNE.info.name]) b.toNE
      ⟨c.vars ++ [t], c.unguard⟩ (t :: c.vars.reverse) b σ (TCtx.ok_push _ hc.isOk) h0.toNE
      (by simpa using All2.refl_of Ty.le_refl _) (by rw [TCtx.guard_push _ hc.isOk]; exact h2)
    rcases this with h | ⟨te, h3, h4⟩
    · exact .inl h
    · exact .inr ⟨te, h3, Ty.le_trans h4 h1⟩
  rcases hok with h1 | ⟨te, h1, h2⟩
  · rw [hN] at h1
    rcases hr with ⟨_, rfl⟩ | ⟨_, rfl⟩ <;> cases h1
  · obtain ⟨h3, h4⟩ := infer_sound N _ _ c te hc.isOk h1
    rw [hg] at h4
    have : te.gram = .fix b := (Option.some.inj h4).symm
    exact ⟨te.ty, h2, this ▸ h3.hasTy⟩

/-! ### More precise types -/

/-- Wherever `g` can be used, so can `g'`, with a type that is at least as precise. -/
def Gram.Finer (g g' : Gram) : Prop :=
  ∀ (Γ Γ' : List Ty) (k : Nat) (τ : Ty), k ≤ Γ.length → All2 Ty.le Γ' Γ → HasTy Γ k g τ → ∃ τ' : Ty, τ'.le τ ∧ HasTy Γ' k g' τ'

theorem finer_cat {l l' : List Gram} (h : All2 Gram.Finer l l') : (Gram.cat l).Finer (.cat l') := by
  have hc : ∀ {l l' : List Gram}, All2 Gram.Finer l l' → ∀ {Γ Γ' : List Ty} {τ τ' σ : Ty}, All2 Ty.le Γ' Γ → τ'.le τ →
      HasTyCat Γ τ l σ → ∃ σ' : Ty, σ'.le σ ∧ HasTyCat Γ' τ' l' σ' := by
    intro l l' h
    induction h with
    | nil => intro Γ Γ' τ τ' σ _ ht h; cases h; exact ⟨τ', ht, .nil _ _⟩
    | cons h _ ih =>
      intro Γ Γ' τ τ' σ hΓ hτ ht
      cases ht with
      | cons _ _ _ _ υ _ h1 h2 h3 =>
        obtain ⟨υ', h4, h5⟩ := h Γ Γ' 0 υ (Nat.zero_le _) hΓ h1
        obtain ⟨σ', h6, h7⟩ := ih hΓ (Ty.cat_le hτ h4) h3
        exact ⟨σ', h6, .cons _ _ _ _ _ _ h5 (fun c hc hc' => h2 c (hτ.flast c hc) (h4.first c hc')) h7⟩
  intro Γ Γ' k τ hk hΓ ht
  cases h with
  | nil => cases ht
  | cons h h' =>
    cases ht with
    | cat _ _ _ _ σ _ h1 h2 h3 =>
      obtain ⟨σ', h4, h5⟩ := h Γ Γ' k σ hk hΓ h1
      obtain ⟨υ, h6, h7⟩ := hc h' hΓ h4 h3
      refine ⟨υ, h6, .cat _ _ _ _ _ _ h5 ?_ h7⟩
      cases hn : σ'.nullable with
      | false => rfl
      | true => rw [h4.nullable hn] at h2; cases h2

theorem finer_alt {l l' : List Gram} (h : All2 Gram.Finer l l') : (Gram.alt l).Finer (.alt l') := by
  have hc : ∀ {l l' : List Gram}, All2 Gram.Finer l l' → ∀ {Γ Γ' : List Ty} {k : Nat} {τ τ' σ : Ty}, k ≤ Γ.length →
      All2 Ty.le Γ' Γ → τ'.le τ → HasTyAlt Γ k τ l σ → ∃ σ' : Ty, σ'.le σ ∧ HasTyAlt Γ' k τ' l' σ' := by
    intro l l' h
    induction h with
    | nil => intro Γ Γ' k τ τ' σ _ _ ht h; cases h; exact ⟨τ', ht, .nil _ _ _⟩
    | cons h _ ih =>
      intro Γ Γ' k τ τ' σ hk hΓ hτ ht
      cases ht with
      | cons _ _ _ _ _ υ _ h1 h2 h3 h4 =>
        obtain ⟨υ', h5, h6⟩ := h Γ Γ' k υ hk hΓ h1
        obtain ⟨σ', h7, h8⟩ := ih hk hΓ (Ty.alt_le hτ h5) h4
        exact ⟨σ', h7, .cons _ _ _ _ _ _ _ h6 (fun hn => h2 ⟨hτ.nullable hn.1, h5.nullable hn.2⟩)
          (fun c hc hc' => h3 c (hτ.first c hc) (h5.first c hc')) h8⟩
  intro Γ Γ' k τ hk hΓ ht
  cases h with
  | nil => cases ht
  | cons h h' =>
    cases ht with
    | alt _ _ _ _ σ _ h1 h2 =>
      obtain ⟨σ', h4, h5⟩ := h Γ Γ' k σ hk hΓ h1
      obtain ⟨υ, h6, h7⟩ := hc h' hk hΓ h4 h2
      exact ⟨υ, h6, .alt _ _ _ _ _ _ h5 h7⟩

theorem finer_fix {b b' : Gram} (h : b.Finer b') : (Gram.fix b).Finer (.fix b') := by
  intro Γ Γ' k τ hk hΓ ht
  cases ht with
  | fix _ _ _ _ h1 =>
    refine fix_least (by rw [hΓ.len]; exact hk) fun t htτ => ?_
    exact h (τ :: Γ) (t :: Γ') (k + 1) τ (by simpa using hk) (.cons htτ hΓ) h1

theorem finer_var (i : Nat) : (Gram.var i).Finer (.var i) := by
  intro Γ Γ' k τ hk hΓ ht
  cases ht with
  | var _ _ _ _ h1 h2 =>
    have hl : i < Γ'.length := by
      rw [hΓ.len]
      rcases Nat.lt_or_ge i Γ.length with h' | h'
      · exact h'
      · rw [List.getElem?_eq_none h'] at h1; cases h1
    obtain ⟨σ, e1, e2⟩ := hΓ.get (List.getElem?_eq_getElem hl)
    rw [h1] at e1
    cases e1
    exact ⟨_, e2, .var _ _ _ _ (List.getElem?_eq_getElem hl) h2⟩

/-! ### Closed grammars -/

mutual
/-- All variables are below `n`. -/
def Gram.closed (n : Nat) : Gram → Prop
  | .eps => True
  | .lit _ => True
  | .cat l => Gram.closedL n l
  | .alt l => Gram.closedL n l
  | .fix b => b.closed (n + 1)
  | .var k => k < n
def Gram.closedL (n : Nat) : List Gram → Prop
  | [] => True
  | g :: l => g.closed n ∧ Gram.closedL n l
end

theorem lt_of_getElem? {α : Type} {l : List α} {i : Nat} {a : α} (h : l[i]? = some a) : i < l.length := by
  rcases Nat.lt_or_ge i l.length with h' | h'
  · exact h'
  · rw [List.getElem?_eq_none h'] at h; cases h

mutual
theorem HasTy.closed : ∀ {Γ : List Ty} {k : Nat} {g : Gram} {τ : Ty}, HasTy Γ k g τ → g.closed Γ.length
  | _, _, _, _, .eps _ _ => trivial
  | _, _, _, _, .lit _ _ _ => trivial
  | _, _, _, _, .cat _ _ _ _ _ _ h1 _ h3 => ⟨h1.closed, h3.closed⟩
  | _, _, _, _, .alt _ _ _ _ _ _ h1 h2 => ⟨h1.closed, h2.closed⟩
  | _, _, _, _, .fix _ _ _ _ h => h.closed
  | _, _, _, _, .var _ _ _ _ h _ => lt_of_getElem? h
theorem HasTyCat.closed : ∀ {Γ : List Ty} {τ : Ty} {l : List Gram} {σ : Ty}, HasTyCat Γ τ l σ → Gram.closedL Γ.length l
  | _, _, _, _, .nil _ _ => trivial
  | _, _, _, _, .cons _ _ _ _ _ _ h1 _ h3 => ⟨h1.closed, h3.closed⟩
theorem HasTyAlt.closed : ∀ {Γ : List Ty} {k : Nat} {τ : Ty} {l : List Gram} {σ : Ty}, HasTyAlt Γ k τ l σ →
    Gram.closedL Γ.length l
  | _, _, _, _, _, .nil _ _ _ => trivial
  | _, _, _, _, _, .cons _ _ _ _ _ _ _ h1 _ _ h4 => ⟨h1.closed, h4.closed⟩
end

mutual
/-- Only the types of the variables that occur matter. -/
theorem HasTy.reenv : ∀ {Γ : List Ty} {k : Nat} {g : Gram} {τ : Ty}, HasTy Γ k g τ → ∀ {n : Nat} {Δ : List Ty} {m : Nat},
    g.closed n → (∀ i < n, Δ[i]? = Γ[i]?) → (∀ i < n, k ≤ i → m ≤ i) → HasTy Δ m g τ
  | _, _, _, _, .eps _ _, _, _, _, _, _, _ => .eps _ _
  | _, _, _, _, .lit _ _ _, _, _, _, _, _, _ => .lit _ _ _
  | _, _, _, _, .cat _ _ _ _ _ _ h1 h2 h3, _, _, _, hc, hΔ, hm =>
    .cat _ _ _ _ _ _ (h1.reenv hc.1 hΔ hm) h2 (h3.reenv hc.2 hΔ)
  | _, _, _, _, .alt _ _ _ _ _ _ h1 h2, _, _, _, hc, hΔ, hm => .alt _ _ _ _ _ _ (h1.reenv hc.1 hΔ hm) (h2.reenv hc.2 hΔ hm)
  | _, k, _, τ, .fix _ _ _ _ h, n, Δ, m, hc, hΔ, hm => by
    refine .fix _ _ _ _ (h.reenv (n := n + 1) hc (fun i hi => ?_) fun i hi hk => ?_)
    · cases i with
      | zero => rfl
      | succ i => simpa using hΔ i (by omega)
    · cases i with
      | zero => omega
      | succ i => have := hm i (by omega) (by omega); omega
  | _, _, _, _, .var _ _ i τ h1 h2, _, _, _, hc, hΔ, hm => .var _ _ _ _ (by rw [hΔ i hc, h1]) (hm i hc h2)
theorem HasTyCat.reenv : ∀ {Γ : List Ty} {τ : Ty} {l : List Gram} {σ : Ty}, HasTyCat Γ τ l σ → ∀ {n : Nat} {Δ : List Ty},
    Gram.closedL n l → (∀ i < n, Δ[i]? = Γ[i]?) → HasTyCat Δ τ l σ
  | _, _, _, _, .nil _ _, _, _, _, _ => .nil _ _
  | _, _, _, _, .cons _ _ _ _ _ _ h1 h2 h3, _, _, hc, hΔ =>
    .cons _ _ _ _ _ _ (h1.reenv hc.1 hΔ fun _ _ _ => Nat.zero_le _) h2 (h3.reenv hc.2 hΔ)
theorem HasTyAlt.reenv : ∀ {Γ : List Ty} {k : Nat} {τ : Ty} {l : List Gram} {σ : Ty}, HasTyAlt Γ k τ l σ →
    ∀ {n : Nat} {Δ : List Ty} {m : Nat}, Gram.closedL n l → (∀ i < n, Δ[i]? = Γ[i]?) → (∀ i < n, k ≤ i → m ≤ i) →
    HasTyAlt Δ m τ l σ
  | _, _, _, _, _, .nil _ _ _, _, _, _, _, _, _ => .nil _ _ _
  | _, _, _, _, _, .cons _ _ _ _ _ _ _ h1 h2 h3 h4, _, _, _, hc, hΔ, hm =>
    .cons _ _ _ _ _ _ _ (h1.reenv hc.1 hΔ hm) h2 h3 (h4.reenv hc.2 hΔ hm)
end

/-- A closed grammar has the same types in every context. -/
theorem HasTy.anywhere {Γ Δ : List Ty} {k m : Nat} {g : Gram} {τ : Ty} (h : HasTy Γ k g τ) (hc : g.closed 0) : HasTy Δ m g τ :=
  h.reenv hc (by omega) (by omega)

mutual
theorem lang_reenv : ∀ (g : Gram) {n : Nat} {ρ ρ' : Nat → Lang}, g.closed n → (∀ i < n, ρ i = ρ' i) → g.lang ρ = g.lang ρ'
  | .eps, _, _, _, _, _ => rfl
  | .lit _, _, _, _, _, _ => rfl
  | .cat l, _, _, _, hc, h => langCat_reenv l hc h
  | .alt l, _, _, _, hc, h => langAlt_reenv l hc h
  | .fix b, n, ρ, ρ', hc, h => by
    have : ∀ X : Lang, b.lang (X.push ρ) = b.lang (X.push ρ') := fun X =>
      lang_reenv b (n := n + 1) hc fun i hi => by
        cases i with
        | zero => rfl
        | succ i => exact h i (by omega)
    simp only [Gram.lang, this]
  | .var k, _, _, _, hc, h => h k hc
theorem langCat_reenv : ∀ (l : List Gram) {n : Nat} {ρ ρ' : Nat → Lang}, Gram.closedL n l → (∀ i < n, ρ i = ρ' i) →
    Gram.langCat l ρ = Gram.langCat l ρ'
  | [], _, _, _, _, _ => rfl
  | g :: l, _, _, _, hc, h => by simp only [Gram.langCat, lang_reenv g hc.1 h, langCat_reenv l hc.2 h]
theorem langAlt_reenv : ∀ (l : List Gram) {n : Nat} {ρ ρ' : Nat → Lang}, Gram.closedL n l → (∀ i < n, ρ i = ρ' i) →
    Gram.langAlt l ρ = Gram.langAlt l ρ'
  | [], _, _, _, _, _ => rfl
  | g :: l, _, _, _, hc, h => by simp only [Gram.langAlt, lang_reenv g hc.1 h, langAlt_reenv l hc.2 h]
end

/-- The language of a closed grammar does not depend on the environment. -/
theorem lang_anywhere (g : Gram) (hc : g.closed 0) (ρ : Nat → Lang) : g.lang ρ = g.language := lang_reenv g hc (by omega)

mutual
theorem gram_closed : ∀ (c : Core) {g : Gram} {n : Nat}, c.gram unary = some g → g.closed n → c.closed n
  | .eps, _, _, _, _ => trivial
  | .lit _, _, _, _, _ => trivial
  | .cat l, g, n, hg, hc => by
    rw [Core.gram, Option.map_eq_some_iff] at hg
    obtain ⟨gs, hg, rfl⟩ := hg
    exact gramL_closed l hg hc
  | .alt l, g, n, hg, hc => by
    rw [Core.gram, Option.map_eq_some_iff] at hg
    obtain ⟨gs, hg, rfl⟩ := hg
    exact gramL_closed l hg hc
  | .fix (.lam m b), g, n, hg, hc => by
    simp only [Core.gram] at hg
    split at hg
    · rename_i hu
      rw [Option.map_eq_some_iff] at hg
      obtain ⟨gb, hg, rfl⟩ := hg
      have hm : m = 1 := by simpa [unary] using hu
      subst hm
      exact gram_closed b hg hc
    · cases hg
  | .var k, g, n, hg, hc => by
    simp only [Core.gram] at hg
    cases hg
    exact hc
  | .call _ _, _, _, hg, _ | .lam _ _, _, _, hg, _ | .letE _ _, _, _, hg, _
  | .fix .eps, _, _, hg, _ | .fix (.lit _), _, _, hg, _ | .fix (.cat _), _, _, hg, _ | .fix (.alt _), _, _, hg, _
  | .fix (.fix _), _, _, hg, _ | .fix (.var _), _, _, hg, _ | .fix (.call _ _), _, _, hg, _ | .fix (.letE _ _), _, _, hg, _ => by
    simp only [Core.gram] at hg; cases hg
theorem gramL_closed : ∀ (l : List Core) {gs : List Gram} {n : Nat}, Core.gramL unary l = some gs → Gram.closedL n gs →
    Core.closedL n l
  | [], _, _, _, _ => trivial
  | c :: l, gs, n, hg, hc => by
    rw [Core.gramL, Option.bind_eq_some_iff] at hg
    obtain ⟨g, h1, hg⟩ := hg
    rw [Option.map_eq_some_iff] at hg
    obtain ⟨gs', h2, rfl⟩ := hg
    exact ⟨gram_closed c h1 hc.1, gramL_closed l h2 hc.2⟩
end

/-- A grammar contains nothing to evaluate. -/
theorem gram_noStep {u : Nat → Bool} (a : Core) : (∀ g, a.gram u = some g → ∀ b, ¬ Core.Step a b) ∧
    ∀ n c g, a = .lam n c → c.gram u = some g → ∀ b, ¬ Core.Step a b := by
  induction a using Core.ind with
  | eps => exact ⟨(fun _ _ _ h => nomatch h), (by intro _ _ _ h; cases h)⟩
  | lit s => exact ⟨(fun _ _ _ h => nomatch h), (by intro _ _ _ h; cases h)⟩
  | var k => exact ⟨(fun _ _ _ h => nomatch h), (by intro _ _ _ h; cases h)⟩
  | cat l ih =>
    refine ⟨fun g hg b hs => ?_, by intro _ _ _ h; cases h⟩
    rw [Core.gram, Option.map_eq_some_iff] at hg
    obtain ⟨gs, hg, _⟩ := hg
    obtain ⟨p, e, e', q, rfl, rfl, hs'⟩ := hs.cat_inv
    obtain ⟨g, hg⟩ := gramL_mem hg e (by simp)
    exact (ih e (by simp)).1 g hg _ hs'
  | alt l ih =>
    refine ⟨fun g hg b hs => ?_, by intro _ _ _ h; cases h⟩
    rw [Core.gram, Option.map_eq_some_iff] at hg
    obtain ⟨gs, hg, _⟩ := hg
    obtain ⟨p, e, e', q, rfl, rfl, hs'⟩ := hs.alt_inv
    obtain ⟨g, hg⟩ := gramL_mem hg e (by simp)
    exact (ih e (by simp)).1 g hg _ hs'
  | fix b ih =>
    refine ⟨fun g hg x hs => ?_, by intro _ _ _ h; cases h⟩
    cases b with
    | lam n c =>
      simp only [Core.gram] at hg
      split at hg
      · rw [Option.map_eq_some_iff] at hg
        obtain ⟨gb, h1, _⟩ := hg
        cases hs with
        | fix _ _ hs => exact ih.2 n c gb rfl h1 _ hs
      · cases hg
    | _ => simp only [Core.gram] at hg; cases hg
  | lam n b ih =>
    refine ⟨fun g hg => by (simp only [Core.gram] at hg; cases hg), fun n' c g h hg x hs => ?_⟩
    cases h
    cases hs with
    | lam _ _ _ hs => exact ih.1 g hg _ hs
  | call o a _ _ => exact ⟨fun g h => by (simp only [Core.gram] at h; cases h), by intro _ _ _ h; cases h⟩
  | letE b c _ _ => exact ⟨fun g h => by (simp only [Core.gram] at h; cases h), by intro _ _ _ h; cases h⟩

/-! ### Replacing in grammars -/

/-- A pair of grammars as they are after replacing closed parts: what holds of the parts and is preserved
by all ways of putting grammars together holds of the whole. -/
structure Gram.Cong (R : Gram → Gram → Prop) : Prop where
  eps : R .eps .eps
  lit : ∀ s, R (.lit s) (.lit s)
  cat : ∀ l l', All2 R l l' → R (.cat l) (.cat l')
  alt : ∀ l l', All2 R l l' → R (.alt l) (.alt l')
  fix : ∀ b b', R b b' → R (.fix b) (.fix b')
  var : ∀ k, R (.var k) (.var k)

theorem Gram.Cong.and {R S : Gram → Gram → Prop} (hR : Gram.Cong R) (hS : Gram.Cong S) : Gram.Cong fun g g' => R g g' ∧ S g g' := by
  have hl : ∀ {l l' : List Gram}, All2 (fun g g' => R g g' ∧ S g g') l l' → All2 R l l' ∧ All2 S l l' := by
    intro l l' h
    induction h with
    | nil => exact ⟨.nil, .nil⟩
    | cons h _ ih => exact ⟨.cons h.1 ih.1, .cons h.2 ih.2⟩
  exact ⟨⟨hR.eps, hS.eps⟩, fun s => ⟨hR.lit s, hS.lit s⟩, fun _ _ h => ⟨hR.cat _ _ (hl h).1, hS.cat _ _ (hl h).2⟩,
    fun _ _ h => ⟨hR.alt _ _ (hl h).1, hS.alt _ _ (hl h).2⟩, fun _ _ h => ⟨hR.fix _ _ h.1, hS.fix _ _ h.2⟩,
    fun k => ⟨hR.var k, hS.var k⟩⟩

theorem Core.Inert.of_gram {P : Core → Core → Prop}
    (hP : ∀ a b, P a b → ∃ g g', a.gram unary = some g ∧ b.gram unary = some g' ∧ g.closed 0 ∧ g'.closed 0) : Core.Inert P where
  left a b h := by obtain ⟨g, g', h1, _, h3, _⟩ := hP a b h; exact gram_closed a h1 h3
  right a b h := by obtain ⟨g, g', _, h2, _, h4⟩ := hP a b h; exact gram_closed b h2 h4
  noLam a b h n c := by
    obtain ⟨g, g', h1, _⟩ := hP a b h
    rintro rfl
    simp only [Core.gram] at h1
    cases h1
  noStep a b h := by obtain ⟨g, g', h1, _⟩ := hP a b h; exact (gram_noStep a).1 g h1

mutual
theorem Core.Swap.gram {P : Core → Core → Prop} {R : Gram → Gram → Prop} (hR : Gram.Cong R)
    (hP : ∀ a b, P a b → ∃ g g', a.gram unary = some g ∧ b.gram unary = some g' ∧ R g g') :
    ∀ {a b : Core}, Core.Swap P a b → ∀ g, a.gram unary = some g → ∃ g', b.gram unary = some g' ∧ R g g'
  | _, _, .part a b h, g, hg => by
    obtain ⟨g1, g', h1, h2, h3⟩ := hP a b h
    rw [hg] at h1
    cases h1
    exact ⟨g', h2, h3⟩
  | _, _, .eps, g, hg => by
    simp only [Core.gram] at hg; cases hg; exact ⟨_, rfl, hR.eps⟩
  | _, _, .lit s, g, hg => by
    simp only [Core.gram] at hg; cases hg; exact ⟨_, rfl, hR.lit s⟩
  | _, _, .var k, g, hg => by
    simp only [Core.gram] at hg; cases hg; exact ⟨_, rfl, hR.var k⟩
  | _, _, .cat _ _ h, g, hg => by
    rw [Core.gram, Option.map_eq_some_iff] at hg
    obtain ⟨gs, hg, rfl⟩ := hg
    obtain ⟨gs', h1, h2⟩ := h.gram hR hP gs hg
    exact ⟨.cat gs', by rw [Core.gram, h1]; rfl, hR.cat _ _ h2⟩
  | _, _, .alt _ _ h, g, hg => by
    rw [Core.gram, Option.map_eq_some_iff] at hg
    obtain ⟨gs, hg, rfl⟩ := hg
    obtain ⟨gs', h1, h2⟩ := h.gram hR hP gs hg
    exact ⟨.alt gs', by rw [Core.gram, h1]; rfl, hR.alt _ _ h2⟩
  | _, _, .fix _ _ h, g, hg => by
    obtain ⟨m, c, gb, rfl, hm, hgb, rfl⟩ := gram_fix_eq hg
    cases h with
    | part _ _ h =>
      obtain ⟨_, _, h1, _⟩ := hP _ _ h
      simp only [Core.gram] at h1
      cases h1
    | lam _ _ c' h =>
      obtain ⟨g', h1, h2⟩ := h.gram hR hP gb hgb
      exact ⟨.fix g', by simp only [Core.gram, hm, if_true, h1, Option.map_some], hR.fix _ _ h2⟩
  | _, _, .call _ _ _ _ _ _, g, hg => by simp only [Core.gram] at hg; cases hg
  | _, _, .lam _ _ _ _, g, hg => by simp only [Core.gram] at hg; cases hg
  | _, _, .letE _ _ _ _ _ _, g, hg => by simp only [Core.gram] at hg; cases hg
theorem Core.SwapL.gram {P : Core → Core → Prop} {R : Gram → Gram → Prop} (hR : Gram.Cong R)
    (hP : ∀ a b, P a b → ∃ g g', a.gram unary = some g ∧ b.gram unary = some g' ∧ R g g') :
    ∀ {l l' : List Core}, Core.SwapL P l l' → ∀ gs, Core.gramL unary l = some gs → ∃ gs', Core.gramL unary l' = some gs' ∧ All2 R gs gs'
  | _, _, .nil, gs, hg => by simp only [Core.gramL] at hg; cases hg; exact ⟨[], rfl, .nil⟩
  | _, _, .cons _ _ _ _ h h', gs, hg => by
    rw [Core.gramL, Option.bind_eq_some_iff] at hg
    obtain ⟨g, h1, hg⟩ := hg
    rw [Option.map_eq_some_iff] at hg
    obtain ⟨gs', h2, rfl⟩ := hg
    obtain ⟨g1, h3, h4⟩ := h.gram hR hP g h1
    obtain ⟨gs1, h5, h6⟩ := h'.gram hR hP gs' h2
    exact ⟨g1 :: gs1, by rw [Core.gramL, h3, Option.bind_some, h5, Option.map_some], .cons h4 h6⟩
end

theorem finer_cong : Gram.Cong Gram.Finer where
  eps := fun Γ Γ' k τ _ _ h => by cases h; exact ⟨_, Ty.le_refl _, .eps _ _⟩
  lit := fun s Γ Γ' k τ _ _ h => by cases h; exact ⟨_, Ty.le_refl _, .lit _ _ _⟩
  cat := fun _ _ => finer_cat
  alt := fun _ _ => finer_alt
  fix := fun _ _ => finer_fix
  var := finer_var

/-- Every word of the second grammar is a word of the first. -/
def Gram.Within (g g' : Gram) : Prop := ∀ (ρ : Nat → Lang) (w : List Char), g'.lang ρ w → g.lang ρ w

theorem within_cong : Gram.Cong Gram.Within where
  eps := fun _ _ h => h
  lit := fun _ _ _ h => h
  var := fun _ _ _ h => h
  cat := fun l l' h ρ => by
    simp only [Gram.lang]
    induction h with
    | nil => exact fun _ h => h
    | cons h _ ih =>
      rintro w ⟨u, v, hw, h1, h2⟩
      exact ⟨u, v, hw, h ρ u h1, ih v h2⟩
  alt := fun l l' h ρ => by
    simp only [Gram.lang]
    induction h with
    | nil => exact fun _ h => h
    | cons h _ ih => exact fun w hw => hw.imp (h ρ w) (ih w)
  fix := fun b b' h ρ w hw X hX => hw X fun v hv => hX v (h _ v hv)

end Chomp
