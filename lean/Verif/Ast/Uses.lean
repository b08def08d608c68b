import Verif.Ast.FirstOrder

/-!
# Specification layer: which programs reduce

Types that list the ways in which an expression is used characterise exactly the expressions that
reduction turns into a result.
-/

namespace Chomp

/-- How an expression is used: as a grammar, as the argument of `fix` (called `~` in programs), or as a function, whose
parameters are each used in the listed ways, and whose result is used in one way. -/
inductive Use where
  | gram
  | fixed
  | fn (params : List (List Use)) (ret : Use)

/-- Everything but functions. -/
def Use.base : Use → Prop
  | .gram => True
  | .fixed => True
  | .fn _ _ => False

/-- The uses of the variables below `n` binders; the last binder has index 0. -/
def extUses (n : Nat) (τss : List (List Use)) (Γ : Nat → List Use) : Nat → List Use :=
  fun i => if i < n then τss.getD (n - 1 - i) [] else Γ (i - n)

/-- `Usable Γ e τ`: `e` can be used as `τ` if each variable `k` can be used as listed in `Γ k`. -/
inductive Usable : (Nat → List Use) → Core → Use → Prop
  | eps (Γ : Nat → List Use) (τ : Use) : τ.base → Usable Γ .eps τ
  | lit (Γ : Nat → List Use) (s : List Char) (τ : Use) : τ.base → Usable Γ (.lit s) τ
  | cat (Γ : Nat → List Use) (l : List Core) (τ : Use) : (∀ e ∈ l, Usable Γ e .gram) → τ.base → Usable Γ (.cat l) τ
  | alt (Γ : Nat → List Use) (l : List Core) (τ : Use) : (∀ e ∈ l, Usable Γ e .gram) → τ.base → Usable Γ (.alt l) τ
  | fix (Γ : Nat → List Use) (b : Core) (τ : Use) : Usable Γ b .fixed → τ.base → Usable Γ (.fix b) τ
  | var (Γ : Nat → List Use) (k : Nat) (τ : Use) : τ ∈ Γ k → Usable Γ (.var k) τ
  | call (Γ : Nat → List Use) (o : Core) (args : List Core) (τss : List (List Use)) (ρ : Use) :
      Usable Γ o (.fn τss ρ) → τss.length = args.length →
      (∀ p ∈ args.zip τss, ∀ s ∈ p.2, Usable Γ p.1 s) → Usable Γ (.call o args) ρ
  | lam (Γ : Nat → List Use) (n : Nat) (b : Core) (τss : List (List Use)) (ρ : Use) : τss.length = n →
      Usable (extUses n τss Γ) b ρ → Usable Γ (.lam n b) (.fn τss ρ)
  | lamGram (Γ : Nat → List Use) (n : Nat) (b : Core) : Usable Γ (.lam n b) .gram
  | lamFixed (Γ : Nat → List Use) (n : Nat) (b : Core) :
      Usable (extUses n (List.replicate n [.gram, .fixed]) Γ) b .gram → Usable Γ (.lam n b) .fixed
  | letE (Γ : Nat → List Use) (b c : Core) (τs : List Use) (τ : Use) :
      (∀ s ∈ τs, Usable Γ b s) → Usable (extUses 1 [τs] Γ) c τ → Usable Γ (.letE b c) τ

/-! ## Usable expressions reduce -/

theorem Reduces.ren {e v : Core} (h : Reduces e v) (f : Nat → Nat) : Reduces (e.ren f) (v.ren f) := by
  obtain ⟨n, h⟩ := h
  refine ⟨n, forget_ok.1 ?_⟩
  rw [reduceC_renOut, h]
  rfl

theorem Same.ren {e e' : Core} (h : Same e e') (f : Nat → Nat) : Same (e.ren f) (e'.ren f) := by
  rintro v ⟨n, hn⟩
  obtain ⟨w, hw, rfl⟩ := reduceC_ren n _ _ _ hn
  exact (h w ⟨n, hw⟩).ren f

mutual
/-- `e` behaves as `τ` asks for. -/
def Acts : Use → Core → Prop
  | .gram, e => ∃ v, Reduces e v
  | .fixed, e => ∃ v, Reduces e v ∧ ∀ n b, v = .lam n b → ∃ w, Reduces b w
  | .fn τss ρ, e => ∀ (f : Nat → Nat) (args : List Core), ActsL τss args → Acts ρ (.call (e.ren f) args)
def ActsA : List Use → Core → Prop
  | [], _ => True
  | τ :: τs, e => Acts τ e ∧ ActsA τs e
def ActsL : List (List Use) → List Core → Prop
  | [], [] => True
  | τs :: τss, e :: es => ActsA τs e ∧ ActsL τss es
  | _, _ => False
end

theorem ActsA_iff (τs : List Use) (e : Core) : ActsA τs e ↔ ∀ τ ∈ τs, Acts τ e := by
  induction τs <;> simp [ActsA, *]

theorem ActsL_iff (τss : List (List Use)) (args : List Core) : ActsL τss args ↔
    τss.length = args.length ∧ ∀ p ∈ args.zip τss, ∀ τ ∈ p.2, Acts τ p.1 := by
  induction τss generalizing args with
  | nil => cases args <;> simp [ActsL]
  | cons τ τs ih => cases args <;> simp [ActsL, ActsA_iff, ih] <;> grind

theorem Use.ind {P : Use → Prop} (gram : P .gram) (fixed : P .fixed) (fn : ∀ τs ρ, P ρ → P (.fn τs ρ)) : ∀ τ, P τ
  | .gram => gram
  | .fixed => fixed
  | .fn τs ρ => fn τs ρ (Use.ind gram fixed fn ρ)

theorem Acts.same (τ : Use) : ∀ {e e' : Core}, Same e e' → Acts τ e' → Acts τ e := by
  induction τ using Use.ind with
  | gram => rintro e e' h ⟨v, hv⟩; exact ⟨v, h v hv⟩
  | fixed => rintro e e' h ⟨v, hv, h2⟩; exact ⟨v, h v hv, h2⟩
  | fn τs ρ ih =>
    intro e e' h hr
    rw [Acts] at hr ⊢
    exact fun f args ha => ih ((h.ren f).call args) (hr f args ha)

theorem Acts.ren {τ : Use} {e : Core} (h : Acts τ e) (g : Nat → Nat) : Acts τ (e.ren g) := by
  cases τ with
  | gram => obtain ⟨v, hv⟩ := h; exact ⟨_, hv.ren g⟩
  | fixed =>
    obtain ⟨v, hv, h2⟩ := h
    refine ⟨_, hv.ren g, ?_⟩
    intro n b hb
    cases v with
    | lam k c =>
      simp only [Core.ren] at hb
      cases hb
      obtain ⟨w, hw⟩ := h2 _ _ rfl
      exact ⟨_, hw.ren _⟩
    | _ => cases hb
  | fn τss ρ =>
    rw [Acts] at h ⊢
    intro f args ha
    rw [Core.ren_ren]
    exact h _ args ha

theorem acts_base {e v : Core} {τ : Use} (h : Reduces e v) (hv : ∀ n b, v ≠ .lam n b) (hb : τ.base) : Acts τ e := by
  cases τ with
  | gram => exact ⟨v, h⟩
  | fixed => exact ⟨v, h, fun n b hv' => absurd hv' (hv n b)⟩
  | fn _ _ => exact hb.elim

theorem Usable.acts {Γ : Nat → List Use} {e : Core} {τ : Use} (h : Usable Γ e τ) :
    ∀ σ : Nat → Core, (∀ k, ∀ s ∈ Γ k, Acts s (σ k)) → Acts τ (e.sub σ) := by
  induction h with
  | eps Γ τ hb => intro σ _; exact acts_base (v := .eps) ⟨1, rfl⟩ (by intro n b h; cases h) hb
  | lit Γ s τ hb => intro σ _; exact acts_base (v := .lit s) ⟨1, rfl⟩ (by intro n b h; cases h) hb
  | cat Γ l τ _ hb ih =>
    intro σ hσ
    obtain ⟨n, l', hl⟩ := reduces_list (l.map (Core.sub σ)) (by
      intro e he
      obtain ⟨e', he', rfl⟩ := List.mem_map.1 he
      have := ih e' he' σ hσ
      rwa [Acts] at this)
    exact acts_base (v := .cat l') ⟨n + 1, by simp [Core.sub, reduceC, hl, Out.bind]⟩ (by intro n b h; cases h) hb
  | alt Γ l τ _ hb ih =>
    intro σ hσ
    obtain ⟨n, l', hl⟩ := reduces_list (l.map (Core.sub σ)) (by
      intro e he
      obtain ⟨e', he', rfl⟩ := List.mem_map.1 he
      have := ih e' he' σ hσ
      rwa [Acts] at this)
    exact acts_base (v := .alt l') ⟨n + 1, by simp [Core.sub, reduceC, hl, Out.bind]⟩ (by intro n b h; cases h) hb
  | fix Γ b τ _ hb ih =>
    intro σ hσ
    have h1 := ih σ hσ
    rw [Acts] at h1
    obtain ⟨v, hv, h2⟩ := h1
    obtain ⟨m, hm⟩ := hv.at
    cases v with
    | lam k c =>
      obtain ⟨w, hw⟩ := h2 k c rfl
      obtain ⟨m', hm'⟩ := hw.at
      refine acts_base (v := .fix (.lam k w)) ⟨max m m' + 1, ?_⟩ (by intro n b h; cases h) hb
      rw [Core.sub, reduceC, hm _ (Nat.le_max_left _ _)]
      simp only [Out.bind]
      rw [hm' _ (Nat.le_max_right _ _)]
    | _ =>
      have e3 := show reduceC (m + 1) (.fix (b.sub σ)) = _ by rw [reduceC, hm m (Nat.le_refl _)]
      exact acts_base ⟨_, e3⟩ (by intro n b h; cases h) hb
  | var Γ k τ hk => intro σ hσ; exact hσ k τ hk
  | call Γ o args τss ρ _ hl _ ih1 ih2 =>
    intro σ hσ
    have h1 := ih1 σ hσ
    rw [Acts] at h1
    simp only [Core.sub, Core.subL_map]
    have := h1 (fun i => i) (args.map (Core.sub σ)) (by
      rw [ActsL_iff]
      refine ⟨by simpa using hl, ?_⟩
      intro p hp s hs
      rw [List.zip_map_left] at hp
      obtain ⟨q, hq, rfl⟩ := List.mem_map.1 hp
      exact ih2 q hq s hs σ hσ)
    rwa [Core.ren_id] at this
  | lam Γ n b τss ρ hn _ ih =>
    intro σ hσ
    rw [Acts]
    intro f args ha
    rw [ActsL_iff] at ha
    obtain ⟨hlen, ha⟩ := ha
    have : n = args.length := by omega
    subst this
    simp only [Core.sub, Core.ren]
    refine Acts.same ρ (Same.beta _ _) ?_
    rw [Core.ren_sub, Core.sub_sub]
    apply ih
    intro k s hk
    simp only [extUses] at hk
    by_cases hlt : k < args.length
    · simp only [hlt, if_true, up, Core.ren, upr, Core.sub, instArgs] at hk ⊢
      have h1 : args.length - 1 - k < args.length := by omega
      have h2 : args.length - 1 - k < τss.length := by omega
      rw [List.getD_eq_getElem?_getD, List.getElem?_eq_getElem h1]
      rw [List.getD_eq_getElem?_getD, List.getElem?_eq_getElem h2] at hk
      exact ha (_, _) (getElem?_zip_mem (List.getElem?_eq_getElem h1) (List.getElem?_eq_getElem h2)) s hk
    · simp only [hlt, if_false, up, Core.ren_ren, Core.sub_ren] at hk ⊢
      have : (instArgs args ∘ (upr args.length f ∘ fun x => x + args.length)) = fun i => Core.var (f i) := by
        funext i
        have h1 : ¬ (i + args.length < args.length) := by omega
        have h2 : ¬ (f i + args.length < args.length) := by omega
        simp [instArgs, upr, h1, h2]
      rw [this]
      have h3 : (σ (k - args.length)).sub (fun i => Core.var (f i)) = (σ (k - args.length)).ren f := by
        have := Core.sub_ren (σ (k - args.length)) Core.var f
        rw [Core.sub_var] at this
        exact this.symm
      rw [h3]
      exact (hσ _ s hk).ren f
  | lamGram Γ n b => intro σ _; exact ⟨_, 1, rfl⟩
  | lamFixed Γ n b _ ih =>
    intro σ hσ
    refine ⟨_, ⟨1, rfl⟩, ?_⟩
    rintro m c hc
    cases hc
    have := ih (up n σ) (by
      intro k s hk
      simp only [extUses] at hk
      simp only [up]
      by_cases hlt : k < n
      · simp only [hlt, if_true] at hk ⊢
        have h2 : n - 1 - k < n := by omega
        simp only [List.getD_eq_getElem?_getD, List.getElem?_replicate, h2, if_true, Option.getD_some, List.mem_cons,
          List.not_mem_nil, or_false] at hk
        exact acts_base (v := .var k) ⟨1, rfl⟩ (by intro n b h; cases h) (by rcases hk with rfl | rfl <;> trivial)
      · simp only [hlt, if_false] at hk ⊢
        exact (hσ _ s hk).ren _)
    rwa [Acts] at this
  | letE Γ b c τs τ _ _ ih1 ih2 =>
    intro σ hσ
    refine Acts.same τ (Same.letE _ _) ?_
    rw [Core.sub_sub]
    apply ih2
    intro k s hk
    simp only [extUses] at hk
    rcases k with _ | k
    · simp only [up, Nat.zero_lt_one, if_true, Core.sub, inst, Nat.lt_irrefl, if_false] at hk ⊢
      exact ih1 s (by simpa using hk) σ hσ
    · have : ¬ (k + 1 < 1) := by omega
      simp only [up, this, if_false, Nat.add_sub_cancel] at hk ⊢
      rw [Core.sub_ren]
      have : (inst 0 (b.sub σ) ∘ fun x => x + 1) = Core.var := by
        funext j; simp [inst]
      rw [this, Core.sub_var]
      exact hσ _ s hk

/-! ## What reduces is usable -/

theorem extUses_comp (n : Nat) (τss : List (List Use)) (Δ : Nat → List Use) (f : Nat → Nat) :
    (fun k => extUses n τss Δ (upr n f k)) = extUses n τss (fun k => Δ (f k)) := by
  funext k
  simp only [extUses, upr]
  by_cases h : k < n
  · simp [h]
  · have : ¬ (f (k - n) + n < n) := by omega
    simp [h, this]

theorem Usable.ren {Γ : Nat → List Use} {e : Core} {τ : Use} (h : Usable Γ e τ) : ∀ (Δ : Nat → List Use) (f : Nat → Nat),
    (∀ k, ∀ s ∈ Γ k, s ∈ Δ (f k)) → Usable Δ (e.ren f) τ := by
  have hext : ∀ (n : Nat) (τss : List (List Use)) (Γ Δ : Nat → List Use) (f : Nat → Nat), (∀ k, ∀ s ∈ Γ k, s ∈ Δ (f k)) →
      ∀ k, ∀ s ∈ extUses n τss Γ k, s ∈ extUses n τss Δ (upr n f k) := by
    intro n τss Γ Δ f h k s hs
    have := congrFun (extUses_comp n τss Δ f) k
    rw [this]
    simp only [extUses] at hs ⊢
    split at hs
    · simpa [*] using hs
    · simpa [*] using h _ _ hs
  induction h with
  | eps Γ τ hb => intro Δ f _; exact .eps _ _ hb
  | lit Γ s τ hb => intro Δ f _; exact .lit _ _ _ hb
  | cat Γ l τ _ hb ih =>
    intro Δ f hf
    simp only [Core.ren, Core.renL_map]
    refine .cat _ _ _ ?_ hb
    intro e he
    obtain ⟨e', he', rfl⟩ := List.mem_map.1 he
    exact ih e' he' Δ f hf
  | alt Γ l τ _ hb ih =>
    intro Δ f hf
    simp only [Core.ren, Core.renL_map]
    refine .alt _ _ _ ?_ hb
    intro e he
    obtain ⟨e', he', rfl⟩ := List.mem_map.1 he
    exact ih e' he' Δ f hf
  | fix Γ b τ _ hb ih => intro Δ f hf; exact .fix _ _ _ (ih Δ f hf) hb
  | var Γ k τ hk => intro Δ f hf; exact .var _ _ _ (hf k τ hk)
  | call Γ o args τss ρ _ hl _ ih1 ih2 =>
    intro Δ f hf
    simp only [Core.ren, Core.renL_map]
    refine .call _ _ _ τss _ (ih1 Δ f hf) (by simpa using hl) ?_
    intro p hp s hs
    rw [List.zip_map_left] at hp
    obtain ⟨q, hq, rfl⟩ := List.mem_map.1 hp
    exact ih2 q hq s hs Δ f hf
  | lam Γ n b τss ρ hn _ ih => intro Δ f hf; exact .lam _ _ _ _ _ hn (ih _ _ (hext _ _ _ _ _ hf))
  | lamGram Γ n b => intro Δ f _; exact .lamGram _ _ _
  | lamFixed Γ n b _ ih => intro Δ f hf; exact .lamFixed _ _ _ (ih _ _ (hext _ _ _ _ _ hf))
  | letE Γ b c τs τ _ _ ih1 ih2 =>
    intro Δ f hf
    exact .letE _ _ _ τs _ (fun s hs => ih1 s hs Δ f hf) (ih2 _ _ (hext _ _ _ _ _ hf))

theorem Usable.weaken {Γ Δ : Nat → List Use} {e : Core} {τ : Use} (h : Usable Γ e τ) (hs : ∀ k, ∀ s ∈ Γ k, s ∈ Δ k) :
    Usable Δ e τ := by
  have := h.ren Δ (fun i => i) hs
  rwa [Core.ren_id] at this

theorem Usable.unren (e : Core) : ∀ (Δ : Nat → List Use) (f : Nat → Nat) (τ : Use), Usable Δ (e.ren f) τ →
    Usable (fun k => Δ (f k)) e τ := by
  induction e using Core.ind with
  | eps => intro Δ f τ h; cases h with | eps _ _ hb => exact .eps _ _ hb
  | lit s => intro Δ f τ h; cases h with | lit _ _ _ hb => exact .lit _ _ _ hb
  | cat l ih =>
    intro Δ f τ h
    simp only [Core.ren, Core.renL_map] at h
    cases h with
    | cat _ _ _ h hb => exact .cat _ _ _ (fun e he => ih e he Δ f _ (h _ (List.mem_map.2 ⟨e, he, rfl⟩))) hb
  | alt l ih =>
    intro Δ f τ h
    simp only [Core.ren, Core.renL_map] at h
    cases h with
    | alt _ _ _ h hb => exact .alt _ _ _ (fun e he => ih e he Δ f _ (h _ (List.mem_map.2 ⟨e, he, rfl⟩))) hb
  | fix b ih => intro Δ f τ h; cases h with | fix _ _ _ h hb => exact .fix _ _ _ (ih Δ f _ h) hb
  | var k => intro Δ f τ h; cases h with | var _ _ _ h => exact .var _ _ _ h
  | call o a ih1 ih2 =>
    intro Δ f τ h
    simp only [Core.ren, Core.renL_map] at h
    cases h with
    | call _ _ _ τss _ h1 hl h2 =>
      refine .call _ _ _ τss _ (ih1 Δ f _ h1) (by simpa using hl) ?_
      intro p hp s hs
      refine ih2 p.1 (List.of_mem_zip hp).1 Δ f s (h2 (p.1.ren f, p.2) ?_ s hs)
      rw [List.zip_map_left]
      exact List.mem_map.2 ⟨p, hp, rfl⟩
  | lam n b ih =>
    intro Δ f τ h
    simp only [Core.ren] at h
    cases h with
    | lam _ _ _ τss ρ hn h => exact .lam _ _ _ _ _ hn (by rw [← extUses_comp]; exact ih _ _ _ h)
    | lamGram => exact .lamGram _ _ _
    | lamFixed _ _ _ h => exact .lamFixed _ _ _ (by rw [← extUses_comp]; exact ih _ _ _ h)
  | letE b c ih1 ih2 =>
    intro Δ f τ h
    simp only [Core.ren] at h
    cases h with
    | letE _ _ _ τs _ h1 h2 =>
      exact .letE _ _ _ τs _ (fun s hs => ih1 Δ f s (h1 s hs)) (by rw [← extUses_comp]; exact ih2 _ _ _ h2)

/-- Merge the uses found for the elements of a list. -/
theorem usable_merge {α : Type} (l : List α) (P : α → (Nat → List Use) → Prop) (Q : Nat → Use → Prop)
    (hw : ∀ a Δ Δ', (∀ k, ∀ s ∈ Δ k, s ∈ Δ' k) → P a Δ → P a Δ')
    (h : ∀ a ∈ l, ∃ Δ : Nat → List Use, P a Δ ∧ ∀ k, ∀ s ∈ Δ k, Q k s) :
    ∃ Δ : Nat → List Use, (∀ a ∈ l, P a Δ) ∧ ∀ k, ∀ s ∈ Δ k, Q k s := by
  induction l with
  | nil => exact ⟨fun _ => [], by simp, by simp⟩
  | cons a l ih =>
    obtain ⟨Δ1, h1, h2⟩ := h a (by simp)
    obtain ⟨Δ2, h3, h4⟩ := ih (fun b hb => h b (by simp [hb]))
    refine ⟨fun k => Δ1 k ++ Δ2 k, ?_, ?_⟩
    · intro b hb
      rcases List.mem_cons.1 hb with rfl | hb
      · exact hw _ _ _ (fun k s hs => by simp [hs]) h1
      · exact hw _ _ _ (fun k s hs => by simp [hs]) (h3 b hb)
    · intro k s hs
      rcases List.mem_append.1 hs with hs | hs
      · exact h2 k s hs
      · exact h4 k s hs

/-- What is needed of `up n σ` below `n` binders. -/
theorem usable_under {n : Nat} {τss : List (List Use)} {Γ : Nat → List Use} {σ : Nat → Core} {b : Core} {ρ : Use}
    (ih : ∃ Δ, Usable Δ b ρ ∧ ∀ k, ∀ s ∈ Δ k, Usable (extUses n τss Γ) (up n σ k) s) :
    ∃ Δ, Usable (extUses n τss Δ) b ρ ∧ ∀ k, ∀ s ∈ Δ k, Usable Γ (σ k) s := by
  obtain ⟨Δ, h1, h2⟩ := ih
  refine ⟨fun k => Δ (k + n), h1.weaken ?_, ?_⟩
  · intro k s hs
    simp only [extUses]
    by_cases hk : k < n
    · have := h2 k s hs
      simp only [up, hk, if_true] at this ⊢
      cases this with
      | var _ _ _ h => simpa [extUses, hk] using h
    · simp only [hk, if_false]
      rwa [Nat.sub_add_cancel (by omega)]
  · intro k s hs
    have h3 := h2 (k + n) s hs
    have hk : ¬ (k + n < n) := by omega
    simp only [up, hk, if_false, Nat.add_sub_cancel] at h3
    refine (Usable.unren _ _ _ _ h3).weaken ?_
    intro j s hs
    have hj : ¬ (j + n < n) := by omega
    simpa [extUses, hj] using hs

theorem Usable.unsub (e : Core) : ∀ (Γ : Nat → List Use) (σ : Nat → Core) (τ : Use), Usable Γ (e.sub σ) τ →
    ∃ Δ, Usable Δ e τ ∧ ∀ k, ∀ s ∈ Δ k, Usable Γ (σ k) s := by
  induction e using Core.ind with
  | eps => intro Γ σ τ h; cases h with | eps _ _ hb => exact ⟨fun _ => [], .eps _ _ hb, by simp⟩
  | lit s => intro Γ σ τ h; cases h with | lit _ _ _ hb => exact ⟨fun _ => [], .lit _ _ _ hb, by simp⟩
  | cat l ih =>
    intro Γ σ τ h
    simp only [Core.sub, Core.subL_map] at h
    cases h with
    | cat _ _ _ h hb =>
      obtain ⟨Δ, h1, h2⟩ := usable_merge l (fun e Δ => Usable Δ e .gram) (fun k s => Usable Γ (σ k) s)
        (fun a Δ Δ' hs h => h.weaken hs) (fun e he => ih e he Γ σ _ (h _ (List.mem_map.2 ⟨e, he, rfl⟩)))
      exact ⟨Δ, .cat _ _ _ h1 hb, h2⟩
  | alt l ih =>
    intro Γ σ τ h
    simp only [Core.sub, Core.subL_map] at h
    cases h with
    | alt _ _ _ h hb =>
      obtain ⟨Δ, h1, h2⟩ := usable_merge l (fun e Δ => Usable Δ e .gram) (fun k s => Usable Γ (σ k) s)
        (fun a Δ Δ' hs h => h.weaken hs) (fun e he => ih e he Γ σ _ (h _ (List.mem_map.2 ⟨e, he, rfl⟩)))
      exact ⟨Δ, .alt _ _ _ h1 hb, h2⟩
  | fix b ih =>
    intro Γ σ τ h
    cases h with
    | fix _ _ _ h hb =>
      obtain ⟨Δ, h1, h2⟩ := ih Γ σ _ h
      exact ⟨Δ, .fix _ _ _ h1 hb, h2⟩
  | var k =>
    intro Γ σ τ h
    refine ⟨fun j => if j = k then [τ] else [], .var _ _ _ (by simp), ?_⟩
    intro j s hs
    by_cases hj : j = k
    · subst hj
      simp at hs
      subst hs
      exact h
    · simp [hj] at hs
  | call o a ih1 ih2 =>
    intro Γ σ τ h
    simp only [Core.sub, Core.subL_map] at h
    cases h with
    | call _ _ _ τss _ h1 hl h2 =>
      obtain ⟨Δ1, h3, h4⟩ := ih1 Γ σ _ h1
      obtain ⟨Δ2, h5, h6⟩ := usable_merge (a.zip τss) (fun p Δ => ∀ s ∈ p.2, Usable Δ p.1 s) (fun k s => Usable Γ (σ k) s)
        (fun a Δ Δ' hs h s hs' => (h s hs').weaken hs) (fun p hp => by
          refine usable_merge p.2 (fun s Δ => Usable Δ p.1 s) (fun k s => Usable Γ (σ k) s)
            (fun a Δ Δ' hs h => h.weaken hs) (fun s hs => ?_)
          refine ih2 p.1 (List.of_mem_zip hp).1 Γ σ s (h2 (p.1.sub σ, p.2) ?_ s hs)
          rw [List.zip_map_left]
          exact List.mem_map.2 ⟨p, hp, rfl⟩)
      refine ⟨fun k => Δ1 k ++ Δ2 k, .call _ _ _ τss _ (h3.weaken fun k s hs => by simp [hs]) (by simpa using hl) ?_, ?_⟩
      · intro p hp s hs
        exact (h5 p hp s hs).weaken fun k s hs => by simp [hs]
      · intro k s hs
        rcases List.mem_append.1 hs with hs | hs
        · exact h4 k s hs
        · exact h6 k s hs
  | lam n b ih =>
    intro Γ σ τ h
    simp only [Core.sub] at h
    cases h with
    | lam _ _ _ τss ρ hn h =>
      obtain ⟨Δ, h1, h2⟩ := usable_under (ih _ _ _ h)
      exact ⟨Δ, .lam _ _ _ _ _ hn h1, h2⟩
    | lamGram => exact ⟨fun _ => [], .lamGram _ _ _, by simp⟩
    | lamFixed _ _ _ h =>
      obtain ⟨Δ, h1, h2⟩ := usable_under (ih _ _ _ h)
      exact ⟨Δ, .lamFixed _ _ _ h1, h2⟩
  | letE b c ih1 ih2 =>
    intro Γ σ τ h
    simp only [Core.sub] at h
    cases h with
    | letE _ _ _ τs _ h1 h2 =>
      obtain ⟨Δ1, h3, h4⟩ := usable_merge τs (fun s Δ => Usable Δ b s) (fun k s => Usable Γ (σ k) s)
        (fun a Δ Δ' hs h => h.weaken hs) (fun s hs => ih1 Γ σ s (h1 s hs))
      obtain ⟨Δ2, h5, h6⟩ := usable_under (ih2 _ _ _ h2)
      refine ⟨fun k => Δ1 k ++ Δ2 k, .letE _ _ _ τs _ (fun s hs => (h3 s hs).weaken fun k s hs => by simp [hs])
        (h5.weaken ?_), ?_⟩
      · intro k s hs
        simp only [extUses] at hs ⊢
        split
        · simpa [*] using hs
        · simp only [*, if_false] at hs
          simp [hs]
      · intro k s hs
        rcases List.mem_append.1 hs with hs | hs
        · exact h4 k s hs
        · exact h6 k s hs

theorem mapO_all2' {n : Nat} : ∀ {l l' : List Core}, mapO (reduceC n) l = .ok l' → All2 (fun e v => reduceC n e = .ok v) l l'
  | [], l', h => by cases h; exact .nil
  | e :: l, l', h => by
    rw [mapO] at h
    obtain ⟨v, h1, h2⟩ := Out.bind_ok h
    obtain ⟨l2, h3, h4⟩ := Out.bind_ok h2
    cases h4
    exact .cons h1 (mapO_all2' h3)

/-- An expression can be used as its result can. -/
theorem usable_expand (n : Nat) : ∀ (e v : Core) (Γ : Nat → List Use) (τ : Use), reduceC n e = .ok v → Usable Γ v τ → Usable Γ e τ := by
  have hlist : ∀ {n : Nat} {l l' : List Core} {Γ : Nat → List Use},
      (∀ (e v : Core) (Γ : Nat → List Use) (τ : Use), reduceC n e = .ok v → Usable Γ v τ → Usable Γ e τ) →
      All2 (fun e v => reduceC n e = .ok v) l l' → (∀ e ∈ l', Usable Γ e .gram) → ∀ e ∈ l, Usable Γ e .gram := by
    intro n l l' Γ ih h
    induction h with
    | nil => simp
    | cons h _ ihl =>
      intro h1 e he
      rcases List.mem_cons.1 he with rfl | he
      · exact ih _ _ _ _ h (h1 _ (by simp))
      · exact ihl (fun e he => h1 e (by simp [he])) e he
  induction n with
  | zero => intro e v Γ τ h; cases h
  | succ n ih =>
    intro e v Γ τ h hv
    cases e with
    | eps => cases h; exact hv
    | lit s => cases h; exact hv
    | cat l =>
      rw [reduceC] at h
      obtain ⟨l', h1, h2⟩ := Out.bind_ok h
      cases h2
      cases hv with
      | cat _ _ _ hv hb => exact .cat _ _ _ (hlist ih (mapO_all2' h1) hv) hb
    | alt l =>
      rw [reduceC] at h
      obtain ⟨l', h1, h2⟩ := Out.bind_ok h
      cases h2
      cases hv with
      | alt _ _ _ hv hb => exact .alt _ _ _ (hlist ih (mapO_all2' h1) hv) hb
    | fix b =>
      rw [reduceC] at h
      obtain ⟨b', h1, h2⟩ := Out.bind_ok h
      cases b' with
      | lam k c =>
        simp only at h2
        obtain ⟨c', h3, h4⟩ := Out.bind_ok h2
        cases h4
        cases hv with
        | fix _ _ _ hv hb =>
          cases hv with
          | lamFixed _ _ _ hv => exact .fix _ _ _ (ih _ _ _ _ h1 (.lamFixed _ _ _ (ih _ _ _ _ h3 hv))) hb
      | _ => cases h2; cases hv with | fix _ _ _ hv hb => exact .fix _ _ _ (ih _ _ _ _ h1 hv) hb
    | var k => cases h; exact hv
    | call on args =>
      rw [reduceC] at h
      obtain ⟨o', h1, h2⟩ := Out.bind_ok h
      cases o' with
      | lam k b =>
        by_cases hk : k = args.length
        · subst hk
          simp only [ne_eq, not_true, if_false] at h2
          obtain ⟨Δ, h3, h4⟩ := Usable.unsub _ _ _ _ (ih _ _ _ _ h2 hv)
          have hlen : ((List.range args.length).map fun i => Δ (args.length - 1 - i)).length = args.length := by simp
          refine .call _ _ _ ((List.range args.length).map fun i => Δ (args.length - 1 - i)) _ (ih _ _ _ _ h1 ?_) hlen ?_
          · refine .lam _ _ _ _ _ hlen (h3.weaken ?_)
            intro j s hs
            simp only [extUses]
            by_cases hj : j < args.length
            · have h5 : args.length - 1 - j < args.length := by omega
              have h6 : args.length - 1 - (args.length - 1 - j) = j := by omega
              simp only [hj, if_true, List.getD_eq_getElem?_getD, List.getElem?_map, List.getElem?_range h5,
                Option.map_some, Option.getD_some, h6]
              exact hs
            · have h5 := h4 j s hs
              simp only [instArgs, hj, if_false] at h5 ⊢
              cases h5 with | var _ _ _ h => exact h
          · intro p hp s hs
            obtain ⟨i, hi⟩ := List.mem_iff_getElem?.1 hp
            rw [List.getElem?_zip_eq_some] at hi
            obtain ⟨h5, h6⟩ := hi
            have h7 : i < args.length := by
              rw [List.getElem?_eq_some_iff] at h5
              exact h5.1
            rw [List.getElem?_map, List.getElem?_range h7] at h6
            obtain ⟨pe, pt⟩ := p
            simp only [Option.map_some, Option.some.injEq] at h5 h6
            subst h6
            have h8 := h4 _ s hs
            have h9 : args.length - 1 - i < args.length := by omega
            have h10 : args.length - 1 - (args.length - 1 - i) = i := by omega
            simp only [instArgs, h9, if_true, h10, List.getD_eq_getElem?_getD, h5, Option.getD_some] at h8
            exact h8
        · simp [hk] at h2
      | _ => cases h2
    | lam k b => cases h; exact hv
    | letE b c =>
      rw [reduceC] at h
      obtain ⟨Δ, h3, h4⟩ := Usable.unsub _ _ _ _ (ih _ _ _ _ h hv)
      refine .letE _ _ _ (Δ 0) _ (fun s hs => by simpa [inst] using h4 0 s hs) (h3.weaken ?_)
      intro j s hs
      rcases j with _ | j
      · simpa [extUses] using hs
      · have h5 := h4 (j + 1) s hs
        simp only [inst, Nat.not_lt_zero, if_false, Nat.add_one_ne_zero, Nat.add_sub_cancel] at h5
        cases h5 with | var _ _ _ h => simpa [extUses] using h

/-- All variables are grammars. -/
def gramUses : Nat → List Use := fun _ => [.gram, .fixed]

theorem extUses_gram (n : Nat) : extUses n (List.replicate n [.gram, .fixed]) gramUses = gramUses := by
  funext k
  simp only [extUses, gramUses]
  split
  · have : n - 1 - k < n := by omega
    simp [this]
  · rfl

theorem settled_usable (v : Core) : v.settled → Usable gramUses v .gram ∧ ((∀ n b, v ≠ .lam n b) → Usable gramUses v .fixed) ∧
    (∀ n b, v = .lam n b → b.settled → Usable gramUses b .gram) := by
  induction v using Core.ind with
  | eps => exact fun _ => ⟨.eps _ _ trivial, fun _ => .eps _ _ trivial, by intro n b h; cases h⟩
  | lit s => exact fun _ => ⟨.lit _ _ _ trivial, fun _ => .lit _ _ _ trivial, by intro n b h; cases h⟩
  | cat l ih =>
    intro h
    simp only [Core.settled, Core.settledL_iff] at h
    have := fun e he => (ih e he (h e he)).1
    exact ⟨.cat _ _ _ this trivial, fun _ => .cat _ _ _ this trivial, by intro n b h; cases h⟩
  | alt l ih =>
    intro h
    simp only [Core.settled, Core.settledL_iff] at h
    have := fun e he => (ih e he (h e he)).1
    exact ⟨.alt _ _ _ this trivial, fun _ => .alt _ _ _ this trivial, by intro n b h; cases h⟩
  | fix b ih =>
    intro h
    have : Usable gramUses b .fixed := by
      cases b with
      | lam n c =>
        rw [Core.settled] at h
        have := (ih (by simp [Core.settled])).2.2 n c rfl h
        refine .lamFixed _ _ _ ?_
        rw [extUses_gram]
        exact this
      | _ =>
        rw [Core.settled] at h
        · exact (ih h).2.1 (by intro n b h; cases h)
        · intro n b h; cases h
    exact ⟨.fix _ _ _ this trivial, fun _ => .fix _ _ _ this trivial, by intro n b h; cases h⟩
  | var k => exact fun _ => ⟨.var _ _ _ (by simp [gramUses]), fun _ => .var _ _ _ (by simp [gramUses]), by intro n b h; cases h⟩
  | call o a _ _ => intro h; exact h.elim
  | lam n b ih =>
    intro _
    refine ⟨.lamGram _ _ _, fun h => absurd rfl (h n b), ?_⟩
    intro m c h hc
    cases h
    exact (ih hc).1
  | letE b c _ _ => intro h; exact h.elim

/-- Exactly the expressions that can be used as grammars reduce to something. -/
theorem reduces_iff_usable (e : Core) : (∃ n v, reduceC n e = .ok v) ↔ Usable gramUses e .gram := by
  constructor
  · rintro ⟨n, v, h⟩
    exact usable_expand n e v _ _ h (settled_usable v (reduceC_settled n e v h)).1
  · intro h
    have := h.acts Core.var (by
      intro k s hs
      refine acts_base (v := .var k) ⟨1, rfl⟩ (by intro n b h; cases h) ?_
      simp only [gramUses, List.mem_cons, List.not_mem_nil, or_false] at hs
      rcases hs with rfl | rfl <;> trivial)
    rw [Core.sub_var, Acts] at this
    obtain ⟨v, n, h⟩ := this
    exact ⟨n, v, h⟩

end Chomp
