import Verif.Ast.ReduceLemmas

/-! Termination of reduction on simply typed expressions (logical relations). -/

namespace Chomp

/-- Simple types: grammars, and functions with a list of parameters. -/
inductive STy where
  | gram
  | fn (params : List STy) (ret : STy)

/-- Simple typing (specification for C21).  `Γ` lists the types of the free variables by index; the
last parameter of a lambda has index 0. -/
inductive HasSTy : List STy → Core → STy → Prop
  | eps (Γ : List STy) : HasSTy Γ .eps .gram
  | lit (Γ : List STy) (s : List Char) : HasSTy Γ (.lit s) .gram
  | cat (Γ : List STy) (l : List Core) : (∀ e ∈ l, HasSTy Γ e .gram) → HasSTy Γ (.cat l) .gram
  | alt (Γ : List STy) (l : List Core) : (∀ e ∈ l, HasSTy Γ e .gram) → HasSTy Γ (.alt l) .gram
  | fix (Γ : List STy) (b : Core) : HasSTy Γ b (.fn [.gram] .gram) → HasSTy Γ (.fix b) .gram
  | var (Γ : List STy) (k : Nat) (τ : STy) : Γ[k]? = some τ → HasSTy Γ (.var k) τ
  | call (Γ : List STy) (o : Core) (args : List Core) (τs : List STy) (ρ : STy) :
      HasSTy Γ o (.fn τs ρ) → τs.length = args.length →
      (∀ p ∈ args.zip τs, HasSTy Γ p.1 p.2) → HasSTy Γ (.call o args) ρ
  | lam (Γ : List STy) (b : Core) (τs : List STy) (ρ : STy) :
      HasSTy (τs.reverse ++ Γ) b ρ → HasSTy Γ (.lam τs.length b) (.fn τs ρ)
  | letE (Γ : List STy) (b c : Core) (σ τ : STy) :
      HasSTy Γ b σ → HasSTy (σ :: Γ) c τ → HasSTy Γ (.letE b c) τ

/-- `e` reduces to `v`. -/
def Reduces (e v : Core) : Prop := ∃ n, reduceC n e = .ok v

theorem Reduces.det {e v w : Core} (h1 : Reduces e v) (h2 : Reduces e w) : v = w := by
  obtain ⟨n, h1⟩ := h1
  obtain ⟨m, h2⟩ := h2
  have e1 := reduceC_mono (Nat.le_max_left n m) e (by rw [h1]; simp)
  have e2 := reduceC_mono (Nat.le_max_right n m) e (by rw [h2]; simp)
  rw [h1] at e1; rw [h2] at e2
  rw [e1] at e2; cases e2; rfl

theorem Reduces.at {e v : Core} (h : Reduces e v) : ∃ m, ∀ n ≥ m, reduceC n e = .ok v := by
  obtain ⟨m, h⟩ := h
  exact ⟨m, fun n hn => by rw [reduceC_mono hn e (by rw [h]; simp), h]⟩

/-- Same results. -/
def Same (e e' : Core) : Prop := ∀ v, Reduces e' v → Reduces e v

theorem Same.call {e e' : Core} (h : Same e e') (args : List Core) : Same (.call e args) (.call e' args) := by
  intro v ⟨n, hn⟩
  cases n with
  | zero => cases hn
  | succ n =>
    rw [reduceC] at hn
    obtain ⟨o, h1, h2⟩ := Out.bind_ok hn
    obtain ⟨m, hm⟩ := (h o ⟨n, h1⟩).at
    cases o with
    | lam k body =>
      by_cases hk : k = args.length
      · simp only [hk, ne_eq, not_true, if_false] at h2
        refine ⟨max m n + 1, ?_⟩
        rw [reduceC, hm _ (Nat.le_max_left m n)]
        simp only [Out.bind, hk, ne_eq, not_true, if_false]
        rw [reduceC_mono (Nat.le_max_right m n) _ (by rw [h2]; simp), h2]
      · simp [hk] at h2
    | _ => cases h2

theorem Same.beta (b : Core) (args : List Core) :
    Same (.call (.lam args.length b) args) (b.sub (instArgs args)) := by
  intro v ⟨n, hn⟩
  refine ⟨n + 2, ?_⟩
  rw [reduceC, reduceC]
  simp only [Out.bind, ne_eq, not_true, if_false]
  rw [reduceC_succ _ _ (by rw [hn]; simp), hn]

theorem Same.letE (b c : Core) : Same (.letE b c) (c.sub (inst 0 b)) := by
  intro v ⟨n, hn⟩
  exact ⟨n + 1, hn⟩

mutual
/-- Reducibility. -/
def Red : STy → Core → Prop
  | .gram, e => ∃ v, Reduces e v
  | .fn τs ρ, e => (∃ k b, Reduces e (.lam k b)) ∧ ∀ args, RedL τs args → Red ρ (.call e args)
def RedL : List STy → List Core → Prop
  | [], [] => True
  | τ :: τs, e :: es => Red τ e ∧ RedL τs es
  | _, _ => False
end

theorem RedL_iff (τs : List STy) (args : List Core) : RedL τs args ↔
    τs.length = args.length ∧ ∀ p ∈ args.zip τs, Red p.2 p.1 := by
  induction τs generalizing args with
  | nil => cases args <;> simp [RedL]
  | cons τ τs ih => cases args <;> simp [RedL, ih] <;> grind

/-- Induction principle for simple types on the result. -/
theorem STy.ind {P : STy → Prop} (gram : P .gram) (fn : ∀ τs ρ, P ρ → P (.fn τs ρ)) : ∀ τ, P τ
  | .gram => gram
  | .fn τs ρ => fn τs ρ (STy.ind gram fn ρ)

theorem Red.same (τ : STy) : ∀ {e e' : Core}, Same e e' → Red τ e' → Red τ e := by
  induction τ using STy.ind with
  | gram => intro e e' h ⟨v, hv⟩; exact ⟨v, h v hv⟩
  | fn τs ρ ih =>
    intro e e' h hr
    rw [Red] at hr ⊢
    obtain ⟨⟨k, b, h1⟩, h2⟩ := hr
    exact ⟨⟨k, b, h _ h1⟩, fun args ha => ih (h.call args) (h2 args ha)⟩

theorem Red.reduces {τ : STy} {e : Core} (h : Red τ e) : ∃ v, Reduces e v := by
  cases τ with
  | gram => exact h
  | fn τs ρ => rw [Red] at h; obtain ⟨⟨k, b, h1⟩, _⟩ := h; exact ⟨_, h1⟩

theorem sub_instArgs_ren (b : Core) (args : List Core) (f : Nat → Nat) :
    (b.sub (instArgs args)).ren f = (b.ren (upr args.length f)).sub (instArgs (args.map (Core.ren f))) := by
  rw [Core.ren_sub, Core.sub_ren]
  congr 1
  funext i
  simp only [Function.comp, upr, instArgs, List.length_map]
  by_cases h : i < args.length
  · simp only [h, if_true]
    have : args.length - 1 - i < args.length := by omega
    simp [List.getD_eq_getElem?_getD, List.getElem?_eq_getElem this]
  · have : ¬ (f (i - args.length) + args.length < args.length) := by omega
    simp [h, this, Core.ren]

theorem sub_inst_ren (b c : Core) (f : Nat → Nat) :
    (c.sub (inst 0 b)).ren f = (c.ren (upr 1 f)).sub (inst 0 (b.ren f)) := by
  rw [Core.ren_sub, Core.sub_ren]
  congr 1
  funext i
  simp only [Function.comp, upr, inst, Nat.not_lt_zero, if_false]
  rcases i with _ | i
  · simp
  · simp [Core.ren]

theorem mapO_ren (n : Nat) (f : Nat → Nat) (l l' : List Core)
    (ih : ∀ e f w, reduceC n (e.ren f) = .ok w → ∃ v, reduceC n e = .ok v ∧ w = v.ren f)
    (h : mapO (reduceC n) (l.map (Core.ren f)) = .ok l') :
    ∃ l2, mapO (reduceC n) l = .ok l2 ∧ l' = l2.map (Core.ren f) := by
  induction l generalizing l' with
  | nil => cases h; exact ⟨[], rfl, rfl⟩
  | cons e l ihl =>
    simp only [List.map_cons, mapO] at h
    obtain ⟨a, h1, h2⟩ := Out.bind_ok h
    obtain ⟨b, h3, h4⟩ := Out.bind_ok h2
    cases h4
    obtain ⟨v, h5, rfl⟩ := ih _ _ _ h1
    obtain ⟨l2, h6, rfl⟩ := ihl _ h3
    exact ⟨v :: l2, by simp [mapO, h5, h6, Out.bind], rfl⟩

/-- Success of reduction is reflected by arbitrary renamings. -/
theorem reduceC_ren (n : Nat) : ∀ e f w, reduceC n (e.ren f) = .ok w →
    ∃ v, reduceC n e = .ok v ∧ w = v.ren f := by
  induction n with
  | zero => intro e f w h; cases h
  | succ n ih =>
    intro e f w h
    cases e with
    | eps => cases h; exact ⟨_, rfl, rfl⟩
    | lit s => cases h; exact ⟨_, rfl, rfl⟩
    | cat l =>
      simp only [Core.ren, Core.renL_map, reduceC] at h
      obtain ⟨l', h1, h2⟩ := Out.bind_ok h
      cases h2
      obtain ⟨l2, h3, rfl⟩ := mapO_ren n f l l' ih h1
      exact ⟨.cat l2, by simp [reduceC, h3, Out.bind], by simp [Core.ren]⟩
    | alt l =>
      simp only [Core.ren, Core.renL_map, reduceC] at h
      obtain ⟨l', h1, h2⟩ := Out.bind_ok h
      cases h2
      obtain ⟨l2, h3, rfl⟩ := mapO_ren n f l l' ih h1
      exact ⟨.alt l2, by simp [reduceC, h3, Out.bind], by simp [Core.ren]⟩
    | fix b =>
      simp only [Core.ren, reduceC] at h
      obtain ⟨b', h1, h2⟩ := Out.bind_ok h
      obtain ⟨v, h3, rfl⟩ := ih _ _ _ h1
      cases v with
      | lam k c =>
        simp only [Core.ren] at h2
        obtain ⟨c', h4, h5⟩ := Out.bind_ok h2
        cases h5
        obtain ⟨c2, h6, rfl⟩ := ih _ _ _ h4
        exact ⟨.fix (.lam k c2), by simp [reduceC, h3, h6, Out.bind], by simp [Core.ren]⟩
      | _ => cases h2; exact ⟨_, by rw [reduceC, h3]; rfl, rfl⟩
    | var k => cases h; exact ⟨_, rfl, rfl⟩
    | call on args =>
      simp only [Core.ren, Core.renL_map, reduceC] at h
      obtain ⟨o', h1, h2⟩ := Out.bind_ok h
      obtain ⟨v, h3, rfl⟩ := ih _ _ _ h1
      cases v with
      | lam k c =>
        simp only [Core.ren, List.length_map] at h2
        by_cases hk : k = args.length
        · subst hk
          simp only [ne_eq, not_true, if_false] at h2
          rw [← sub_instArgs_ren] at h2
          obtain ⟨v, h4, rfl⟩ := ih _ _ _ h2
          exact ⟨v, by simp [reduceC, h3, h4, Out.bind], rfl⟩
        · simp [hk] at h2
      | _ => cases h2
    | lam k b => cases h; exact ⟨_, rfl, rfl⟩
    | letE b c =>
      simp only [Core.ren, reduceC] at h
      rw [← sub_inst_ren] at h
      exact ih _ _ _ h

theorem mapO_of_forall {ε α β : Type} (f : α → Out ε β) (l : List α) (h : ∀ a ∈ l, ∃ b, f a = .ok b) :
    ∃ l', mapO f l = .ok l' := by
  induction l with
  | nil => exact ⟨[], rfl⟩
  | cons a l ih =>
    obtain ⟨b, hb⟩ := h a (by simp)
    obtain ⟨l', hl⟩ := ih (fun x hx => h x (by simp [hx]))
    exact ⟨b :: l', by simp [mapO, hb, hl, Out.bind]⟩

theorem reduces_list (l : List Core) (h : ∀ e ∈ l, ∃ v, Reduces e v) : ∃ n l', mapO (reduceC n) l = .ok l' := by
  obtain ⟨m, hm⟩ := list_bound (P := fun n e => ∃ v, reduceC n e = .ok v) l (fun e he => by
    obtain ⟨v, hv⟩ := h e he
    obtain ⟨m, hm⟩ := hv.at
    exact ⟨m, fun n hn => ⟨v, hm n hn⟩⟩)
  obtain ⟨l', hl⟩ := mapO_of_forall (reduceC m) l (hm m (Nat.le_refl _))
  exact ⟨m, l', hl⟩

theorem Red_fix (b : Core) (h : Red (.fn [.gram] .gram) b) : ∃ v, Reduces (.fix b) v := by
  rw [Red] at h
  obtain ⟨⟨k, c, hb⟩, h2⟩ := h
  have h3 := h2 [.var 0] (by simp only [RedL, and_true]; exact ⟨.var 0, 1, rfl⟩)
  obtain ⟨v, n, hn⟩ := h3.reduces
  cases n with
  | zero => cases hn
  | succ n =>
    rw [reduceC] at hn
    obtain ⟨o, e1, e2⟩ := Out.bind_ok hn
    have := Reduces.det hb ⟨n, e1⟩
    subst this
    by_cases hk : k = 1
    · subst hk
      simp only [List.length_singleton, ne_eq, not_true, if_false] at e2
      have hr : c.sub (instArgs [.var 0]) = c.ren (fun i => i - 1) := by
        have : ∀ (e : Core) (f : Nat → Nat), e.ren f = e.sub (fun i => .var (f i)) := by
          intro e f
          have := (Core.sub_ren e Core.var f)
          rw [Core.sub_var] at this
          exact this
        rw [this]
        congr 1
        funext i
        rcases i with _ | i <;> simp [instArgs]
      rw [hr] at e2
      obtain ⟨w, e3, _⟩ := reduceC_ren n _ _ _ e2
      refine ⟨.fix (.lam 1 w), n + 1, ?_⟩
      simp [reduceC, e1, e3, Out.bind]
    · simp [hk] at e2

theorem getElem?_zip_mem {α β : Type} {l : List α} {l' : List β} {i : Nat} {a : α} {b : β}
    (h1 : l[i]? = some a) (h2 : l'[i]? = some b) : (a, b) ∈ l.zip l' := by
  apply List.mem_of_getElem? (i := i)
  rw [List.getElem?_zip_eq_some]
  exact ⟨h1, h2⟩

theorem HasSTy.red {Γ : List STy} {e : Core} {τ : STy} (h : HasSTy Γ e τ) :
    ∀ σ : Nat → Core, (∀ k τ', Γ[k]? = some τ' → Red τ' (σ k)) → Red τ (e.sub σ) := by
  induction h with
  | eps Γ => intro σ _; exact ⟨.eps, 1, rfl⟩
  | lit Γ s => intro σ _; exact ⟨.lit s, 1, rfl⟩
  | cat Γ l _ ih =>
    intro σ hσ
    obtain ⟨n, l', hl⟩ := reduces_list (l.map (Core.sub σ)) (by
      intro e he
      obtain ⟨e', he', rfl⟩ := List.mem_map.1 he
      exact (ih e' he' σ hσ).reduces)
    exact ⟨.cat l', n + 1, by simp [Core.sub, reduceC, hl, Out.bind]⟩
  | alt Γ l _ ih =>
    intro σ hσ
    obtain ⟨n, l', hl⟩ := reduces_list (l.map (Core.sub σ)) (by
      intro e he
      obtain ⟨e', he', rfl⟩ := List.mem_map.1 he
      exact (ih e' he' σ hσ).reduces)
    exact ⟨.alt l', n + 1, by simp [Core.sub, reduceC, hl, Out.bind]⟩
  | fix Γ b _ ih => intro σ hσ; exact Red_fix _ (ih σ hσ)
  | var Γ k τ hk => intro σ hσ; exact hσ k τ hk
  | call Γ o args τs ρ _ hl _ ih1 ih2 =>
    intro σ hσ
    have h1 := ih1 σ hσ
    rw [Red] at h1
    simp only [Core.sub, Core.subL_map]
    apply h1.2
    rw [RedL_iff]
    refine ⟨by simpa using hl, ?_⟩
    intro p hp
    rw [List.zip_map_left] at hp
    obtain ⟨q, hq, rfl⟩ := List.mem_map.1 hp
    exact ih2 q hq σ hσ
  | lam Γ b τs ρ _ ih =>
    intro σ hσ
    rw [Red]
    refine ⟨⟨_, _, 1, rfl⟩, ?_⟩
    intro args ha
    rw [RedL_iff] at ha
    have hlen := ha.1
    simp only [Core.sub, hlen]
    refine Red.same ρ (Same.beta _ _) ?_
    rw [Core.sub_sub]
    apply ih
    intro k τ' hk
    simp only [up]
    by_cases hlt : k < args.length
    · simp only [hlt, if_true, Core.sub, instArgs]
      rw [List.getElem?_append_left (by simpa [hlen] using hlt)] at hk
      rw [List.getElem?_reverse (by omega), hlen] at hk
      rw [List.getD_eq_getElem?_getD, List.getElem?_eq_getElem (by omega : args.length - 1 - k < args.length)]
      exact ha.2 (_, _) (getElem?_zip_mem (List.getElem?_eq_getElem (by omega : args.length - 1 - k < args.length)) hk)
    · simp only [hlt, if_false]
      rw [List.getElem?_append_right (by simp; omega)] at hk
      simp only [List.length_reverse, hlen] at hk
      rw [Core.sub_ren]
      have : (instArgs args ∘ fun x => x + args.length) = Core.var := by
        funext j
        have : ¬ (j + args.length < args.length) := by omega
        simp [instArgs, this]
      rw [this, Core.sub_var]
      exact hσ _ _ hk
  | letE Γ b c s τ _ _ ih1 ih2 =>
    intro σ hσ
    refine Red.same τ (Same.letE _ _) ?_
    rw [Core.sub_sub]
    apply ih2
    intro k τ' hk
    rcases k with _ | k
    · simp only [up, Nat.zero_lt_one, if_true, Core.sub, inst, Nat.lt_irrefl, if_false]
      simp at hk; subst hk
      exact ih1 σ hσ
    · simp only [List.getElem?_cons_succ] at hk
      have : ¬ (k + 1 < 1) := by omega
      simp only [up, this, if_false, Nat.add_sub_cancel]
      rw [Core.sub_ren]
      have : (inst 0 (b.sub σ) ∘ fun x => x + 1) = Core.var := by
        funext j; simp [inst]
      rw [this, Core.sub_var]
      exact hσ _ _ hk

/-- A simply typed expression whose free variables are grammars reduces successfully. -/
theorem HasSTy.reduces {Γ : List STy} {e : Core} {τ : STy} (h : HasSTy Γ e τ) (hΓ : ∀ τ ∈ Γ, τ = .gram) :
    ∃ n v, reduceC n e = .ok v := by
  have := h.red Core.var (by
    intro k τ' hk
    have := hΓ τ' (List.mem_of_getElem? hk)
    subst this
    exact ⟨.var k, 1, rfl⟩)
  rw [Core.sub_var] at this
  obtain ⟨v, n, h⟩ := this.reduces
  exact ⟨n, v, h⟩

end Chomp
