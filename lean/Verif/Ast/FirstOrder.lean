import Verif.Ast.Simple

/-!
# Specification layer: first-order programs

A syntactic criterion under which reduction always returns: no parameter of a function is called.
-/

namespace Chomp

/-- How many times in a row an expression may be called: a function once more than its body (its
parameters cannot be called), a let-bound name as often as its definition, a call once less than the
function called.  `Γ` gives the number for each free variable. -/
def Core.order (Γ : List Nat) : Core → Nat
  | .eps => 0
  | .lit _ => 0
  | .cat _ => 0
  | .alt _ => 0
  | .fix _ => 0
  | .var k => Γ.getD k 0
  | .call o _ => o.order Γ - 1
  | .lam n b => b.order (List.replicate n 0 ++ Γ) + 1
  | .letE b c => c.order (b.order Γ :: Γ)

mutual
/-- No parameter is called, neither directly nor under another name: what is called is a function, a
name bound by `let` to one, or the result of a call that returns one written out in the function. -/
def Core.firstOrder (Γ : List Nat) : Core → Bool
  | .eps => true
  | .lit _ => true
  | .cat l => Core.firstOrderL Γ l
  | .alt l => Core.firstOrderL Γ l
  | .fix b => b.firstOrder Γ
  | .var _ => true
  | .call o a => decide (0 < o.order Γ) && o.firstOrder Γ && Core.firstOrderL Γ a
  | .lam n b => b.firstOrder (List.replicate n 0 ++ Γ)
  | .letE b c => b.firstOrder Γ && c.firstOrder (b.order Γ :: Γ)
def Core.firstOrderL (Γ : List Nat) : List Core → Bool
  | [] => true
  | e :: l => e.firstOrder Γ && Core.firstOrderL Γ l
end

theorem Core.firstOrderL_iff (Γ : List Nat) (l : List Core) :
    Core.firstOrderL Γ l = true ↔ ∀ e ∈ l, e.firstOrder Γ = true := by
  induction l <;> simp [Core.firstOrderL, *]

/-! ## Outcomes and renaming -/

/-- Forget what an error says. -/
def Out.forget {ε α : Type} : Out ε α → Out Unit α
  | .ok e => .ok e
  | .err _ => .err ()
  | .panic => .panic
  | .oof => .oof

/-- Rename the free variables of an outcome. -/
def renOut (f : Nat → Nat) : Out Unit Core → Out Unit Core
  | .ok e => .ok (e.ren f)
  | .err e => .err e
  | .panic => .panic
  | .oof => .oof

theorem mapO_renOut (n : Nat) (f : Nat → Nat) (F : List Core → Core) (F' : List Core → Core)
    (hF : ∀ l, (F l).ren f = F' (l.map (Core.ren f)))
    (ih : ∀ e, (reduceC n (e.ren f)).forget = renOut f (reduceC n e).forget) (l : List Core) :
    ((mapO (reduceC n) (l.map (Core.ren f))).bind fun l => .ok (F' l)).forget =
      renOut f ((mapO (reduceC n) l).bind fun l => .ok (F l)).forget := by
  induction l generalizing F F' with
  | nil => simp [mapO, Out.bind, renOut, Out.forget, hF]
  | cons e l ihl =>
    have ih := ih e
    simp only [List.map_cons, mapO]
    cases h : reduceC n e with
    | ok v =>
      have := ihl (fun l => F (v :: l)) (fun l => F' (v.ren f :: l)) (by intro l; simp [hF])
      cases h1 : reduceC n (e.ren f) <;> rw [h, h1] at ih <;> cases ih
      cases h2 : mapO (reduceC n) (l.map (Core.ren f)) <;> cases h3 : mapO (reduceC n) l <;>
        simp_all [Out.bind, renOut, Out.forget]
    | _ => cases h1 : reduceC n (e.ren f) <;> rw [h, h1] at ih <;> cases ih <;> rfl

/-- Reduction commutes with renaming the free variables. -/
theorem reduceC_renOut (n : Nat) : ∀ (e : Core) (f : Nat → Nat),
    (reduceC n (e.ren f)).forget = renOut f (reduceC n e).forget := by
  induction n with
  | zero => intro e f; rfl
  | succ n ih =>
    intro e f
    cases e with
    | eps => rfl
    | lit s => rfl
    | cat l =>
      simp only [Core.ren, Core.renL_map, reduceC]
      exact mapO_renOut n f .cat .cat (by intro l; simp [Core.ren]) (fun e => ih e f) l
    | alt l =>
      simp only [Core.ren, Core.renL_map, reduceC]
      exact mapO_renOut n f .alt .alt (by intro l; simp [Core.ren]) (fun e => ih e f) l
    | fix b =>
      simp only [Core.ren, reduceC]
      have h1 := ih b f
      cases h : reduceC n b with
      | ok v =>
        cases h2 : reduceC n (b.ren f) <;> rw [h, h2] at h1 <;> cases h1
        cases v with
        | lam k c =>
          simp only [Core.ren, Out.bind]
          have h3 := ih c (upr k f)
          cases h4 : reduceC n c <;> cases h5 : reduceC n (c.ren (upr k f)) <;> rw [h4, h5] at h3 <;> cases h3 <;>
            simp [renOut, Core.ren, Out.forget]
        | _ => rfl
      | _ => cases h2 : reduceC n (b.ren f) <;> rw [h, h2] at h1 <;> cases h1 <;> rfl
    | var k => rfl
    | call on args =>
      simp only [Core.ren, Core.renL_map, reduceC]
      have h1 := ih on f
      cases h : reduceC n on with
      | ok v =>
        cases h2 : reduceC n (on.ren f) <;> rw [h, h2] at h1 <;> cases h1
        cases v with
        | lam k c =>
          simp only [Core.ren, Out.bind, List.length_map]
          by_cases hk : k = args.length
          · subst hk
            simp only [ne_eq, not_true, if_false]
            rw [← sub_instArgs_ren, ih]
          · simp [hk, renOut, Out.forget]
        | _ => rfl
      | _ => cases h2 : reduceC n (on.ren f) <;> rw [h, h2] at h1 <;> cases h1 <;> rfl
    | lam k b => rfl
    | letE b c =>
      simp only [Core.ren, reduceC]
      rw [← sub_inst_ren, ih]

theorem forget_oof {ε α : Type} {o : Out ε α} : o.forget = .oof ↔ o = .oof := by
  cases o <;> simp [Out.forget]

theorem forget_ok {ε α : Type} {o : Out ε α} {a : α} : o.forget = .ok a ↔ o = .ok a := by
  cases o <;> simp [Out.forget]

theorem reduceC_ren_oof {n : Nat} {e : Core} {f : Nat → Nat} : reduceC n (e.ren f) = .oof ↔ reduceC n e = .oof := by
  rw [← forget_oof, reduceC_renOut, ← forget_oof (o := reduceC n e)]
  cases (reduceC n e).forget <;> simp [renOut]

/-- Reduction returns. -/
def Returns (e : Core) : Prop := ∃ n, reduceC n e ≠ .oof

theorem Returns.at {e : Core} (h : Returns e) : ∃ m o, o ≠ .oof ∧ ∀ n ≥ m, reduceC n e = o := by
  obtain ⟨m, h⟩ := h
  exact ⟨m, _, h, fun n hn => reduceC_mono hn e h⟩

theorem Returns.ren {e : Core} (h : Returns e) (f : Nat → Nat) : Returns (e.ren f) := by
  obtain ⟨n, h⟩ := h
  exact ⟨n, fun h' => h (reduceC_ren_oof.1 h')⟩

/-- Reduction returns, also below a fix point. -/
def Fixable (e : Core) : Prop := Returns e ∧ ∀ n b, Reduces e (.lam n b) → Returns b

theorem Fixable.ren {e : Core} (h : Fixable e) (f : Nat → Nat) : Fixable (e.ren f) := by
  refine ⟨h.1.ren f, ?_⟩
  rintro n b ⟨m, hm⟩
  obtain ⟨v, hv, hb⟩ := reduceC_ren m _ _ _ hm
  cases v with
  | lam k c =>
    simp only [Core.ren] at hb
    cases hb
    exact (h.2 _ _ ⟨m, hv⟩).ren _
  | _ => cases hb

/-- Returns, and may be called `k` times in a row. -/
def Ord : Nat → Core → Prop
  | 0, e => Fixable e
  | k + 1, e => Fixable e ∧ ∀ (f : Nat → Nat) (args : List Core), (∀ a ∈ args, Fixable a) → Ord k (.call (e.ren f) args)

theorem Ord.fixable : ∀ {k : Nat} {e : Core}, Ord k e → Fixable e
  | 0, _, h => h
  | _ + 1, _, h => h.1

theorem Ord.ren : ∀ {k : Nat} {e : Core}, Ord k e → ∀ g : Nat → Nat, Ord k (e.ren g)
  | 0, _, h, g => Fixable.ren h g
  | _ + 1, _, h, g => ⟨h.1.ren g, fun f args ha => by rw [Core.ren_ren]; exact h.2 _ args ha⟩

/-- `e` has every outcome of `e'`, up to what errors say. -/
def SameOut (e e' : Core) : Prop := ∀ n, reduceC n e' ≠ .oof → ∃ m, (reduceC m e).forget = (reduceC n e').forget

theorem SameOut.ren {e e' : Core} (h : SameOut e e') (f : Nat → Nat) : SameOut (e.ren f) (e'.ren f) := by
  intro n hn
  obtain ⟨m, hm⟩ := h n (fun h => hn (reduceC_ren_oof.2 h))
  exact ⟨m, by rw [reduceC_renOut, reduceC_renOut, hm]⟩

theorem SameOut.call {e e' : Core} (h : SameOut e e') (args : List Core) : SameOut (.call e args) (.call e' args) := by
  intro n hn
  cases n with
  | zero => exact absurd rfl hn
  | succ n =>
    have h1 : reduceC n e' ≠ .oof := by
      intro h; rw [reduceC, h] at hn; exact hn rfl
    obtain ⟨m, hm⟩ := h n h1
    have hoof : reduceC m e ≠ .oof := fun h' => h1 (forget_oof.1 (by rw [← hm]; exact forget_oof.2 h'))
    have h2 := reduceC_mono (Nat.le_max_left m n) e hoof
    refine ⟨max m n + 1, ?_⟩
    rw [reduceC, h2]
    rw [reduceC] at hn ⊢
    cases ho : reduceC n e' with
    | ok o =>
      rw [ho] at hn hm
      rw [forget_ok.1 hm]
      cases o with
      | lam k b =>
        simp only [Out.bind] at hn ⊢
        by_cases hk : k = args.length
        · simp only [hk, ne_eq, not_true, if_false] at hn ⊢
          rw [reduceC_mono (Nat.le_max_right m n) _ hn]
        · simp [hk]
      | _ => rfl
    | _ => rw [ho] at hm; cases h3 : reduceC m e <;> rw [h3] at hm <;> cases hm <;> rfl

theorem SameOut.beta (b : Core) (args : List Core) :
    SameOut (.call (.lam args.length b) args) (b.sub (instArgs args)) := by
  intro n hn
  refine ⟨n + 2, ?_⟩
  rw [reduceC, reduceC]
  simp only [Out.bind, ne_eq, not_true, if_false]
  rw [reduceC_succ _ _ hn]

theorem SameOut.letE (b c : Core) : SameOut (.letE b c) (c.sub (inst 0 b)) := by
  intro n _
  exact ⟨n + 1, rfl⟩

theorem SameOut.fixable {e e' : Core} (h : SameOut e e') (h' : Fixable e') : Fixable e := by
  obtain ⟨⟨n, hn⟩, h2⟩ := h'
  obtain ⟨m, hm⟩ := h n hn
  have hoof : reduceC m e ≠ .oof := fun h' => hn (forget_oof.1 (by rw [← hm]; exact forget_oof.2 h'))
  refine ⟨⟨m, hoof⟩, fun k b hb => h2 k b ⟨n, ?_⟩⟩
  obtain ⟨j, hj⟩ := hb
  have h1 := reduceC_mono (Nat.le_max_left m j) e hoof
  have h2 := reduceC_mono (Nat.le_max_right m j) e (by rw [hj]; simp)
  rw [h1, hj] at h2
  rw [← forget_ok, ← hm, h2]
  rfl

theorem SameOut.ord : ∀ {k : Nat} {e e' : Core}, SameOut e e' → Ord k e' → Ord k e
  | 0, _, _, h, h' => h.fixable h'
  | _ + 1, _, _, h, h' => ⟨h.fixable h'.1, fun f args ha => ((h.ren f).call args).ord (h'.2 f args ha)⟩

theorem Ord.of_err : ∀ {k n : Nat} {e : Core} {x : CErr}, reduceC n e = .err x → Ord k e := by
  have hf : ∀ {n : Nat} {e : Core} {x : CErr}, reduceC n e = .err x → Fixable e := by
    intro n e x h
    refine ⟨⟨n, by rw [h]; simp⟩, ?_⟩
    rintro m b ⟨j, hj⟩
    have h1 := reduceC_mono (Nat.le_max_left n j) e (by rw [h]; simp)
    have h2 := reduceC_mono (Nat.le_max_right n j) e (by rw [hj]; simp)
    rw [h1, h, hj] at h2
    cases h2
  intro k
  induction k with
  | zero => intro n e x h; exact hf h
  | succ k ih =>
    intro n e x h
    refine ⟨hf h, fun f args _ => ?_⟩
    have h1 := reduceC_renOut n e f
    rw [h] at h1
    cases h2 : reduceC n (e.ren f) with
    | err y => exact ih (n := n + 1) (x := y) (by rw [reduceC, h2]; rfl)
    | _ => rw [h2] at h1; cases h1

theorem fixable_of_not_lam {e v : Core} (h : Reduces e v) (hv : ∀ n b, v ≠ .lam n b) : Fixable e := by
  refine ⟨?_, fun n b hb => absurd (h.det hb) (hv n b)⟩
  obtain ⟨n, hn⟩ := h
  exact ⟨n, by rw [hn]; simp⟩

theorem mapO_returns (l : List Core) (h : ∀ e ∈ l, Returns e) : ∃ n, mapO (reduceC n) l ≠ .oof := by
  obtain ⟨m, hm⟩ := list_bound (P := fun n e => reduceC n e ≠ .oof) l (fun e he => by
    obtain ⟨m, o, ho, hm⟩ := (h e he).at
    exact ⟨m, fun n hn => by rw [hm n hn]; exact ho⟩)
  refine ⟨m, ?_⟩
  replace hm := hm m (Nat.le_refl _)
  clear h
  induction l with
  | nil => simp [mapO]
  | cons e l ih =>
    have h1 := hm e (by simp)
    have h2 := ih (fun e he => hm e (by simp [he]))
    rw [mapO]
    cases h3 : reduceC m e with
    | oof => exact absurd h3 h1
    | ok v => cases h4 : mapO (reduceC m) l <;> simp_all [Out.bind]
    | _ => simp [Out.bind]

theorem fixable_list (F : List Core → Core) (l : List Core)
    (hF : ∀ n, reduceC (n + 1) (F l) = (mapO (reduceC n) l).bind fun l => .ok (F l))
    (hn : ∀ l n b, F l ≠ .lam n b) (h : ∀ e ∈ l, Fixable e) : Fixable (F l) := by
  obtain ⟨n, hm⟩ := mapO_returns l fun e he => (h e he).1
  cases hr : mapO (reduceC n) l with
  | ok l' => exact fixable_of_not_lam ⟨n + 1, by rw [hF, hr]; rfl⟩ (hn l')
  | err x => exact Ord.of_err (k := 0) (n := n + 1) (x := x) (by rw [hF, hr]; rfl)
  | oof => exact absurd hr hm
  | panic =>
    refine ⟨⟨n + 1, by rw [hF, hr]; simp [Out.bind]⟩, ?_⟩
    rintro m b ⟨j, hj⟩
    have h1 := reduceC_mono (Nat.le_max_left (n + 1) j) (F l) (by rw [hF, hr]; simp [Out.bind])
    have h2 := reduceC_mono (Nat.le_max_right (n + 1) j) (F l) (by rw [hj]; simp)
    rw [h1, hF, hr, hj] at h2
    cases h2

theorem fixable_fix (b : Core) (h : Fixable b) : Fixable (.fix b) := by
  obtain ⟨m, o, ho, hm⟩ := h.1.at
  cases o with
  | ok v =>
    cases v with
    | lam k c =>
      obtain ⟨m', o', ho', hm'⟩ := (h.2 k c ⟨m, hm m (Nat.le_refl _)⟩).at
      have e1 := hm (max m m') (Nat.le_max_left _ _)
      have e2 := hm' (max m m') (Nat.le_max_right _ _)
      have e3 : reduceC (max m m' + 1) (.fix b) = o'.bind fun c => .ok (.fix (.lam k c)) := by
        rw [reduceC, e1]; simp only [Out.bind]; rw [e2]
      cases o' with
      | ok c' => exact fixable_of_not_lam ⟨_, e3⟩ (by intro n b h; cases h)
      | err x => exact Ord.of_err (k := 0) e3
      | oof => exact absurd rfl ho'
      | panic =>
        refine ⟨⟨_, by rw [e3]; simp [Out.bind]⟩, ?_⟩
        rintro m2 b2 ⟨j, hj⟩
        have h1 := reduceC_mono (Nat.le_max_left (max m m' + 1) j) (.fix b) (by rw [e3]; simp [Out.bind])
        have h2 := reduceC_mono (Nat.le_max_right (max m m' + 1) j) (.fix b) (by rw [hj]; simp)
        rw [h1, e3, hj] at h2
        cases h2
    | _ =>
      have e3 := show reduceC (m + 1) (.fix b) = _ by rw [reduceC, hm m (Nat.le_refl _)]
      exact fixable_of_not_lam ⟨_, e3⟩ (by intro n b h; cases h)
  | err x =>
    refine Ord.of_err (k := 0) (n := m + 1) (x := x) ?_
    rw [reduceC, hm m (Nat.le_refl _)]
    rfl
  | oof => exact absurd rfl ho
  | panic =>
    have e3 : reduceC (m + 1) (.fix b) = .panic := by rw [reduceC, hm m (Nat.le_refl _)]; rfl
    refine ⟨⟨_, by rw [e3]; simp⟩, ?_⟩
    rintro m2 b2 ⟨j, hj⟩
    have h1 := reduceC_mono (Nat.le_max_left (m + 1) j) (.fix b) (by rw [e3]; simp)
    have h2 := reduceC_mono (Nat.le_max_right (m + 1) j) (.fix b) (by rw [hj]; simp)
    rw [h1, e3, hj] at h2
    cases h2

theorem Core.ren_id (e : Core) : e.ren (fun i => i) = e := by
  have := Core.sub_ren e Core.var (fun i => i)
  rw [Core.sub_var] at this
  rw [this]
  exact Core.sub_var e

/-- A first-order expression returns, whatever its variables stand for, as long as these may be called
as often as claimed. -/
theorem firstOrder_ord (e : Core) : ∀ (Γ : List Nat) (σ : Nat → Core), e.firstOrder Γ = true →
    (∀ k, Ord (Γ.getD k 0) (σ k)) → Ord (e.order Γ) (e.sub σ) := by
  induction e using Core.ind with
  | eps => intro Γ σ _ _; exact fixable_of_not_lam (v := .eps) ⟨1, rfl⟩ (by intro n b h; cases h)
  | lit s => intro Γ σ _ _; exact fixable_of_not_lam (v := .lit s) ⟨1, rfl⟩ (by intro n b h; cases h)
  | cat l ih =>
    intro Γ σ h hσ
    rw [Core.firstOrder, Core.firstOrderL_iff] at h
    simp only [Core.order, Core.sub, Core.subL_map]
    refine fixable_list .cat _ (fun n => by rw [reduceC]) (by intro l n b h; cases h) ?_
    intro e he
    obtain ⟨e', he', rfl⟩ := List.mem_map.1 he
    exact (ih e' he' Γ σ (h e' he') hσ).fixable
  | alt l ih =>
    intro Γ σ h hσ
    rw [Core.firstOrder, Core.firstOrderL_iff] at h
    simp only [Core.order, Core.sub, Core.subL_map]
    refine fixable_list .alt _ (fun n => by rw [reduceC]) (by intro l n b h; cases h) ?_
    intro e he
    obtain ⟨e', he', rfl⟩ := List.mem_map.1 he
    exact (ih e' he' Γ σ (h e' he') hσ).fixable
  | fix b ih => intro Γ σ h hσ; exact fixable_fix _ (ih Γ σ h hσ).fixable
  | var k => intro Γ σ _ hσ; exact hσ k
  | call o a ih1 ih2 =>
    intro Γ σ h hσ
    simp only [Core.firstOrder, Bool.and_eq_true, decide_eq_true_eq, Core.firstOrderL_iff] at h
    obtain ⟨⟨h1, h2⟩, h3⟩ := h
    have h4 := ih1 Γ σ h2 hσ
    obtain ⟨k, hk⟩ : ∃ k, o.order Γ = k + 1 := ⟨o.order Γ - 1, by omega⟩
    simp only [Core.order, Core.sub, Core.subL_map]
    rw [hk] at h4 ⊢
    have h5 := h4.2 (fun i => i) (a.map (Core.sub σ)) (by
      intro e he
      obtain ⟨e', he', rfl⟩ := List.mem_map.1 he
      exact (ih2 e' he' Γ σ (h3 e' he') hσ).fixable)
    rw [Core.ren_id] at h5
    exact h5
  | lam n b ih =>
    intro Γ σ h hσ
    rw [Core.firstOrder] at h
    have hv : ∀ k, Ord 0 (.var k) := fun k => fixable_of_not_lam (v := .var k) ⟨1, rfl⟩ (by intro n b h; cases h)
    have hg : ∀ k, (List.replicate n 0 ++ Γ).getD k 0 = if k < n then 0 else Γ.getD (k - n) 0 := by
      intro k
      simp only [List.getD_eq_getElem?_getD]
      split
      · rw [List.getElem?_append_left (by simpa)]; simp [*]
      · rw [List.getElem?_append_right (by simp; omega)]; simp
    refine ⟨⟨⟨1, by simp [Core.sub, reduceC]⟩, ?_⟩, ?_⟩
    · rintro m c ⟨j, hj⟩
      cases j with
      | zero => cases hj
      | succ j =>
        simp only [Core.sub, reduceC] at hj
        cases hj
        refine (ih _ (up n σ) h ?_).fixable.1
        intro k
        rw [hg]
        simp only [up]
        split
        · exact hv k
        · exact (hσ _).ren _
    · intro f args ha
      simp only [Core.sub, Core.ren]
      by_cases hl : n = args.length
      · subst hl
        refine (SameOut.beta _ _).ord ?_
        rw [Core.ren_sub, Core.sub_sub]
        refine ih _ _ h ?_
        intro k
        rw [hg]
        by_cases hk : k < args.length
        · simp only [hk, if_true, up, Core.ren, upr, Core.sub, instArgs]
          have : args.length - 1 - k < args.length := by omega
          rw [List.getD_eq_getElem?_getD, List.getElem?_eq_getElem this]
          exact ha _ (List.getElem_mem this)
        · simp only [hk, if_false, up, Core.ren_ren, Core.sub_ren]
          have : (instArgs args ∘ (upr args.length f ∘ fun x => x + args.length)) = fun i => Core.var (f i) := by
            funext i
            have h1 : ¬ (i + args.length < args.length) := by omega
            have h2 : ¬ (f i + args.length < args.length) := by omega
            simp [instArgs, upr, h1, h2]
          rw [this]
          have h3 : (σ (k - args.length)).sub (fun i => Core.var (f i)) = (σ (k - args.length)).ren f := by
            have := Core.sub_ren (σ (k - args.length)) Core.var f
            rw [Core.sub_var] at this
            exact this.symm
          rw [h3]
          exact (hσ _).ren f
      · refine Ord.of_err (n := 2) (x := .wrongArgCount (.lam n ((b.sub (up n σ)).ren (upr n f))) args) ?_
        rw [reduceC, reduceC]
        simp only [Out.bind, ne_eq, hl, not_false_eq_true, if_true]
  | letE b c ih1 ih2 =>
    intro Γ σ h hσ
    simp only [Core.firstOrder, Bool.and_eq_true] at h
    simp only [Core.order, Core.sub]
    refine (SameOut.letE _ _).ord ?_
    rw [Core.sub_sub]
    refine ih2 _ _ h.2 ?_
    intro k
    rcases k with _ | k
    · simp only [up, Nat.zero_lt_one, if_true, Core.sub, inst, Nat.lt_irrefl, if_false]
      exact ih1 Γ σ h.1 hσ
    · have : ¬ (k + 1 < 1) := by omega
      simp only [up, this, if_false, Nat.add_sub_cancel]
      rw [Core.sub_ren]
      have : (inst 0 (b.sub σ) ∘ fun x => x + 1) = Core.var := by
        funext j; simp [inst]
      rw [this, Core.sub_var]
      exact hσ k

/-- Reduction returns on first-order expressions. -/
theorem firstOrder_returns (e : Core) (h : e.firstOrder [] = true) : Returns e := by
  have := firstOrder_ord e [] Core.var h (by
    intro k
    exact fixable_of_not_lam (v := .var k) ⟨1, rfl⟩ (by intro n b h; cases h))
  rw [Core.sub_var] at this
  exact this.fixable.1

end Chomp
