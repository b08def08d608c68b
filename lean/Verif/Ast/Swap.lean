import Verif.Ast.Refactor

/-!
# Specification layer: replacing parts of a program

`Core.Swap P` relates two programs if the second is obtained from the first by replacing any number of
parts, anywhere, by others they are related to by `P`.  If the parts are closed and fully evaluated,
replacing commutes with evaluation.
-/

namespace Chomp

mutual
/-- Some parts are replaced: `P` says which part may be replaced by which. -/
inductive Core.Swap (P : Core → Core → Prop) : Core → Core → Prop
  | part (a b : Core) : P a b → Swap P a b
  | eps : Swap P .eps .eps
  | lit (s : List Char) : Swap P (.lit s) (.lit s)
  | cat (l l' : List Core) : SwapL P l l' → Swap P (.cat l) (.cat l')
  | alt (l l' : List Core) : SwapL P l l' → Swap P (.alt l) (.alt l')
  | fix (b b' : Core) : Swap P b b' → Swap P (.fix b) (.fix b')
  | var (k : Nat) : Swap P (.var k) (.var k)
  | call (o o' : Core) (a a' : List Core) : Swap P o o' → SwapL P a a' → Swap P (.call o a) (.call o' a')
  | lam (n : Nat) (b b' : Core) : Swap P b b' → Swap P (.lam n b) (.lam n b')
  | letE (b b' c c' : Core) : Swap P b b' → Swap P c c' → Swap P (.letE b c) (.letE b' c')
inductive Core.SwapL (P : Core → Core → Prop) : List Core → List Core → Prop
  | nil : SwapL P [] []
  | cons (e e' : Core) (l l' : List Core) : Swap P e e' → SwapL P l l' → SwapL P (e :: l) (e' :: l')
end

theorem Core.SwapL.of_all2 {P : Core → Core → Prop} {l l' : List Core} (h : All2 (Core.Swap P) l l') : Core.SwapL P l l' := by
  induction h with
  | nil => exact .nil
  | cons h _ ih => exact .cons _ _ _ _ h ih

theorem Core.SwapL.all2 {P : Core → Core → Prop} : ∀ {l l' : List Core}, Core.SwapL P l l' → All2 (Core.Swap P) l l'
  | _, _, .nil => .nil
  | _, _, .cons _ _ _ _ h t => .cons h t.all2

/-- Replacing nothing. -/
theorem Core.Swap.refl {P : Core → Core → Prop} (e : Core) : Core.Swap P e e := by
  induction e using Core.ind with
  | eps => exact .eps
  | lit s => exact .lit s
  | cat l ih => exact .cat _ _ (.of_all2 (All2.same ih))
  | alt l ih => exact .alt _ _ (.of_all2 (All2.same ih))
  | fix b ih => exact .fix _ _ ih
  | var k => exact .var k
  | call o a ho ha => exact .call _ _ _ _ ho (.of_all2 (All2.same ha))
  | lam n b ih => exact .lam _ _ _ ih
  | letE b c hb hc => exact .letE _ _ _ _ hb hc

mutual
theorem Core.Swap.symm {P Q : Core → Core → Prop} (hP : ∀ a b, P a b → Q b a) : ∀ {a b : Core}, Core.Swap P a b → Core.Swap Q b a
  | _, _, .part a b h => .part _ _ (hP a b h)
  | _, _, .eps => .eps
  | _, _, .lit _ => .lit _
  | _, _, .cat _ _ h => .cat _ _ (h.symm hP)
  | _, _, .alt _ _ h => .alt _ _ (h.symm hP)
  | _, _, .fix _ _ h => .fix _ _ (h.symm hP)
  | _, _, .var _ => .var _
  | _, _, .call _ _ _ _ h h' => .call _ _ _ _ (h.symm hP) (h'.symm hP)
  | _, _, .lam _ _ _ h => .lam _ _ _ (h.symm hP)
  | _, _, .letE _ _ _ _ h h' => .letE _ _ _ _ (h.symm hP) (h'.symm hP)
theorem Core.SwapL.symm {P Q : Core → Core → Prop} (hP : ∀ a b, P a b → Q b a) : ∀ {a b : List Core}, Core.SwapL P a b →
    Core.SwapL Q b a
  | _, _, .nil => .nil
  | _, _, .cons _ _ _ _ h h' => .cons _ _ _ _ (h.symm hP) (h'.symm hP)
end

mutual
theorem Core.Swap.mono {P Q : Core → Core → Prop} (hP : ∀ a b, P a b → Q a b) : ∀ {a b : Core}, Core.Swap P a b → Core.Swap Q a b
  | _, _, .part a b h => .part _ _ (hP a b h)
  | _, _, .eps => .eps
  | _, _, .lit _ => .lit _
  | _, _, .cat _ _ h => .cat _ _ (h.mono hP)
  | _, _, .alt _ _ h => .alt _ _ (h.mono hP)
  | _, _, .fix _ _ h => .fix _ _ (h.mono hP)
  | _, _, .var _ => .var _
  | _, _, .call _ _ _ _ h h' => .call _ _ _ _ (h.mono hP) (h'.mono hP)
  | _, _, .lam _ _ _ h => .lam _ _ _ (h.mono hP)
  | _, _, .letE _ _ _ _ h h' => .letE _ _ _ _ (h.mono hP) (h'.mono hP)
theorem Core.SwapL.mono {P Q : Core → Core → Prop} (hP : ∀ a b, P a b → Q a b) : ∀ {a b : List Core}, Core.SwapL P a b →
    Core.SwapL Q a b
  | _, _, .nil => .nil
  | _, _, .cons _ _ _ _ h h' => .cons _ _ _ _ (h.mono hP) (h'.mono hP)
end

mutual
/-- If the parts can be evaluated to related parts, so can the programs. -/
theorem Core.Swap.parts {P Q : Core → Core → Prop}
    (hP : ∀ a b, P a b → ∃ a1 b1, Core.Steps a a1 ∧ Core.Steps b b1 ∧ Q a1 b1) : ∀ {a b : Core}, Core.Swap P a b →
    ∃ a1 b1, Core.Steps a a1 ∧ Core.Steps b b1 ∧ Core.Swap Q a1 b1
  | _, _, .part a b h => by
    obtain ⟨a1, b1, h1, h2, h3⟩ := hP a b h
    exact ⟨a1, b1, h1, h2, .part _ _ h3⟩
  | _, _, .eps => ⟨_, _, .refl _, .refl _, .eps⟩
  | _, _, .lit s => ⟨_, _, .refl _, .refl _, .lit s⟩
  | _, _, .cat _ _ h => by
    obtain ⟨a1, b1, h1, h2, h3⟩ := h.parts hP
    exact ⟨_, _, .catL h1, .catL h2, .cat _ _ h3⟩
  | _, _, .alt _ _ h => by
    obtain ⟨a1, b1, h1, h2, h3⟩ := h.parts hP
    exact ⟨_, _, .altL h1, .altL h2, .alt _ _ h3⟩
  | _, _, .fix _ _ h => by
    obtain ⟨a1, b1, h1, h2, h3⟩ := h.parts hP
    exact ⟨_, _, h1.fix, h2.fix, .fix _ _ h3⟩
  | _, _, .var k => ⟨_, _, .refl _, .refl _, .var k⟩
  | _, _, .call _ _ _ _ h h' => by
    obtain ⟨a1, b1, h1, h2, h3⟩ := h.parts hP
    obtain ⟨a2, b2, h4, h5, h6⟩ := h'.parts hP
    exact ⟨_, _, .call h1 h4, .call h2 h5, .call _ _ _ _ h3 h6⟩
  | _, _, .lam _ _ _ h => by
    obtain ⟨a1, b1, h1, h2, h3⟩ := h.parts hP
    exact ⟨_, _, h1.lam, h2.lam, .lam _ _ _ h3⟩
  | _, _, .letE _ _ _ _ h h' => by
    obtain ⟨a1, b1, h1, h2, h3⟩ := h.parts hP
    obtain ⟨a2, b2, h4, h5, h6⟩ := h'.parts hP
    exact ⟨_, _, .letE h1 h4, .letE h2 h5, .letE _ _ _ _ h3 h6⟩
theorem Core.SwapL.parts {P Q : Core → Core → Prop}
    (hP : ∀ a b, P a b → ∃ a1 b1, Core.Steps a a1 ∧ Core.Steps b b1 ∧ Q a1 b1) : ∀ {a b : List Core}, Core.SwapL P a b →
    ∃ a1 b1, All2 Core.Steps a a1 ∧ All2 Core.Steps b b1 ∧ Core.SwapL Q a1 b1
  | _, _, .nil => ⟨_, _, .nil, .nil, .nil⟩
  | _, _, .cons _ _ _ _ h h' => by
    obtain ⟨a1, b1, h1, h2, h3⟩ := h.parts hP
    obtain ⟨a2, b2, h4, h5, h6⟩ := h'.parts hP
    exact ⟨_, _, .cons h1 h4, .cons h2 h5, .cons _ _ _ _ h3 h6⟩
end

/-! ### Closed parts -/

theorem up_fixed {σ : Nat → Core} {n : Nat} (h : ∀ i < n, σ i = .var i) (m : Nat) : ∀ i < n + m, up m σ i = .var i := by
  intro i hi
  simp only [up]
  split
  · rfl
  · rw [h _ (by omega)]
    simp only [Core.ren, Core.var.injEq]
    omega

theorem Core.sub_fixed (e : Core) : ∀ (n : Nat) (σ : Nat → Core), e.closed n → (∀ i < n, σ i = .var i) → e.sub σ = e := by
  induction e using Core.ind with
  | eps => intros; rfl
  | lit s => intros; rfl
  | cat l ih =>
    intro n σ hc h
    simp only [Core.closed, Core.closedL_iff] at hc
    simp only [Core.sub, Core.subL_map, Core.cat.injEq]
    exact (List.map_congr_left (g := id) fun e he => ih e he n σ (hc e he) h).trans (List.map_id l)
  | alt l ih =>
    intro n σ hc h
    simp only [Core.closed, Core.closedL_iff] at hc
    simp only [Core.sub, Core.subL_map, Core.alt.injEq]
    exact (List.map_congr_left (g := id) fun e he => ih e he n σ (hc e he) h).trans (List.map_id l)
  | fix b ih => intro n σ hc h; simp only [Core.sub, ih n σ hc h]
  | var k => intro n σ hc h; exact h k hc
  | call o a ho ha =>
    intro n σ hc h
    simp only [Core.closed, Core.closedL_iff] at hc
    simp only [Core.sub, Core.subL_map, Core.call.injEq]
    exact ⟨ho n σ hc.1 h, (List.map_congr_left (g := id) fun e he => ha e he n σ (hc.2 e he) h).trans (List.map_id a)⟩
  | lam m b ih => intro n σ hc h; simp only [Core.sub, ih (n + m) _ hc (up_fixed h m)]
  | letE b c hb hc =>
    intro n σ hcl h
    simp only [Core.sub, hb n σ hcl.1 h, hc (n + 1) _ hcl.2 (up_fixed h 1)]

theorem Core.ren_fixed (e : Core) (h : e.closed 0) (f : Nat → Nat) : e.ren f = e := by
  have h1 := Core.sub_ren e Core.var f
  rw [Core.sub_var] at h1
  rw [h1]
  exact Core.sub_fixed e 0 _ h (by omega)

/-- What replaced parts and their replacements have to be for replacement to commute with evaluation:
closed, fully evaluated, and not functions. -/
structure Core.Inert (P : Core → Core → Prop) : Prop where
  left : ∀ a b, P a b → a.closed 0
  right : ∀ a b, P a b → b.closed 0
  noLam : ∀ a b, P a b → ∀ n c, a ≠ .lam n c
  noStep : ∀ a b, P a b → ∀ c, ¬ Core.Step a c

mutual
theorem Core.Swap.ren {P : Core → Core → Prop} (hP : Core.Inert P) : ∀ {a b : Core}, Core.Swap P a b → ∀ f : Nat → Nat,
    Core.Swap P (a.ren f) (b.ren f)
  | _, _, .part a b h, f => by
    rw [a.ren_fixed (hP.left a b h), b.ren_fixed (hP.right a b h)]
    exact .part _ _ h
  | _, _, .eps, _ => .eps
  | _, _, .lit s, _ => .lit s
  | _, _, .cat _ _ h, f => .cat _ _ (h.ren hP f)
  | _, _, .alt _ _ h, f => .alt _ _ (h.ren hP f)
  | _, _, .fix _ _ h, f => .fix _ _ (h.ren hP f)
  | _, _, .var _, _ => .var _
  | _, _, .call _ _ _ _ h h', f => .call _ _ _ _ (h.ren hP f) (h'.ren hP f)
  | _, _, .lam _ _ _ h, _ => .lam _ _ _ (h.ren hP _)
  | _, _, .letE _ _ _ _ h h', f => .letE _ _ _ _ (h.ren hP f) (h'.ren hP _)
theorem Core.SwapL.ren {P : Core → Core → Prop} (hP : Core.Inert P) : ∀ {a b : List Core}, Core.SwapL P a b →
    ∀ f : Nat → Nat, Core.SwapL P (Core.renL f a) (Core.renL f b)
  | _, _, .nil, _ => .nil
  | _, _, .cons _ _ _ _ h h', f => .cons _ _ _ _ (h.ren hP f) (h'.ren hP f)
end

theorem up_swap {P : Core → Core → Prop} (hP : Core.Inert P) {σ τ : Nat → Core} (h : ∀ i, Core.Swap P (σ i) (τ i)) (n : Nat) :
    ∀ i, Core.Swap P (up n σ i) (up n τ i) := by
  intro i
  simp only [up]
  split
  · exact .var _
  · exact (h _).ren hP _

mutual
theorem Core.Swap.sub {P : Core → Core → Prop} (hP : Core.Inert P) : ∀ {a b : Core}, Core.Swap P a b → ∀ σ τ : Nat → Core,
    (∀ i, Core.Swap P (σ i) (τ i)) → Core.Swap P (a.sub σ) (b.sub τ)
  | _, _, .part a b h, σ, τ, _ => by
    rw [a.sub_fixed 0 σ (hP.left a b h) (by omega), b.sub_fixed 0 τ (hP.right a b h) (by omega)]
    exact .part _ _ h
  | _, _, .eps, _, _, _ => .eps
  | _, _, .lit s, _, _, _ => .lit s
  | _, _, .cat _ _ h, σ, τ, hs => .cat _ _ (h.sub hP σ τ hs)
  | _, _, .alt _ _ h, σ, τ, hs => .alt _ _ (h.sub hP σ τ hs)
  | _, _, .fix _ _ h, σ, τ, hs => .fix _ _ (h.sub hP σ τ hs)
  | _, _, .var k, _, _, hs => hs k
  | _, _, .call _ _ _ _ h h', σ, τ, hs => .call _ _ _ _ (h.sub hP σ τ hs) (h'.sub hP σ τ hs)
  | _, _, .lam n _ _ h, _, _, hs => .lam _ _ _ (h.sub hP _ _ (up_swap hP hs n))
  | _, _, .letE _ _ _ _ h h', σ, τ, hs => .letE _ _ _ _ (h.sub hP σ τ hs) (h'.sub hP _ _ (up_swap hP hs 1))
theorem Core.SwapL.sub {P : Core → Core → Prop} (hP : Core.Inert P) : ∀ {a b : List Core}, Core.SwapL P a b →
    ∀ σ τ : Nat → Core, (∀ i, Core.Swap P (σ i) (τ i)) → Core.SwapL P (Core.subL σ a) (Core.subL τ b)
  | _, _, .nil, _, _, _ => .nil
  | _, _, .cons _ _ _ _ h h', σ, τ, hs => .cons _ _ _ _ (h.sub hP σ τ hs) (h'.sub hP σ τ hs)
end

theorem instArgs_swap {P : Core → Core → Prop} {l l' : List Core} (h : Core.SwapL P l l') :
    ∀ i, Core.Swap P (instArgs l i) (instArgs l' i) := by
  intro i
  have h := h.all2
  have hl := h.len
  simp only [instArgs, ← hl]
  split
  · exact h.getElem _ _ .eps _
  · exact .var _

theorem inst_swap {P : Core → Core → Prop} {b b' : Core} (h : Core.Swap P b b') : ∀ i, Core.Swap P (inst 0 b i) (inst 0 b' i) := by
  intro i
  simp only [inst]
  split
  · exact .var _
  · split
    · exact h
    · exact .var _

theorem Core.Swap.lam_inv {P : Core → Core → Prop} (hP : Core.Inert P) {n : Nat} {c a x : Core} (h : Core.Swap P a x)
    (ha : a = .lam n c) : ∃ c', x = .lam n c' ∧ Core.Swap P c c' := by
  cases h with
  | part _ _ h => exact absurd ha (hP.noLam _ _ h n c)
  | lam n b b' h => cases ha; exact ⟨b', rfl, h⟩
  | _ => cases ha

mutual
/-- Replacing closed parts commutes with steps. -/
theorem Core.Swap.step {P : Core → Core → Prop} (hP : Core.Inert P) : ∀ {a b : Core}, Core.Swap P a b → ∀ {a' : Core},
    Core.Step a a' → ∃ b', Core.Step b b' ∧ Core.Swap P a' b'
  | _, _, .part a b h, _, hs => absurd hs (hP.noStep a b h _)
  | _, _, .eps, _, hs => nomatch hs
  | _, _, .lit s, _, hs => nomatch hs
  | _, _, .var _, _, hs => nomatch hs
  | _, _, .cat _ _ h, _, hs => by
    obtain ⟨p, e, e', q, hl, rfl, hs'⟩ := hs.cat_inv
    obtain ⟨p', x, x', q', rfl, h1, h2⟩ := h.step hP hs' hl
    exact ⟨_, .cat _ _ _ _ h1, .cat _ _ h2⟩
  | _, _, .alt _ _ h, _, hs => by
    obtain ⟨p, e, e', q, hl, rfl, hs'⟩ := hs.alt_inv
    obtain ⟨p', x, x', q', rfl, h1, h2⟩ := h.step hP hs' hl
    exact ⟨_, .alt _ _ _ _ h1, .alt _ _ h2⟩
  | _, _, .fix _ _ h, _, hs => by
    cases hs with
    | fix _ _ hs =>
      obtain ⟨b', h1, h2⟩ := h.step hP hs
      exact ⟨_, .fix _ _ h1, .fix _ _ h2⟩
  | _, _, .call _ o' _ a' h h', _, hs => by
    rcases hs.call_inv with ⟨n, b, hn, hl, rfl⟩ | ⟨o1, rfl, hs'⟩ | ⟨p, e, e', q, hl, rfl, hs'⟩
    · obtain ⟨b', rfl, hb⟩ := h.lam_inv hP hn
      exact ⟨_, .beta _ _ _ (by rw [← h'.all2.len, hl]), hb.sub hP _ _ (instArgs_swap h')⟩
    · obtain ⟨b', h1, h2⟩ := h.step hP hs'
      exact ⟨_, .callOn _ _ _ h1, .call _ _ _ _ h2 h'⟩
    · obtain ⟨p', x, x', q', rfl, h1, h2⟩ := h'.step hP hs' hl
      exact ⟨_, .callArg _ _ _ _ _ h1, .call _ _ _ _ h h2⟩
  | _, _, .lam _ _ _ h, _, hs => by
    cases hs with
    | lam _ _ _ hs =>
      obtain ⟨b', h1, h2⟩ := h.step hP hs
      exact ⟨_, .lam _ _ _ h1, .lam _ _ _ h2⟩
  | _, _, .letE _ _ _ _ h h', _, hs => by
    cases hs with
    | letE => exact ⟨_, .letE _ _, h'.sub hP _ _ (inst_swap h)⟩
    | letBound _ _ _ hs =>
      obtain ⟨b', h1, h2⟩ := h.step hP hs
      exact ⟨_, .letBound _ _ _ h1, .letE _ _ _ _ h2 h'⟩
    | letBody _ _ _ hs =>
      obtain ⟨b', h1, h2⟩ := h'.step hP hs
      exact ⟨_, .letBody _ _ _ h1, .letE _ _ _ _ h h2⟩
theorem Core.SwapL.step {P : Core → Core → Prop} (hP : Core.Inert P) : ∀ {l l' : List Core}, Core.SwapL P l l' →
    ∀ {p q : List Core} {e e' : Core}, Core.Step e e' → l = p ++ e :: q →
    ∃ p' x x' q', l' = p' ++ x :: q' ∧ Core.Step x x' ∧ Core.SwapL P (p ++ e' :: q) (p' ++ x' :: q')
  | _, _, .nil, p, q, e, e', _, h => by simp at h
  | _, _, .cons a a' l l' h1 h2, p, q, e, e', hs, h => by
    cases p with
    | nil =>
      simp only [List.nil_append, List.cons.injEq] at h
      obtain ⟨rfl, rfl⟩ := h
      obtain ⟨b', h3, h4⟩ := h1.step hP hs
      exact ⟨[], a', b', l', rfl, h3, .cons _ _ _ _ h4 h2⟩
    | cons x p =>
      simp only [List.cons_append, List.cons.injEq] at h
      obtain ⟨rfl, h⟩ := h
      obtain ⟨p', y, y', q', rfl, h3, h4⟩ := h2.step hP hs h
      exact ⟨a' :: p', y, y', q', rfl, h3, .cons _ _ _ _ h1 h4⟩
end

theorem Core.Swap.steps {P : Core → Core → Prop} (hP : Core.Inert P) {a b a' : Core} (h : Core.Swap P a b)
    (hs : Core.Steps a a') : ∃ b', Core.Steps b b' ∧ Core.Swap P a' b' := by
  induction hs with
  | refl => exact ⟨b, .refl _, h⟩
  | tail _ hs ih =>
    obtain ⟨b1, h1, h2⟩ := ih
    obtain ⟨b2, h3, h4⟩ := h2.step hP hs
    exact ⟨b2, .tail h1 h3, h4⟩

end Chomp
