import Verif.Props.Typed

/-!
# C80: what type inference costs

`inferC` is `infer` with a counter: it also says how many expressions were visited.
-/

namespace Chomp

/-- An inference and the number of expressions it visited. -/
abbrev InfC (α : Type) := Inf α × Nat

/-- The `?` operator; the visits add up. -/
def InfC.bind {α β : Type} (x : InfC α) (f : α → TCtx → InfC β) : InfC β :=
  match x with
  | ((.ok a, c), k) => ((f a c).1, k + (f a c).2)
  | ((.err e, c), k) => ((.err e, c), k)
  | ((.panic, c), k) => ((.panic, c), k)
  | ((.oof, c), k) => ((.oof, c), k)

/-- No more visits. -/
def InfC.free {α : Type} (x : Inf α) : InfC α := (x, 0)

/-- One more visit. -/
def InfC.tick {α : Type} (x : InfC α) : InfC α := (x.1, x.2 + 1)

/-- `TCtx.withUnguard` with the counter. -/
def TCtx.withUnguardC {α : Type} (c : TCtx) (f : TCtx → InfC α) : InfC α :=
  (c.withUnguard fun c => (f c).1, (f { c with unguard := c.unguard ++ [c.vars.length] }).2)

/-- `TCtx.withVar` with the counter. -/
def TCtx.withVarC {α : Type} (c : TCtx) (ty : Ty) (f : TCtx → InfC α) : InfC α :=
  (c.withVar ty fun c => (f c).1, (f { c with vars := c.vars ++ [ty] }).2)

/-- `fixLoop` with the counter. -/
def fixLoopC (f : Ty → TCtx → InfC TE) : Nat → Ty → TCtx → InfC TE
  | 0, _, c => .free (.oof, c)
  | n + 1, last, c => (f last c).bind fun res c => if last = res.ty then .free (.ok res, c) else fixLoopC f n res.ty c

mutual
/-- `infer` (`src/chomp/typed/infer.rs:22-191`) with the counter. -/
def inferC (n : Nat) : Option Name → NE → TCtx → InfC TE
  | nm, .eps _, c => .tick (.free (.ok (.eps nm), c))
  | nm, .lit _ s, c => .tick (.free (.ok (.lit nm s), c))
  | nm, .cat _ f rest, c =>
    .tick ((inferC n f.info.name f c).bind fun first c =>
      if first.ty.nullable then
        .free (.err (.firstNullable first ((rest.head?.map (·.1)).getD 0)), c)
      else
        (c.withUnguardC (inferCatC n first.ty rest)).bind fun r c =>
          .free (.ok (.cat nm r.2 (first :: r.1)), c))
  | nm, .alt _ f rest, c =>
    .tick ((inferC n f.info.name f c).bind fun first c =>
      (inferAltC n first.ty rest c).bind fun r c => .free (.ok (.alt nm r.2 (first :: r.1)), c))
  | nm, .fix _ (.lam j _ b), c =>
    .tick ((fixLoopC (fun t c => c.withVarC t (inferC n (Name.mergeAll [j.name, b.info.name, nm]) b)) n .default c).bind
      fun res c => .free (.ok (.fix nm res), c))
  | _, .fix i _, c => .tick (.free (.err (.expectedLambda i.span), c))
  | nm, .var i k, c =>
    .tick (.free (match c.getVar k with
    | .ok ty => (.ok (.var nm k ty), c)
    | .error e => (.err (.variable e k i.span nm), c)))
  | _, .call i _ _, c => .tick (.free (.err (.unexpectedCall i.span), c))
  | _, .lam i _ _, c => .tick (.free (.err (.unexpectedLambda i.span), c))
  | _, .letE i _ _ _, c => .tick (.free (.err (.unexpectedLet i.span), c))
/-- `inferCat` with the counter. -/
def inferCatC (n : Nat) : Ty → List (Nat × NE) → TCtx → InfC (List TE × Ty)
  | ty, [], c => .free (.ok ([], ty), c)
  | ty, (punct, e) :: l, c =>
    (inferC n e.info.name e c).bind fun right c =>
      if ty.flast.disjoint right.ty.first then
        (inferCatC n (ty.cat right.ty) l c).bind fun r c => .free (.ok (right :: r.1, r.2), c)
      else .free (.err (.firstFlastOverlap ty punct right), c)
/-- `inferAlt` with the counter. -/
def inferAltC (n : Nat) : Ty → List (Nat × NE) → TCtx → InfC (List TE × Ty)
  | ty, [], c => .free (.ok ([], ty), c)
  | ty, (punct, e) :: l, c =>
    (inferC n e.info.name e c).bind fun right c =>
      if ty.nullable && right.ty.nullable then .free (.err (.bothNullable ty punct right), c)
      else if ty.first.disjoint right.ty.first then
        (inferAltC n (ty.alt right.ty) l c).bind fun r c => .free (.ok (right :: r.1, r.2), c)
      else .free (.err (.firstOverlap ty punct right), c)
end

/-! ## It is the same inference -/

theorem InfC.bind_fst {α β : Type} {x : InfC α} {f : α → TCtx → InfC β} : (x.bind f).1 = x.1.bind fun a c => (f a c).1 := by
  obtain ⟨⟨a, c⟩, k⟩ := x
  cases a <;> rfl

theorem fixLoopC_fst {f : Ty → TCtx → InfC TE} : ∀ (n : Nat) (t : Ty) (c : TCtx),
    (fixLoopC f n t c).1 = fixLoop (fun t c => (f t c).1) n t c
  | 0, _, _ => rfl
  | n + 1, t, c => by
    simp only [fixLoopC, fixLoop, InfC.bind_fst]
    congr 1
    funext res c
    split
    · rfl
    · exact fixLoopC_fst n _ _

mutual
theorem inferC_fst (n : Nat) : ∀ (nm : Option Name) (e : NE) (c : TCtx), (inferC n nm e c).1 = infer n nm e c
  | nm, .eps _, c => by simp only [inferC, infer]; rfl
  | nm, .lit _ s, c => by simp only [inferC, infer]; rfl
  | nm, .cat _ f rest, c => by
    simp only [inferC, infer, InfC.tick, InfC.bind_fst, inferC_fst n f.info.name f]
    congr 1
    funext first c
    split
    · rfl
    · have h : (fun c => (inferCatC n first.ty rest c).1) = inferCat n first.ty rest := funext fun c => inferCatC_fst n first.ty rest c
      simp only [InfC.bind_fst, TCtx.withUnguardC, h]
      rfl
  | nm, .alt _ f rest, c => by
    simp only [inferC, infer, InfC.tick, InfC.bind_fst, inferC_fst n f.info.name f]
    congr 1
    funext first c
    simp only [inferAltC_fst n first.ty rest]
    rfl
  | nm, .fix _ (.lam j _ b), c => by
    simp only [inferC, infer, InfC.tick, InfC.bind_fst, fixLoopC_fst, TCtx.withVarC, inferC_fst n _ b]
    rfl
  | _, .fix i (.eps _), c => by simp only [inferC, infer]; rfl
  | _, .fix i (.lit _ _), c => by simp only [inferC, infer]; rfl
  | _, .fix i (.cat _ _ _), c => by simp only [inferC, infer]; rfl
  | _, .fix i (.alt _ _ _), c => by simp only [inferC, infer]; rfl
  | _, .fix i (.fix _ _), c => by simp only [inferC, infer]; rfl
  | _, .fix i (.var _ _), c => by simp only [inferC, infer]; rfl
  | _, .fix i (.call _ _ _), c => by simp only [inferC, infer]; rfl
  | _, .fix i (.letE _ _ _ _), c => by simp only [inferC, infer]; rfl
  | nm, .var i k, c => by simp only [inferC, infer]; rfl
  | _, .call i _ _, c => by simp only [inferC, infer]; rfl
  | _, .lam i _ _, c => by simp only [inferC, infer]; rfl
  | _, .letE i _ _ _, c => by simp only [inferC, infer]; rfl
theorem inferCatC_fst (n : Nat) : ∀ (ty : Ty) (l : List (Nat × NE)) (c : TCtx), (inferCatC n ty l c).1 = inferCat n ty l c
  | ty, [], c => by simp only [inferCatC, inferCat]; rfl
  | ty, (punct, e) :: l, c => by
    simp only [inferCatC, inferCat, InfC.bind_fst, inferC_fst n e.info.name e]
    congr 1
    funext right c
    split
    · simp only [InfC.bind_fst, inferCatC_fst n _ l]; rfl
    · rfl
theorem inferAltC_fst (n : Nat) : ∀ (ty : Ty) (l : List (Nat × NE)) (c : TCtx), (inferAltC n ty l c).1 = inferAlt n ty l c
  | ty, [], c => by simp only [inferAltC, inferAlt]; rfl
  | ty, (punct, e) :: l, c => by
    simp only [inferAltC, inferAlt, InfC.bind_fst, inferC_fst n e.info.name e]
    congr 1
    funext right c
    split
    · rfl
    · split
      · simp only [InfC.bind_fst, inferAltC_fst n _ l]; rfl
      · rfl
end

/-! ## More fuel changes nothing -/

theorem InfC.bind_more {α β : Type} {x y : InfC α} {f g : α → TCtx → InfC β} (hx : x.1.1 ≠ .oof → y = x)
    (hf : ∀ a c, (f a c).1.1 ≠ .oof → g a c = f a c) (h : (x.bind f).1.1 ≠ .oof) : y.bind g = x.bind f := by
  obtain ⟨⟨a, c⟩, k⟩ := x
  cases a with
  | ok a =>
    rw [hx (by simp)]
    simp only [InfC.bind] at h ⊢
    rw [hf a c h]
  | err e => rw [hx (by simp)]; rfl
  | panic => rw [hx (by simp)]; rfl
  | oof => exact (h rfl).elim

theorem fixLoopC_more {f g : Ty → TCtx → InfC TE} (hf : ∀ t c, (f t c).1.1 ≠ .oof → g t c = f t c) :
    ∀ (n m : Nat) (t : Ty) (c : TCtx), n ≤ m → (fixLoopC f n t c).1.1 ≠ .oof → fixLoopC g m t c = fixLoopC f n t c
  | 0, _, _, _, _, h => (h rfl).elim
  | n + 1, 0, _, _, hm, _ => by omega
  | n + 1, m + 1, t, c, hm, h => by
    simp only [fixLoopC] at h ⊢
    refine InfC.bind_more (hf t c) (fun res c h' => ?_) h
    split
    · rfl
    · rename_i hne
      rw [if_neg hne] at h'
      exact fixLoopC_more hf n m _ _ (by omega) h'

theorem withVarC_more {α : Type} {c : TCtx} {t : Ty} {f g : TCtx → InfC α} (hf : ∀ c, (f c).1.1 ≠ .oof → g c = f c)
    (h : (c.withVarC t f).1.1 ≠ .oof) : c.withVarC t g = c.withVarC t f := by
  have h' : (f { c with vars := c.vars ++ [t] }).1.1 ≠ .oof := h
  simp only [TCtx.withVarC, TCtx.withVar, hf _ h']

theorem withUnguardC_more {α : Type} {c : TCtx} {f g : TCtx → InfC α} (hf : ∀ c, (f c).1.1 ≠ .oof → g c = f c)
    (h : (c.withUnguardC f).1.1 ≠ .oof) : c.withUnguardC g = c.withUnguardC f := by
  have h' : (f { c with unguard := c.unguard ++ [c.vars.length] }).1.1 ≠ .oof := h
  simp only [TCtx.withUnguardC, TCtx.withUnguard, hf _ h']

theorem InfC.tick_more {α : Type} {x y : InfC α} (hx : x.1.1 ≠ .oof → y = x) (h : x.tick.1.1 ≠ .oof) : y.tick = x.tick := by
  rw [hx h]

mutual
theorem inferC_more {n m : Nat} (hm : n ≤ m) : ∀ (nm : Option Name) (e : NE) (c : TCtx), (inferC n nm e c).1.1 ≠ .oof →
    inferC m nm e c = inferC n nm e c
  | nm, .eps _, c, h => by simp only [inferC]
  | nm, .lit _ s, c, h => by simp only [inferC]
  | nm, .cat _ f rest, c, h => by
    simp only [inferC] at h ⊢
    refine InfC.tick_more (InfC.bind_more (inferC_more hm f.info.name f c) fun first c h => ?_) h
    split
    · rfl
    · rename_i hne
      rw [if_neg hne] at h
      exact InfC.bind_more (withUnguardC_more fun c => inferCatC_more hm first.ty rest c) (fun _ _ _ => rfl) h
  | nm, .alt _ f rest, c, h => by
    simp only [inferC] at h ⊢
    refine InfC.tick_more (InfC.bind_more (inferC_more hm f.info.name f c) fun first c h => ?_) h
    exact InfC.bind_more (inferAltC_more hm first.ty rest c) (fun _ _ _ => rfl) h
  | nm, .fix _ (.lam j _ b), c, h => by
    simp only [inferC] at h ⊢
    refine InfC.tick_more (InfC.bind_more ?_ fun _ _ _ => rfl) h
    exact fixLoopC_more (fun t c h => withVarC_more (fun c => inferC_more hm _ b c) h) n m _ _ hm
  | _, .fix i (.eps _), c, h => by simp only [inferC]
  | _, .fix i (.lit _ _), c, h => by simp only [inferC]
  | _, .fix i (.cat _ _ _), c, h => by simp only [inferC]
  | _, .fix i (.alt _ _ _), c, h => by simp only [inferC]
  | _, .fix i (.fix _ _), c, h => by simp only [inferC]
  | _, .fix i (.var _ _), c, h => by simp only [inferC]
  | _, .fix i (.call _ _ _), c, h => by simp only [inferC]
  | _, .fix i (.letE _ _ _ _), c, h => by simp only [inferC]
  | nm, .var i k, c, h => by simp only [inferC]
  | _, .call i _ _, c, h => by simp only [inferC]
  | _, .lam i _ _, c, h => by simp only [inferC]
  | _, .letE i _ _ _, c, h => by simp only [inferC]
theorem inferCatC_more {n m : Nat} (hm : n ≤ m) : ∀ (ty : Ty) (l : List (Nat × NE)) (c : TCtx), (inferCatC n ty l c).1.1 ≠ .oof →
    inferCatC m ty l c = inferCatC n ty l c
  | ty, [], c, h => by simp only [inferCatC]
  | ty, (punct, e) :: l, c, h => by
    simp only [inferCatC] at h ⊢
    refine InfC.bind_more (inferC_more hm e.info.name e c) (fun right c h => ?_) h
    split
    · rename_i hd
      rw [if_pos hd] at h
      exact InfC.bind_more (inferCatC_more hm _ l c) (fun _ _ _ => rfl) h
    · rfl
theorem inferAltC_more {n m : Nat} (hm : n ≤ m) : ∀ (ty : Ty) (l : List (Nat × NE)) (c : TCtx), (inferAltC n ty l c).1.1 ≠ .oof →
    inferAltC m ty l c = inferAltC n ty l c
  | ty, [], c, h => by simp only [inferAltC]
  | ty, (punct, e) :: l, c, h => by
    simp only [inferAltC] at h ⊢
    refine InfC.bind_more (inferC_more hm e.info.name e c) (fun right c h => ?_) h
    split
    · rfl
    · rename_i hn
      rw [if_neg hn] at h
      split
      · rename_i hd
        rw [if_pos hd] at h
        exact InfC.bind_more (inferAltC_more hm _ l c) (fun _ _ _ => rfl) h
      · rfl
end

/-! ## The bound -/

mutual
/-- The size of an expression: the number of its subexpressions. -/
def NE.nodes : NE → Nat
  | .cat _ f r => 1 + f.nodes + NE.nodesP r
  | .alt _ f r => 1 + f.nodes + NE.nodesP r
  | .fix _ b => 1 + b.nodes
  | .call _ o a => 1 + o.nodes + NE.nodesL a
  | .lam _ _ b => 1 + b.nodes
  | .letE _ _ b c => 1 + b.nodes + c.nodes
  | _ => 1
def NE.nodesP : List (Nat × NE) → Nat
  | [] => 0
  | (_, e) :: l => e.nodes + NE.nodesP l
def NE.nodesL : List NE → Nat
  | [] => 0
  | e :: l => e.nodes + NE.nodesL l
end

mutual
/-- How deep fix points are nested. -/
def NE.fixDepth : NE → Nat
  | .cat _ f r => max f.fixDepth (NE.fixDepthP r)
  | .alt _ f r => max f.fixDepth (NE.fixDepthP r)
  | .fix _ b => 1 + b.fixDepth
  | .call _ o a => max o.fixDepth (NE.fixDepthL a)
  | .lam _ _ b => b.fixDepth
  | .letE _ _ b c => max b.fixDepth c.fixDepth
  | _ => 0
def NE.fixDepthP : List (Nat × NE) → Nat
  | [] => 0
  | (_, e) :: l => max e.fixDepth (NE.fixDepthP l)
def NE.fixDepthL : List NE → Nat
  | [] => 0
  | e :: l => max e.fixDepth (NE.fixDepthL l)
end

theorem InfC.bind_le {α β : Type} {x : InfC α} {f : α → TCtx → InfC β} {A B : Nat} (hx : x.2 ≤ A) (hf : ∀ a c, (f a c).2 ≤ B) :
    (x.bind f).2 ≤ A + B := by
  obtain ⟨⟨a, c⟩, k⟩ := x
  cases a <;> simp only [InfC.bind] at hx ⊢
  · rename_i a; have := hf a c; omega
  all_goals omega

theorem fixLoopC_le {f : Ty → TCtx → InfC TE} {B : Nat} (hf : ∀ t c, (f t c).2 ≤ B) : ∀ (n : Nat) (t : Ty) (c : TCtx),
    (fixLoopC f n t c).2 ≤ n * B
  | 0, _, _ => by simp [fixLoopC, InfC.free]
  | n + 1, t, c => by
    simp only [fixLoopC]
    rw [Nat.succ_mul, Nat.add_comm]
    refine InfC.bind_le (hf t c) fun res c => ?_
    split
    · exact Nat.zero_le _
    · exact fixLoopC_le hf n _ _

theorem mul_pow_mono {n a d d' : Nat} (hn : 0 < n) (h : d ≤ d') : a * n ^ d ≤ a * n ^ d' :=
  Nat.mul_le_mul_left _ (Nat.pow_le_pow_right hn h)

mutual
theorem inferC_le {n : Nat} (hn : 0 < n) : ∀ (nm : Option Name) (e : NE) (c : TCtx), (inferC n nm e c).2 ≤ e.nodes * n ^ e.fixDepth
  | nm, .eps _, c => by simp [inferC, InfC.tick, InfC.free, NE.nodes, NE.fixDepth]
  | nm, .lit _ s, c => by simp [inferC, InfC.tick, InfC.free, NE.nodes, NE.fixDepth]
  | nm, .cat _ f rest, c => by
    have h1 := fun nm c => Nat.le_trans (inferC_le hn nm f c) (mul_pow_mono hn (Nat.le_max_left f.fixDepth (NE.fixDepthP rest)))
    have h2 := fun ty c => Nat.le_trans (inferCatC_le hn ty rest c) (mul_pow_mono hn (Nat.le_max_right f.fixDepth (NE.fixDepthP rest)))
    have h3 : 0 < n ^ max f.fixDepth (NE.fixDepthP rest) := Nat.pow_pos hn
    simp only [inferC, InfC.tick, NE.nodes, NE.fixDepth]
    refine Nat.le_trans (Nat.succ_le_succ (InfC.bind_le (h1 _ _) (B := NE.nodesP rest * n ^ max f.fixDepth (NE.fixDepthP rest) + 0) ?_)) ?_
    · intro first c
      split
      · exact Nat.zero_le _
      · exact InfC.bind_le (h2 _ _) fun _ _ => Nat.le_refl _
    · rw [Nat.add_mul, Nat.add_mul]; omega
  | nm, .alt _ f rest, c => by
    have h1 := fun nm c => Nat.le_trans (inferC_le hn nm f c) (mul_pow_mono hn (Nat.le_max_left f.fixDepth (NE.fixDepthP rest)))
    have h2 := fun ty c => Nat.le_trans (inferAltC_le hn ty rest c) (mul_pow_mono hn (Nat.le_max_right f.fixDepth (NE.fixDepthP rest)))
    have h3 : 0 < n ^ max f.fixDepth (NE.fixDepthP rest) := Nat.pow_pos hn
    simp only [inferC, InfC.tick, NE.nodes, NE.fixDepth]
    refine Nat.le_trans (Nat.succ_le_succ (InfC.bind_le (h1 _ _) (B := NE.nodesP rest * n ^ max f.fixDepth (NE.fixDepthP rest) + 0) ?_)) ?_
    · intro first c
      exact InfC.bind_le (h2 _ _) fun _ _ => Nat.le_refl _
    · rw [Nat.add_mul, Nat.add_mul]; omega
  | nm, .fix _ (.lam j _ b), c => by
    simp only [inferC, InfC.tick, NE.nodes, NE.fixDepth]
    have h3 : 0 < n ^ (1 + b.fixDepth) := Nat.pow_pos hn
    refine Nat.le_trans (Nat.succ_le_succ (InfC.bind_le (B := 0) (fixLoopC_le (B := b.nodes * n ^ b.fixDepth) (fun t c => ?_) n _ c)
      fun _ _ => Nat.le_refl _)) ?_
    · exact inferC_le hn _ b _
    · have : (1 + (1 + b.nodes)) * n ^ (1 + b.fixDepth) = 2 * n ^ (1 + b.fixDepth) + n * (b.nodes * n ^ b.fixDepth) := by
        rw [show 1 + (1 + b.nodes) = 2 + b.nodes by omega, Nat.add_mul, Nat.pow_add, Nat.pow_one, Nat.mul_left_comm b.nodes]
      omega
  | _, .fix i (.eps _), c => one_le hn _ (by simp only [NE.nodes]; omega) (by simp [inferC, InfC.tick, InfC.free])
  | _, .fix i (.lit _ _), c => one_le hn _ (by simp only [NE.nodes]; omega) (by simp [inferC, InfC.tick, InfC.free])
  | _, .fix i (.cat _ _ _), c => one_le hn _ (by simp only [NE.nodes]; omega) (by simp [inferC, InfC.tick, InfC.free])
  | _, .fix i (.alt _ _ _), c => one_le hn _ (by simp only [NE.nodes]; omega) (by simp [inferC, InfC.tick, InfC.free])
  | _, .fix i (.fix _ _), c => one_le hn _ (by simp only [NE.nodes]; omega) (by simp [inferC, InfC.tick, InfC.free])
  | _, .fix i (.var _ _), c => one_le hn _ (by simp only [NE.nodes]; omega) (by simp [inferC, InfC.tick, InfC.free])
  | _, .fix i (.call _ _ _), c => one_le hn _ (by simp only [NE.nodes]; omega) (by simp [inferC, InfC.tick, InfC.free])
  | _, .fix i (.letE _ _ _ _), c => one_le hn _ (by simp only [NE.nodes]; omega) (by simp [inferC, InfC.tick, InfC.free])
  | nm, .var i k, c => by simp [inferC, InfC.tick, InfC.free, NE.nodes, NE.fixDepth]
  | _, .call i _ _, c => one_le hn _ (by simp only [NE.nodes]; omega) (by simp [inferC, InfC.tick, InfC.free])
  | _, .lam i _ _, c => one_le hn _ (by simp only [NE.nodes]; omega) (by simp [inferC, InfC.tick, InfC.free])
  | _, .letE i _ _ _, c => one_le hn _ (by simp only [NE.nodes]; omega) (by simp [inferC, InfC.tick, InfC.free])
theorem inferCatC_le {n : Nat} (hn : 0 < n) : ∀ (ty : Ty) (l : List (Nat × NE)) (c : TCtx),
    (inferCatC n ty l c).2 ≤ NE.nodesP l * n ^ NE.fixDepthP l
  | ty, [], c => by simp [inferCatC, InfC.free]
  | ty, (punct, e) :: l, c => by
    have h1 := fun nm c => Nat.le_trans (inferC_le hn nm e c) (mul_pow_mono hn (Nat.le_max_left e.fixDepth (NE.fixDepthP l)))
    have h2 := fun ty c => Nat.le_trans (inferCatC_le hn ty l c) (mul_pow_mono hn (Nat.le_max_right e.fixDepth (NE.fixDepthP l)))
    simp only [inferCatC, NE.nodesP, NE.fixDepthP]
    rw [Nat.add_mul]
    refine InfC.bind_le (h1 _ _) fun right c => ?_
    split
    · exact InfC.bind_le (B := 0) (h2 _ _) fun _ _ => Nat.le_refl _
    · exact Nat.zero_le _
theorem inferAltC_le {n : Nat} (hn : 0 < n) : ∀ (ty : Ty) (l : List (Nat × NE)) (c : TCtx),
    (inferAltC n ty l c).2 ≤ NE.nodesP l * n ^ NE.fixDepthP l
  | ty, [], c => by simp [inferAltC, InfC.free]
  | ty, (punct, e) :: l, c => by
    have h1 := fun nm c => Nat.le_trans (inferC_le hn nm e c) (mul_pow_mono hn (Nat.le_max_left e.fixDepth (NE.fixDepthP l)))
    have h2 := fun ty c => Nat.le_trans (inferAltC_le hn ty l c) (mul_pow_mono hn (Nat.le_max_right e.fixDepth (NE.fixDepthP l)))
    simp only [inferAltC, NE.nodesP, NE.fixDepthP]
    rw [Nat.add_mul]
    refine InfC.bind_le (h1 _ _) fun right c => ?_
    split
    · exact Nat.zero_le _
    · split
      · exact InfC.bind_le (B := 0) (h2 _ _) fun _ _ => Nat.le_refl _
      · exact Nat.zero_le _
theorem one_le {n : Nat} (hn : 0 < n) (e : NE) (h1 : 1 ≤ e.nodes) {k : Nat} (hk : k = 1) : k ≤ e.nodes * n ^ e.fixDepth := by
  subst hk
  exact Nat.mul_le_mul h1 (Nat.pow_pos hn)
end

/-! ## C80 -/

/-- Type inference of `e` takes `k` visits: run for long enough, the inference with the counter ends having counted `k`. -/
def Visits (e : NE) (k : Nat) : Prop := ∃ N, ∀ n, N ≤ n → (inferC n e.info.name e ⟨[], []⟩).1.1 ≠ .oof ∧ (inferC n e.info.name e ⟨[], []⟩).2 = k

/-- **C80** (the counter only counts). -/
theorem C80_same_inference (n : Nat) (nm : Option Name) (e : NE) (c : TCtx) : (inferC n nm e c).1 = infer n nm e c := inferC_fst n nm e c

/-- **C80.** Inferring the type of an expression visits at most `size · (2 · L + 2) ^ d` expressions, for an expression with `L` literals whose fix
points are nested `d` deep: each fix point multiplies the work for its body by the number of rounds. -/
theorem C80_cost (e : NE) : ∃ k, Visits e k ∧ k ≤ e.nodes * (2 * e.erase.lits.length + 2) ^ e.fixDepth := by
  have hd : (inferC (2 * e.erase.lits.length + 2) e.info.name e ⟨[], []⟩).1.1 ≠ .oof := by
    rw [inferC_fst]
    have := C22_loop_bound e (2 * e.erase.lits.length + 2) (Nat.le_refl _)
    unfold inferTop at this
    rcases this with ⟨te, h⟩ | ⟨err, h⟩ <;> (rw [h]; simp)
  refine ⟨_, ⟨2 * e.erase.lits.length + 2, fun n hn => ?_⟩, inferC_le (by omega) e.info.name e ⟨[], []⟩⟩
  rw [inferC_more hn _ _ _ hd]
  exact ⟨hd, rfl⟩

/-- **C80.** The number of visits is determined by the expression. -/
theorem C80_cost_unique {e : NE} {k k' : Nat} (h : Visits e k) (h' : Visits e k') : k = k' := by
  obtain ⟨N, h⟩ := h
  obtain ⟨N', h'⟩ := h'
  exact (h (max N N') (Nat.le_max_left _ _)).2.symm.trans (h' (max N N') (Nat.le_max_right _ _)).2

/-- **C80.** Without fix points, inference visits every subexpression at most once. -/
theorem C80_linear (e : NE) (h : e.fixDepth = 0) {k : Nat} (hk : Visits e k) : k ≤ e.nodes := by
  obtain ⟨k', h1, h2⟩ := C80_cost e
  rw [C80_cost_unique hk h1]
  rwa [h, Nat.pow_zero, Nat.mul_one] at h2

/-- `d` nested fix points around `"a"`: `!(/x/ !(/x/ … "a"))`. -/
def nestedFix : Nat → NE
  | 0 => .lit ⟨none, 0⟩ ['a']
  | d + 1 => .fix ⟨none, 0⟩ (.lam ⟨none, 0⟩ [.newVariable (.spanless "x")] (nestedFix d))

/-- `d` nested fix points around `"a"`, typed. -/
def nestedFixTE : Nat → Option Name → TE
  | 0, nm => .lit nm ['a']
  | d + 1, nm => .fix nm (nestedFixTE d nm)

theorem nestedFix_name : ∀ d, (nestedFix d).info.name = none
  | 0 => rfl
  | _ + 1 => rfl

theorem nestedFixTE_ty : ∀ (d : Nat) (nm : Option Name), (nestedFixTE d nm).ty = .ofStr ['a']
  | 0, _ => rfl
  | d + 1, nm => nestedFixTE_ty d nm

theorem nestedFix_cost {n : Nat} (hn : 2 ≤ n) : ∀ (d : Nat) (c : TCtx),
    inferC n none (nestedFix d) c = ((.ok (nestedFixTE d none), c), 2 ^ (d + 1) - 1)
  | 0, c => by simp [nestedFix, inferC, InfC.tick, InfC.free, nestedFixTE]
  | d + 1, c => by
    obtain ⟨m, rfl⟩ : ∃ m, n = m + 2 := ⟨n - 2, by omega⟩
    have ih := nestedFix_cost hn d
    have hm : Name.mergeAll [none, none, none] = none := rfl
    have hne : Ty.default ≠ Ty.ofStr ['a'] := by decide
    have hp : 2 ^ (d + 1 + 1) = 2 * 2 ^ (d + 1) := by rw [Nat.pow_succ 2 (d + 1), Nat.mul_comm]
    have hp' : 0 < 2 ^ (d + 1) := Nat.pow_pos (by omega)
    simp only [nestedFix, inferC, nestedFix_name, hm, fixLoopC, TCtx.withVarC, TCtx.withVar, ih, InfC.bind, nestedFixTE_ty, if_neg hne, if_true,
      InfC.free, InfC.tick, nestedFixTE, List.dropLast_concat]
    refine Prod.ext rfl ?_
    dsimp only
    omega

/-- **C80** (the bound is met up to the base). `d` nested fix points around a literal, an accepted expression of size `2 · d + 1`, take `2^(d+1) - 1`
visits: the cost of type inference is exponential in the nesting of fix points. -/
theorem C80_exponential (d : Nat) : (nestedFix d).nodes = 2 * d + 1 ∧ (∃ n te, (inferTop n (nestedFix d) ⟨[], []⟩).1 = .ok te) ∧
    Visits (nestedFix d) (2 ^ (d + 1) - 1) := by
  refine ⟨?_, ⟨2, nestedFixTE d none, ?_⟩, 2, fun n hn => ?_⟩
  · induction d with
    | zero => rfl
    | succ d ih => simp only [nestedFix, NE.nodes, ih]; omega
  · rw [inferTop, ← inferC_fst, nestedFix_name, nestedFix_cost (Nat.le_refl _)]
  · rw [nestedFix_name, nestedFix_cost hn]
    simp

/-- `"a" . "b" . "c"`. -/
private def exThree : NE := .cat ⟨none, 0⟩ (.lit ⟨none, 0⟩ ['a']) [(0, .lit ⟨none, 0⟩ ['b']), (0, .lit ⟨none, 0⟩ ['c'])]

/-- Non-vacuity: a concatenation of three parts is visited once each. -/
example : Visits exThree 4 ∧ exThree.nodes = 4 := by
  refine ⟨⟨1, fun n hn => ?_⟩, rfl⟩
  obtain ⟨te, h⟩ : ∃ te, inferC 1 exThree.info.name exThree ⟨[], []⟩ = ((.ok te, ⟨[], []⟩), 4) := ⟨_, rfl⟩
  rw [inferC_more hn _ _ _ (by rw [h]; simp), h]
  exact ⟨by simp, rfl⟩

end Chomp
