import Verif.Ast.Lemmas

/-! Reduction on nameless expressions and its relation to the model of `Reduce`. -/

namespace Chomp

/-- Reduction errors without names and spans. -/
inductive CErr where
  | callNotAFunction (on : Core)
  | wrongArgCount (lambda : Core) (args : List Core)

/-- Monadic map in `Out`. -/
def mapO {ε α β : Type} (f : α → Out ε β) : List α → Out ε (List β)
  | [] => .ok []
  | a :: l => (f a).bind fun b => (mapO f l).bind fun l => .ok (b :: l)

/-- `Reduce` on nameless expressions. -/
def reduceC : Nat → Core → Out CErr Core
  | 0, _ => .oof
  | n + 1, e =>
    match e with
    | .eps => .ok .eps
    | .lit s => .ok (.lit s)
    | .cat l => (mapO (reduceC n) l).bind fun l => .ok (.cat l)
    | .alt l => (mapO (reduceC n) l).bind fun l => .ok (.alt l)
    | .fix b =>
      (reduceC n b).bind fun b =>
        match b with
        | .lam k c => (reduceC n c).bind fun c => .ok (.fix (.lam k c))
        | b => .ok (.fix b)
    | .var k => .ok (.var k)
    | .call on args =>
      (reduceC n on).bind fun on =>
        match on with
        | .lam k body =>
          if k ≠ args.length then .err (.wrongArgCount (.lam k body) args)
          else reduceC n (body.sub (instArgs args))
        | on => .err (.callNotAFunction on)
    | .lam k b => .ok (.lam k b)
    | .letE b c => reduceC n (c.sub (inst 0 b))

/-- Forget names and spans in an error. -/
def RErr.erase : RErr → CErr
  | .callNotAFunction on _ => .callNotAFunction on.erase
  | .wrongArgCount l args _ => .wrongArgCount l.erase (args.map NE.erase)

/-- Forget names and spans in an outcome. -/
def eraseOut : Out RErr NE → Out CErr Core
  | .ok e => .ok e.erase
  | .err e => .err e.erase
  | .panic => .panic
  | .oof => .oof

theorem erase_mapP (f : NE → Out RErr NE) (g : Core → Out CErr Core) (h : ∀ e, eraseOut (f e) = g e.erase)
    (l : List (Nat × NE)) :
    (match mapP f l with
      | .ok l => .ok (NE.eraseP l)
      | .err e => .err e.erase
      | .panic => .panic
      | .oof => .oof) = mapO g (NE.eraseP l) := by
  induction l with
  | nil => rfl
  | cons p l ih =>
    obtain ⟨s, e⟩ := p
    simp only [NE.eraseP, mapO, mapP]
    rw [← h e, ← ih]
    cases f e <;> simp only [Out.bind, eraseOut]
    cases mapP f l <;> simp only [NE.eraseP]

theorem erase_reduce (n : Nat) : ∀ e, eraseOut (reduce n e) = reduceC n e.erase := by
  induction n with
  | zero => intro e; rfl
  | succ n ih =>
    intro e
    cases e with
    | eps i => rfl
    | lit i s => rfl
    | cat i f r =>
      have h := erase_mapP (reduce n) (reduceC n) ih r
      simp only [reduce, NE.erase, reduceC, mapO]
      rw [← ih f, ← h]
      cases reduce n f <;> simp only [Out.bind, eraseOut]
      cases mapP (reduce n) r <;> simp only [NE.erase]
    | alt i f r =>
      have h := erase_mapP (reduce n) (reduceC n) ih r
      simp only [reduce, NE.erase, reduceC, mapO]
      rw [← ih f, ← h]
      cases reduce n f <;> simp only [Out.bind, eraseOut]
      cases mapP (reduce n) r <;> simp only [NE.erase]
    | fix i b =>
      simp only [reduce, NE.erase, reduceC]
      rw [← ih b]
      cases reduce n b with
      | ok b' =>
        simp only [Out.bind, eraseOut]
        cases b' <;> simp only [NE.erase, eraseOut]
        rename_i j a c
        rw [← ih c]
        cases reduce n c <;> simp only [eraseOut, NE.erase]
      | err e => rfl
      | panic => rfl
      | oof => rfl
    | var i k => rfl
    | call i on args =>
      simp only [reduce, NE.erase, reduceC]
      rw [← ih on]
      cases reduce n on with
      | ok on' =>
        simp only [Out.bind, eraseOut]
        cases on' with
        | lam j params body =>
          simp only [NE.erase, NE.eraseL_map, List.length_map]
          by_cases hl : params.length = args.length
          · obtain ⟨out, h1, h2⟩ := applyArgs_spec args.length body params args rfl hl
            simp only [hl, ne_eq, not_true, if_false, h1, Out.ofOption]
            rw [← h2, ← ih out]
            cases reduce n out <;> simp [eraseOut]
          · simp only [ne_eq, hl, not_false_eq_true, if_true, eraseOut, RErr.erase, NE.erase]
        | _ => simp only [NE.erase, eraseOut, RErr.erase]
      | err e => rfl
      | panic => rfl
      | oof => rfl
    | lam i a b => rfl
    | letE i x b c =>
      simp only [reduce, NE.erase, reduceC]
      obtain ⟨out, h1, h2⟩ := c.substitute_spec 0 b
      rw [h1, ← h2, ← ih out]
      simp only [Out.ofOption, Out.bind]
      cases reduce n out <;> simp [eraseOut]

theorem reduce_ok_erase {n : Nat} {e e' : NE} (h : reduce n e = .ok e') : reduceC n e.erase = .ok e'.erase := by
  rw [← erase_reduce, h]; rfl

theorem mapO_ok {ε α β : Type} {f : α → Out ε β} {l : List α} {l' : List β} (h : mapO f l = .ok l') :
    All2 (fun a b => f a = .ok b) l l' := by
  induction l generalizing l' with
  | nil => simp [mapO] at h; subst h; exact .nil
  | cons a l ih =>
    simp only [mapO] at h
    cases ha : f a with
    | ok b =>
      rw [ha] at h
      simp only [Out.bind] at h
      cases hl : mapO f l with
      | ok l2 => rw [hl] at h; simp at h; subst h; exact .cons ha (ih hl)
      | _ => rw [hl] at h; simp at h
    | _ => rw [ha] at h; simp [Out.bind] at h

theorem All2.imp {α β : Type} {R S : α → β → Prop} (hRS : ∀ a b, R a b → S a b) {l : List α} {l' : List β}
    (h : All2 R l l') : All2 S l l' := by
  induction h with
  | nil => exact .nil
  | cons h _ ih => exact .cons (hRS _ _ h) ih

theorem All2.right {α β : Type} {R : α → β → Prop} {P : β → Prop} (hR : ∀ a b, R a b → P b)
    {l : List α} {l' : List β} (h : All2 R l l') : ∀ b ∈ l', P b := by
  induction h with
  | nil => simp
  | cons h _ ih =>
    intro b hb
    rcases List.mem_cons.1 hb with rfl | hb
    · exact hR _ _ h
    · exact ih b hb

theorem All2.right' {α β : Type} {R : α → β → Prop} {Q : α → Prop} {P : β → Prop}
    (hR : ∀ a b, R a b → Q a → P b)
    {l : List α} {l' : List β} (h : All2 R l l') (hq : ∀ a ∈ l, Q a) : ∀ b ∈ l', P b := by
  induction h with
  | nil => simp
  | cons h _ ih =>
    intro b hb
    rcases List.mem_cons.1 hb with rfl | hb
    · exact hR _ _ h (hq _ (by simp))
    · exact ih (fun a ha => hq a (by simp [ha])) b hb

theorem Out.bind_ok {ε α β : Type} {x : Out ε α} {f : α → Out ε β} {b : β} (h : x.bind f = .ok b) :
    ∃ a, x = .ok a ∧ f a = .ok b := by
  cases x with
  | ok a => exact ⟨a, rfl, h⟩
  | _ => cases h

theorem reduceC_steps (n : Nat) : ∀ e e', reduceC n e = .ok e' → Core.Steps e e' := by
  induction n with
  | zero => intro e e' h; cases h
  | succ n ih =>
    intro e e' h
    cases e with
    | eps => simp only [reduceC, Out.ok.injEq] at h; subst h; exact .refl _
    | lit s => simp only [reduceC, Out.ok.injEq] at h; subst h; exact .refl _
    | cat l =>
      obtain ⟨l', h1, h2⟩ := Out.bind_ok h
      cases h2
      exact Core.Steps.list (F := Core.cat) (fun p a b q h => .cat p a b q h)
        ((mapO_ok h1).imp fun a b hab => ih a b hab) []
    | alt l =>
      obtain ⟨l', h1, h2⟩ := Out.bind_ok h
      cases h2
      exact Core.Steps.list (F := Core.alt) (fun p a b q h => .alt p a b q h)
        ((mapO_ok h1).imp fun a b hab => ih a b hab) []
    | fix b =>
      obtain ⟨b', h1, h2⟩ := Out.bind_ok h
      have hb := Core.Steps.congr (F := Core.fix) (fun a b h => .fix a b h) (ih _ _ h1)
      cases b' with
      | lam k c =>
        obtain ⟨c', h3, h4⟩ := Out.bind_ok h2
        cases h4
        exact hb.trans (Core.Steps.congr (F := fun c => Core.fix (.lam k c))
          (fun a b h => .fix _ _ (.lam _ a b h)) (ih _ _ h3))
      | _ => cases h2; exact hb
    | var k => simp only [reduceC, Out.ok.injEq] at h; subst h; exact .refl _
    | call on args =>
      obtain ⟨on', h1, h2⟩ := Out.bind_ok h
      have ho := Core.Steps.congr (F := fun o => Core.call o args) (fun a b h => .callOn a b args h) (ih _ _ h1)
      cases on' with
      | lam k body =>
        by_cases hk : k = args.length
        · simp only [hk, ne_eq, not_true, if_false] at h2
          subst hk
          exact (ho.tail (.beta _ _ _ rfl)).trans (ih _ _ h2)
        · simp [hk] at h2
      | _ => cases h2
    | lam k b => simp only [reduceC, Out.ok.injEq] at h; subst h; exact .refl _
    | letE b c =>
      exact (Core.Steps.single (.letE b c)).trans (ih _ _ h)

theorem settled_fix {b : Core} (hb : b.settled) (hl : ∀ k c, b ≠ .lam k c) : (Core.fix b).settled := by
  cases b <;> first | exact hb | exact absurd rfl (hl _ _)

theorem reduceC_settled (n : Nat) : ∀ e e', reduceC n e = .ok e' → e'.settled := by
  induction n with
  | zero => intro e e' h; cases h
  | succ n ih =>
    intro e e' h
    cases e with
    | eps => simp only [reduceC, Out.ok.injEq] at h; subst h; trivial
    | lit s => simp only [reduceC, Out.ok.injEq] at h; subst h; trivial
    | cat l =>
      obtain ⟨l', h1, h2⟩ := Out.bind_ok h
      cases h2
      rw [Core.settled, Core.settledL_iff]
      exact (mapO_ok h1).right fun a b hab => ih a b hab
    | alt l =>
      obtain ⟨l', h1, h2⟩ := Out.bind_ok h
      cases h2
      rw [Core.settled, Core.settledL_iff]
      exact (mapO_ok h1).right fun a b hab => ih a b hab
    | fix b =>
      obtain ⟨b', h1, h2⟩ := Out.bind_ok h
      have hb := ih _ _ h1
      cases b' with
      | lam k c =>
        obtain ⟨c', h3, h4⟩ := Out.bind_ok h2
        cases h4
        have := ih _ _ h3
        simpa only [Core.settled] using this
      | _ => cases h2; exact settled_fix hb (by simp)
    | var k => simp only [reduceC, Out.ok.injEq] at h; subst h; trivial
    | call on args =>
      obtain ⟨on', h1, h2⟩ := Out.bind_ok h
      cases on' with
      | lam k body =>
        by_cases hk : k = args.length
        · simp only [hk, ne_eq, not_true, if_false] at h2
          exact ih _ _ h2
        · simp [hk] at h2
      | _ => cases h2
    | lam k b => simp only [reduceC, Out.ok.injEq] at h; subst h; trivial
    | letE b c => exact ih _ _ h

theorem closed_instArgs (n : Nat) (args : List Core) (h : ∀ e ∈ args, e.closed n) :
    ∀ i < n + args.length, (instArgs args i).closed n := by
  intro i hi
  simp only [instArgs]
  split
  · rw [List.getD_eq_getElem?_getD, List.getElem?_eq_getElem (by omega)]
    exact h _ (List.getElem_mem _)
  · simp only [Core.closed]; omega

theorem closed_inst (n : Nat) (b : Core) (h : b.closed n) : ∀ i < n + 1, (inst 0 b i).closed n := by
  intro i hi
  simp only [inst, Nat.not_lt_zero, if_false]
  split
  · exact h
  · simp only [Core.closed]; omega

theorem reduceC_closed (n : Nat) : ∀ e e' m, reduceC n e = .ok e' → e.closed m → e'.closed m := by
  induction n with
  | zero => intro e e' m h; cases h
  | succ n ih =>
    intro e e' m h hc
    cases e with
    | eps => simp only [reduceC, Out.ok.injEq] at h; subst h; trivial
    | lit s => simp only [reduceC, Out.ok.injEq] at h; subst h; trivial
    | cat l =>
      obtain ⟨l', h1, h2⟩ := Out.bind_ok h
      cases h2
      simp only [Core.closed, Core.closedL_iff] at hc ⊢
      exact (mapO_ok h1).right' (fun a b hab ha => ih a b m hab ha) hc
    | alt l =>
      obtain ⟨l', h1, h2⟩ := Out.bind_ok h
      cases h2
      simp only [Core.closed, Core.closedL_iff] at hc ⊢
      exact (mapO_ok h1).right' (fun a b hab ha => ih a b m hab ha) hc
    | fix b =>
      obtain ⟨b', h1, h2⟩ := Out.bind_ok h
      have hb := ih _ _ m h1 hc
      cases b' with
      | lam k c =>
        obtain ⟨c', h3, h4⟩ := Out.bind_ok h2
        cases h4
        exact ih _ _ (m + k) h3 hb
      | _ => cases h2; exact hb
    | var k => simp only [reduceC, Out.ok.injEq] at h; subst h; exact hc
    | call on args =>
      obtain ⟨on', h1, h2⟩ := Out.bind_ok h
      simp only [Core.closed, Core.closedL_iff] at hc
      have ho := ih _ _ m h1 hc.1
      cases on' with
      | lam k body =>
        by_cases hk : k = args.length
        · simp only [hk, ne_eq, not_true, if_false] at h2
          subst hk
          refine ih _ _ m h2 (Core.closed_sub _ _ _ _ (closed_instArgs m args hc.2) ho)
        · simp [hk] at h2
      | _ => cases h2
    | lam k b => simp only [reduceC, Out.ok.injEq] at h; subst h; exact hc
    | letE b c => exact ih _ _ m h (Core.closed_sub _ _ _ _ (closed_inst m b hc.1) hc.2)

theorem mapP_self {ε : Type} (f : NE → Out ε NE) (l : List (Nat × NE)) (h : ∀ p ∈ l, f p.2 = .ok p.2) :
    mapP f l = .ok l := by
  induction l with
  | nil => rfl
  | cons p l ih =>
    obtain ⟨s, e⟩ := p
    have h1 := h (s, e) (by simp)
    dsimp only at h1
    simp [mapP, h1, ih (fun p hp => h p (by simp [hp])), Out.bind]

theorem list_bound {α : Type} {P : Nat → α → Prop} (l : List α) (h : ∀ a ∈ l, ∃ m, ∀ n ≥ m, P n a) :
    ∃ m, ∀ n ≥ m, ∀ a ∈ l, P n a := by
  induction l with
  | nil => exact ⟨0, by simp⟩
  | cons a l ih =>
    obtain ⟨m1, h1⟩ := h a (by simp)
    obtain ⟨m2, h2⟩ := ih (fun b hb => h b (by simp [hb]))
    refine ⟨max m1 m2, fun n hn b hb => ?_⟩
    rcases List.mem_cons.1 hb with rfl | hb
    · exact h1 n (by omega)
    · exact h2 n (by omega) b hb

theorem reduce_settled_self' (e : NE) :
    (e.erase.settled → ∃ m, ∀ n ≥ m, reduce n e = .ok e) ∧
    (∀ j a c, e = .lam j a c → c.erase.settled → ∃ m, ∀ n ≥ m, reduce n c = .ok c) := by
  have one : ∀ {e : NE}, (∀ k, reduce (k + 1) e = .ok e) → ∃ m, ∀ n ≥ m, reduce n e = .ok e := by
    intro e h
    refine ⟨1, fun n hn => ?_⟩
    obtain ⟨k, rfl⟩ : ∃ k, n = k + 1 := ⟨n - 1, by omega⟩
    exact h k
  induction e using NE.ind with
  | eps i => exact ⟨fun _ => one fun _ => rfl, by simp⟩
  | lit i s => exact ⟨fun _ => one fun _ => rfl, by simp⟩
  | cat i f r ihf ihr =>
    refine ⟨?_, by simp⟩
    intro h
    simp only [NE.erase, Core.settled, Core.settledL, Core.settledL_iff, NE.eraseP_map] at h
    obtain ⟨m1, h1⟩ := ihf.1 h.1
    obtain ⟨m2, h2⟩ := list_bound (P := fun n (p : Nat × NE) => reduce n p.2 = .ok p.2) r
      (fun p hp => (ihr p hp).1 (h.2 _ (List.mem_map.2 ⟨p, hp, rfl⟩)))
    refine ⟨max m1 m2 + 1, fun n hn => ?_⟩
    obtain ⟨k, rfl⟩ : ∃ k, n = k + 1 := ⟨n - 1, by omega⟩
    simp [reduce, h1 k (by omega), mapP_self _ _ (h2 k (by omega)), Out.bind]
  | alt i f r ihf ihr =>
    refine ⟨?_, by simp⟩
    intro h
    simp only [NE.erase, Core.settled, Core.settledL, Core.settledL_iff, NE.eraseP_map] at h
    obtain ⟨m1, h1⟩ := ihf.1 h.1
    obtain ⟨m2, h2⟩ := list_bound (P := fun n (p : Nat × NE) => reduce n p.2 = .ok p.2) r
      (fun p hp => (ihr p hp).1 (h.2 _ (List.mem_map.2 ⟨p, hp, rfl⟩)))
    refine ⟨max m1 m2 + 1, fun n hn => ?_⟩
    obtain ⟨k, rfl⟩ : ∃ k, n = k + 1 := ⟨n - 1, by omega⟩
    simp [reduce, h1 k (by omega), mapP_self _ _ (h2 k (by omega)), Out.bind]
  | fix i b ih =>
    refine ⟨?_, by simp⟩
    intro h
    have key : (∃ j a c, b = .lam j a c ∧ c.erase.settled) ∨
        ((∀ j a c, b ≠ .lam j a c) ∧ b.erase.settled) := by
      cases b with
      | lam j a c =>
        simp only [NE.erase, Core.settled] at h
        exact .inl ⟨j, a, c, rfl, h⟩
      | call i o a => simp only [NE.erase, Core.settled] at h
      | letE i x b c => simp only [NE.erase, Core.settled] at h
      | _ =>
        simp only [NE.erase, Core.settled] at h
        exact .inr ⟨by simp, by simpa only [NE.erase, Core.settled] using h⟩
    rcases key with ⟨j, a, c, rfl, hc⟩ | ⟨hl, hb⟩
    · obtain ⟨m1, h1⟩ := ih.2 j a c rfl hc
      refine ⟨m1 + 2, fun n hn => ?_⟩
      obtain ⟨k, rfl⟩ : ∃ k, n = k + 2 := ⟨n - 2, by omega⟩
      have h2 := h1 (k + 1) (by omega)
      rw [reduce, reduce]
      simp only [Out.bind, h2]
    · obtain ⟨m1, h1⟩ := ih.1 hb
      refine ⟨m1 + 1, fun n hn => ?_⟩
      obtain ⟨k, rfl⟩ : ∃ k, n = k + 1 := ⟨n - 1, by omega⟩
      simp only [reduce, h1 k (by omega), Out.bind]
      all_goals cases b <;> first | rfl | exact absurd rfl (hl _ _ _)
  | var i k => exact ⟨fun _ => one fun _ => rfl, by simp⟩
  | call i o a _ _ => exact ⟨fun h => h.elim, by simp⟩
  | lam i a b ih =>
    refine ⟨fun _ => one fun _ => rfl, ?_⟩
    intro j a' c h hc
    cases h
    exact ih.1 hc
  | letE i x b c _ _ => exact ⟨fun h => h.elim, by simp⟩

theorem reduce_settled_self (e : NE) (h : e.erase.settled) : ∃ m, ∀ n ≥ m, reduce n e = .ok e :=
  (reduce_settled_self' e).1 h

theorem Out.bind_ne_oof {ε α β : Type} {x : Out ε α} {f : α → Out ε β} (h : x.bind f ≠ .oof) : x ≠ .oof := by
  intro hx; subst hx; exact h rfl

theorem mapO_mono {ε α β : Type} {f g : α → Out ε β} (hfg : ∀ a, f a ≠ .oof → g a = f a) (l : List α)
    (h : mapO f l ≠ .oof) : mapO g l = mapO f l := by
  induction l with
  | nil => rfl
  | cons a l ih =>
    simp only [mapO] at h ⊢
    have ha := Out.bind_ne_oof h
    rw [hfg a ha]
    cases hfa : f a with
    | ok b =>
      rw [hfa] at h
      simp only [Out.bind] at h ⊢
      have hl : mapO f l ≠ .oof := by intro hx; rw [hx] at h; exact h rfl
      rw [ih hl]
    | _ => rfl

theorem mapP_mono {ε : Type} {f g : NE → Out ε NE} (hfg : ∀ a, f a ≠ .oof → g a = f a) (l : List (Nat × NE))
    (h : mapP f l ≠ .oof) : mapP g l = mapP f l := by
  induction l with
  | nil => rfl
  | cons p l ih =>
    obtain ⟨s, a⟩ := p
    simp only [mapP] at h ⊢
    have ha := Out.bind_ne_oof h
    rw [hfg a ha]
    cases hfa : f a with
    | ok b =>
      rw [hfa] at h
      simp only [Out.bind] at h ⊢
      have hl : mapP f l ≠ .oof := by intro hx; rw [hx] at h; exact h rfl
      rw [ih hl]
    | _ => rfl

/-- More fuel does not change a result. -/
theorem reduceC_succ (n : Nat) : ∀ e, reduceC n e ≠ .oof → reduceC (n + 1) e = reduceC n e := by
  induction n with
  | zero => intro e h; exact absurd rfl h
  | succ n ih =>
    intro e h
    cases e with
    | eps => rfl
    | lit s => rfl
    | cat l =>
      rw [reduceC] at h
      rw [reduceC, reduceC, mapO_mono ih l (Out.bind_ne_oof h)]
    | alt l =>
      rw [reduceC] at h
      rw [reduceC, reduceC, mapO_mono ih l (Out.bind_ne_oof h)]
    | fix b =>
      rw [reduceC] at h
      rw [reduceC, reduceC, ih b (Out.bind_ne_oof h)]
      cases hb : reduceC n b with
      | ok b' =>
        rw [hb] at h
        simp only [Out.bind] at h ⊢
        cases b' with
        | lam k c =>
          have : reduceC n c ≠ .oof := by intro hx; simp [hx] at h
          simp only [ih c this]
        | _ => rfl
      | _ => rfl
    | var k => rfl
    | call on args =>
      rw [reduceC] at h
      rw [reduceC, reduceC, ih on (Out.bind_ne_oof h)]
      cases ho : reduceC n on with
      | ok o' =>
        rw [ho] at h
        simp only [Out.bind] at h ⊢
        cases o' with
        | lam k body =>
          by_cases hk : k = args.length
          · simp only [hk, ne_eq, not_true, if_false] at h ⊢
            exact ih _ h
          · simp [hk]
        | _ => rfl
      | _ => rfl
    | lam k b => rfl
    | letE b c => exact ih _ h

theorem reduceC_mono {n m : Nat} (hnm : n ≤ m) (e : Core) (h : reduceC n e ≠ .oof) : reduceC m e = reduceC n e := by
  induction hnm with
  | refl => rfl
  | step _ ih => rw [reduceC_succ _ _ (by rw [ih]; exact h), ih]

theorem eraseOut_oof {x : Out RErr NE} : eraseOut x = .oof ↔ x = .oof := by
  cases x <;> simp [eraseOut]

theorem reduce_oof_iff (n : Nat) (e : NE) : reduce n e = .oof ↔ reduceC n e.erase = .oof := by
  rw [← erase_reduce, eraseOut_oof]

theorem reduceC_no_panic (n : Nat) : ∀ e, reduceC n e ≠ .panic := by
  have hm : ∀ (f : Core → Out CErr Core), (∀ e, f e ≠ .panic) → ∀ l, mapO f l ≠ .panic := by
    intro f hf l
    induction l with
    | nil => simp [mapO]
    | cons a l ih =>
      simp only [mapO]
      have := hf a
      cases h : f a with
      | panic => exact absurd h this
      | ok b => cases hl : mapO f l <;> simp [Out.bind]; exact absurd hl ih
      | _ => simp [Out.bind]
  induction n with
  | zero => intro e; simp [reduceC]
  | succ n ih =>
    intro e
    cases e with
    | cat l => have := hm _ ih l; rw [reduceC]; cases h : mapO (reduceC n) l <;> simp_all [Out.bind]
    | alt l => have := hm _ ih l; rw [reduceC]; cases h : mapO (reduceC n) l <;> simp_all [Out.bind]
    | fix b =>
      rw [reduceC]
      have := ih b
      cases h : reduceC n b with
      | ok b' =>
        simp only [Out.bind]
        cases b' with
        | lam k c => have := ih c; cases h2 : reduceC n c <;> simp_all
        | _ => simp
      | panic => exact absurd h this
      | _ => simp [Out.bind]
    | call on args =>
      rw [reduceC]
      have := ih on
      cases h : reduceC n on with
      | ok b' =>
        simp only [Out.bind]
        cases b' with
        | lam k c => simp only; split <;> simp [ih]
        | _ => simp
      | panic => exact absurd h this
      | _ => simp [Out.bind]
    | letE b c => exact ih _
    | _ => simp [reduceC]

end Chomp
