import Verif.Ast.Simple

/-!
# Standardisation

If an expression can be evaluated by contracting calls and lets in any order and at any place, then
contracting leftmost-outermost – the order of `Reduce` – evaluates it as well (Kashima's proof of the
standardisation theorem, for calls with several arguments, lets and grammar constants).
-/

namespace Chomp

/-- A contraction at the head. -/
inductive Core.Head : Core → Core → Prop
  | beta (n : Nat) (b : Core) (args : List Core) : args.length = n →
      Head (.call (.lam n b) args) (b.sub (instArgs args))
  | letE (b c : Core) : Head (.letE b c) (c.sub (inst 0 b))
  | callOn (o o' : Core) (args : List Core) : Head o o' → Head (.call o args) (.call o' args)

/-- Any number of head contractions. -/
inductive Core.Heads : Core → Core → Prop
  | refl (e : Core) : Heads e e
  | head {a b c : Core} : Core.Head a b → Heads b c → Heads a c

theorem Core.Heads.trans {a b c : Core} (h1 : Core.Heads a b) (h2 : Core.Heads b c) : Core.Heads a c := by
  induction h1 with
  | refl => exact h2
  | head h _ ih => exact .head h (ih h2)

theorem Core.Heads.callOn {a b : Core} (h : Core.Heads a b) (args : List Core) :
    Core.Heads (.call a args) (.call b args) := by
  induction h with
  | refl => exact .refl _
  | head h _ ih => exact .head (.callOn _ _ _ h) ih

/-- First head contractions, then the same in all parts. -/
inductive Core.Std : Core → Core → Prop
  | eps {m : Core} : Core.Heads m .eps → Std m .eps
  | lit {m : Core} {s : List Char} : Core.Heads m (.lit s) → Std m (.lit s)
  | cat {m : Core} {l l' : List Core} : Core.Heads m (.cat l) → l.length = l'.length →
      (∀ p ∈ l.zip l', Std p.1 p.2) → Std m (.cat l')
  | alt {m : Core} {l l' : List Core} : Core.Heads m (.alt l) → l.length = l'.length →
      (∀ p ∈ l.zip l', Std p.1 p.2) → Std m (.alt l')
  | fix {m b b' : Core} : Core.Heads m (.fix b) → Std b b' → Std m (.fix b')
  | var {m : Core} {k : Nat} : Core.Heads m (.var k) → Std m (.var k)
  | call {m o o' : Core} {l l' : List Core} : Core.Heads m (.call o l) → Std o o' → l.length = l'.length →
      (∀ p ∈ l.zip l', Std p.1 p.2) → Std m (.call o' l')
  | lam {m b b' : Core} {n : Nat} : Core.Heads m (.lam n b) → Std b b' → Std m (.lam n b')
  | letE {m b b' c c' : Core} : Core.Heads m (.letE b c) → Std b b' → Std c c' → Std m (.letE b' c')

theorem zip_self_mem {α : Type} {l : List α} {p : α × α} (h : p ∈ l.zip l) : p.1 = p.2 ∧ p.1 ∈ l := by
  induction l with
  | nil => cases h
  | cons a l ih =>
    rw [List.zip_cons_cons, List.mem_cons] at h
    rcases h with rfl | h
    · exact ⟨rfl, by simp⟩
    · exact ⟨(ih h).1, by simp [(ih h).2]⟩

theorem Core.Std.refl (e : Core) : Core.Std e e := by
  have hl : ∀ l : List Core, (∀ e ∈ l, Core.Std e e) → ∀ p ∈ l.zip l, Core.Std p.1 p.2 := by
    intro l h p hp
    obtain ⟨h1, h2⟩ := zip_self_mem hp
    rw [← h1]; exact h _ h2
  induction e using Core.ind with
  | eps => exact .eps (.refl _)
  | lit s => exact .lit (.refl _)
  | cat l ih => exact .cat (.refl _) rfl (hl l ih)
  | alt l ih => exact .alt (.refl _) rfl (hl l ih)
  | fix b ih => exact .fix (.refl _) ih
  | var k => exact .var (.refl _)
  | call o a iho iha => exact .call (.refl _) iho rfl (hl a iha)
  | lam n b ih => exact .lam (.refl _) ih
  | letE b c ihb ihc => exact .letE (.refl _) ihb ihc

theorem Core.Heads.std {m m' n : Core} (h : Core.Heads m m') (hs : Core.Std m' n) : Core.Std m n := by
  cases hs with
  | eps h' => exact .eps (h.trans h')
  | lit h' => exact .lit (h.trans h')
  | cat h' a b => exact .cat (h.trans h') a b
  | alt h' a b => exact .alt (h.trans h') a b
  | fix h' a => exact .fix (h.trans h') a
  | var h' => exact .var (h.trans h')
  | call h' a b c => exact .call (h.trans h') a b c
  | lam h' a => exact .lam (h.trans h') a
  | letE h' a b => exact .letE (h.trans h') a b

/-! ### Substitution -/

theorem sub_instArgs_sub (b : Core) (args : List Core) (σ : Nat → Core) :
    (b.sub (instArgs args)).sub σ = (b.sub (up args.length σ)).sub (instArgs (args.map (Core.sub σ))) := by
  rw [Core.sub_sub, Core.sub_sub]
  congr 1
  funext i
  simp only [instArgs, up]
  by_cases hi : i < args.length
  · simp only [hi, if_true, Core.sub, instArgs, List.length_map]
    rw [List.getD_eq_getElem?_getD, List.getD_eq_getElem?_getD, List.getElem?_map,
      List.getElem?_eq_getElem (by omega : args.length - 1 - i < args.length)]
    rfl
  · simp only [hi, if_false, Core.sub, Core.sub_ren]
    have : (instArgs (args.map (Core.sub σ)) ∘ fun x => x + args.length) = Core.var := by
      funext j
      have : ¬ j + args.length < args.length := by omega
      simp [instArgs, this]
    rw [this, Core.sub_var]

theorem sub_inst_sub (b c : Core) (σ : Nat → Core) :
    (c.sub (inst 0 b)).sub σ = (c.sub (up 1 σ)).sub (inst 0 (b.sub σ)) := by
  rw [Core.sub_sub, Core.sub_sub]
  congr 1
  funext i
  rcases i with _ | i
  · simp [inst, up, Core.sub]
  · have h1 : (inst 0 (b.sub σ) ∘ fun x => x + 1) = Core.var := by
      funext j
      simp [inst]
    have h2 : up 1 σ (i + 1) = (σ i).ren (· + 1) := by simp [up]
    have h3 : inst 0 b (i + 1) = .var i := by simp [inst]
    rw [h2, h3, Core.sub_ren, h1, Core.sub_var, Core.sub]

theorem Core.Head.sub {a b : Core} (h : Core.Head a b) (σ : Nat → Core) : Core.Head (a.sub σ) (b.sub σ) := by
  induction h with
  | beta n b args hl =>
    subst hl
    rw [sub_instArgs_sub]
    simp only [Core.sub, Core.subL_map]
    exact .beta _ _ _ (by simp)
  | letE b c => rw [sub_inst_sub]; exact .letE _ _
  | callOn o o' args _ ih => exact .callOn _ _ _ ih

theorem Core.Head.ren {a b : Core} (h : Core.Head a b) (f : Nat → Nat) : Core.Head (a.ren f) (b.ren f) := by
  induction h with
  | beta n b args hl =>
    subst hl
    rw [sub_instArgs_ren]
    simp only [Core.ren, Core.renL_map]
    exact .beta _ _ _ (by simp)
  | letE b c => rw [sub_inst_ren]; exact .letE _ _
  | callOn o o' args _ ih => exact .callOn _ _ _ ih

theorem Core.Heads.sub {a b : Core} (h : Core.Heads a b) (σ : Nat → Core) : Core.Heads (a.sub σ) (b.sub σ) := by
  induction h with
  | refl => exact .refl _
  | head h _ ih => exact .head (h.sub σ) ih

theorem Core.Heads.ren {a b : Core} (h : Core.Heads a b) (f : Nat → Nat) : Core.Heads (a.ren f) (b.ren f) := by
  induction h with
  | refl => exact .refl _
  | head h _ ih => exact .head (h.ren f) ih

theorem zip_map_all {α β γ δ : Type} {R : γ → δ → Prop} {f : α → γ} {g : β → δ} {l : List α} {l' : List β}
    (h : ∀ p ∈ l.zip l', R (f p.1) (g p.2)) : ∀ p ∈ (l.map f).zip (l'.map g), R p.1 p.2 := by
  intro p hp
  rw [List.zip_map, List.mem_map] at hp
  obtain ⟨q, hq, rfl⟩ := hp
  exact h q hq

theorem Core.Std.ren {m n : Core} (h : Core.Std m n) : ∀ f : Nat → Nat, Core.Std (m.ren f) (n.ren f) := by
  induction h with
  | eps h => intro f; exact .eps (h.ren f)
  | lit h => intro f; exact .lit (h.ren f)
  | cat h hl _ ih =>
    intro f
    have := h.ren f
    simp only [Core.ren, Core.renL_map] at this ⊢
    exact .cat this (by simp [hl]) (zip_map_all fun p hp => ih p hp f)
  | alt h hl _ ih =>
    intro f
    have := h.ren f
    simp only [Core.ren, Core.renL_map] at this ⊢
    exact .alt this (by simp [hl]) (zip_map_all fun p hp => ih p hp f)
  | fix h _ ih => intro f; exact .fix (h.ren f) (ih f)
  | var h => intro f; exact .var (h.ren f)
  | call h _ hl _ iho ih =>
    intro f
    have := h.ren f
    simp only [Core.ren, Core.renL_map] at this ⊢
    exact .call this (iho f) (by simp [hl]) (zip_map_all fun p hp => ih p hp f)
  | lam h _ ih => intro f; exact .lam (h.ren f) (ih _)
  | letE h _ _ ihb ihc => intro f; exact .letE (h.ren f) (ihb f) (ihc _)

theorem up_std {σ τ : Nat → Core} (h : ∀ i, Core.Std (σ i) (τ i)) (n : Nat) : ∀ i, Core.Std (up n σ i) (up n τ i) := by
  intro i
  simp only [up]
  split
  · exact .refl _
  · exact (h _).ren _

theorem Core.Std.sub {m n : Core} (h : Core.Std m n) : ∀ σ τ : Nat → Core, (∀ i, Core.Std (σ i) (τ i)) →
    Core.Std (m.sub σ) (n.sub τ) := by
  induction h with
  | eps h => intro σ τ _; exact .eps (h.sub σ)
  | lit h => intro σ τ _; exact .lit (h.sub σ)
  | cat h hl _ ih =>
    intro σ τ hs
    have := h.sub σ
    simp only [Core.sub, Core.subL_map] at this ⊢
    exact .cat this (by simp [hl]) (zip_map_all fun p hp => ih p hp σ τ hs)
  | alt h hl _ ih =>
    intro σ τ hs
    have := h.sub σ
    simp only [Core.sub, Core.subL_map] at this ⊢
    exact .alt this (by simp [hl]) (zip_map_all fun p hp => ih p hp σ τ hs)
  | fix h _ ih => intro σ τ hs; exact .fix (h.sub σ) (ih _ _ hs)
  | var h => intro σ τ hs; exact (h.sub σ).std (hs _)
  | call h _ hl _ iho ih =>
    intro σ τ hs
    have := h.sub σ
    simp only [Core.sub, Core.subL_map] at this ⊢
    exact .call this (iho _ _ hs) (by simp [hl]) (zip_map_all fun p hp => ih p hp σ τ hs)
  | lam h _ ih => intro σ τ hs; exact .lam (h.sub σ) (ih _ _ (up_std hs _))
  | letE h _ _ ihb ihc => intro σ τ hs; exact .letE (h.sub σ) (ihb _ _ hs) (ihc _ _ (up_std hs _))

theorem instArgs_std {l l' : List Core} (hl : l.length = l'.length) (h : ∀ p ∈ l.zip l', Core.Std p.1 p.2) :
    ∀ i, Core.Std (instArgs l i) (instArgs l' i) := by
  intro i
  simp only [instArgs, hl]
  by_cases hi : i < l'.length
  · simp only [hi, if_true]
    rw [List.getD_eq_getElem?_getD, List.getD_eq_getElem?_getD,
      List.getElem?_eq_getElem (by omega : l'.length - 1 - i < l.length),
      List.getElem?_eq_getElem (by omega : l'.length - 1 - i < l'.length)]
    have hz : l'.length - 1 - i < (l.zip l').length := by rw [List.length_zip]; omega
    have := h _ (List.getElem_mem hz)
    simpa using this
  · simp only [hi, if_false]; exact .refl _

theorem inst_std {b b' : Core} (h : Core.Std b b') : ∀ i, Core.Std (inst 0 b i) (inst 0 b' i) := by
  intro i
  rcases i with _ | i
  · simpa [inst] using h
  · simp only [inst, Nat.not_lt_zero, if_false]; exact .refl _

theorem zip_mid {l pre post : List Core} {e e' : Core} (hl : l.length = (pre ++ e :: post).length)
    (h : ∀ p ∈ l.zip (pre ++ e :: post), Core.Std p.1 p.2)
    (hs : ∀ m, Core.Std m e → Core.Std m e') :
    l.length = (pre ++ e' :: post).length ∧ ∀ p ∈ l.zip (pre ++ e' :: post), Core.Std p.1 p.2 := by
  refine ⟨by simpa using hl, ?_⟩
  induction pre generalizing l with
  | nil =>
    cases l with
    | nil => intro p hp; cases hp
    | cons a l =>
      intro p hp
      simp only [List.nil_append, List.zip_cons_cons, List.mem_cons] at hp h
      rcases hp with rfl | hp
      · exact hs _ (h (a, e) (.inl rfl))
      · exact h p (.inr hp)
  | cons x pre ih =>
    cases l with
    | nil => intro p hp; cases hp
    | cons a l =>
      intro p hp
      simp only [List.cons_append, List.zip_cons_cons, List.mem_cons] at hp h
      rcases hp with rfl | hp
      · exact h (a, x) (.inl rfl)
      · exact ih (by simpa using hl) (fun q hq => h q (.inr hq)) p hp

theorem Core.Std.step {n n' : Core} (hs : Core.Step n n') : ∀ m, Core.Std m n → Core.Std m n' := by
  induction hs with
  | beta n b args hl =>
    intro m h
    cases h with
    | call h ho hl' ha =>
      cases ho with
      | lam h2 hb =>
        refine (h.trans ((h2.callOn _).trans (.head (.beta _ _ _ (hl'.trans hl)) (.refl _)))).std ?_
        exact hb.sub _ _ (instArgs_std hl' ha)
  | letE b c =>
    intro m h
    cases h with
    | letE h hb hc =>
      refine (h.trans (.head (.letE _ _) (.refl _))).std ?_
      exact hc.sub _ _ (inst_std hb)
  | cat pre e e' post _ ih =>
    intro m h
    cases h with
    | cat h hl ha => obtain ⟨h1, h2⟩ := zip_mid hl ha ih; exact .cat h h1 h2
  | alt pre e e' post _ ih =>
    intro m h
    cases h with
    | alt h hl ha => obtain ⟨h1, h2⟩ := zip_mid hl ha ih; exact .alt h h1 h2
  | fix b b' _ ih => intro m h; cases h with | fix h hb => exact .fix h (ih _ hb)
  | callOn o o' args _ ih => intro m h; cases h with | call h ho hl ha => exact .call h (ih _ ho) hl ha
  | callArg o pre e e' post _ ih =>
    intro m h
    cases h with
    | call h ho hl ha => obtain ⟨h1, h2⟩ := zip_mid hl ha ih; exact .call h ho h1 h2
  | lam n b b' _ ih => intro m h; cases h with | lam h hb => exact .lam h (ih _ hb)
  | letBound b b' c _ ih => intro m h; cases h with | letE h hb hc => exact .letE h (ih _ hb) hc
  | letBody b c c' _ ih => intro m h; cases h with | letE h hb hc => exact .letE h hb (ih _ hc)

theorem Core.Steps.std {m n : Core} (h : Core.Steps m n) : Core.Std m n := by
  induction h with
  | refl => exact .refl _
  | tail _ h ih => exact .step h _ ih

theorem Core.Head.step {m n : Core} (h : Core.Head m n) : Core.Step m n := by
  induction h with
  | beta n b args hl => exact .beta n b args hl
  | letE b c => exact .letE b c
  | callOn o o' args _ ih => exact .callOn _ _ _ ih

theorem Core.Heads.steps {m n : Core} (h : Core.Heads m n) : Core.Steps m n := by
  induction h with
  | refl => exact .refl _
  | head h _ ih => exact (Core.Steps.single h.step).trans ih

theorem All2.of_zip {α β : Type} {R : α → β → Prop} {l : List α} {l' : List β} (hl : l.length = l'.length)
    (h : ∀ p ∈ l.zip l', R p.1 p.2) : All2 R l l' := by
  induction l generalizing l' with
  | nil => cases l' with
    | nil => exact .nil
    | cons => cases hl
  | cons a l ih =>
    cases l' with
    | nil => cases hl
    | cons b l' => exact .cons (h (a, b) (by simp)) (ih (by simpa using hl) fun p hp => h p (by simp [hp]))

theorem Core.Std.steps {m n : Core} (h : Core.Std m n) : Core.Steps m n := by
  induction h with
  | eps h => exact h.steps
  | lit h => exact h.steps
  | cat h hl _ ih =>
    exact h.steps.trans (Core.Steps.list (F := Core.cat) (fun p a b q h => .cat p a b q h) (.of_zip hl ih) [])
  | alt h hl _ ih =>
    exact h.steps.trans (Core.Steps.list (F := Core.alt) (fun p a b q h => .alt p a b q h) (.of_zip hl ih) [])
  | fix h _ ih => exact h.steps.trans (Core.Steps.congr (F := Core.fix) (fun a b h => .fix a b h) ih)
  | var h => exact h.steps
  | call h _ hl _ iho ih =>
    exact (h.steps.trans (Core.Steps.congr (F := fun o => Core.call o _) (fun a b h => .callOn a b _ h) iho)).trans
      (Core.Steps.list (F := Core.call _) (fun p a b q h => .callArg _ p a b q h) (.of_zip hl ih) [])
  | lam h _ ih => exact h.steps.trans (Core.Steps.congr (F := Core.lam _) (fun a b h => .lam _ a b h) ih)
  | letE h _ _ ihb ihc =>
    exact (h.steps.trans (Core.Steps.congr (F := fun b => Core.letE b _) (fun a b h => .letBound a b _ h) ihb)).trans
      (Core.Steps.congr (F := fun c => Core.letE _ c) (fun a b h => .letBody _ a b h) ihc)

/-! ### Evaluation -/

theorem reduceC_mono_ok {n m : Nat} (hnm : n ≤ m) {e v : Core} (h : reduceC n e = .ok v) : reduceC m e = .ok v := by
  rw [reduceC_mono hnm e (by rw [h]; simp), h]

theorem reduceC_head {a b : Core} (h : Core.Head a b) : ∀ {k : Nat} {v : Core}, reduceC k b = .ok v →
    ∃ k', reduceC k' a = .ok v := by
  induction h with
  | beta n b args hl =>
    intro k v hv
    refine ⟨k + 2, ?_⟩
    simp only [reduceC, Out.bind, hl, ne_eq, not_true, if_false]
    exact reduceC_mono_ok (Nat.le_succ k) hv
  | letE b c => intro k v hv; exact ⟨k + 1, hv⟩
  | callOn o o' args _ ih =>
    intro k v hv
    cases k with
    | zero => cases hv
    | succ k =>
      rw [reduceC] at hv
      obtain ⟨on, h1, h2⟩ := Out.bind_ok hv
      obtain ⟨k', h3⟩ := ih h1
      cases on with
      | lam n body =>
        refine ⟨max k k' + 1, ?_⟩
        rw [reduceC, reduceC_mono_ok (Nat.le_max_right k k') h3]
        simp only [Out.bind] at h2 ⊢
        split at h2
        · cases h2
        · rename_i hk
          rw [if_neg hk]
          exact reduceC_mono_ok (Nat.le_max_left k k') h2
      | _ => cases h2

theorem reduceC_heads {a b : Core} (h : Core.Heads a b) : ∀ {k : Nat} {v : Core}, reduceC k b = .ok v →
    ∃ k', reduceC k' a = .ok v := by
  induction h with
  | refl => intro k v h; exact ⟨k, h⟩
  | head h _ ih => intro k v hv; obtain ⟨k', h'⟩ := ih hv; exact reduceC_head h h'

theorem mapO_std {l l' : List Core} (hl : l.length = l'.length)
    (h : ∀ p ∈ l.zip l', ∃ k v, reduceC k p.1 = .ok v ∧ Core.Steps v p.2) :
    ∃ k vs, mapO (reduceC k) l = .ok vs ∧ All2 Core.Steps vs l' := by
  induction l generalizing l' with
  | nil => cases l' with
    | nil => exact ⟨0, [], rfl, .nil⟩
    | cons => cases hl
  | cons a l ih =>
    cases l' with
    | nil => cases hl
    | cons b l' =>
      obtain ⟨k1, v, h1, h2⟩ := h (a, b) (by simp)
      obtain ⟨k2, vs, h3, h4⟩ := ih (by simpa using hl) (fun p hp => h p (by simp [hp]))
      refine ⟨max k1 k2, v :: vs, ?_, .cons h2 h4⟩
      rw [mapO, reduceC_mono_ok (Nat.le_max_left k1 k2) h1]
      simp only [Out.bind]
      rw [mapO_mono (f := reduceC k2) (fun a ha => reduceC_mono (Nat.le_max_right k1 k2) a ha) l (by rw [h3]; simp), h3]

theorem mem_of_zip_snd {l l' : List Core} {p : Core × Core} (h : p ∈ l.zip l') : p.2 ∈ l' :=
  (List.of_mem_zip h).2

theorem reduceC_std' (n : Core) :
    (n.settled → ∀ m, Core.Std m n → ∃ k v, reduceC k m = .ok v ∧ Core.Steps v n) ∧
    (∀ j c, n = .lam j c → c.settled → ∀ m, Core.Std m c → ∃ k v, reduceC k m = .ok v ∧ Core.Steps v c) := by
  have one : ∀ {a b v : Core}, Core.Heads a b → reduceC 1 b = .ok b → Core.Steps b v →
      ∃ k w, reduceC k a = .ok w ∧ Core.Steps w v := by
    intro a b v h hb hs
    obtain ⟨k, hk⟩ := reduceC_heads h hb
    exact ⟨k, _, hk, hs⟩
  induction n using Core.ind with
  | eps => exact ⟨fun _ m h => by cases h with | eps h => exact one h rfl (.refl _), by intro j c h; cases h⟩
  | lit s => exact ⟨fun _ m h => by cases h with | lit h => exact one h rfl (.refl _), by intro j c h; cases h⟩
  | var s => exact ⟨fun _ m h => by cases h with | var h => exact one h rfl (.refl _), by intro j c h; cases h⟩
  | cat l ih =>
    refine ⟨?_, by intro j c h; cases h⟩
    intro hset m h
    rw [Core.settled, Core.settledL_iff] at hset
    cases h with
    | cat h hl ha =>
      obtain ⟨k, vs, h1, h2⟩ := mapO_std hl fun p hp => (ih _ (mem_of_zip_snd hp)).1 (hset _ (mem_of_zip_snd hp)) _ (ha p hp)
      obtain ⟨k', h3⟩ := reduceC_heads h (k := k + 1) (v := .cat vs) (by rw [reduceC, h1]; rfl)
      exact ⟨k', _, h3, Core.Steps.list (F := Core.cat) (fun p a b q h => .cat p a b q h) h2 []⟩
  | alt l ih =>
    refine ⟨?_, by intro j c h; cases h⟩
    intro hset m h
    rw [Core.settled, Core.settledL_iff] at hset
    cases h with
    | alt h hl ha =>
      obtain ⟨k, vs, h1, h2⟩ := mapO_std hl fun p hp => (ih _ (mem_of_zip_snd hp)).1 (hset _ (mem_of_zip_snd hp)) _ (ha p hp)
      obtain ⟨k', h3⟩ := reduceC_heads h (k := k + 1) (v := .alt vs) (by rw [reduceC, h1]; rfl)
      exact ⟨k', _, h3, Core.Steps.list (F := Core.alt) (fun p a b q h => .alt p a b q h) h2 []⟩
  | fix b ih =>
    refine ⟨?_, by intro j c h; cases h⟩
    intro hset m h
    cases h with
    | fix h hb =>
      rename_i b0
      by_cases hlam : ∃ j c, b = .lam j c
      · obtain ⟨j, c, rfl⟩ := hlam
        simp only [Core.settled] at hset
        cases hb with
        | lam h2 hc =>
          rename_i c0
          obtain ⟨k1, v, h3, h4⟩ := ih.2 j c rfl hset _ hc
          obtain ⟨k2, h5⟩ := reduceC_heads h2 (k := 1) (v := .lam j c0) rfl
          obtain ⟨k', h6⟩ := reduceC_heads h (k := max k1 k2 + 1) (v := .fix (.lam j v)) (by
            rw [reduceC, reduceC_mono_ok (Nat.le_max_right k1 k2) h5]
            simp only [Out.bind]
            rw [reduceC_mono_ok (Nat.le_max_left k1 k2) h3])
          exact ⟨k', _, h6, Core.Steps.congr (F := fun c => Core.fix (.lam j c))
            (fun a b h => .fix _ _ (.lam _ a b h)) h4⟩
      · have hb' : b.settled := by
          cases b <;> simp only [Core.settled] at hset ⊢ <;> exact hset
        obtain ⟨k1, v, h3, h4⟩ := ih.1 hb' _ hb
        have hv : ∀ j c, v ≠ .lam j c := by
          intro j c hv
          subst hv
          have : ∀ x y, Core.Steps x y → (∃ j c, x = .lam j c) → ∃ j c, y = .lam j c := by
            intro x y hs
            induction hs with
            | refl => exact id
            | tail _ h ih => intro hx; obtain ⟨j, c, rfl⟩ := ih hx; cases h; exact ⟨_, _, rfl⟩
          exact hlam (this _ _ h4 ⟨_, _, rfl⟩)
        obtain ⟨k', h6⟩ := reduceC_heads h (k := k1 + 1) (v := .fix v) (by
            rw [reduceC, h3]
            simp only [Out.bind])
        exact ⟨k', _, h6, Core.Steps.congr (F := Core.fix) (fun a b h => .fix a b h) h4⟩
  | call o a _ _ => exact ⟨fun h => by simp [Core.settled] at h, by intro j c h; cases h⟩
  | letE b c _ _ => exact ⟨fun h => by simp [Core.settled] at h, by intro j c h; cases h⟩
  | lam j b ih =>
    constructor
    · intro _ m h
      cases h with
      | lam h hb =>
        have hs : Core.Steps (.lam j _) (.lam j b) := Core.Steps.congr (F := Core.lam j) (fun a b h => .lam _ a b h) hb.steps
        exact one h rfl hs
    · intro j' c h hc m hm
      cases h
      exact ih.1 hc m hm

/-- If any sequence of contractions settles `m`, then `Reduce` settles it, and what it returns only
lacks contractions below lambdas. -/
theorem reduceC_std {m n : Core} (h : Core.Steps m n) (hn : n.settled) :
    ∃ k v, reduceC k m = .ok v ∧ Core.Steps v n := (reduceC_std' n).1 hn m h.std

end Chomp
