import Verif.Ast.Simple
import Verif.Gram.Meaning

/-!
# Specification layer: the meaning of programs with functions

A set-theoretic semantics of the source language.  Grammars denote languages, functions denote functions
on meanings, `fix` denotes the least language closed under a function on languages.  Programs are not
typed, so the meaning of an expression is a relation between simple types and meanings at that type: the
relation holds of `d : Den τ` when the expression can be used at type `τ` with meaning `d`.
-/

namespace Chomp

mutual
/-- The meanings at a simple type. -/
def Den : STy → Type
  | .gram => Lang
  | .fn τs ρ => DenL τs → Den ρ
def DenL : List STy → Type
  | [] => Unit
  | τ :: τs => Den τ × DenL τs
end

/-- The possible meanings of an expression. -/
abbrev Mean := (τ : STy) → Den τ → Prop

/-- An expression with the given meaning only. -/
inductive Single (σ : STy) (x : Den σ) : Mean
  | mk : Single σ x σ x

/-- The `i`-th element of a tuple of meanings. -/
def nthOf : (τs : List STy) → DenL τs → Nat → Mean
  | [], _, _ => fun _ _ => False
  | τ :: _, (x, _), 0 => Single τ x
  | _ :: τs, (_, xs), i + 1 => nthOf τs xs i

/-- A tuple of meanings, one for each expression of a list. -/
def meansL : List Mean → (τs : List STy) → DenL τs → Prop
  | [], [], _ => True
  | d :: ds, τ :: τs, (x, xs) => d τ x ∧ meansL ds τs xs
  | _, _, _ => False

/-- The least language closed under a function. -/
def Lang.lfp (f : Lang → Lang) : Lang := fun w => ∀ X : Lang, (∀ v, f X v → X v) → X w

/-- An expression that is a grammar, with the languages satisfying `P` as its meanings. -/
def Mean.ofLang (P : Lang → Prop) : Mean
  | .gram, L => P L
  | .fn _ _, _ => False

/-- The semantics. -/
def meansAlg : Alg Mean where
  eps := Mean.ofLang fun L => L = fun w => w = []
  lit s := Mean.ofLang fun L => L = fun w => w = s
  cat ds := Mean.ofLang fun L => ∃ Ls : List Lang, All2 (fun (d : Mean) X => d .gram X) ds Ls ∧ L = Lang.catL Ls
  alt ds := Mean.ofLang fun L => ∃ Ls : List Lang, All2 (fun (d : Mean) X => d .gram X) ds Ls ∧ L = Lang.altL Ls
  fix d := Mean.ofLang fun L => ∃ f : Lang → Lang, d (.fn [.gram] .gram) (fun x => f x.1) ∧ L = Lang.lfp f
  call d as := fun ρ r => ∃ (τs : List STy) (f : DenL τs → Den ρ) (xs : DenL τs),
    d (.fn τs ρ) f ∧ meansL as τs xs ∧ r = f xs
  lam n F := fun τ =>
    match τ with
    | .gram => fun _ => False
    | .fn τs ρ => fun f => τs.length = n ∧ ∀ xs : DenL τs, F (fun i => nthOf τs xs i.val) ρ (f xs)
  letE d F := fun τ r => ∃ (σ : STy) (x : Den σ), d σ x ∧ F (Single σ x) τ r

/-- Inclusion of meanings. -/
def Mean.le (a b : Mean) : Prop := ∀ τ d, a τ d → b τ d

theorem Mean.le_refl (a : Mean) : a.le a := fun _ _ h => h

theorem Single.le {σ : STy} {x : Den σ} {d : Mean} (h : d σ x) : Mean.le (Single σ x) d := by
  intro τ y hy
  cases hy
  exact h

theorem meansL_mono {as bs : List Mean} (h : All2 Mean.le as bs) : ∀ (τs : List STy) (xs : DenL τs),
    meansL as τs xs → meansL bs τs xs := by
  induction h with
  | nil => intro τs xs h; exact h
  | cons h1 _ ih =>
    intro τs xs h
    cases τs with
    | nil => exact h
    | cons τ τs => exact ⟨h1 _ _ h.1, ih _ _ h.2⟩

theorem langs_mono {as bs : List Mean} (h : All2 Mean.le as bs) (Ls : List Lang)
    (hl : All2 (fun (d : Mean) X => d .gram X) as Ls) : All2 (fun (d : Mean) X => d .gram X) bs Ls := by
  induction h generalizing Ls with
  | nil => exact hl
  | cons h1 _ ih => cases hl with | cons h2 h3 => exact .cons (h1 _ _ h2) (ih _ h3)

theorem meansAlg_cat_mono {as bs : List Mean} (h : All2 Mean.le as bs) :
    (meansAlg.cat as).le (meansAlg.cat bs) := by
  intro τ d hd
  cases τ with
  | gram => obtain ⟨Ls, h1, h2⟩ := hd; exact ⟨Ls, langs_mono h Ls h1, h2⟩
  | fn => exact hd

theorem meansAlg_alt_mono {as bs : List Mean} (h : All2 Mean.le as bs) :
    (meansAlg.alt as).le (meansAlg.alt bs) := by
  intro τ d hd
  cases τ with
  | gram => obtain ⟨Ls, h1, h2⟩ := hd; exact ⟨Ls, langs_mono h Ls h1, h2⟩
  | fn => exact hd

theorem meansAlg_fix_mono {a b : Mean} (h : a.le b) : (meansAlg.fix a).le (meansAlg.fix b) := by
  intro τ d hd
  cases τ with
  | gram => obtain ⟨f, h1, h2⟩ := hd; exact ⟨f, h _ _ h1, h2⟩
  | fn => exact hd

theorem meansAlg_call_mono {a b : Mean} {as bs : List Mean} (h : a.le b) (hs : All2 Mean.le as bs) :
    (meansAlg.call a as).le (meansAlg.call b bs) := by
  rintro τ d ⟨τs, f, xs, h1, h2, h3⟩
  exact ⟨τs, f, xs, h _ _ h1, meansL_mono hs _ _ h2, h3⟩

theorem meansAlg_lam_mono {n : Nat} {F G : (Fin n → Mean) → Mean} (h : ∀ ds, (F ds).le (G ds)) :
    (meansAlg.lam n F).le (meansAlg.lam n G) := by
  intro τ d hd
  cases τ with
  | gram => exact hd
  | fn τs ρ => exact ⟨hd.1, fun xs => h _ _ _ (hd.2 xs)⟩

theorem meansAlg_letE_mono {a b : Mean} {F G : Mean → Mean} (h : a.le b) (hF : ∀ d, (F d).le (G d)) :
    (meansAlg.letE a F).le (meansAlg.letE b G) := by
  rintro τ d ⟨σ, x, h1, h2⟩
  exact ⟨σ, x, h _ _ h1, hF _ _ _ h2⟩

theorem bindArgs_mono {n : Nat} {as bs : Fin n → Mean} {ρ ρ' : Nat → Mean} (h : ∀ i, (as i).le (bs i))
    (hρ : ∀ k, (ρ k).le (ρ' k)) (k : Nat) : (bindArgs n as ρ k).le (bindArgs n bs ρ' k) := by
  unfold bindArgs
  split
  · exact h _
  · exact hρ _

mutual
/-- More meanings for the variables give more meanings. -/
theorem eval_mono : ∀ (e : Core) (ρ ρ' : Nat → Mean), (∀ k, (ρ k).le (ρ' k)) →
    (e.eval meansAlg ρ).le (e.eval meansAlg ρ')
  | .eps, _, _, _ => Mean.le_refl _
  | .lit _, _, _, _ => Mean.le_refl _
  | .cat l, ρ, ρ', h => meansAlg_cat_mono (evalL_mono l ρ ρ' h)
  | .alt l, ρ, ρ', h => meansAlg_alt_mono (evalL_mono l ρ ρ' h)
  | .fix b, ρ, ρ', h => meansAlg_fix_mono (eval_mono b ρ ρ' h)
  | .var k, ρ, ρ', h => h k
  | .call o a, ρ, ρ', h => meansAlg_call_mono (eval_mono o ρ ρ' h) (evalL_mono a ρ ρ' h)
  | .lam n b, ρ, ρ', h => meansAlg_lam_mono fun ds =>
    eval_mono b _ _ (bindArgs_mono (fun _ => Mean.le_refl _) h)
  | .letE b c, ρ, ρ', h => meansAlg_letE_mono (eval_mono b ρ ρ' h) fun d =>
    eval_mono c _ _ (bindArgs_mono (fun _ => Mean.le_refl _) h)
theorem evalL_mono : ∀ (l : List Core) (ρ ρ' : Nat → Mean), (∀ k, (ρ k).le (ρ' k)) →
    All2 Mean.le (Core.evalL meansAlg l ρ) (Core.evalL meansAlg l ρ')
  | [], _, _, _ => .nil
  | e :: l, ρ, ρ', h => .cons (eval_mono e ρ ρ' h) (evalL_mono l ρ ρ' h)
end

theorem meansL_length : ∀ {as : List Mean} {τs : List STy} {xs : DenL τs}, meansL as τs xs → τs.length = as.length
  | [], [], _, _ => rfl
  | [], _ :: _, _, h => h.elim
  | _ :: _, [], _, h => h.elim
  | _ :: _, _ :: _, _, h => by simp [meansL_length h.2]

theorem nthOf_le : ∀ {as : List Mean} {τs : List STy} {xs : DenL τs}, meansL as τs xs →
    ∀ (i : Nat) (hi : i < as.length), (nthOf τs xs i).le as[i]
  | [], _, _, _, _, hi => absurd hi (by simp)
  | _ :: _, [], _, h, _, _ => h.elim
  | _ :: _, _ :: _, _, h, 0, _ => Single.le h.1
  | _ :: _, _ :: _, _, h, i + 1, hi => nthOf_le h.2 i (by simpa using hi)

theorem evalL_length {D : Type} (A : Alg D) (l : List Core) (ρ : Nat → D) : (Core.evalL A l ρ).length = l.length := by
  simp

theorem evalL_le_append {pre post : List Core} {e e' : Core} {ρ : Nat → Mean}
    (h : (e.eval meansAlg ρ).le (e'.eval meansAlg ρ)) :
    All2 Mean.le (Core.evalL meansAlg (pre ++ e :: post) ρ) (Core.evalL meansAlg (pre ++ e' :: post) ρ) := by
  induction pre with
  | nil => exact .cons h (evalL_mono _ _ _ fun _ => Mean.le_refl _)
  | cons a pre ih => exact .cons (Mean.le_refl _) ih

/-- A contraction preserves every meaning. -/
theorem Core.Step.means {e e' : Core} (h : Core.Step e e') : ∀ ρ, (e.eval meansAlg ρ).le (e'.eval meansAlg ρ) := by
  induction h with
  | beta n b args hn =>
    subst hn
    rintro ρ τ d ⟨τs, f, xs, ⟨_, h1⟩, h2, rfl⟩
    have h1 := h1 xs
    rw [Core.eval_sub]
    refine eval_mono b _ _ (fun k => ?_) _ _ h1
    simp only [bindArgs, instArgs]
    by_cases hk : k < args.length
    · simp only [hk, dif_pos, if_true]
      have hl : args.length - 1 - k < (Core.evalL meansAlg args ρ).length := by simp; omega
      have := nthOf_le h2 (args.length - 1 - k) hl
      have hl' : args.length - 1 - k < args.length := by omega
      simp only [Core.evalL_map, List.getElem_map] at this
      simpa [List.getD_eq_getElem?_getD, List.getElem?_eq_getElem hl'] using this
    · simp only [hk, dif_neg, not_false_eq_true, if_false, Core.eval]
      exact Mean.le_refl _
  | letE b c =>
    rintro ρ τ d ⟨σ, x, h1, h2⟩
    rw [Core.eval_sub]
    refine eval_mono c _ _ (fun k => ?_) _ _ h2
    cases k with
    | zero => simp only [bindArgs, inst, Nat.lt_add_one, dif_pos, Nat.not_lt_zero, if_false, if_true]; exact Single.le h1
    | succ k => simp [bindArgs, inst, Core.eval]; exact Mean.le_refl _
  | cat pre e e' post _ ih => exact fun ρ => meansAlg_cat_mono (evalL_le_append (ih ρ))
  | alt pre e e' post _ ih => exact fun ρ => meansAlg_alt_mono (evalL_le_append (ih ρ))
  | fix b b' _ ih => exact fun ρ => meansAlg_fix_mono (ih ρ)
  | callOn o o' args _ ih =>
    exact fun ρ => meansAlg_call_mono (ih ρ) (evalL_mono _ _ _ fun _ => Mean.le_refl _)
  | callArg o pre e e' post _ ih => exact fun ρ => meansAlg_call_mono (Mean.le_refl _) (evalL_le_append (ih ρ))
  | lam n b b' _ ih => exact fun ρ => meansAlg_lam_mono fun _ => ih _
  | letBound b b' c _ ih => exact fun ρ => meansAlg_letE_mono (ih ρ) fun _ => Mean.le_refl _
  | letBody b c c' _ ih => exact fun ρ => meansAlg_letE_mono (Mean.le_refl _) fun _ => ih _

theorem Core.Steps.means {e e' : Core} (h : Core.Steps e e') (ρ : Nat → Mean) :
    (e.eval meansAlg ρ).le (e'.eval meansAlg ρ) := by
  induction h with
  | refl => exact Mean.le_refl _
  | tail _ h2 ih => exact fun τ d hd => h2.means ρ _ _ (ih _ _ hd)

/-! ## Simply typed expressions have a meaning -/

theorem meansL_exists : ∀ (as : List Mean) (τs : List STy), τs.length = as.length →
    (∀ p ∈ as.zip τs, ∃ x, p.1 p.2 x) → ∃ xs : DenL τs, meansL as τs xs
  | [], [], _, _ => ⟨(), trivial⟩
  | a :: as, τ :: τs, hl, h => by
    obtain ⟨x, hx⟩ := h (a, τ) (by simp)
    obtain ⟨xs, hxs⟩ := meansL_exists as τs (by simpa using hl) fun p hp => h p (by simp [hp])
    exact ⟨(x, xs), hx, hxs⟩

theorem langs_exists : ∀ (as : List Mean), (∀ a ∈ as, ∃ X, a .gram X) →
    ∃ Ls : List Lang, All2 (fun (d : Mean) X => d .gram X) as Ls
  | [], _ => ⟨[], .nil⟩
  | a :: as, h => by
    obtain ⟨X, hX⟩ := h a (by simp)
    obtain ⟨Ls, hL⟩ := langs_exists as fun b hb => h b (by simp [hb])
    exact ⟨X :: Ls, .cons hX hL⟩

theorem nthOf_exists : ∀ (τs : List STy) (xs : DenL τs) (i : Nat) (σ : STy), τs[i]? = some σ →
    ∃ x, nthOf τs xs i σ x
  | [], _, _, _, h => by simp at h
  | τ :: _, (x, _), 0, σ, h => by simp at h; subst h; exact ⟨x, .mk⟩
  | _ :: τs, (_, xs), i + 1, σ, h => nthOf_exists τs xs i σ (by simpa using h)

theorem HasSTy.means {Γ : List STy} {e : Core} {τ : STy} (h : HasSTy Γ e τ) :
    ∀ ρ : Nat → Mean, (∀ k σ, Γ[k]? = some σ → ∃ x, ρ k σ x) → ∃ d, e.eval meansAlg ρ τ d := by
  induction h with
  | eps => intro ρ _; exact ⟨_, rfl⟩
  | lit => intro ρ _; exact ⟨_, rfl⟩
  | cat Γ l _ ih =>
    intro ρ hρ
    obtain ⟨Ls, hL⟩ := langs_exists (Core.evalL meansAlg l ρ) (by
      intro a ha
      simp only [Core.evalL_map, List.mem_map] at ha
      obtain ⟨e, he, rfl⟩ := ha
      exact ih e he ρ hρ)
    exact ⟨_, Ls, hL, rfl⟩
  | alt Γ l _ ih =>
    intro ρ hρ
    obtain ⟨Ls, hL⟩ := langs_exists (Core.evalL meansAlg l ρ) (by
      intro a ha
      simp only [Core.evalL_map, List.mem_map] at ha
      obtain ⟨e, he, rfl⟩ := ha
      exact ih e he ρ hρ)
    exact ⟨_, Ls, hL, rfl⟩
  | fix Γ b _ ih =>
    intro ρ hρ
    obtain ⟨f, hf⟩ := ih ρ hρ
    exact ⟨_, fun X => f (X, ()), hf, rfl⟩
  | var Γ k τ hk => intro ρ hρ; exact hρ k τ hk
  | call Γ o args τs r _ hl _ ih1 ih2 =>
    intro ρ hρ
    obtain ⟨f, hf⟩ := ih1 ρ hρ
    obtain ⟨xs, hxs⟩ := meansL_exists (Core.evalL meansAlg args ρ) τs (by simpa using hl) (by
      rintro ⟨a, σ⟩ hp
      simp only [Core.evalL_map, List.zip_map_left, List.mem_map] at hp
      obtain ⟨⟨e, σ'⟩, hp, heq⟩ := hp
      cases heq
      exact ih2 _ hp ρ hρ)
    exact ⟨f xs, τs, f, xs, hf, hxs, rfl⟩
  | lam Γ b τs r _ ih =>
    intro ρ hρ
    have key : ∀ xs : DenL τs, ∃ d, b.eval meansAlg (bindArgs τs.length (fun i => nthOf τs xs i.val) ρ) r d := by
      intro xs
      refine ih _ fun k σ hk => ?_
      simp only [bindArgs]
      by_cases hlt : k < τs.length
      · simp only [hlt, dif_pos]
        rw [List.getElem?_append_left (by simpa using hlt), List.getElem?_reverse hlt] at hk
        exact nthOf_exists τs xs _ σ hk
      · simp only [hlt, dif_neg, not_false_eq_true]
        rw [List.getElem?_append_right (by simpa using hlt)] at hk
        exact hρ _ σ (by simpa using hk)
    exact ⟨fun xs => (key xs).choose, rfl, fun xs => (key xs).choose_spec⟩
  | letE Γ b c σ τ _ _ ih1 ih2 =>
    intro ρ hρ
    obtain ⟨x, hx⟩ := ih1 ρ hρ
    obtain ⟨d, hd⟩ := ih2 (bindArgs 1 (fun _ => Single σ x) ρ) (by
      intro k σ' hk
      cases k with
      | zero => simp at hk; subst hk; exact ⟨x, by simp only [bindArgs, Nat.lt_add_one, dif_pos]; exact .mk⟩
      | succ k => simp only [bindArgs, Nat.not_lt, Nat.le_add_left, dif_neg, Nat.add_sub_cancel]; simpa using hρ k σ' (by simpa using hk))
    exact ⟨d, σ, x, hx, hd⟩

/-! ## The meaning of a grammar -/

mutual
theorem gram_means {u : Nat → Bool} : ∀ (e : Core) (g : Gram), e.gram u = some g →
    ∀ (ρ : Nat → Mean) (ρL : Nat → Lang), (∀ k X, ρ k .gram X → X = ρL k) →
      ∀ L : Lang, e.eval meansAlg ρ .gram L → L = g.lang ρL
  | .eps, g, h, ρ, ρL, hρ, L, hL => by simp only [Core.gram] at h; cases h; exact hL
  | .lit s, g, h, ρ, ρL, hρ, L, hL => by simp only [Core.gram] at h; cases h; exact hL
  | .cat l, g, h, ρ, ρL, hρ, L, hL => by
    simp only [Core.gram, Option.map_eq_some_iff] at h
    obtain ⟨gs, h, rfl⟩ := h
    obtain ⟨Ls, h1, rfl⟩ := hL
    exact (gramL_means l gs h ρ ρL hρ Ls h1).1
  | .alt l, g, h, ρ, ρL, hρ, L, hL => by
    simp only [Core.gram, Option.map_eq_some_iff] at h
    obtain ⟨gs, h, rfl⟩ := h
    obtain ⟨Ls, h1, rfl⟩ := hL
    exact (gramL_means l gs h ρ ρL hρ Ls h1).2
  | .fix (.lam n b), g, h, ρ, ρL, hρ, L, hL => by
    simp only [Core.gram] at h
    split at h
    · simp only [Option.map_eq_some_iff] at h
      obtain ⟨g', h, rfl⟩ := h
      obtain ⟨f, ⟨h1, h2⟩, rfl⟩ := hL
      simp only [List.length_singleton] at h1
      subst h1
      have key : ∀ X : Lang, f X = g'.lang (Lang.push X ρL) := by
        intro X
        refine gram_means b g' h _ (Lang.push X ρL) ?_ _ (h2 (X, ()))
        intro k Y hY
        cases k with
        | zero =>
          simp only [bindArgs, Nat.lt_add_one, dif_pos, Nat.sub_self] at hY
          change Single STy.gram X STy.gram Y at hY
          cases hY
          rfl
        | succ k => exact hρ k Y (by simpa [bindArgs] using hY)
      simp only [Gram.lang]
      show Lang.lfp f = _
      funext w
      simp only [Lang.lfp, key]
    · cases h
  | .var k, g, h, ρ, ρL, hρ, L, hL => by simp only [Core.gram] at h; cases h; exact hρ k L hL
  | .call _ _, _, h, _, _, _, _, _ | .lam _ _, _, h, _, _, _, _, _ | .letE _ _, _, h, _, _, _, _, _ => by
    simp only [Core.gram] at h; cases h
  | .fix .eps, _, h, _, _, _, _, _ | .fix (.lit _), _, h, _, _, _, _, _ | .fix (.cat _), _, h, _, _, _, _, _
  | .fix (.alt _), _, h, _, _, _, _, _ | .fix (.fix _), _, h, _, _, _, _, _ | .fix (.var _), _, h, _, _, _, _, _
  | .fix (.call _ _), _, h, _, _, _, _, _ | .fix (.letE _ _), _, h, _, _, _, _, _ => by
    simp only [Core.gram] at h; cases h
theorem gramL_means {u : Nat → Bool} : ∀ (l : List Core) (gs : List Gram), Core.gramL u l = some gs →
    ∀ (ρ : Nat → Mean) (ρL : Nat → Lang), (∀ k X, ρ k .gram X → X = ρL k) →
      ∀ Ls : List Lang, All2 (fun (d : Mean) X => d .gram X) (Core.evalL meansAlg l ρ) Ls →
        Lang.catL Ls = Gram.langCat gs ρL ∧ Lang.altL Ls = Gram.langAlt gs ρL
  | [], gs, h, ρ, ρL, hρ, Ls, hL => by
    simp only [Core.gramL] at h
    cases h
    simp only [Core.evalL] at hL
    cases hL
    exact ⟨rfl, rfl⟩
  | e :: l, gs, h, ρ, ρL, hρ, Ls, hL => by
    simp only [Core.gramL, Option.bind_eq_some_iff, Option.map_eq_some_iff] at h
    obtain ⟨g, h1, gs, h2, rfl⟩ := h
    simp only [Core.evalL] at hL
    cases hL with
    | @cons _ X _ Ls h3 h4 =>
      have hX := gram_means e g h1 ρ ρL hρ _ h3
      have ⟨h5, h6⟩ := gramL_means l gs h2 ρ ρL hρ _ h4
      simp only [Lang.catL, Lang.altL, Gram.langCat, Gram.langAlt, hX, h5, h6, and_self]
end

end Chomp
