import Verif.Props.Written
import Verif.Props.Expand

/-!
# C99, continued: which grammars are grammars of programs

Concatenations and alternatives of converted and reduced programs have at least two parts, and nothing else is excluded.
-/

namespace Chomp

mutual
/-- Concatenations and alternatives have two parts or more. -/
def Core.Two : Core → Prop
  | .eps => True
  | .lit _ => True
  | .cat l => 2 ≤ l.length ∧ Core.TwoL l
  | .alt l => 2 ≤ l.length ∧ Core.TwoL l
  | .fix b => b.Two
  | .var _ => True
  | .call o a => o.Two ∧ Core.TwoL a
  | .lam _ b => b.Two
  | .letE b c => b.Two ∧ c.Two
def Core.TwoL : List Core → Prop
  | [] => True
  | e :: l => e.Two ∧ Core.TwoL l
end

theorem TwoL_iff : ∀ l : List Core, Core.TwoL l ↔ ∀ e ∈ l, e.Two
  | [] => by simp [Core.TwoL]
  | e :: l => by rw [Core.TwoL, TwoL_iff l]; simp

theorem renL_length (f : Nat → Nat) : ∀ l : List Core, (Core.renL f l).length = l.length
  | [] => rfl
  | e :: l => by rw [Core.renL, List.length_cons, renL_length f l, List.length_cons]

theorem subL_length (σ : Nat → Core) : ∀ l : List Core, (Core.subL σ l).length = l.length
  | [] => rfl
  | e :: l => by rw [Core.subL, List.length_cons, subL_length σ l, List.length_cons]

mutual
theorem ren_two : ∀ (e : Core) (f : Nat → Nat), e.Two → (e.ren f).Two
  | .eps, _, _ => trivial
  | .lit _, _, _ => trivial
  | .cat l, f, h => ⟨by rw [renL_length]; exact h.1, renL_two l f h.2⟩
  | .alt l, f, h => ⟨by rw [renL_length]; exact h.1, renL_two l f h.2⟩
  | .fix b, f, h => ren_two b f h
  | .var _, _, _ => trivial
  | .call o a, f, h => ⟨ren_two o f h.1, renL_two a f h.2⟩
  | .lam n b, f, h => ren_two b (upr n f) h
  | .letE b c, f, h => ⟨ren_two b f h.1, ren_two c (upr 1 f) h.2⟩
theorem renL_two : ∀ (l : List Core) (f : Nat → Nat), Core.TwoL l → Core.TwoL (Core.renL f l)
  | [], _, _ => trivial
  | e :: l, f, h => ⟨ren_two e f h.1, renL_two l f h.2⟩
end

theorem up_two {σ : Nat → Core} (h : ∀ i, (σ i).Two) (n i : Nat) : (up n σ i).Two := by
  unfold up
  split
  · trivial
  · exact ren_two _ _ (h _)

mutual
theorem sub_two : ∀ (e : Core) (σ : Nat → Core), (∀ i, (σ i).Two) → e.Two → (e.sub σ).Two
  | .eps, _, _, _ => trivial
  | .lit _, _, _, _ => trivial
  | .cat l, σ, hσ, h => ⟨by rw [subL_length]; exact h.1, subL_two l σ hσ h.2⟩
  | .alt l, σ, hσ, h => ⟨by rw [subL_length]; exact h.1, subL_two l σ hσ h.2⟩
  | .fix b, σ, hσ, h => sub_two b σ hσ h
  | .var k, σ, hσ, _ => hσ k
  | .call o a, σ, hσ, h => ⟨sub_two o σ hσ h.1, subL_two a σ hσ h.2⟩
  | .lam n b, σ, hσ, h => sub_two b (up n σ) (up_two hσ n) h
  | .letE b c, σ, hσ, h => ⟨sub_two b σ hσ h.1, sub_two c (up 1 σ) (up_two hσ 1) h.2⟩
theorem subL_two : ∀ (l : List Core) (σ : Nat → Core), (∀ i, (σ i).Two) → Core.TwoL l → Core.TwoL (Core.subL σ l)
  | [], _, _, _ => trivial
  | e :: l, σ, hσ, h => ⟨sub_two e σ hσ h.1, subL_two l σ hσ h.2⟩
end

theorem TwoL_swap {pre post : List Core} {e e' : Core} (h : Core.TwoL (pre ++ e :: post)) (he : e'.Two) : Core.TwoL (pre ++ e' :: post) := by
  rw [TwoL_iff] at h ⊢
  intro x hx
  rcases List.mem_append.1 hx with hx | hx
  · exact h x (List.mem_append_left _ hx)
  · rcases List.mem_cons.1 hx with rfl | hx
    · exact he
    · exact h x (List.mem_append_right _ (List.mem_cons_of_mem _ hx))

theorem TwoL_at {pre post : List Core} {e : Core} (h : Core.TwoL (pre ++ e :: post)) : e.Two :=
  (TwoL_iff _).1 h e (List.mem_append_right _ List.mem_cons_self)

theorem step_two {a b : Core} (h : Core.Step a b) : a.Two → b.Two := by
  induction h with
  | beta n b args _ =>
    intro h
    refine sub_two b _ (fun i => ?_) h.1
    unfold instArgs
    split
    · rename_i hi
      rw [List.getD_eq_getElem?_getD, List.getElem?_eq_getElem (by omega)]
      exact (TwoL_iff _).1 h.2 _ (List.getElem_mem _)
    · trivial
  | letE b c =>
    intro h
    refine sub_two c _ (fun i => ?_) h.2
    unfold inst
    split
    · trivial
    · split
      · exact h.1
      · trivial
  | cat pre e e' post _ ih => exact fun h => ⟨by have := h.1; simpa using this, TwoL_swap h.2 (ih (TwoL_at h.2))⟩
  | alt pre e e' post _ ih => exact fun h => ⟨by have := h.1; simpa using this, TwoL_swap h.2 (ih (TwoL_at h.2))⟩
  | fix b b' _ ih => exact ih
  | callOn o o' args _ ih => exact fun h => ⟨ih h.1, h.2⟩
  | callArg o pre e e' post _ ih => exact fun h => ⟨h.1, TwoL_swap h.2 (ih (TwoL_at h.2))⟩
  | lam n b b' _ ih => exact ih
  | letBound b b' c _ ih => exact fun h => ⟨ih h.1, h.2⟩
  | letBody b c c' _ ih => exact fun h => ⟨h.1, ih h.2⟩

theorem steps_two {a b : Core} (h : Core.Steps a b) (ha : a.Two) : b.Two := by
  induction h with
  | refl => exact ha
  | tail _ h2 ih => exact step_two h2 ih

/-! ## Converted programs -/

mutual
theorem term_two : ∀ (t : Term) (c c' : Ctx) (e : NE), convTerm t c = some (.ok e, c') → e.erase.Two
  | .eps _, c, c', e, h => by cases h; trivial
  | .ident i, c, c', e, h => by
    rw [convTerm, convIdent] at h
    split at h
    · cases h
    · cases h; trivial
  | .lit _ s, c, c', e, h => by cases h; trivial
  | .fix _ t, c, c', e, h => by
    rw [convTerm] at h
    obtain ⟨a, c1, h1, h2⟩ := Conv.bind_ok h
    cases h2
    exact term_two t c _ a h1
  | .parens x, c, c', e, h => by
    rw [convTerm] at h
    exact expr_two x c c' e h
theorem call_two : ∀ (x : Call) (c c' : Ctx) (e : NE), convCall x c = some (.ok e, c') → e.erase.Two
  | .mk _ [], c, c', e, h => by cases h
  | .mk _ (t :: ts), c, c', e, h => by
    rw [convCall] at h
    obtain ⟨a, c1, h1, h2⟩ := Conv.bind_ok h
    obtain ⟨as, c2, h3, h4⟩ := Conv.bind_ok h2
    have h5 := term_two t c c1 a h1
    have h6 := terms_two ts c1 c2 as h3
    match as, h4, h6 with
    | [], h4, h6 => cases h4; exact h5
    | b :: bs, h4, h6 =>
      cases h4
      exact ⟨h5, h6⟩
theorem terms_two : ∀ (l : List Term) (c c' : Ctx) (es : List NE), convTerms l c = some (.ok es, c') → Core.TwoL (NE.eraseL es)
  | [], c, c', es, h => by cases h; trivial
  | t :: l, c, c', es, h => by
    rw [convTerms] at h
    obtain ⟨a, c1, h1, h2⟩ := Conv.bind_ok h
    obtain ⟨as, c2, h3, h4⟩ := Conv.bind_ok h2
    cases h4
    exact ⟨term_two t c c1 a h1, terms_two l c1 _ as h3⟩
theorem cat_two : ∀ (x : Cat) (c c' : Ctx) (e : NE), convCat x c = some (.ok e, c') → e.erase.Two
  | .mk _ [], c, c', e, h => by cases h
  | .mk _ ((x, p) :: l), c, c', e, h => by
    rw [convCat] at h
    obtain ⟨a, c1, h1, h2⟩ := Conv.bind_ok h
    obtain ⟨as, c2, h3, h4⟩ := Conv.bind_ok h2
    have h5 := call_two x c c1 a h1
    have h6 := calls_two l p c1 c2 as h3
    match as, h4, h6 with
    | [], h4, h6 => cases h4; exact h5
    | b :: bs, h4, h6 =>
      cases h4
      exact ⟨by simp [NE.eraseP], h5, h6⟩
theorem calls_two : ∀ (l : List (Call × Nat)) (p : Nat) (c c' : Ctx) (es : List (Nat × NE)), convCalls p l c = some (.ok es, c') →
    Core.TwoL (NE.eraseP es)
  | [], p, c, c', es, h => by cases h; trivial
  | (x, q) :: l, p, c, c', es, h => by
    rw [convCalls] at h
    obtain ⟨a, c1, h1, h2⟩ := Conv.bind_ok h
    obtain ⟨as, c2, h3, h4⟩ := Conv.bind_ok h2
    cases h4
    exact ⟨call_two x c c1 a h1, calls_two l q c1 _ as h3⟩
theorem labelled_two : ∀ (x : Labelled) (c c' : Ctx) (e : NE), convLabelled x c = some (.ok e, c') → e.erase.Two
  | .mk _ y lb, c, c', e, h => by
    rw [convLabelled] at h
    obtain ⟨a, c1, h1, h2⟩ := Conv.bind_ok h
    cases h2
    rw [NE.erase_setInfo]
    exact cat_two y c _ a h1
theorem alt_two : ∀ (x : Alt) (c c' : Ctx) (e : NE), convAlt x c = some (.ok e, c') → e.erase.Two
  | .mk _ [], c, c', e, h => by cases h
  | .mk _ ((x, p) :: l), c, c', e, h => by
    rw [convAlt] at h
    obtain ⟨a, c1, h1, h2⟩ := Conv.bind_ok h
    obtain ⟨as, c2, h3, h4⟩ := Conv.bind_ok h2
    have h5 := labelled_two x c c1 a h1
    have h6 := labelleds_two l p c1 c2 as h3
    match as, h4, h6 with
    | [], h4, h6 => cases h4; exact h5
    | b :: bs, h4, h6 =>
      cases h4
      exact ⟨by simp [NE.eraseP], h5, h6⟩
theorem labelleds_two : ∀ (l : List (Labelled × Nat)) (p : Nat) (c c' : Ctx) (es : List (Nat × NE)),
    convLabelleds p l c = some (.ok es, c') → Core.TwoL (NE.eraseP es)
  | [], p, c, c', es, h => by cases h; trivial
  | (x, q) :: l, p, c, c', es, h => by
    rw [convLabelleds] at h
    obtain ⟨a, c1, h1, h2⟩ := Conv.bind_ok h
    obtain ⟨as, c2, h3, h4⟩ := Conv.bind_ok h2
    cases h4
    exact ⟨labelled_two x c c1 a h1, labelleds_two l q c1 _ as h3⟩
theorem expr_two : ∀ (x : Expr) (c c' : Ctx) (e : NE), convExpr x c = some (.ok e, c') → e.erase.Two
  | .alt a, c, c', e, h => by
    rw [convExpr] at h
    exact alt_two a c c' e h
  | .lam _ args b, c, c', e, h => by
    rw [convExpr] at h
    obtain ⟨a, c1, h1, h2⟩ := Conv.bind_ok h
    obtain ⟨c2, c3, h3⟩ := withVariables_ok h1
    cases h2
    have h4 := alt_two b _ _ _ h3
    simpa [NE.erase, Core.Two] using h4
end

theorem stmt_two : ∀ (x : Stmt) (c c' : Ctx) (e : NE), convStmt x c = some (.ok e, c') → e.erase.Two
  | .goal _ x, c, c', e, h => by
    rw [convStmt] at h
    obtain ⟨a, c1, h1, h2⟩ := Conv.bind_ok h
    cases h2
    rw [NE.erase_setInfo]
    exact expr_two x _ _ _ h1
  | .letS _ n args x next, c, c', e, h => by
    rw [convStmt] at h
    obtain ⟨a, c1, h1, h2⟩ := Conv.bind_ok h
    dsimp only at h2
    obtain ⟨b, c2, h3, h4⟩ := Conv.bind_ok h2
    cases h4
    have h6 : a.erase.Two := by
      cases args with
      | nil => exact expr_two x _ _ _ h1
      | cons i l =>
        rw [convBound] at h1
        · obtain ⟨a', c4, h7, h8⟩ := Conv.bind_ok h1
          obtain ⟨c5, c6, h9⟩ := withVariables_ok h7
          cases h8
          have h10 := expr_two x _ _ _ h9
          simpa [NE.erase, Core.Two] using h10
        · intro h; cases h
    refine ⟨?_, stmt_two next _ _ _ h3⟩
    rw [NE.erase_setName]
    exact h6

/-! ## Their grammars -/

/-- Concatenations and alternatives of the grammar have two parts or more. -/
def Gram.Two (g : Gram) : Prop := g.core.Two

mutual
theorem core_gram_two : ∀ (e : Core) (g : Gram), e.gram (fun _ => true) = some g → e.Two → g.Two
  | .eps, g, h, _ => by rw [Core.gram] at h; cases h; trivial
  | .lit s, g, h, _ => by rw [Core.gram] at h; cases h; trivial
  | .var k, g, h, _ => by rw [Core.gram] at h; cases h; trivial
  | .cat l, g, h, ht => by
    rw [Core.gram, Option.map_eq_some_iff] at h
    obtain ⟨gs, h, rfl⟩ := h
    have := core_gramL_two l gs h ht.2
    exact ⟨by rw [this.2]; exact ht.1, this.1⟩
  | .alt l, g, h, ht => by
    rw [Core.gram, Option.map_eq_some_iff] at h
    obtain ⟨gs, h, rfl⟩ := h
    have := core_gramL_two l gs h ht.2
    exact ⟨by rw [this.2]; exact ht.1, this.1⟩
  | .fix (.lam n b), g, h, ht => by
    rw [Core.gram] at h
    simp only [if_true, Option.map_eq_some_iff] at h
    obtain ⟨g', h, rfl⟩ := h
    exact core_gram_two b g' h ht
  | .fix .eps, _, h, _ | .fix (.lit _), _, h, _ | .fix (.cat _), _, h, _ | .fix (.alt _), _, h, _ | .fix (.fix _), _, h, _
  | .fix (.var _), _, h, _ | .fix (.call _ _), _, h, _ | .fix (.letE _ _), _, h, _ => by simp [Core.gram] at h
  | .call _ _, _, h, _ | .lam _ _, _, h, _ | .letE _ _, _, h, _ => by simp [Core.gram] at h
theorem core_gramL_two : ∀ (l : List Core) (gs : List Gram), Core.gramL (fun _ => true) l = some gs → Core.TwoL l →
    Core.TwoL (Gram.coreL gs) ∧ (Gram.coreL gs).length = l.length
  | [], gs, h, _ => by rw [Core.gramL] at h; cases h; exact ⟨trivial, rfl⟩
  | e :: l, gs, h, ht => by
    rw [Core.gramL, Option.bind_eq_some_iff] at h
    obtain ⟨g, h1, h⟩ := h
    rw [Option.map_eq_some_iff] at h
    obtain ⟨gs', h2, rfl⟩ := h
    have h3 := core_gramL_two l gs' h2 ht.2
    exact ⟨⟨core_gram_two e g h1 ht.1, h3.1⟩, by rw [Gram.coreL, List.length_cons, h3.2, List.length_cons]⟩
end

theorem coreL_length : ∀ l : List Gram, (Gram.coreL l).length = l.length
  | [] => rfl
  | g :: l => by rw [Gram.coreL, List.length_cons, coreL_length l, List.length_cons]

mutual
theorem two_shown : ∀ (g : Gram) (Γ : List Ty) (k : Nat) (τ : Ty), HasTy Γ k g τ → g.Two → g.Shown Γ.length
  | .eps, _, _, _, _, _ => by simp [Gram.Shown]
  | .lit _, _, _, _, _, _ => by simp [Gram.Shown]
  | .var i, Γ, k, τ, h, _ => by
    cases h with
    | var _ _ _ _ h1 _ =>
      rw [Gram.Shown]
      exact (List.getElem?_eq_some_iff.1 h1).1
  | .fix b, Γ, k, τ, h, ht => by
    cases h with
    | fix _ _ _ _ h1 => exact two_shown b _ _ _ h1 ht
  | .cat [], Γ, k, τ, h, ht => by cases h
  | .cat (g :: l), Γ, k, τ, h, ht => by
    cases h with
    | cat _ _ _ _ τ' _ h1 h2 h3 =>
      rw [Gram.Shown, Gram.ShownL]
      exact ⟨by rw [← coreL_length]; exact ht.1, two_shown g _ _ _ h1 ht.2.1, twoCat_shown l _ _ _ h3 ht.2.2⟩
  | .alt [], Γ, k, τ, h, ht => by cases h
  | .alt (g :: l), Γ, k, τ, h, ht => by
    cases h with
    | alt _ _ _ _ τ' _ h1 h2 =>
      rw [Gram.Shown, Gram.ShownL]
      exact ⟨by rw [← coreL_length]; exact ht.1, two_shown g _ _ _ h1 ht.2.1, twoAlt_shown l _ _ _ _ h2 ht.2.2⟩
theorem twoCat_shown : ∀ (l : List Gram) (Γ : List Ty) (τ σ : Ty), HasTyCat Γ τ l σ → Core.TwoL (Gram.coreL l) → Gram.ShownL Γ.length l
  | [], _, _, _, _, _ => trivial
  | g :: l, Γ, τ, σ, h, ht => by
    cases h with
    | cons _ _ _ _ υ _ h1 _ h3 => exact ⟨two_shown g _ _ _ h1 ht.1, twoCat_shown l _ _ _ h3 ht.2⟩
theorem twoAlt_shown : ∀ (l : List Gram) (Γ : List Ty) (k : Nat) (τ σ : Ty), HasTyAlt Γ k τ l σ → Core.TwoL (Gram.coreL l) →
    Gram.ShownL Γ.length l
  | [], _, _, _, _, _, _ => trivial
  | g :: l, Γ, k, τ, σ, h, ht => by
    cases h with
    | cons _ _ _ _ _ υ _ h1 _ _ h4 => exact ⟨two_shown g _ _ _ h1 ht.1, twoAlt_shown l _ _ _ _ h4 ht.2⟩
end

/-- **C99** (exactly). A grammar is the grammar of an accepted program exactly if it is typable, all its variables are bound and its
concatenations and alternatives have at least two parts. -/
theorem C99_grammars_of_programs (g : Gram) :
    (∃ ts p e c n e' te k, parseProgram ts = .ok p ∧ convStmt p [] = some (.ok e, c) ∧ reduce n e = .ok e' ∧
      (inferTop k e' ⟨[], []⟩).1 = .ok te ∧ te.gram = g) ↔ g.Shown 0 ∧ ∃ τ, HasTy [] 0 g τ := by
  constructor
  · rintro ⟨ts, p, e, c, n, e', te, k, _, h2, h3, h4, rfl⟩
    obtain ⟨h5, h6⟩ := C23_inference_sound k e' te h4
    exact ⟨two_shown _ _ _ _ h6 (core_gram_two _ _ h5 (steps_two (C17_reduce_steps n e e' h3) (stmt_two p _ _ _ h2))), _, h6⟩
  · rintro ⟨hs, τ, hT⟩
    obtain ⟨ts, p, e, c, n, e', h1, h2, h3, h4, -⟩ := C99_program_of_grammar g hs
    obtain ⟨te, ht⟩ := (C24_accepts_iff_typable e' _ (Nat.le_refl _)).2 ⟨_, _, h4, hT⟩
    exact ⟨ts, p, e, c, n, e', te, _, h1, h2, h3, ht, C25_language_of_expression _ e' te ht g h4⟩

end Chomp
