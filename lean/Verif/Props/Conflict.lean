import Verif.Gram.Conflict

/-! # C58: type errors are truthful, and are raised exactly when there is a conflict -/

namespace Chomp

/-! ## Accepted expressions have no conflicts -/

theorem cat_split {Γ : List Ty} : ∀ {p : List Gram} {τ : Ty} {x : Gram} {l : List Gram} {υ : Ty}, HasTyCat Γ τ (p ++ x :: l) υ →
    ∃ τ' σ, HasTyCat Γ τ p τ' ∧ HasTy Γ 0 x σ ∧ ∀ c, c ∈ τ'.flast → c ∉ σ.first
  | [], τ, x, l, υ, h => by
    cases h with
    | cons _ _ _ _ σ _ h1 h2 h3 => exact ⟨τ, σ, .nil Γ τ, h1, h2⟩
  | g :: p, τ, x, l, υ, h => by
    cases h with
    | cons _ _ _ _ σ _ h1 h2 h3 =>
      obtain ⟨τ', σ', h4, h5, h6⟩ := cat_split h3
      exact ⟨τ', σ', .cons Γ τ g p σ τ' h1 h2 h4, h5, h6⟩

theorem alt_split {Γ : List Ty} {k : Nat} : ∀ {p : List Gram} {τ : Ty} {x : Gram} {l : List Gram} {υ : Ty},
    HasTyAlt Γ k τ (p ++ x :: l) υ → ∃ τ' σ, HasTyAlt Γ k τ p τ' ∧ HasTy Γ k x σ ∧
      ¬ (τ'.nullable = true ∧ σ.nullable = true) ∧ ∀ c, c ∈ τ'.first → c ∉ σ.first
  | [], τ, x, l, υ, h => by
    cases h with
    | cons _ _ _ _ _ σ _ h1 h2 h3 h4 => exact ⟨τ, σ, .nil Γ k τ, h1, h2, h3⟩
  | g :: p, τ, x, l, υ, h => by
    cases h with
    | cons _ _ _ _ _ σ _ h1 h2 h3 h4 =>
      obtain ⟨τ', σ', h5, h6, h7, h8⟩ := alt_split h4
      exact ⟨τ', σ', .cons Γ k τ g p σ τ' h1 h2 h3 h5, h6, h7, h8⟩

/-- Every place of a typable expression is typable. -/
theorem place_typed {e : NE} {g : Gram} {τ : Ty} (hg : e.grammar = some g) (hT : HasTy [] 0 g τ) :
    ∀ {ρ : List Gram} {x : NE}, Place e ρ x → ∃ Γ k gx σ, x.grammar = some gx ∧ EnvTy Γ ρ ∧ HasTy Γ k gx σ := by
  intro ρ x h
  induction h with
  | whole => exact ⟨[], 0, g, τ, hg, .nil, hT⟩
  | cat ρ i f r x _ hx ih =>
    obtain ⟨Γ, k, gx, σ, h1, h2, h3⟩ := ih
    obtain ⟨g1, gs, h4, h5, rfl⟩ := grammar_cat h1
    cases h3 with
    | cat _ _ _ _ σ' _ h6 h7 h8 =>
      rcases List.mem_cons.1 hx with rfl | hx
      · exact ⟨Γ, k, g1, σ', h4, h2, h6⟩
      · obtain ⟨j, gy, h9, h10⟩ := grammarP_mem h5 x hx
        obtain ⟨υ, hυ⟩ := cat_parts h8 gy (List.mem_of_getElem? h9)
        exact ⟨Γ, 0, gy, υ, h10, h2, hυ⟩
  | alt ρ i f r x _ hx ih =>
    obtain ⟨Γ, k, gx, σ, h1, h2, h3⟩ := ih
    obtain ⟨g1, gs, h4, h5, rfl⟩ := grammar_alt h1
    obtain ⟨τs, h6, _⟩ := alt_inv' h3
    have : ∃ (j : Nat) (gy : Gram), (g1 :: gs)[j]? = some gy ∧ x.grammar = some gy := by
      rcases List.mem_cons.1 hx with rfl | hx
      · exact ⟨0, g1, rfl, h4⟩
      · obtain ⟨j, gy, h9, h10⟩ := grammarP_mem h5 x hx
        exact ⟨j + 1, gy, by simpa using h9, h10⟩
    obtain ⟨j, gy, h7, h8⟩ := this
    obtain ⟨σ', _, h9⟩ := h6.get h7
    exact ⟨Γ, k, gy, σ', h8, h2, h9⟩
  | fix ρ i j as b gb _ hb ih =>
    obtain ⟨Γ, k, gx, σ, h1, h2, h3⟩ := ih
    obtain ⟨g', h4, rfl⟩ := grammar_fix h1
    rw [hb] at h4
    cases h4
    cases h3 with
    | fix _ _ _ _ h => exact ⟨σ :: Γ, k + 1, gb, σ, hb, .cons σ gb k h2 h, h⟩

/-- A typable expression has no conflicts. -/
theorem typed_no_conflict {e : NE} {g : Gram} {τ : Ty} (hg : e.grammar = some g) (hT : HasTy [] 0 g τ) : ¬ Conflict e := by
  rintro (⟨p, x, ρ, i, r, hp, _, hw⟩ | ⟨p, x, ρ, i, f, r, r', hp, u, c, w, v, hu, h1, h2, h3⟩ |
    ⟨p, x, ρ, i, f, r, r', y, hp, hy, h1, h2⟩ | ⟨p, x, ρ, i, f, r, r', y, hp, hy, c, v, w, h1, h2⟩ |
    ⟨k, s, ρ, i, hp, _, hk⟩ | ⟨k, s, ρ, i, b, ρ', hp, _, hd, hl⟩)
  · obtain ⟨Γ, k, gx, σ, e1, e2, e3⟩ := place_typed hg hT hp
    obtain ⟨g1, gs, e4, e5, rfl⟩ := grammar_cat e1
    cases e3 with
    | cat _ _ _ _ σ' _ h6 h7 h8 =>
      obtain ⟨t, h9, h10⟩ := hw.words e4
      rw [(der_desc h9 e2 h6).1 h10] at h7
      cases h7
  · obtain ⟨Γ, k, gx, σ, e1, e2, e3⟩ := place_typed hg hT hp
    obtain ⟨g1, gs, e4, e5, rfl⟩ := grammar_cat e1
    obtain ⟨ga, gb, e6, e7, rfl⟩ := grammarP_append e5
    obtain ⟨gx, gc, e8, e9, rfl⟩ := grammarP_cons e7
    cases e3 with
    | cat _ _ _ _ σ' _ h6 h7 h8 =>
      obtain ⟨τ', σ'', k1, k2, k3⟩ := cat_split h8
      have hT' : HasTy Γ k (.cat (g1 :: ga)) τ' := .cat Γ k g1 ga σ' τ' h6 h7 k1
      obtain ⟨t1, k4, rfl⟩ := h1.cat e4 e6
      obtain ⟨t2, k5, k6⟩ := h2.cat e4 e6
      obtain ⟨t3, k7, k8⟩ := h3.words e8
      exact k3 c ((der_uniq k4 e2 hT' t2 k5).left c ⟨hu, w, k6⟩) ((der_desc k7 e2 k2).2 c v k8)
  · obtain ⟨Γ, k, gx, σ, e1, e2, e3⟩ := place_typed hg hT hp
    obtain ⟨g1, gs, e4, e5, rfl⟩ := grammar_alt e1
    obtain ⟨ga, gb, e6, e7, rfl⟩ := grammarP_append e5
    obtain ⟨gx, gc, e8, e9, rfl⟩ := grammarP_cons e7
    cases e3 with
    | alt _ _ _ _ σ' _ h6 h7 =>
      obtain ⟨τ', σ'', k1, k2, k3, k4⟩ := alt_split h7
      have hT' : HasTy Γ k (.alt (g1 :: ga)) τ' := .alt Γ k g1 ga σ' τ' h6 k1
      have hy' : Words ρ (.alt (g1 :: ga)) [] := by
        rcases List.mem_cons.1 hy with rfl | hy
        · exact words_alt (k := 0) rfl (h1.words e4)
        · obtain ⟨j, gy, k5, k6⟩ := grammarP_mem e6 y hy
          exact words_alt (k := j + 1) (by simpa using k5) (h1.words k6)
      obtain ⟨t1, k5, k6⟩ := hy'
      obtain ⟨t2, k7, k8⟩ := h2.words e8
      exact k3 ⟨(der_desc k5 e2 hT').1 k6, (der_desc k7 e2 k2).1 k8⟩
  · obtain ⟨Γ, k, gx, σ, e1, e2, e3⟩ := place_typed hg hT hp
    obtain ⟨g1, gs, e4, e5, rfl⟩ := grammar_alt e1
    obtain ⟨ga, gb, e6, e7, rfl⟩ := grammarP_append e5
    obtain ⟨gx, gc, e8, e9, rfl⟩ := grammarP_cons e7
    cases e3 with
    | alt _ _ _ _ σ' _ h6 h7 =>
      obtain ⟨τ', σ'', k1, k2, k3, k4⟩ := alt_split h7
      have hT' : HasTy Γ k (.alt (g1 :: ga)) τ' := .alt Γ k g1 ga σ' τ' h6 k1
      have hy' : Words ρ (.alt (g1 :: ga)) (c :: v) := by
        rcases List.mem_cons.1 hy with rfl | hy
        · exact words_alt (k := 0) rfl (h1.words e4)
        · obtain ⟨j, gy, k5, k6⟩ := grammarP_mem e6 y hy
          exact words_alt (k := j + 1) (by simpa using k5) (h1.words k6)
      obtain ⟨t1, k5, k6⟩ := hy'
      obtain ⟨t2, k7, k8⟩ := h2.words e8
      exact k4 c ((der_desc k5 e2 hT').2 c v k6) ((der_desc k7 e2 k2).2 c w k8)
  · obtain ⟨Γ, k', gx, σ, e1, e2, e3⟩ := place_typed hg hT hp
    simp only [NE.grammar, NE.erase, Core.gram] at e1
    cases e1
    cases e3 with
    | var _ _ _ _ h _ =>
      have := e2.length_eq
      rw [List.getElem?_eq_none (by omega)] at h
      cases h
  · obtain ⟨Γ, k', gx, σ, e1, e2, e3⟩ := place_typed hg hT hp
    simp only [NE.grammar, NE.erase, Core.gram] at e1
    cases e1
    exact acc_no_cycle (left_acc _ _ e3 e2 (Nat.le_refl _)) _ (.var ρ k b ρ' hd) hl

theorem at_top (g : Gram) : At ⟨[], []⟩ [] g where
  ok := TCtx.Built.default.isOk
  len := rfl
  under := by intro i σ h; simp at h
  usable := by intro i _ h; simp at h
  plug := by intro _ i h; simp at h
  left := by intro i _ b ρ' h; simp at h

/-! ## The theorems -/

/-- `!(/x/ "a" . x | "a")`, the operators being at 1 and 2: two branches start with the same character. -/
private def exSame : NE :=
  .fix ⟨none, 0⟩ (.lam ⟨none, 0⟩ [.newVariable (.spanless "x")]
    (.alt ⟨none, 0⟩ (.cat ⟨none, 0⟩ (.lit ⟨none, 0⟩ ['a']) [(1, .var ⟨none, 0⟩ 0)]) [(2, .lit ⟨none, 0⟩ ['a'])]))

private def exSameBody : Gram := .alt [.cat [.lit ['a'], .var 0], .lit ['a']]

/-- `!(/x/ "" | "a" . x) . "b"`, the operators being at 1, 2 and 3: the first part may be empty. -/
private def exFirst : NE :=
  .cat ⟨none, 0⟩ (.fix ⟨none, 0⟩ (.lam ⟨none, 0⟩ [.newVariable (.spanless "x")]
    (.alt ⟨none, 0⟩ (.eps ⟨none, 0⟩) [(1, .cat ⟨none, 0⟩ (.lit ⟨none, 0⟩ ['a']) [(2, .var ⟨none, 0⟩ 0)])])))
    [(3, .lit ⟨none, 0⟩ ['b'])]

/-- **C58** (errors are truthful). If an expression that stands for a grammar, whose variables are bound
and whose fix points all match something, is rejected, then the error is right, in terms of the strings
matched by the parts of the expression: "first part of concatenation is nullable" names a part at the
start of a concatenation that matches the empty string; "first set overlaps with preceding flast set" is
raised at an operator for which some string that matches everything before it can be extended by a
character with which the part behind it can start; "both branches are nullable" and "first sets of both
branches overlap" are raised at an operator such that the branch behind it and an earlier one both match
the empty string, or strings with the same first character; "usage of guarded variable" is raised at a
variable that its own fix point reaches without consuming anything. -/
theorem C58_errors_truthful (n : Nat) (e : NE) (err : TErr) (g : Gram) (hg : e.grammar = some g) (hP : Productive e)
    (hB : Bound e) (h : (inferTop n e ⟨[], []⟩).1 = .err err) : err.Truth e := by
  have := infer_fair n hP hB e.info.name e ⟨[], []⟩ [] g .whole hg (at_top g)
  rw [inferTop] at h
  rw [h] at this
  exact this

theorem truth_conflict {e : NE} {err : TErr} (h : err.Truth e) : Conflict e := by
  cases err with
  | firstNullable te p => obtain ⟨x, _, h⟩ := h; exact .inl ⟨p, x, h⟩
  | firstFlastOverlap _ p te => obtain ⟨x, _, h⟩ := h; exact .inr (.inl ⟨p, x, h⟩)
  | bothNullable _ p te => obtain ⟨x, _, h⟩ := h; exact .inr (.inr (.inl ⟨p, x, h⟩))
  | firstOverlap _ p te => obtain ⟨x, _, h⟩ := h; exact .inr (.inr (.inr (.inl ⟨p, x, h⟩)))
  | «variable» v k s _ =>
    cases v with
    | free => exact .inr (.inr (.inr (.inr (.inl ⟨k, s, h⟩))))
    | guarded => exact .inr (.inr (.inr (.inr (.inr ⟨k, s, h⟩))))
  | expectedLambda _ => exact h.elim
  | unexpectedCall _ => exact h.elim
  | unexpectedLambda _ => exact h.elim
  | unexpectedLet _ => exact h.elim

/-- **C58** (accepted expressions). An accepted expression has none of these conflicts, anywhere; nothing
is assumed about its fix points. -/
theorem C58_accepted_no_conflict (n : Nat) (e : NE) (te : TE) (h : (inferTop n e ⟨[], []⟩).1 = .ok te) : ¬ Conflict e := by
  obtain ⟨h1, h2⟩ := C23_inference_sound n e te h
  exact typed_no_conflict h1 h2

/-- **C58** (exactly the grammars without conflicts). An expression whose fix points all match something
is accepted if and only if it stands for a grammar and has no conflict.  `n` bounds the rounds of each
fix-point loop; by C22 this many are enough for every expression. -/
theorem C58_accepts_iff (n : Nat) (e : NE) (hn : 2 * e.erase.lits.length + 2 ≤ n) (hP : Productive e) :
    (∃ te, (inferTop n e ⟨[], []⟩).1 = .ok te) ↔ e.grammar ≠ none ∧ ¬ Conflict e := by
  constructor
  · rintro ⟨te, h⟩
    exact ⟨by rw [(C23_inference_sound n e te h).1]; simp, C58_accepted_no_conflict n e te h⟩
  · rintro ⟨h1, h2⟩
    obtain ⟨g, hg⟩ := Option.ne_none_iff_exists'.1 h1
    have hB : Bound e := by
      intro ρ i k hp
      rcases Nat.lt_or_ge k ρ.length with h | h
      · exact h
      · exact absurd (.inr (.inr (.inr (.inr (.inl ⟨k, i.span, ρ, i, hp, rfl, h⟩))))) h2
    rcases C22_loop_bound e n hn with ⟨te, h⟩ | ⟨err, h⟩
    · exact ⟨te, by rw [h]⟩
    · exact absurd (truth_conflict (C58_errors_truthful n e err g hg hP hB (by rw [h]))) h2

/-- `Part e d x`: `x` is a part of `e` that inference has to visit, below `d` fix points. -/
inductive Part (e : NE) : Nat → NE → Prop
  | whole : Part e 0 e
  | cat (d : Nat) (i : Info) (f : NE) (r : List (Nat × NE)) (x : NE) : Part e d (.cat i f r) → x ∈ f :: r.map (·.2) → Part e d x
  | alt (d : Nat) (i : Info) (f : NE) (r : List (Nat × NE)) (x : NE) : Part e d (.alt i f r) → x ∈ f :: r.map (·.2) → Part e d x
  | fix (d : Nat) (i j : Info) (as : List Name) (b : NE) : Part e d (.fix i (.lam j as b)) → Part e (d + 1) b

/-- What the errors about the form of an expression with `m` variables around it say. -/
def TErr.Form (m : Nat) (e : NE) : TErr → Prop
  | .expectedLambda s => ∃ d i b, Part e d (.fix i b) ∧ i.span = s ∧ ∀ j as b', b ≠ .lam j as b'
  | .unexpectedCall s => ∃ d i f as, Part e d (.call i f as) ∧ i.span = s
  | .unexpectedLambda s => ∃ d i as b, Part e d (.lam i as b) ∧ i.span = s
  | .unexpectedLet s => ∃ d i x v b, Part e d (.letE i x v b) ∧ i.span = s
  | .variable .free k s _ => ∃ d i, Part e d (.var i k) ∧ i.span = s ∧ d + m ≤ k
  | .variable .guarded k s _ => ∃ d i, Part e d (.var i k) ∧ i.span = s ∧ k < d + m
  | _ => True

/-- If it fails, then because of an error whose claim about the form of the expression is right. -/
def Formal (m : Nat) (e : NE) {α : Type} (r : Out TErr α) : Prop := ∀ x, r = .err x → x.Form m e

theorem Formal.bind {m : Nat} {e : NE} {α β : Type} {r : Out TErr α} {f : α → Out TErr β} (h : Formal m e r)
    (hf : ∀ a, Formal m e (f a)) : Formal m e (r.bind f) := by
  cases r with
  | ok a => exact hf a
  | err x => intro y hy; cases hy; exact h x rfl
  | panic => intro y hy; cases hy
  | oof => intro y hy; cases hy

theorem Formal.ok {m : Nat} {e : NE} {α : Type} (a : α) : Formal m e (.ok a) := by intro x h; cases h

theorem fixLoop_formal {m : Nat} {e : NE} {f : Ty → TCtx → Inf TE} (hf : ∀ t c, (f t c).2 = c) {c : TCtx}
    (h : ∀ t : Ty, Formal m e (f t c).1) : ∀ (n : Nat) (t : Ty), Formal m e (fixLoop f n t c).1
  | 0, _ => by intro x h; cases h
  | n + 1, t => by
    simp only [fixLoop]
    rw [Inf.bind_fst (hf t c)]
    refine (h t).bind fun te => ?_
    split
    · exact .ok _
    · exact fixLoop_formal hf h n _

mutual
theorem infer_formal (n : Nat) {m : Nat} {e : NE} : ∀ (nm : Option Name) (x : NE) (c : TCtx) (d : Nat), c.vars.length = d + m → Part e d x → Formal m e (infer n nm x c).1
  | nm, .eps _, c, d, hd, hx => .ok _
  | nm, .lit _ _, c, d, hd, hx => .ok _
  | nm, .var _ k, c, d, hd, hx => by
    simp only [infer]
    split
    · exact .ok _
    · rename_i i _ err hv
      intro y hy
      cases hy
      unfold TCtx.getVar at hv
      split at hv
      · rename_i hn
        rw [List.getElem?_eq_none_iff, List.length_reverse] at hn
        cases hv; exact ⟨d, i, hx, rfl, by omega⟩
      · rename_i hn
        obtain ⟨hn, _⟩ := List.getElem?_eq_some_iff.1 hn
        rw [List.length_reverse] at hn
        split at hv
        · cases hv
        · cases hv; exact ⟨d, i, hx, rfl, by omega⟩
  | nm, .cat i f r, c, d, hd, hx => by
    simp only [infer]
    rw [Inf.bind_fst (infer_snd n _ f c)]
    refine (infer_formal n _ f c d hd (.cat d i f r f hx (by simp))).bind fun t => ?_
    split
    · intro y hy; cases hy; trivial
    · rw [Inf.bind_fst (withUnguard_snd fun c => inferCat_snd n _ r c), withUnguard_fst]
      exact (inferCat_formal n _ r _ d (by exact hd) fun y hy => .cat d i f r y hx (List.mem_cons_of_mem _ hy)).bind fun _ => .ok _
  | nm, .alt i f r, c, d, hd, hx => by
    simp only [infer]
    rw [Inf.bind_fst (infer_snd n _ f c)]
    refine (infer_formal n _ f c d hd (.alt d i f r f hx (by simp))).bind fun t => ?_
    rw [Inf.bind_fst (inferAlt_snd n _ r c)]
    exact (inferAlt_formal n _ r _ d hd fun y hy => .alt d i f r y hx (List.mem_cons_of_mem _ hy)).bind fun _ => .ok _
  | nm, .fix i (.lam j as b), c, d, hd, hx => by
    simp only [infer]
    rw [Inf.bind_fst (fixLoop_snd (fun t c => withVar_snd fun c => infer_snd n _ b c) _ _ _)]
    refine (fixLoop_formal (fun t c => withVar_snd fun c => infer_snd n _ b c) (fun t => ?_) n _).bind fun _ => .ok _
    rw [withVar_fst]
    exact infer_formal n _ b _ (d + 1) (by simp [hd]; omega) (.fix d i j as b hx)
  | _, .call i f as, _, d, hd, hx => by intro y hy; cases hy; exact ⟨d, i, f, as, hx, rfl⟩
  | _, .lam i as b, _, d, hd, hx => by intro y hy; cases hy; exact ⟨d, i, as, b, hx, rfl⟩
  | _, .letE i x v b, _, d, hd, hx => by intro y hy; cases hy; exact ⟨d, i, x, v, b, hx, rfl⟩
  | _, .fix i (.eps _), _, d, hd, hx | _, .fix i (.lit _ _), _, d, hd, hx | _, .fix i (.cat _ _ _), _, d, hd, hx
  | _, .fix i (.alt _ _ _), _, d, hd, hx | _, .fix i (.fix _ _), _, d, hd, hx | _, .fix i (.var _ _), _, d, hd, hx
  | _, .fix i (.call _ _ _), _, d, hd, hx | _, .fix i (.letE _ _ _ _), _, d, hd, hx => by
    intro y hy; cases hy; exact ⟨d, i, _, hx, rfl, by intro _ _ _ h; cases h⟩
theorem inferCat_formal (n : Nat) {m : Nat} {e : NE} : ∀ (ty : Ty) (l : List (Nat × NE)) (c : TCtx) (d : Nat), c.vars.length = d + m → (∀ x ∈ l.map (·.2), Part e d x) →
    Formal m e (inferCat n ty l c).1
  | ty, [], c, d, hd, hx => .ok _
  | ty, (p, x) :: l, c, d, hd, hx => by
    simp only [inferCat]
    rw [Inf.bind_fst (infer_snd n _ x c)]
    refine (infer_formal n _ x c d hd (hx x (by simp))).bind fun t => ?_
    split
    · rw [Inf.bind_fst (inferCat_snd n _ l c)]
      exact (inferCat_formal n _ l c d hd fun y hy => hx y (List.mem_cons_of_mem _ hy)).bind fun _ => .ok _
    · intro y hy; cases hy; trivial
theorem inferAlt_formal (n : Nat) {m : Nat} {e : NE} : ∀ (ty : Ty) (l : List (Nat × NE)) (c : TCtx) (d : Nat), c.vars.length = d + m → (∀ x ∈ l.map (·.2), Part e d x) →
    Formal m e (inferAlt n ty l c).1
  | ty, [], c, d, hd, hx => .ok _
  | ty, (p, x) :: l, c, d, hd, hx => by
    simp only [inferAlt]
    rw [Inf.bind_fst (infer_snd n _ x c)]
    refine (infer_formal n _ x c d hd (hx x (by simp))).bind fun t => ?_
    split
    · intro y hy; cases hy; trivial
    split
    · rw [Inf.bind_fst (inferAlt_snd n _ l c)]
      exact (inferAlt_formal n _ l c d hd fun y hy => hx y (List.mem_cons_of_mem _ hy)).bind fun _ => .ok _
    · intro y hy; cases hy; trivial
end

/-- **C58** (errors about the form). For every expression, in every context: "unexpected call", "unexpected
lambda", "unexpected let" and "expected a lambda expression" name the span of a part of the expression
that is a call, a lambda (not directly below a fix point), a let or the fix point of something else;
"unbound variable" names a variable that is not bound by a fix point or the context, and "usage of guarded
variable" one that is. -/
theorem C58_form_errors (n : Nat) (e : NE) (c : TCtx) (err : TErr) (h : (inferTop n e c).1 = .err err) : err.Form c.vars.length e :=
  infer_formal n e.info.name e c 0 (by simp) .whole err h

/-! ## Examples -/

theorem exSame_places {ρ : List Gram} {x : NE} (h : Place exSame ρ x) :
    (ρ = [] ∧ x = exSame) ∨ (ρ = [exSameBody] ∧
      (x = .alt ⟨none, 0⟩ (.cat ⟨none, 0⟩ (.lit ⟨none, 0⟩ ['a']) [(1, .var ⟨none, 0⟩ 0)]) [(2, .lit ⟨none, 0⟩ ['a'])] ∨
        x = .cat ⟨none, 0⟩ (.lit ⟨none, 0⟩ ['a']) [(1, .var ⟨none, 0⟩ 0)] ∨ x = .lit ⟨none, 0⟩ ['a'] ∨ x = .var ⟨none, 0⟩ 0)) := by
  induction h with
  | whole => exact .inl ⟨rfl, rfl⟩
  | cat ρ i f r x _ hx ih =>
    rcases ih with ⟨rfl, h⟩ | ⟨rfl, h | h | h | h⟩
    · cases h
    · cases h
    · cases h
      simp only [List.map_cons, List.map_nil, List.mem_cons, List.not_mem_nil, or_false] at hx
      rcases hx with rfl | rfl <;> simp
    · cases h
    · cases h
  | alt ρ i f r x _ hx ih =>
    rcases ih with ⟨rfl, h⟩ | ⟨rfl, h | h | h | h⟩
    · cases h
    · cases h
      simp only [List.map_cons, List.map_nil, List.mem_cons, List.not_mem_nil, or_false] at hx
      rcases hx with rfl | rfl <;> simp
    · cases h
    · cases h
    · cases h
  | fix ρ i j as b g _ hg ih =>
    rcases ih with ⟨rfl, h⟩ | ⟨rfl, h | h | h | h⟩
    · cases h
      cases hg
      exact .inr ⟨rfl, .inl rfl⟩
    · cases h
    · cases h
    · cases h
    · cases h

/-- Non-vacuity: `!(/x/ "a" . x | "a")` meets the hypotheses and is rejected. -/
example : exSame.grammar = some (.fix exSameBody) ∧ Productive exSame ∧ Bound exSame ∧
    ∃ te, (inferTop 8 exSame ⟨[], []⟩).1 = .err (.firstOverlap ⟨false, .ofStr ['a'], .empty⟩ 2 te) := by
  refine ⟨rfl, ?_, ?_, _, rfl⟩
  · intro ρ i j as b hp
    rcases exSame_places hp with ⟨rfl, h⟩ | ⟨rfl, h | h | h | h⟩
    · cases h
      exact ⟨['a'], _, rfl, .alt 1 (.lit ['a']), .fix _ _ _ (.alt _ _ 1 _ _ rfl (.lit _ _)), rfl⟩
    all_goals cases h
  · intro ρ i k hp
    rcases exSame_places hp with ⟨rfl, h⟩ | ⟨rfl, h | h | h | h⟩
    · cases h
    · cases h
    · cases h
    · cases h
    · cases h; exact Nat.zero_lt_one

/-- Non-vacuity: the conflict in it. -/
example : Conflict exSame := by
  refine .inr (.inr (.inr (.inl ⟨2, .lit ⟨none, 0⟩ ['a'], [exSameBody], ⟨none, 0⟩, _, [], [],
    .cat ⟨none, 0⟩ (.lit ⟨none, 0⟩ ['a']) [(1, .var ⟨none, 0⟩ 0)], .fix [] _ _ _ _ _ .whole rfl, by simp, 'a', ['a'], [],
    ⟨_, rfl, .cat [.lit ['a'], .box (.alt 1 (.lit ['a']))], ?_, rfl⟩, ⟨_, rfl, .lit ['a'], .lit _ _, rfl⟩⟩)))
  exact .cat _ _ _ (.cons _ _ _ _ _ (.lit _ _) (.cons _ _ _ _ _ (.var _ 0 _ _ _ rfl (.alt _ _ 1 _ _ rfl (.lit _ _))) (.nil _)))

/-- Non-vacuity: the message for `!(/x/ "" | "a" . x) . "b"` names the operator at 3. -/
example : ∃ te, (inferTop 8 exFirst ⟨[], []⟩).1 = .err (.firstNullable te 3) := ⟨_, rfl⟩

/-! ## Fix points that match nothing -/

private def exABody : Gram := .cat [.lit ['a'], .var 0]
private def exA : NE := .lit ⟨none, 0⟩ ['a']
private def exVar : NE := .var ⟨none, 0⟩ 0
private def exSeq : NE := .cat ⟨none, 0⟩ exA [(1, exVar)]
private def exLoop : NE := .fix ⟨none, 0⟩ (.lam ⟨none, 0⟩ [.newVariable (.spanless "x")] exSeq)
/-- `!(/x/ "a" . x) | "a"`: the first branch matches nothing. -/
private def exNothing : NE := .alt ⟨none, 0⟩ exLoop [(2, exA)]

private theorem exNothing_places {ρ : List Gram} {x : NE} (h : Place exNothing ρ x) :
    (ρ = [] ∧ (x = exNothing ∨ x = exLoop ∨ x = exA)) ∨ (ρ = [exABody] ∧ (x = exSeq ∨ x = exA ∨ x = exVar)) := by
  induction h with
  | whole => exact .inl ⟨rfl, .inl rfl⟩
  | cat ρ i f r x _ hx ih =>
    rcases ih with ⟨rfl, h | h | h⟩ | ⟨rfl, h | h | h⟩
    · cases h
    · cases h
    · cases h
    · cases h
      simp only [List.map_cons, List.map_nil, List.mem_cons, List.not_mem_nil, or_false] at hx
      rcases hx with rfl | rfl <;> simp
    · cases h
    · cases h
  | alt ρ i f r x _ hx ih =>
    rcases ih with ⟨rfl, h | h | h⟩ | ⟨rfl, h | h | h⟩
    · cases h
      simp only [List.map_cons, List.map_nil, List.mem_cons, List.not_mem_nil, or_false] at hx
      rcases hx with rfl | rfl <;> simp
    · cases h
    · cases h
    · cases h
    · cases h
    · cases h
  | fix ρ i j as b g _ hg ih =>
    rcases ih with ⟨rfl, h | h | h⟩ | ⟨rfl, h | h | h⟩
    · cases h
    · cases h
      cases hg
      exact .inr ⟨rfl, .inl rfl⟩
    · cases h
    · cases h
    · cases h
    · cases h

private theorem exABody_empty : ∀ t : Tree, ¬ Der [exABody] exABody t
  | .cat [_, .box t], h => by
    cases h with
    | cat _ _ _ h =>
      cases h with
      | cons _ _ _ _ _ _ h =>
        cases h with
        | cons _ _ _ _ _ h _ =>
          cases h with
          | var _ _ b ρ' _ hd h =>
            simp only [List.drop_zero, List.cons.injEq] at hd
            obtain ⟨rfl, rfl⟩ := hd
            exact exABody_empty t h
  | .eps, h | .lit _, h | .alt _ _, h | .box _, h => by cases h
  | .cat [], h => by cases h with | cat _ _ _ h => cases h
  | .cat [_], h => by cases h with | cat _ _ _ h => cases h with | cons _ _ _ _ _ _ h => cases h
  | .cat [_, .eps], h | .cat [_, .lit _], h | .cat [_, .cat _], h | .cat [_, .alt _ _], h => by
    cases h with | cat _ _ _ h => cases h with | cons _ _ _ _ _ _ h => cases h with | cons _ _ _ _ _ h _ => cases h
  | .cat (_ :: _ :: _ :: _), h => by
    cases h with | cat _ _ _ h => cases h with | cons _ _ _ _ _ _ h => cases h with | cons _ _ _ _ _ _ h => cases h

private theorem exA_means {ρ : List Gram} {w : List Char} (h : Means ρ exA w) : w = ['a'] := by
  obtain ⟨t, h1, rfl⟩ := h.words (g := .lit ['a']) rfl
  cases h1
  rfl

/-- **C58** (why fix points have to match something). `!(/x/ "a" . x) | "a"` is rejected because "first
sets of both branches overlap", although the first branch matches no string at all and the expression has
no conflict. -/
theorem C58_unproductive_counterexample : ∃ (e : NE) (err : TErr), e.grammar ≠ none ∧ Bound e ∧
    (inferTop 8 e ⟨[], []⟩).1 = .err err ∧ ¬ Conflict e := by
  refine ⟨exNothing, _, by simp [exNothing, exLoop, exSeq, exA, exVar, NE.grammar, NE.erase, NE.eraseP, Core.gram, Core.gramL], ?_, rfl, ?_⟩
  · intro ρ i k hp
    rcases exNothing_places hp with ⟨rfl, h | h | h⟩ | ⟨rfl, h | h | h⟩
    all_goals cases h
    exact Nat.zero_lt_one
  · rintro (⟨p, x, ρ, i, r, hp, _, hw⟩ | ⟨p, x, ρ, i, f, r, r', hp, u, c, w, v, hu, h1, h2, h3⟩ |
      ⟨p, x, ρ, i, f, r, r', y, hp, hy, h1, h2⟩ | ⟨p, x, ρ, i, f, r, r', y, hp, hy, c, v, w, h1, h2⟩ |
      ⟨k, s, ρ, i, hp, _, hk⟩ | ⟨k, s, ρ, i, b, ρ', hp, _, hd, hl⟩)
    · rcases exNothing_places hp with ⟨rfl, h | h | h⟩ | ⟨rfl, h | h | h⟩
      all_goals cases h
      have := exA_means hw
      cases this
    · rcases exNothing_places hp with ⟨rfl, h | h | h⟩ | ⟨rfl, h | h | h⟩
      · cases h
      · cases h
      · cases h
      · simp only [exSeq, NE.cat.injEq] at h
        obtain ⟨rfl, rfl, hr⟩ := h
        cases r with
        | nil =>
          obtain ⟨u1, u2, rfl, h5, h6⟩ := h1
          obtain ⟨w1, w2, h7, h8, h9⟩ := h2
          simp only [List.map_nil, MeansSeq] at h6 h9
          subst h6 h9
          rw [exA_means h5, exA_means h8] at h7
          simp at h7
        | cons q r =>
          simp only [List.cons_append, List.cons.injEq] at hr
          have := congrArg List.length hr.2
          simp at this
      · cases h
      · cases h
    · rcases exNothing_places hp with ⟨rfl, h | h | h⟩ | ⟨rfl, h | h | h⟩
      · simp only [exNothing, NE.alt.injEq] at h
        obtain ⟨rfl, rfl, hr⟩ := h
        cases r with
        | nil =>
          simp only [List.nil_append, List.cons.injEq, Prod.mk.injEq] at hr
          obtain ⟨⟨rfl, rfl⟩, rfl⟩ := hr
          have := exA_means h2
          cases this
        | cons q r =>
          simp only [List.cons_append, List.cons.injEq] at hr
          have := congrArg List.length hr.2
          simp at this
      · cases h
      · cases h
      · cases h
      · cases h
      · cases h
    · rcases exNothing_places hp with ⟨rfl, h | h | h⟩ | ⟨rfl, h | h | h⟩
      · simp only [exNothing, NE.alt.injEq] at h
        obtain ⟨rfl, rfl, hr⟩ := h
        cases r with
        | nil =>
          simp only [List.map_nil, List.mem_singleton] at hy
          subst hy
          obtain ⟨t, h3, h4⟩ := h1.words (g := .fix exABody) rfl
          cases h3 with
          | fix _ _ _ h3 => exact exABody_empty t h3
        | cons q r =>
          simp only [List.cons_append, List.cons.injEq] at hr
          have := congrArg List.length hr.2
          simp at this
      · cases h
      · cases h
      · cases h
      · cases h
      · cases h
    · rcases exNothing_places hp with ⟨rfl, h | h | h⟩ | ⟨rfl, h | h | h⟩
      all_goals cases h
      simp at hk
    · rcases exNothing_places hp with ⟨rfl, h | h | h⟩ | ⟨rfl, h | h | h⟩
      all_goals cases h
      simp only [List.drop_zero, List.cons.injEq] at hd
      obtain ⟨rfl, rfl⟩ := hd
      have key : ∀ {x y : List Gram × Gram}, LeftSteps x y → x = ([exABody], exABody) →
          y = ([exABody], exABody) ∨ y = ([exABody], .lit ['a']) := by
        intro x y h
        induction h with
        | refl => intro h; exact .inl h
        | tail _ h ih =>
          intro hx
          rcases ih hx with rfl | rfl
          · cases h with
            | cat _ _ i g h1 h2 =>
              cases i with
              | zero => cases h1; exact .inr rfl
              | succ i =>
                obtain ⟨t, h3, h4⟩ := h2 0 _ (Nat.zero_lt_succ i) rfl
                cases h3
                simp [Tree.text] at h4
          · cases h
      rcases key hl rfl with h | h <;> simp [exABody] at h

end Chomp
