import Verif.Typed.Total
import Verif.Gram.Left
import Verif.Gram.Meaning

/-! # C22–C29: type inference -/

namespace Chomp

/-- The contexts a user can build: the empty one, and those inside `with_variable_type` and
`with_unguard`. -/
inductive TCtx.Built : TCtx → Prop
  | default : Built ⟨[], []⟩
  | withVar (c : TCtx) (ty : Ty) : Built c → Built ⟨c.vars ++ [ty], c.unguard⟩
  | withUnguard (c : TCtx) : Built c → Built ⟨c.vars, c.unguard ++ [c.vars.length]⟩

theorem TCtx.Built.isOk {c : TCtx} (h : c.Built) : c.ok := by
  induction h with
  | default => simp [TCtx.ok]
  | withVar c ty _ ih => exact TCtx.ok_push ty ih
  | withUnguard c _ _ => exact TCtx.ok_unguard c

/-- The grammar an expression stands for, whatever the number of parameters of the lambdas below fix
points (only the innermost one is used); `none` if it contains a call, a let, a lambda that is not
directly below a fix point, or a fix point of something else. -/
def NE.grammar (e : NE) : Option Gram := e.erase.gram fun _ => true

private def ex (l : List Char) : NE := .lit ⟨none, 0⟩ l
/-- `!(/x/ "(" . x . ")" | "n")` -/
private def exParens : NE :=
  .fix ⟨none, 0⟩ (.lam ⟨none, 0⟩ [.newVariable (.spanless "x")]
    (.alt ⟨none, 0⟩ (.cat ⟨none, 0⟩ (ex ['(']) [(0, .var ⟨none, 0⟩ 0), (0, ex [')'])]) [(0, ex ['n'])]))
/-- `!(/x/ x . "a" | "b")`: left recursive. -/
private def exLeft : NE :=
  .fix ⟨none, 0⟩ (.lam ⟨none, 0⟩ [.newVariable (.spanless "x")]
    (.alt ⟨none, 0⟩ (.cat ⟨none, 0⟩ (.var ⟨none, 0⟩ 0) [(0, ex ['a'])]) [(0, ex ['b'])]))
/-- `!(/x/ "" | "a" . x)`. -/
private def exStar : NE :=
  .fix ⟨none, 0⟩ (.lam ⟨none, 0⟩ [.newVariable (.spanless "x")]
    (.alt ⟨none, 0⟩ (.eps ⟨none, 0⟩) [(0, .cat ⟨none, 0⟩ (ex ['a']) [(0, .var ⟨none, 0⟩ 0)])]))

/-! ## C22 -/

/-- **C22.** Type inference ends, on every expression and in every context, with a typed expression or
a type error (it never panics); the outcome does not depend on the fuel. -/
theorem C22_inference_terminates (e : NE) (c : TCtx) (hc : c.Built) :
    ∃ N r, ((∃ te, r = .ok te) ∨ ∃ err, r = .err err) ∧ ∀ n, N ≤ n → inferTop n e c = (r, c) := by
  let U : CharSet := c.vars.foldr (fun t U => (t.first.union t.flast).union U) (litUniverse e.erase.lits)
  have hlit : ∀ (l : List Ty) (x : Char), x ∈ litUniverse e.erase.lits →
      x ∈ l.foldr (fun t U => (t.first.union t.flast).union U) (litUniverse e.erase.lits) := by
    intro l x hx
    induction l with
    | nil => exact hx
    | cons t l ih => exact CharSet.mem_union.2 (.inr ih)
  have hvar : ∀ (l : List Ty) (t : Ty), t ∈ l →
      t.within (l.foldr (fun t U => (t.first.union t.flast).union U) (litUniverse e.erase.lits)) := by
    intro l
    induction l with
    | nil => intro t h; simp at h
    | cons t' l ih =>
      intro t ht
      rcases List.mem_cons.1 ht with rfl | ht
      · exact ⟨fun x hx => CharSet.mem_union.2 (.inl (CharSet.mem_union.2 (.inl hx))),
          fun x hx => CharSet.mem_union.2 (.inl (CharSet.mem_union.2 (.inr hx)))⟩
      · exact ⟨fun x hx => CharSet.mem_union.2 (.inr ((ih t ht).1 x hx)),
          fun x hx => CharSet.mem_union.2 (.inr ((ih t ht).2 x hx))⟩
  have hd := infer_done (2 * U.chars.length + 2) U (Nat.le_refl _) e.info.name e c hc.isOk (hvar c.vars)
    (fun s hs x hx => hlit c.vars x (mem_litUniverse hs hx))
  have hne : (infer (2 * U.chars.length + 2) e.info.name e c).1 ≠ .oof := by
    rcases hd with ⟨a, h, _⟩ | ⟨a, h⟩ <;> rw [h] <;> simp
  refine ⟨2 * U.chars.length + 2, (infer (2 * U.chars.length + 2) e.info.name e c).1, ?_, ?_⟩
  · rcases hd with ⟨a, h, _⟩ | ⟨a, h⟩
    · exact .inl ⟨a, h⟩
    · exact .inr ⟨a, h⟩
  · intro n hn
    rw [inferTop, infer_fuel hn _ _ _ hne]
    exact Prod.ext rfl (infer_snd _ _ _ _)

/-- **C22** (explicit bound). In the empty context every fix-point loop ends after at most `2 · L + 2`
rounds, where `L` is the number of literals of the expression. -/
theorem C22_loop_bound (e : NE) (n : Nat) (hn : 2 * e.erase.lits.length + 2 ≤ n) :
    (∃ te, inferTop n e ⟨[], []⟩ = (.ok te, ⟨[], []⟩)) ∨ ∃ err, inferTop n e ⟨[], []⟩ = (.err err, ⟨[], []⟩) := by
  have hU := size_litUniverse e.erase.lits
  have hd := infer_done n (litUniverse e.erase.lits) (by omega) e.info.name e ⟨[], []⟩ TCtx.Built.default.isOk
    (by simp) (fun s hs x hx => mem_litUniverse hs hx)
  have hs := infer_snd n e.info.name e ⟨[], []⟩
  rcases hd with ⟨a, h, _⟩ | ⟨a, h⟩
  · exact .inl ⟨a, Prod.ext h hs⟩
  · exact .inr ⟨a, Prod.ext h hs⟩

/-- Non-vacuity: a recursive grammar needs more than one round, and is then accepted. -/
example : inferTop 1 exParens ⟨[], []⟩ = (.oof, ⟨[], []⟩) ∧ ∃ te, inferTop 8 exParens ⟨[], []⟩ = (.ok te, ⟨[], []⟩) :=
  ⟨rfl, _, rfl⟩

/-! ## C23 -/

mutual
/-- Specification of how names are carried over: every node keeps the name of its expression, except
that the body of a fix point gets the merge of the names of the lambda, the body and the fix point. -/
inductive SameNames : Option Name → NE → TE → Prop
  | eps (nm : Option Name) (i : Info) : SameNames nm (.eps i) (.eps nm)
  | lit (nm : Option Name) (i : Info) (s : List Char) : SameNames nm (.lit i s) (.lit nm s)
  | cat (nm : Option Name) (i : Info) (f : NE) (r : List (Nat × NE)) (ty : Ty) (t : TE) (ts : List TE) :
      SameNames f.info.name f t → SameNamesL r ts → SameNames nm (.cat i f r) (.cat nm ty (t :: ts))
  | alt (nm : Option Name) (i : Info) (f : NE) (r : List (Nat × NE)) (ty : Ty) (t : TE) (ts : List TE) :
      SameNames f.info.name f t → SameNamesL r ts → SameNames nm (.alt i f r) (.alt nm ty (t :: ts))
  | fix (nm : Option Name) (i j : Info) (args : List Name) (b : NE) (t : TE) :
      SameNames (Name.mergeAll [j.name, b.info.name, nm]) b t →
      SameNames nm (.fix i (.lam j args b)) (.fix nm t)
  | var (nm : Option Name) (i : Info) (k : Nat) (ty : Ty) : SameNames nm (.var i k) (.var nm k ty)
inductive SameNamesL : List (Nat × NE) → List TE → Prop
  | nil : SameNamesL [] []
  | cons (p : Nat) (e : NE) (r : List (Nat × NE)) (t : TE) (ts : List TE) : SameNames e.info.name e t →
      SameNamesL r ts → SameNamesL ((p, e) :: r) (t :: ts)
end

mutual
theorem infer_names (n : Nat) : ∀ (nm : Option Name) (e : NE) (c : TCtx) (te : TE), (infer n nm e c).1 = .ok te →
    SameNames nm e te
  | nm, .eps _, c, te, h => by simp only [infer] at h; cases h; exact .eps _ _
  | nm, .lit _ s, c, te, h => by simp only [infer] at h; cases h; exact .lit _ _ s
  | nm, .cat _ f rest, c, te, h => by
    simp only [infer] at h
    rw [Inf.bind_fst (infer_snd n _ f c)] at h
    obtain ⟨t, h1, h⟩ := Out.bind_ok h
    split at h
    · cases h
    · rw [Inf.bind_fst (withUnguard_snd fun c => inferCat_snd n _ rest c), withUnguard_fst] at h
      obtain ⟨⟨ts, ty⟩, h3, h⟩ := Out.bind_ok h
      cases h
      exact .cat _ _ _ _ _ t ts (infer_names n _ f c t h1) (inferCat_names n _ rest _ ts ty h3)
  | nm, .alt _ f rest, c, te, h => by
    simp only [infer] at h
    rw [Inf.bind_fst (infer_snd n _ f c)] at h
    obtain ⟨t, h1, h⟩ := Out.bind_ok h
    rw [Inf.bind_fst (inferAlt_snd n _ rest c)] at h
    obtain ⟨⟨ts, ty⟩, h3, h⟩ := Out.bind_ok h
    cases h
    exact .alt _ _ _ _ _ t ts (infer_names n _ f c t h1) (inferAlt_names n _ rest _ ts ty h3)
  | nm, .fix _ (.lam j _ b), c, te, h => by
    simp only [infer] at h
    rw [Inf.bind_fst (fixLoop_snd (fun t c => withVar_snd fun c => infer_snd n _ b c) _ _ _)] at h
    obtain ⟨t, h1, h⟩ := Out.bind_ok h
    cases h
    obtain ⟨t', h2, rfl⟩ := fixLoop_ok (fun t c => withVar_snd fun c => infer_snd n _ b c) h1
    rw [withVar_fst] at h2
    exact .fix _ _ _ _ _ _ (infer_names n _ b _ t h2)
  | nm, .var i k, c, te, h => by
    simp only [infer] at h
    split at h
    · cases h; exact .var _ _ _ _
    · cases h
  | _, .call _ _ _, _, _, h | _, .lam _ _ _, _, _, h | _, .letE _ _ _ _, _, _, h
  | _, .fix _ (.eps _), _, _, h | _, .fix _ (.lit _ _), _, _, h | _, .fix _ (.cat _ _ _), _, _, h
  | _, .fix _ (.alt _ _ _), _, _, h | _, .fix _ (.fix _ _), _, _, h | _, .fix _ (.var _ _), _, _, h
  | _, .fix _ (.call _ _ _), _, _, h | _, .fix _ (.letE _ _ _ _), _, _, h => by
    simp only [infer] at h; cases h
theorem inferCat_names (n : Nat) : ∀ (ty : Ty) (l : List (Nat × NE)) (c : TCtx) (ts : List TE) (υ : Ty),
    (inferCat n ty l c).1 = .ok (ts, υ) → SameNamesL l ts
  | ty, [], c, ts, υ, h => by
    simp only [inferCat] at h; cases h
    exact .nil
  | ty, (p, e) :: l, c, ts, υ, h => by
    simp only [inferCat] at h
    rw [Inf.bind_fst (infer_snd n _ e c)] at h
    obtain ⟨t, h1, h⟩ := Out.bind_ok h
    split at h
    · rw [Inf.bind_fst (inferCat_snd n _ l c)] at h
      obtain ⟨⟨ts', υ'⟩, h3, h⟩ := Out.bind_ok h
      cases h
      exact .cons _ _ _ _ _ (infer_names n _ e c t h1) (inferCat_names n _ l c _ _ h3)
    · cases h
theorem inferAlt_names (n : Nat) : ∀ (ty : Ty) (l : List (Nat × NE)) (c : TCtx) (ts : List TE) (υ : Ty),
    (inferAlt n ty l c).1 = .ok (ts, υ) → SameNamesL l ts
  | ty, [], c, ts, υ, h => by
    simp only [inferAlt] at h; cases h
    exact .nil
  | ty, (p, e) :: l, c, ts, υ, h => by
    simp only [inferAlt] at h
    rw [Inf.bind_fst (infer_snd n _ e c)] at h
    obtain ⟨t, h1, h⟩ := Out.bind_ok h
    split at h
    · cases h
    split at h
    · rw [Inf.bind_fst (inferAlt_snd n _ l c)] at h
      obtain ⟨⟨ts', υ'⟩, h3, h⟩ := Out.bind_ok h
      cases h
      exact .cons _ _ _ _ _ (infer_names n _ e c t h1) (inferAlt_names n _ l c _ _ h3)
    · cases h
end

/-- **C23.** If inference succeeds in the empty context, the expression stands for a grammar, the typed
expression has the shape of that grammar and its type is derivable with the declarative rules
`HasTy`. -/
theorem C23_inference_sound (n : Nat) (e : NE) (te : TE) (h : (inferTop n e ⟨[], []⟩).1 = .ok te) :
    e.grammar = some te.gram ∧ HasTy [] 0 te.gram te.ty := by
  obtain ⟨h1, h2⟩ := infer_sound n _ e _ te TCtx.Built.default.isOk h
  exact ⟨h2, h1.hasTy⟩

/-- **C23** (open expressions). In any context, with the last `c.unguard.last` variables usable and the
others guarded. -/
theorem C23_inference_sound_open (n : Nat) (e : NE) (c : TCtx) (hc : c.Built) (te : TE)
    (h : (inferTop n e c).1 = .ok te) :
    e.grammar = some te.gram ∧
      HasTy c.vars.reverse (c.vars.length - c.unguard.getLast?.getD 0) te.gram te.ty := by
  obtain ⟨h1, h2⟩ := infer_sound n _ e _ te hc.isOk h
  exact ⟨h2, h1.hasTy⟩

/-- **C23** (annotations). Not only the type of the whole but the types recorded at every node follow
the rules: the generated `match`es are computed from these. -/
theorem C23_annotations (n : Nat) (e : NE) (te : TE) (h : (inferTop n e ⟨[], []⟩).1 = .ok te) : Ann [] 0 te :=
  (infer_sound n _ e _ te TCtx.Built.default.isOk h).1

/-- **C23** (names). The names of the nodes are carried over. -/
theorem C23_names (n : Nat) (e : NE) (c : TCtx) (te : TE) (h : (inferTop n e c).1 = .ok te) :
    SameNames e.info.name e te :=
  infer_names n _ e c te h

example : ∃ te, (inferTop 8 exParens ⟨[], []⟩).1 = .ok te ∧
    te.gram = .fix (.alt [.cat [.lit ['('], .var 0, .lit [')']], .lit ['n']]) := ⟨_, rfl, rfl⟩

/-! ## C24 -/

/-- **C24.** If inference fails, no type is derivable. -/
theorem C24_failure_is_untypable (n : Nat) (e : NE) (err : TErr) (g : Gram) (τ : Ty)
    (h : (inferTop n e ⟨[], []⟩).1 = .err err) (hg : e.grammar = some g) : ¬ HasTy [] 0 g τ := by
  intro hT
  have := infer_complete n e.info.name e ⟨[], []⟩ [] g τ TCtx.Built.default.isOk hg .nil hT
  rw [inferTop] at h
  rw [h] at this
  rcases this with h | ⟨_, h, _⟩ <;> cases h

/-- **C24.** On success the inferred type is the least derivable one. -/
theorem C24_principal (n : Nat) (e : NE) (te : TE) (τ : Ty) (h : (inferTop n e ⟨[], []⟩).1 = .ok te)
    (hT : HasTy [] 0 te.gram τ) :
    (te.ty.nullable = true → τ.nullable = true) ∧ (∀ c, c ∈ te.ty.first → c ∈ τ.first) ∧
      ∀ c, c ∈ te.ty.flast → c ∈ τ.flast := by
  have := infer_complete n e.info.name e ⟨[], []⟩ [] te.gram τ TCtx.Built.default.isOk
    (C23_inference_sound n e te h).1 .nil hT
  rw [inferTop] at h
  rw [h] at this
  rcases this with h | ⟨_, h, hle⟩
  · cases h
  · cases h; exact ⟨hle.nullable, hle.first, hle.flast⟩

/-- **C24** (summary). With enough fuel, inference succeeds exactly on the expressions that stand for a
typable grammar. -/
theorem C24_accepts_iff_typable (e : NE) (n : Nat) (hn : 2 * e.erase.lits.length + 2 ≤ n) :
    (∃ te, (inferTop n e ⟨[], []⟩).1 = .ok te) ↔ ∃ g τ, e.grammar = some g ∧ HasTy [] 0 g τ := by
  constructor
  · rintro ⟨te, h⟩
    obtain ⟨h1, h2⟩ := C23_inference_sound n e te h
    exact ⟨_, _, h1, h2⟩
  · rintro ⟨g, τ, hg, hT⟩
    rcases C22_loop_bound e n hn with ⟨te, h⟩ | ⟨err, h⟩
    · exact ⟨te, by rw [h]⟩
    · exact absurd hT (C24_failure_is_untypable n e err g τ (by rw [h]) hg)

/-- **C24** (open expressions). The same in any context and for any larger assignment `Γ` of types to
the free variables: if the grammar has type `τ` under `Γ`, inference does not fail and finds a smaller
type. -/
theorem C24_complete_open (n : Nat) (e : NE) (c : TCtx) (hc : c.Built) (Γ : List Ty) (g : Gram) (τ : Ty)
    (hg : e.grammar = some g) (hΓ : All2 Ty.le c.vars.reverse Γ)
    (hT : HasTy Γ (c.vars.length - c.unguard.getLast?.getD 0) g τ) :
    (inferTop n e c).1 = .oof ∨ ∃ te, (inferTop n e c).1 = .ok te ∧ te.ty.le τ :=
  infer_complete n _ e c Γ g τ hc.isOk hg hΓ hT

/-- Non-vacuity: an untypable grammar. -/
example : ∃ err, (inferTop 8 exLeft ⟨[], []⟩).1 = .err err := ⟨_, rfl⟩

/-! ## C25 -/

/-- **C25.** The type of an accepted expression describes its language: it is nullable iff the empty
string matches, every matched string starts with a character of the first set, and every character
that follows a non-empty matched string inside a longer one is in the flast set. -/
theorem C25_types_describe_language (n : Nat) (e : NE) (te : TE) (h : (inferTop n e ⟨[], []⟩).1 = .ok te) :
    (te.gram.language [] ↔ te.ty.nullable = true) ∧
    (∀ c w, te.gram.language (c :: w) → c ∈ te.ty.first) ∧
    (∀ u c w, u ≠ [] → te.gram.language u → te.gram.language (u ++ c :: w) → c ∈ te.ty.flast) := by
  obtain ⟨_, hT⟩ := C23_inference_sound n e te h
  refine ⟨?_, ?_, ?_⟩
  · rw [language_iff_der]
    constructor
    · rintro ⟨t, h1, h2⟩
      exact (der_desc h1 .nil hT).1 h2
    · intro hn
      exact null_exact _ _ hT .nil (Nat.le_refl _) hn
  · intro c w hw
    obtain ⟨t, h1, h2⟩ := (language_iff_der _ _).1 hw
    exact (der_desc h1 .nil hT).2 c w h2
  · intro u c w hu h1 h2
    obtain ⟨t, h3, rfl⟩ := (language_iff_der _ _).1 h1
    obtain ⟨t', h4, h5⟩ := (language_iff_der _ _).1 h2
    exact (der_uniq h3 .nil hT t' h4).left c ⟨hu, w, h5⟩

/-- **C25** (equal expressions have equal languages). The language meant here is that of the
expression itself: the grammar only forgets names. -/
theorem C25_language_of_expression (n : Nat) (e : NE) (te : TE) (h : (inferTop n e ⟨[], []⟩).1 = .ok te)
    (g : Gram) (hg : e.grammar = some g) : te.gram = g := by
  have := (C23_inference_sound n e te h).1
  rw [hg] at this
  exact (Option.some.inj this).symm

example : ∃ te, (inferTop 8 exStar ⟨[], []⟩).1 = .ok te ∧ te.ty.nullable = true ∧ 'a' ∈ te.ty.first ∧
    'a' ∈ te.ty.flast := ⟨_, rfl, rfl, by decide, by decide⟩

/-! ## C26 -/

/-- **C26.** Inference gives the context back unchanged, whatever the outcome. -/
theorem C26_context_restored (n : Nat) (e : NE) (c : TCtx) : (inferTop n e c).2 = c := infer_snd n _ e c

/-- Non-vacuity: a failing inference below a binder and inside a concatenation. -/
example : ∃ err, inferTop 8
    (.fix ⟨none, 0⟩ (.lam ⟨none, 0⟩ [.newVariable (.spanless "x")]
      (.cat ⟨none, 0⟩ (ex ['a']) [(0, .var ⟨none, 0⟩ 7)]))) ⟨[], []⟩ = (.err err, ⟨[], []⟩) := ⟨_, rfl⟩

/-! ## C27 -/

/-- Any number of left steps. -/
inductive LeftSteps : List Gram × Gram → List Gram × Gram → Prop
  | refl (x : List Gram × Gram) : LeftSteps x x
  | tail {x y z : List Gram × Gram} : LeftSteps x y → LeftStep y z → LeftSteps x z

theorem LeftSteps.acc {x y : List Gram × Gram} (h : LeftSteps x y) (hx : Acc (fun x y => LeftStep y x) x) :
    Acc (fun x y => LeftStep y x) y := by
  induction h with
  | refl => exact hx
  | tail _ h ih => exact ih.inv h

theorem LeftSteps.cons {a b : List Gram × Gram} (h : LeftSteps a b) : ∀ {c}, LeftStep b c →
    ∃ d, LeftStep a d ∧ LeftSteps d c := by
  induction h with
  | refl => intro c hc; exact ⟨c, hc, .refl c⟩
  | tail _ h ih =>
    intro c hc
    obtain ⟨d, h5, h6⟩ := ih h
    exact ⟨d, h5, .tail h6 hc⟩

theorem acc_no_cycle {x : List Gram × Gram} (hx : Acc (fun x y => LeftStep y x) x) :
    ∀ y, LeftStep x y → ¬ LeftSteps y x := by
  induction hx with
  | intro x _ ih =>
    intro y hxy hyx
    obtain ⟨d, h1, h2⟩ := hyx.cons hxy
    exact ih y hxy d h1 h2

/-- **C27.** In an accepted expression no chain of left steps (going to something that may have to be
matched before any character has been consumed) is infinite. -/
theorem C27_no_left_recursion (n : Nat) (e : NE) (te : TE) (h : (inferTop n e ⟨[], []⟩).1 = .ok te) :
    ¬ ∃ f : Nat → List Gram × Gram, f 0 = ([], te.gram) ∧ ∀ i, LeftStep (f i) (f (i + 1)) :=
  no_chain (left_acc _ _ (C23_inference_sound n e te h).2 .nil (Nat.le_refl _))

/-- **C27** (fix points). No fix point reachable to the left inside an accepted expression can reach
itself again without consuming a character. -/
theorem C27_fix_not_left_recursive (n : Nat) (e : NE) (te : TE) (h : (inferTop n e ⟨[], []⟩).1 = .ok te)
    (ρ : List Gram) (b : Gram) (hr : LeftSteps ([], te.gram) (ρ, .fix b)) : ¬ LeftSteps (b :: ρ, b) (b :: ρ, .var 0) := by
  intro hc
  have hacc := hr.acc (left_acc _ _ (C23_inference_sound n e te h).2 .nil (Nat.le_refl _))
  have hb := hacc.inv (LeftStep.fix ρ b)
  exact acc_no_cycle (hc.acc hb) _ (.var _ 0 b ρ rfl) hc

/-- **C27** (every body). The same for the body of every fix point of the expression, wherever it
occurs: a fix point whose body can reach its own variable before consuming a character has no type in
any context. -/
theorem C27_left_recursive_untypable (Γ : List Ty) (k : Nat) (τ : Ty) (ρ : List Gram) (b : Gram) (hE : EnvTy Γ ρ)
    (hl : LeftSteps (b :: ρ, b) (b :: ρ, .var 0)) : ¬ HasTy Γ k (.fix b) τ := by
  intro hT
  have hacc := left_acc _ _ hT hE (Nat.le_refl _)
  have hb := hacc.inv (LeftStep.fix ρ b)
  exact acc_no_cycle (hl.acc hb) _ (.var _ 0 b ρ rfl) hl

/-- Non-vacuity: the direct left recursion of `!(/x/ x . "a" | "b")`. -/
example : LeftSteps ([.alt [.cat [.var 0, .lit ['a']], .lit ['b']]], .alt [.cat [.var 0, .lit ['a']], .lit ['b']])
    ([.alt [.cat [.var 0, .lit ['a']], .lit ['b']]], .var 0) :=
  .tail (.tail (.refl _) (.alt _ _ (.cat [.var 0, .lit ['a']]) (by simp))) (.cat _ _ 0 _ rfl (by intro j _ h; omega))

/-! ## C28 -/

/-- **C28.** Every string has at most one syntax tree. -/
theorem C28_unambiguous (n : Nat) (e : NE) (te : TE) (h : (inferTop n e ⟨[], []⟩).1 = .ok te) (t t' : Tree)
    (ht : Der [] te.gram t) (ht' : Der [] te.gram t') (heq : t.text = t'.text) : t = t' :=
  (der_uniq ht .nil (C23_inference_sound n e te h).2 t' ht').eq heq

/-- **C28** (the language is the set of texts of syntax trees). -/
theorem C28_language_of_trees (g : Gram) (w : List Char) : g.language w ↔ ∃ t, Der [] g t ∧ t.text = w :=
  language_iff_der g w

/-- Non-vacuity: `"(n)"` has a syntax tree. -/
example : Der [] (.fix (.alt [.cat [.lit ['('], .var 0, .lit [')']], .lit ['n']]))
    (.alt 0 (.cat [.lit ['('], .box (.alt 1 (.lit ['n'])), .lit [')']])) :=
  .fix _ _ _ (.alt _ _ 0 _ _ rfl (.cat _ _ _ (.cons _ _ _ _ _ (.lit _ _) (.cons _ _ _ _ _
    (.var _ 0 _ _ _ rfl (.alt _ _ 1 _ _ rfl (.lit _ _))) (.cons _ _ _ _ _ (.lit _ _) (.nil _))))))

/-! ## C29 -/

/-- Specification: every lambda directly below a fix point has exactly one parameter, and there are no
calls, lets or other lambdas. -/
def NE.unaryFix (e : NE) : Prop := (e.erase.gram fun n => n == 1).isSome

/-- **C29** (for fix points over lambdas with one parameter). If every fix point is over a lambda with
one parameter, inference interprets every variable as the binder it denotes: the grammar it accepts
matches the strings that the expression means.  Missing: a fix point over a lambda with several
parameters is accepted too and mistyped, see `C29_counterexample`. -/
theorem C29_fix_binds_partial (n : Nat) (e : NE) (te : TE) (h : (inferTop n e ⟨[], []⟩).1 = .ok te)
    (hu : e.unaryFix) (w : List Char) :
    te.gram.language w ↔ e.erase.eval langAlg (fun _ _ _ => False) [] w := by
  obtain ⟨g, hg⟩ := Option.isSome_iff_exists.1 hu
  have h1 := (C23_inference_sound n e te h).1
  have h2 := gram_weaken (v := fun _ => true) (by simp) _ _ hg
  rw [NE.grammar, h2] at h1
  rw [← Option.some.inj h1]
  exact (gram_meaning e.erase g hg (fun _ _ _ => False) w).symm

example : exParens.unaryFix := rfl

/-- `!(/z/ "b" . !(/x y/ "a" . x | "c"))` -/
private def exTwo : NE :=
  .fix ⟨none, 0⟩ (.lam ⟨none, 0⟩ [.newVariable (.spanless "z")]
    (.cat ⟨none, 0⟩ (ex ['b']) [(0,
      .fix ⟨none, 0⟩ (.lam ⟨none, 0⟩ [.newVariable (.spanless "x"), .newVariable (.spanless "y")]
        (.alt ⟨none, 0⟩ (.cat ⟨none, 0⟩ (ex ['a']) [(0, .var ⟨none, 0⟩ 1)]) [(0, ex ['c'])])))]))

/-- **C29** (counterexample in the code). `fold_fix` pushes one variable for a lambda with two
parameters: the expression `!(/z/ "b" . !(/x y/ "a" . x | "c"))` is accepted, and `x` is taken for `z`:
the accepted grammar matches `babc`, which the expression does not mean. -/
theorem C29_counterexample :
    ∃ (e : NE) (te : TE), (inferTop 8 e ⟨[], []⟩).1 = .ok te ∧ te.gram.language ['b', 'a', 'b', 'c'] ∧
      ¬ e.erase.eval langAlg (fun _ _ _ => False) [] ['b', 'a', 'b', 'c'] := by
  refine ⟨exTwo, _, rfl, ?_, ?_⟩
  · rw [language_iff_der]
    refine ⟨.cat [.lit ['b'], .alt 0 (.cat [.lit ['a'], .box (.cat [.lit ['b'], .alt 1 (.lit ['c'])])])], ?_, rfl⟩
    exact .fix _ _ _ (.cat _ _ _ (.cons _ _ _ _ _ (.lit _ _) (.cons _ _ _ _ _
      (.fix _ _ _ (.alt _ _ 0 _ _ rfl (.cat _ _ _ (.cons _ _ _ _ _ (.lit _ _) (.cons _ _ _ _ _
        (.var _ 1 _ _ _ rfl (.cat _ _ _ (.cons _ _ _ _ _ (.lit _ _) (.cons _ _ _ _ _
          (.fix _ _ _ (.alt _ _ 1 _ _ rfl (.lit _ _))) (.nil _))))) (.nil _)))))) (.nil _))))
  · intro h
    -- the meaning only contains strings with a single `b`
    have := h (fun w => w.count 'b' = 1) ?_
    · exact absurd this (by decide)
    · intro v hv
      obtain ⟨u, v', rfl, hu, w, v'', rfl, hw, hv''⟩ := hv
      subst hu
      subst hv''
      have hw' : w.count 'b' = 0 := by
        refine hw (fun w => w.count 'b' = 0) ?_
        intro x hx
        rcases hx with ⟨u, v, rfl, hu, y, z, rfl, hy, hz⟩ | hx | hx
        · subst hu; subst hz
          have hy' : List.count 'b' y = 0 := hy
          simp [hy']
        · subst hx; decide
        · exact hx.elim
      simp [hw']

end Chomp
