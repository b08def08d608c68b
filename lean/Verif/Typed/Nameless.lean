import Verif.Typed.Lemmas
import Verif.Lower.Faithful

/-!
# Type inference does not depend on names and spans

Used for C20: the same expression without names and spans (`Core.bare`) is typed in the same way.
-/

namespace Chomp

/-- What an error of type inference says when names, spans and annotations of names are ignored. -/
def TErr.bare : TErr → TErr
  | .firstNullable e _ => .firstNullable e.strip 0
  | .firstFlastOverlap t _ e => .firstFlastOverlap t 0 e.strip
  | .bothNullable t _ e => .bothNullable t 0 e.strip
  | .firstOverlap t _ e => .firstOverlap t 0 e.strip
  | .variable err k _ _ => .variable err k 0 none
  | .expectedLambda _ => .expectedLambda 0
  | .unexpectedCall _ => .unexpectedCall 0
  | .unexpectedLambda _ => .unexpectedLambda 0
  | .unexpectedLet _ => .unexpectedLet 0

/-- The same outcome, values being compared by `R` and errors without names and spans. -/
def Alike {α : Type} (R : α → α → Prop) : Out TErr α → Out TErr α → Prop
  | .ok a, .ok b => R a b
  | .err x, .err y => x.bare = y.bare
  | .panic, .panic => True
  | .oof, .oof => True
  | _, _ => False

theorem Alike.bind {α β : Type} {R : α → α → Prop} {S : β → β → Prop} {x y : Out TErr α} {f g : α → Out TErr β} (h : Alike R x y)
    (hfg : ∀ a b, R a b → Alike S (f a) (g b)) : Alike S (x.bind f) (y.bind g) := by
  cases x <;> cases y <;> first | exact h.elim | exact h | exact hfg _ _ h

mutual
/-- The expression with no names and no spans. -/
def Core.bare : Core → NE
  | .eps => .eps ⟨none, 0⟩
  | .lit s => .lit ⟨none, 0⟩ s
  | .cat [] => .eps ⟨none, 0⟩
  | .cat (f :: l) => .cat ⟨none, 0⟩ f.bare (Core.bareP l)
  | .alt [] => .eps ⟨none, 0⟩
  | .alt (f :: l) => .alt ⟨none, 0⟩ f.bare (Core.bareP l)
  | .fix b => .fix ⟨none, 0⟩ b.bare
  | .var k => .var ⟨none, 0⟩ k
  | .call o a => .call ⟨none, 0⟩ o.bare (Core.bareL a)
  | .lam n b => .lam ⟨none, 0⟩ (List.replicate n ⟨.spanless "", .variable⟩) b.bare
  | .letE b c => .letE ⟨none, 0⟩ ⟨.spanless "", .variable⟩ b.bare c.bare
def Core.bareP : List Core → List (Nat × NE)
  | [] => []
  | e :: l => (0, e.bare) :: Core.bareP l
def Core.bareL : List Core → List NE
  | [] => []
  | e :: l => e.bare :: Core.bareL l
end

theorem strip_ty_eq {a b : TE} (h : a.strip = b.strip) : a.ty = b.ty := by rw [← a.strip_ty, h, b.strip_ty]

theorem fixLoop_alike {f g : Ty → TCtx → Inf TE} {c : TCtx} (hf : ∀ t c, (f t c).2 = c) (hg : ∀ t c, (g t c).2 = c)
    (h : ∀ t, Alike (fun a b => a.strip = b.strip) (f t c).1 (g t c).1) :
    ∀ n t, Alike (fun a b => a.strip = b.strip) (fixLoop f n t c).1 (fixLoop g n t c).1
  | 0, _ => trivial
  | n + 1, t => by
    simp only [fixLoop]
    rw [Inf.bind_fst (hf t c), Inf.bind_fst (hg t c)]
    refine (h t).bind fun a b hab => ?_
    rw [strip_ty_eq hab]
    split
    · exact hab
    · exact fixLoop_alike hf hg h n _

/-- Two lists of typed expressions and types that agree but for names. -/
def AlikeL (a b : List TE × Ty) : Prop := TE.stripL a.1 = TE.stripL b.1 ∧ a.2 = b.2

mutual
theorem infer_bare (n : Nat) : ∀ (nm nm' : Option Name) (e : NE) (c : TCtx),
    Alike (fun a b => a.strip = b.strip) (infer n nm e c).1 (infer n nm' e.erase.bare c).1
  | nm, nm', .eps _, c => by simp [NE.erase, Core.bare, infer, Alike, TE.strip]
  | nm, nm', .lit _ s, c => by simp [NE.erase, Core.bare, infer, Alike, TE.strip]
  | nm, nm', .cat _ f rest, c => by
    simp only [NE.erase, Core.bare, infer]
    rw [Inf.bind_fst (infer_snd n _ f c), Inf.bind_fst (infer_snd n _ _ c)]
    refine (infer_bare n _ _ f c).bind fun a b hab => ?_
    rw [strip_ty_eq hab]
    split
    · simp [Alike, TErr.bare, hab]
    · rw [Inf.bind_fst (withUnguard_snd fun c => inferCat_snd n _ _ c), Inf.bind_fst (withUnguard_snd fun c => inferCat_snd n _ _ c),
        withUnguard_fst, withUnguard_fst]
      refine (inferCat_bare n _ rest _).bind fun x y hxy => ?_
      simp [Alike, TE.strip, TE.stripL, hab, hxy.1, hxy.2]
  | nm, nm', .alt _ f rest, c => by
    simp only [NE.erase, Core.bare, infer]
    rw [Inf.bind_fst (infer_snd n _ f c), Inf.bind_fst (infer_snd n _ _ c)]
    refine (infer_bare n _ _ f c).bind fun a b hab => ?_
    rw [strip_ty_eq hab, Inf.bind_fst (inferAlt_snd n _ _ c), Inf.bind_fst (inferAlt_snd n _ _ c)]
    refine (inferAlt_bare n _ rest _).bind fun x y hxy => ?_
    simp [Alike, TE.strip, TE.stripL, hab, hxy.1, hxy.2]
  | nm, nm', .fix i (.lam j a b), c => by
    have hs (nm : Option Name) (e : NE) (t : Ty) (c : TCtx) : (c.withVar t (infer n nm e)).2 = c :=
      withVar_snd fun c => infer_snd n _ e c
    simp only [NE.erase, Core.bare, infer]
    rw [Inf.bind_fst (fixLoop_snd (hs _ b) _ _ _), Inf.bind_fst (fixLoop_snd (hs _ _) _ _ _)]
    refine (fixLoop_alike (hs _ b) (hs _ _) (fun t => ?_) n _).bind fun x y hxy => ?_
    · rw [withVar_fst, withVar_fst]
      exact infer_bare n _ _ b _
    · simp [Alike, TE.strip, hxy]
  | nm, nm', .fix i (.eps _), c => by simp [NE.erase, Core.bare, infer, Alike, TErr.bare]
  | nm, nm', .fix i (.lit _ _), c => by simp [NE.erase, Core.bare, infer, Alike, TErr.bare]
  | nm, nm', .fix i (.cat _ _ _), c => by simp [NE.erase, Core.bare, infer, Alike, TErr.bare]
  | nm, nm', .fix i (.alt _ _ _), c => by simp [NE.erase, Core.bare, infer, Alike, TErr.bare]
  | nm, nm', .fix i (.fix _ _), c => by simp [NE.erase, Core.bare, infer, Alike, TErr.bare]
  | nm, nm', .fix i (.var _ _), c => by simp [NE.erase, Core.bare, infer, Alike, TErr.bare]
  | nm, nm', .fix i (.call _ _ _), c => by simp [NE.erase, Core.bare, infer, Alike, TErr.bare]
  | nm, nm', .fix i (.letE _ _ _ _), c => by simp [NE.erase, Core.bare, infer, Alike, TErr.bare]
  | nm, nm', .var i k, c => by
    simp only [NE.erase, Core.bare, infer]
    cases c.getVar k <;> simp [Alike, TE.strip, TErr.bare]
  | nm, nm', .call i _ _, c => by simp [NE.erase, Core.bare, infer, Alike, TErr.bare]
  | nm, nm', .lam i _ _, c => by simp [NE.erase, Core.bare, infer, Alike, TErr.bare]
  | nm, nm', .letE i _ _ _, c => by simp [NE.erase, Core.bare, infer, Alike, TErr.bare]
theorem inferCat_bare (n : Nat) : ∀ (ty : Ty) (l : List (Nat × NE)) (c : TCtx),
    Alike AlikeL (inferCat n ty l c).1 (inferCat n ty (Core.bareP (NE.eraseP l)) c).1
  | ty, [], c => by simp [NE.eraseP, Core.bareP, inferCat, Alike, AlikeL]
  | ty, (p, e) :: l, c => by
    simp only [NE.eraseP, Core.bareP, inferCat]
    rw [Inf.bind_fst (infer_snd n _ e c), Inf.bind_fst (infer_snd n _ _ c)]
    refine (infer_bare n _ _ e c).bind fun a b hab => ?_
    rw [strip_ty_eq hab]
    split
    · rw [Inf.bind_fst (inferCat_snd n _ _ c), Inf.bind_fst (inferCat_snd n _ _ c)]
      refine (inferCat_bare n _ l c).bind fun x y hxy => ?_
      simp [Alike, AlikeL, TE.stripL, hab, hxy.1, hxy.2]
    · simp [Alike, TErr.bare, hab]
theorem inferAlt_bare (n : Nat) : ∀ (ty : Ty) (l : List (Nat × NE)) (c : TCtx),
    Alike AlikeL (inferAlt n ty l c).1 (inferAlt n ty (Core.bareP (NE.eraseP l)) c).1
  | ty, [], c => by simp [NE.eraseP, Core.bareP, inferAlt, Alike, AlikeL]
  | ty, (p, e) :: l, c => by
    simp only [NE.eraseP, Core.bareP, inferAlt]
    rw [Inf.bind_fst (infer_snd n _ e c), Inf.bind_fst (infer_snd n _ _ c)]
    refine (infer_bare n _ _ e c).bind fun a b hab => ?_
    rw [strip_ty_eq hab]
    split
    · simp [Alike, TErr.bare, hab]
    · split
      · rw [Inf.bind_fst (inferAlt_snd n _ _ c), Inf.bind_fst (inferAlt_snd n _ _ c)]
        refine (inferAlt_bare n _ l c).bind fun x y hxy => ?_
        simp [Alike, AlikeL, TE.stripL, hab, hxy.1, hxy.2]
      · simp [Alike, TErr.bare, hab]
end

theorem Alike.symm {α : Type} {R : α → α → Prop} (hR : ∀ a b, R a b → R b a) {x y : Out TErr α} (h : Alike R x y) : Alike R y x := by
  cases x <;> cases y <;> first | exact h.elim | exact Eq.symm h | exact hR _ _ h | trivial

theorem Alike.trans {α : Type} {R : α → α → Prop} (hR : ∀ a b c, R a b → R b c → R a c) {x y z : Out TErr α} (h : Alike R x y) (h' : Alike R y z) :
    Alike R x z := by
  cases x <;> cases y <;> cases z <;> first | exact h.elim | exact h'.elim | exact Eq.trans h h' | exact hR _ _ _ h h' | trivial

/-- Two expressions that differ in names and spans only are typed in the same way. -/
theorem infer_alike (n : Nat) (nm nm' : Option Name) (e e' : NE) (c : TCtx) (h : e.erase = e'.erase) :
    Alike (fun a b => a.strip = b.strip) (infer n nm e c).1 (infer n nm' e' c).1 := by
  have h1 := infer_bare n nm none e c
  have h2 := infer_bare n nm' none e' c
  rw [← h] at h2
  exact Alike.trans (R := fun a b : TE => a.strip = b.strip) (fun _ _ _ h h' => h.trans h') h1 (h2.symm fun _ _ h => h.symm)

end Chomp
