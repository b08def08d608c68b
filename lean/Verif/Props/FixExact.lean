import Verif.Props.Typed

/-! # C29: what inference takes a fix point of a function of several parameters for -/

namespace Chomp

mutual
/-- Specification: functions below fix points are given exactly one parameter; the indices of variables stay as they are, so that those of the
other parameters now mean binders further outside. -/
def Core.oneParam : Core → Core
  | .eps => .eps
  | .lit s => .lit s
  | .cat l => .cat (Core.oneParamL l)
  | .alt l => .alt (Core.oneParamL l)
  | .fix (.lam _ b) => .fix (.lam 1 b.oneParam)
  | .fix b => .fix b
  | .var k => .var k
  | .call o a => .call o a
  | .lam n b => .lam n b
  | .letE b c => .letE b c
def Core.oneParamL : List Core → List Core
  | [] => []
  | e :: l => e.oneParam :: Core.oneParamL l
end

mutual
theorem gram_oneParam : ∀ e : Core, e.oneParam.gram (fun n => n == 1) = e.gram fun _ => true
  | .eps | .lit _ | .var _ | .call _ _ | .lam _ _ | .letE _ _ => by simp only [Core.oneParam, Core.gram]
  | .cat l => by simp only [Core.oneParam, Core.gram, gramL_oneParam l]
  | .alt l => by simp only [Core.oneParam, Core.gram, gramL_oneParam l]
  | .fix (.lam n b) => by simp [Core.oneParam, Core.gram, gram_oneParam b]
  | .fix .eps | .fix (.lit _) | .fix (.cat _) | .fix (.alt _) | .fix (.fix _) | .fix (.var _) | .fix (.call _ _)
  | .fix (.letE _ _) => by simp only [Core.oneParam, Core.gram]
theorem gramL_oneParam : ∀ l : List Core, Core.gramL (fun n => n == 1) (Core.oneParamL l) = Core.gramL (fun _ => true) l
  | [] => rfl
  | e :: l => by rw [Core.oneParamL, Core.gramL, Core.gramL, gram_oneParam e, gramL_oneParam l]
end

/-- **C29, exactly.** Whatever the numbers of parameters of functions below fix points, inference takes every one of them for a function of one
parameter: the accepted grammar matches what the expression with one parameter everywhere means.  So the fix points bind the parameters of
their functions exactly if this is what the expression itself means. -/
theorem C29_exact (n : Nat) (e : NE) (te : TE) (h : (inferTop n e ⟨[], []⟩).1 = .ok te) (w : List Char) :
    te.gram.language w ↔ e.erase.oneParam.eval langAlg (fun _ _ _ => False) [] w := by
  have h1 := (C23_inference_sound n e te h).1
  rw [NE.grammar, ← gram_oneParam] at h1
  exact (gram_meaning _ _ h1 (fun _ _ _ => False) w).symm

/-- **C29.** The numbers of parameters below fix points have no influence on whether an expression is accepted, on its grammar and on its type. -/
theorem C29_parameters_ignored (n : Nat) (e e' : NE) (he : e.erase.oneParam = e'.erase.oneParam) (te : TE)
    (h : (inferTop n e ⟨[], []⟩).1 = .ok te) :
    ∃ m te', (inferTop m e' ⟨[], []⟩).1 = .ok te' ∧ te'.gram = te.gram ∧ (te'.ty.nullable = te.ty.nullable) ∧
      (∀ c, c ∈ te'.ty.first ↔ c ∈ te.ty.first) ∧ ∀ c, c ∈ te'.ty.flast ↔ c ∈ te.ty.flast := by
  obtain ⟨h1, h2⟩ := C23_inference_sound n e te h
  have hg : e'.grammar = some te.gram := by
    rw [NE.grammar, ← gram_oneParam, ← he, gram_oneParam]
    exact h1
  obtain ⟨te', h'⟩ := (C24_accepts_iff_typable e' _ (Nat.le_refl _)).2 ⟨_, _, hg, h2⟩
  obtain ⟨h3, h4⟩ := C23_inference_sound _ e' te' h'
  have hgg : te'.gram = te.gram := Option.some.inj (h3.symm.trans hg)
  obtain ⟨a1, a2, a3⟩ := C24_principal n e te te'.ty h (hgg ▸ h4)
  obtain ⟨b1, b2, b3⟩ := C24_principal _ e' te' te.ty h' (hgg.symm ▸ h2)
  refine ⟨_, te', h', hgg, ?_, fun c => ⟨b2 c, a2 c⟩, fun c => ⟨b3 c, a3 c⟩⟩
  revert a1 b1
  cases te'.ty.nullable <;> cases te.ty.nullable <;> simp

/-- `!(/x y/ "a" . y | "c")` is accepted as `!(/y/ "a" . y | "c")`. -/
example : ∃ te, (inferTop 8 (.fix ⟨none, 0⟩ (.lam ⟨none, 0⟩ [.newVariable (.spanless "x"), .newVariable (.spanless "y")]
    (.alt ⟨none, 0⟩ (.cat ⟨none, 0⟩ (.lit ⟨none, 0⟩ ['a']) [(0, .var ⟨none, 0⟩ 0)]) [(0, .lit ⟨none, 0⟩ ['c'])]))) ⟨[], []⟩).1 = .ok te ∧
    te.gram = .fix (.alt [.cat [.lit ['a'], .var 0], .lit ['c']]) := ⟨_, rfl, rfl⟩

end Chomp
