import Verif.Props.Shared

/-! # C36: grammars whose fix points mention only their own parameter are compiled faithfully -/

namespace Chomp

mutual
/-- All variables of the grammar are below `d`. -/
def Gram.Below : Nat → Gram → Prop
  | _, .eps => True
  | _, .lit _ => True
  | d, .cat l => Gram.BelowL d l
  | d, .alt l => Gram.BelowL d l
  | d, .fix b => b.Below (d + 1)
  | d, .var k => k < d
/-- The same for lists. -/
def Gram.BelowL : Nat → List Gram → Prop
  | _, [] => True
  | d, g :: l => g.Below d ∧ Gram.BelowL d l
end

mutual
/-- No fix point in the grammar mentions the parameter of another one around it. -/
def Gram.OwnVars : Gram → Prop
  | .eps => True
  | .lit _ => True
  | .cat l => Gram.OwnVarsL l
  | .alt l => Gram.OwnVarsL l
  | .fix b => b.Below 1 ∧ b.OwnVars
  | .var _ => True
/-- The same for lists. -/
def Gram.OwnVarsL : List Gram → Prop
  | [] => True
  | g :: l => g.OwnVars ∧ Gram.OwnVarsL l
end

mutual
theorem freeVars_nil : ∀ (t : TE) (d : Nat), t.gram.Below d → t.freeVars d = []
  | .eps _, _, _ => rfl
  | .lit _ _, _, _ => rfl
  | .cat _ _ l, d, h => by simp only [TE.freeVars]; exact freeVarsL_nil l d (by simpa only [TE.gram, Gram.Below] using h)
  | .alt _ _ l, d, h => by simp only [TE.freeVars]; exact freeVarsL_nil l d (by simpa only [TE.gram, Gram.Below] using h)
  | .fix _ b, d, h => by simp only [TE.freeVars]; exact freeVars_nil b (d + 1) (by simpa only [TE.gram, Gram.Below] using h)
  | .var _ i _, d, h => by
    simp only [TE.gram, Gram.Below] at h
    simp only [TE.freeVars]
    rw [if_neg (by omega)]
theorem freeVarsL_nil : ∀ (l : List TE) (d : Nat), Gram.BelowL d (TE.gramL l) → TE.freeVarsL d l = []
  | [], _, _ => rfl
  | e :: l, d, h => by
    rw [TE.gramL, Gram.BelowL] at h
    rw [TE.freeVarsL, freeVars_nil e d h.1, freeVarsL_nil l d h.2]
    rfl
end

theorem Gram.OwnVarsL.mem {l : List Gram} (h : Gram.OwnVarsL l) : ∀ {g : Gram}, g ∈ l → g.OwnVars := by
  induction l with
  | nil => intro g hg; cases hg
  | cons a l ih =>
    intro g hg
    rw [Gram.OwnVarsL] at h
    rcases List.mem_cons.1 hg with rfl | hg
    · exact h.1
    · exact ih h.2 hg

theorem Occ.ownVars {root : TE} (h : root.gram.OwnVars) {ρ : List TE} {t : TE} (ho : Occ root ρ t) : t.gram.OwnVars := by
  induction ho with
  | root => exact h
  | cat _ hm ih =>
    rw [TE.gram, Gram.OwnVars, TE.gramL_map] at ih
    exact Gram.OwnVarsL.mem ih (List.mem_map_of_mem hm)
  | alt _ hm ih =>
    rw [TE.gram, Gram.OwnVars, TE.gramL_map] at ih
    exact Gram.OwnVarsL.mem ih (List.mem_map_of_mem hm)
  | fix _ ih =>
    rw [TE.gram, Gram.OwnVars] at ih
    exact ih.2

/-- **C36** (criterion on the grammar). If no fix point mentions the parameter of a fix point around it, sharing cannot go
wrong: all that C30–C35, C55, C72, C76 and C77 say holds of the emitted parser. -/
theorem C36_own_variables (te : TE) (h : te.gram.OwnVars) : NoSharingConflict te := by
  intro ρ1 n1 b1 ρ2 n2 b2 h1 h2 he
  have := h1.ownVars h
  rw [TE.gram, Gram.OwnVars] at this
  exact same_of_closed he (freeVars_nil b1 1 this.1)

/-- **C36/C30.** So for such a grammar the emitted parser accepts exactly the language. -/
theorem C36_own_variables_accepts {e : NE} {te : TE} {s : BState} {id : Nat} (h : Compiled e te s id) (ho : te.gram.OwnVars)
    (text : List Char) : (∃ t, Parses s id text (.ok t)) ↔ te.gram.language text :=
  h.accepts (C36_own_variables te ho) text

private def oi : Info := ⟨none, 0⟩
private def ol (l : List Char) : NE := .lit oi l
private def omu (b : NE) : NE := .fix oi (.lam oi [.newVariable (.spanless "x")] b)
private def ocat (a : NE) (l : List NE) : NE := .cat oi a (l.map fun b => (0, b))
private def oalt (a : NE) (l : List NE) : NE := .alt oi a (l.map fun b => (0, b))
private def ocas : Casing := ⟨some, some⟩

/-- `!(/y/ "a" . y | "b")` -/
private def oInner : NE := omu (oalt (ocat (ol ['a']) [.var oi 0]) [ol ['b']])

/-- `!(/x/ "(" . x . !(/y/ "a" . y | "b") | "[" . !(/y/ "a" . y | "b") . "]")`: nested fix points, one of which occurs twice. -/
private def oNested : NE := omu (oalt (ocat (ol ['(']) [.var oi 0, oInner]) [ocat (ol ['[']) [oInner, ol [']']]])

/-- Non-vacuity: a grammar with nested and shared fix points, and a word of it. -/
example : ∃ te s id t, Compiled oNested te s id ∧ te.gram.OwnVars ∧ Parses s id "([b]ab".toList (.ok t) :=
  ⟨_, _, _, _, ⟨⟨8, rfl⟩, ocas, rfl⟩, by simp [TE.gram, TE.gramL, Gram.OwnVars, Gram.OwnVarsL, Gram.Below, Gram.BelowL], by simp, 40, rfl⟩

end Chomp
