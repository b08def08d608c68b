import Verif.Grammars.TestTyped
import Verif.Props.Driver

/-!
# The test grammars, compiled by the model in the kernel

`progCheck` is the part of the work the kernel does after type inference; `Builds` is what follows from it.
-/

namespace Chomp

mutual
/-- Equality of grammars, as a program. -/
def Gram.same : Gram → Gram → Bool
  | .eps, .eps => true
  | .lit s, .lit t => s == t
  | .cat l, .cat m => Gram.sameL l m
  | .alt l, .alt m => Gram.sameL l m
  | .fix b, .fix c => b.same c
  | .var k, .var j => k == j
  | _, _ => false
def Gram.sameL : List Gram → List Gram → Bool
  | [], [] => true
  | a :: l, b :: m => a.same b && Gram.sameL l m
  | _, _ => false
end

mutual
theorem Gram.same_eq : ∀ a b : Gram, a.same b = true → a = b
  | .eps, b, h => by cases b <;> simp [Gram.same] at h; rfl
  | .lit s, b, h => by cases b <;> simp [Gram.same] at h; rw [h]
  | .cat l, b, h => by cases b <;> simp only [Gram.same, Bool.false_eq_true] at h; rw [Gram.sameL_eq _ _ h]
  | .alt l, b, h => by cases b <;> simp only [Gram.same, Bool.false_eq_true] at h; rw [Gram.sameL_eq _ _ h]
  | .fix c, b, h => by cases b <;> simp only [Gram.same, Bool.false_eq_true] at h; rw [Gram.same_eq _ _ h]
  | .var k, b, h => by cases b <;> simp [Gram.same] at h; rw [h]
theorem Gram.sameL_eq : ∀ a b : List Gram, Gram.sameL a b = true → a = b
  | [], b, h => by cases b <;> simp [Gram.sameL] at h; rfl
  | x :: l, b, h => by
    cases b <;> simp only [Gram.sameL, Bool.false_eq_true, Bool.and_eq_true] at h
    rw [Gram.same_eq _ _ h.1, Gram.sameL_eq _ _ h.2]
end

/-- What the compiler makes of a grammar is a program that compiles and whose parser accepts exactly the texts of `L`. -/
def Builds (text : List Char) (L : Lang) : Prop :=
  ∃ fuel te id st out, compileText heckCasing fuel text = some (te, id, st, out) ∧ (st.program none id out).Compiles ∧
    ∀ input, (∃ v, (st.program none id out).Parses input (.ok v)) ↔ L input

/-- The computations of the back end behind `Builds`. -/
def progCheck (fuel : Nat) (te : TE) (g : Gram) : Bool :=
  match gen heckCasing te {} with
  | .ok (id, st) => match st.emitIds fuel id with
    | some (.ok out) => te.shareSafe && te.gram.same g && decide ((st.program none id out).map RItem.name).Nodup &&
      (st.program none id out).all fun it => decide it.parts.Nodup
    | _ => false
  | .error _ => false

theorem convText_some {text : List Char} {e : NE} (h : convText text = some e) :
    ∃ ts s c, lex text = .ok ts ∧ parseProgram ts = .ok s ∧ convStmt s [] = some (.ok e, c) := by
  unfold convText at h
  split at h
  · rename_i ts hl
    obtain ⟨s, c, hs, hc⟩ := convProgram_some h
    exact ⟨ts, s, c, hl, hs, hc⟩
  · cases h

theorem builds_of_stages {fuel : Nat} {text : List Char} {e r : NE} {te : TE} {g : Gram} (h1 : convText text = some e)
    (h2 : reduce fuel e = .ok r) (h3 : inferTop fuel r ⟨[], []⟩ = (.ok te, ⟨[], []⟩)) (h4 : progCheck fuel te g = true) :
    Builds text g.language := by
  obtain ⟨ts, s, c, hl, hs, hc⟩ := convText_some h1
  unfold progCheck at h4
  split at h4
  · rename_i id st hg
    split at h4
    · rename_i out he
      simp only [Bool.and_eq_true, decide_eq_true_eq, List.all_eq_true] at h4
      obtain ⟨⟨⟨h4, h5⟩, h6⟩, h7⟩ := h4
      have hgr := Gram.same_eq _ _ h5
      have hcomp : compile heckCasing fuel s = .ok te id st out := by
        unfold compile
        simp only [hc, h2, h3, hg, he]
      have hct : compileText heckCasing fuel text = some (te, id, st, out) := by
        unfold compileText
        simp only [hl, hs, hcomp]
      rw [compile_eq] at hcomp
      obtain ⟨_, _, e', -, -, hE⟩ := backEnd_ok hcomp
      have hC : (st.program none id out).Compiles := (C63_compiles_iff hE).2 ⟨h6, h7⟩
      obtain ⟨g', hg', hl⟩ := C64_accepts_language hE hC (TE.shareSafe_sound h4)
      rw [hE.compiled.grammar, hgr] at hg'
      cases hg'
      exact ⟨fuel, te, id, st, out, hct, hC, hl⟩
    · cases h4
  · cases h4

/-- The same in one go, for small grammars. -/
def buildCheck (fuel : Nat) (text : List Char) (g : Gram) : Bool :=
  match convText text with
  | some e => match reduce fuel e with
    | .ok r => match inferTop fuel r ⟨[], []⟩ with
      | (.ok te, ⟨[], []⟩) => progCheck fuel te g
      | _ => false
    | _ => false
  | none => false

theorem builds_of_check {fuel : Nat} {text : List Char} {g : Gram} (h : buildCheck fuel text g = true) : Builds text g.language := by
  unfold buildCheck at h
  split at h
  · rename_i h1
    split at h
    · rename_i h2
      split at h
      · rename_i h3
        exact builds_of_stages h1 h2 h3 h
      · cases h
    · cases h
  · cases h

/-! ## The grammars -/

def optG (g : Gram) : Gram := .alt [.eps, g]
/-- `!(/rec/ x . opt rec)`, for closed `x` -/
def plusG (g : Gram) : Gram := .fix (.cat [g, optG (.var 0)])
/-- `!(/star/ opt (x . star))`, for closed `x` -/
def starG (g : Gram) : Gram := .fix (optG (.cat [g, .var 0]))
/-- `x | y | …` for characters -/
def charsG (l : List Char) : List Gram := l.map fun c => .lit [c]

def sheepGram : Gram := .cat [.lit ['b', 'a'], plusG (.lit ['a'])]
def ratataGram : Gram := plusG (.cat [.alt (charsG ['r', 't']), .lit ['a']])
def regexGram : Gram := .cat [plusG (.lit ['a']), starG (.lit ['b'])]
def regexFixGram : Gram := .fix (.cat [.lit ['a'], optG (.cat [.lit ['.'], starG (.lit [' ']), .var 0])])

def xidStart : List Char := "abcdefghijklmnopqrstuvwxyzABCDEFGHIJKLMNOPQRSTUVWXYZ".toList
def xidOther : List Char := "_0123456789".toList
def startG : Gram := .alt (charsG xidStart)
def continueG : Gram := .alt (startG :: charsG xidOther)
def wsG : Gram := starG (.alt (charsG ['\n', ' ']))
def identG : Gram := .cat [startG, starG continueG]
def literalG : Gram := .cat [.lit ['"'], plusG continueG, .lit ['"']]
def parensG (expr : Gram) : Gram := .cat [.lit ['('], wsG, expr, .lit [')']]
def argsG (expr : Nat) : Gram := .fix (.cat [.var (expr + 1), optG (.cat [.lit [','], wsG, optG (.var 0)])])
def termG (expr : Nat) : Gram := .alt [
  .cat [.lit ['_'], wsG],
  .cat [literalG, wsG],
  .cat [parensG (.var expr), wsG],
  .cat [.cat [.lit ['['], wsG, identG, wsG, .lit [']'], wsG, parensG (.var expr)], wsG],
  .cat [identG, wsG, optG (.cat [.cat [.lit ['('], wsG, argsG expr, .lit [')']], wsG])]]
def catG (expr : Nat) : Gram := .fix (.cat [termG (expr + 1), optG (.cat [.lit ['.'], wsG, .var 0])])
def altG (expr : Nat) : Gram := .fix (.cat [catG (expr + 1), optG (.cat [.lit ['|'], wsG, .var 0])])
def nibbleExpGram : Gram := .fix (altG 0)

theorem sheep_builds : Builds sheepText sheepGram.language := builds_of_check (fuel := 400) (by decide +kernel)
theorem ratata_builds : Builds ratataText ratataGram.language := builds_of_check (fuel := 400) (by decide +kernel)
theorem regex_builds : Builds regexText regexGram.language := builds_of_check (fuel := 400) (by decide +kernel)
theorem regexFix_builds : Builds regexFixText regexFixGram.language := builds_of_check (fuel := 400) (by decide +kernel)

set_option maxRecDepth 100000 in
theorem nibbleExp_prog : progCheck 118 nexpTyped4_0 nibbleExpGram = true := by decide +kernel
theorem nibbleExp_builds : Builds nibbleExpText nibbleExpGram.language :=
  builds_of_stages nexp_converted nexp_reduced nexp_typed nibbleExp_prog

end Chomp
