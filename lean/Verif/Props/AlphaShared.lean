import Verif.Props.Alpha
import Verif.Props.EndToEnd

/-! # C73: where renaming does change the parser

The condition on sharing in `C73_same_texts` is needed: fix points are shared if their bodies are equal *including the names in
them*, so giving two variables the same name can make the code generator confuse them (C36). -/

namespace Chomp

private def gid (s : String) : Ident := ⟨false, s, 0⟩
private def gv (s : String) : Call := .mk 0 [.ident (gid s)]
private def gl (s : String) : Call := .mk 0 [.lit 0 s.toList]
private def gcat (l : List Call) : Labelled := .mk 0 (.mk 0 (l.map fun c => (c, 0))) none
private def galt (l : List Labelled) : Alt := .mk 0 (l.map fun c => (c, 0))
private def gmu (x : String) (a : Alt) : Call := .mk 0 [.fix 0 (.parens (.lam 0 [gid x] a))]
private def ginner (x : String) : Call := gmu "i" (galt [gcat [gl "y", gv "i"], gcat [gl "z"], gcat [gv x]])

/-- `match !(/a/ "x" . !(/i/ "y" . i | "z" | a) . "1") . !(/b/ "x" . !(/i/ "y" . i | "z" | b) . "2");` with the given name in place
of `b`. -/
private def gprog (b : String) : Stmt :=
  .goal 0 (.alt (galt [gcat [gmu "a" (galt [gcat [gl "x", ginner "a", gl "1"]]), gmu b (galt [gcat [gl "x", ginner b, gl "2"]])]]))

/-- **C73** (the condition on sharing is needed). Two programs that differ only in the name of one parameter, consistently renamed
from `b` to `a`, and that are both accepted, with the same grammar: the parser of the first accepts `xz1xxz22`, which is in the
language, and not `xz1xxz12`, which is not; with the parser of the second it is the other way around. -/
theorem C73_renaming_changes_parser : ∃ s s' cas fuel te te' id id' b b' out out', s.Alpha s' ∧
    compile cas fuel s = .ok te id b out ∧ compile cas fuel s' = .ok te' id' b' out' ∧ te.gram = te'.gram ∧
    te.gram.language "xz1xxz22".toList ∧ ¬ te.gram.language "xz1xxz12".toList ∧
    ((∃ t, Parses b id "xz1xxz22".toList (.ok t)) ∧ ¬ ∃ t, Parses b id "xz1xxz12".toList (.ok t)) ∧
    (¬ ∃ t, Parses b' id' "xz1xxz22".toList (.ok t)) ∧ ∃ t, Parses b' id' "xz1xxz12".toList (.ok t) := by
  have h2 : ∀ {te id b out}, compile ⟨some, some⟩ 20 (gprog "b") = .ok te id b out → Ann [] 0 te := by
    intro te id b out h
    obtain ⟨_, _, _, _, _, h, _⟩ := compile_ok h
    exact h.ann
  refine ⟨gprog "b", gprog "a", ⟨some, some⟩, 20, _, _, _, _, _, _, _, _, ?_, rfl, rfl, rfl, takeR_language (n := 40) rfl rfl, ?_, ⟨⟨_, by simp, 40, rfl⟩, ?_⟩, ?_, ⟨_, by simp, 40, rfl⟩⟩
  · rw [C73_alpha_iff _ _ _ _ _ _ rfl rfl]
    rfl
  · exact takeR_not_language (n := 40) (h2 rfl) rfl
  · exact Parses.not_ok (err := .take (.badString ⟨1, 6⟩ ['1'] ['2'])) ⟨by simp, 40, rfl⟩
  · exact Parses.not_ok (err := .take (.badString ⟨1, 6⟩ ['2'] ['1'])) ⟨by simp, 40, rfl⟩

end Chomp
