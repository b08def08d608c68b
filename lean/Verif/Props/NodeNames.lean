import Verif.Props.Nibble

/-!
# C52: which name a converted or reduced expression carries

Names become the names of the generated types, fields and variants, so users rely on them.
-/

namespace Chomp

/-- Equality of conversion contexts and results inverted. -/
theorem Conv.bind_ok {α β : Type} {x : Conv α} {f : α → Ctx → Conv β} {b : β} {c : Ctx}
    (h : x.bind f = some (.ok b, c)) : ∃ a c', x = some (.ok a, c') ∧ f a c' = some (.ok b, c) := by
  unfold Conv.bind at h
  split at h
  · exact ⟨_, _, rfl, h⟩
  · cases h
  · cases h

@[simp] theorem NE.setInfo_info (i : Info) (e : NE) : (e.setInfo i).info = i := by cases e <;> rfl

theorem merge_label_left (l : Content) (x : Option Name) :
    Name.merge (some (.newLabel l)) x = some (.newLabel l) := by
  cases x with
  | none => rfl
  | some y => obtain ⟨c, k⟩ := y; cases k <;> rfl

/-- **C52.** A labelled concatenation carries its label as name, whatever it contains; without a
label it carries the name of the concatenation. -/
theorem C52_label_names (sp : Nat) (cat : Cat) (c c' : Ctx) (e : NE) :
    (∀ l, convLabelled (.mk sp cat (some l)) c = some (.ok e, c') → e.info.name = some (.newLabel l.content)) ∧
    (convLabelled (.mk sp cat none) c = some (.ok e, c') →
      ∃ e', convCat cat c = some (.ok e', c') ∧ e.info.name = e'.info.name) := by
  constructor
  · intro l h
    rw [convLabelled] at h
    obtain ⟨a, c1, h1, h2⟩ := Conv.bind_ok h
    simp only [Option.some.injEq, Prod.mk.injEq, Except.ok.injEq] at h2
    rw [← h2.1]
    simp [merge_label_left]
  · intro h
    rw [convLabelled] at h
    obtain ⟨a, c1, h1, h2⟩ := Conv.bind_ok h
    simp only [Option.some.injEq, Prod.mk.injEq, Except.ok.injEq] at h2
    exact ⟨a, h2.2 ▸ h1, by rw [← h2.1]; simp [Name.merge]⟩

example : ∃ e, convLabelled (.mk 0 (.mk 0 [(.mk 0 [.ident ⟨false, "x", 1⟩], 0)]) (some ⟨false, "lbl", 2⟩))
    [.spanless "x"] = some (.ok e, [.spanless "x"]) := ⟨_, rfl⟩

/-- **C52.** In a let statement the bound expression carries exactly the name of the let. -/
theorem C52_let_names (sp : Nat) (x : Ident) (args : List Ident) (b : Expr) (next : Stmt) (c c' : Ctx) (e : NE)
    (h : convStmt (.letS sp x args b next) c = some (.ok e, c')) :
    ∃ bound body, e = .letE ⟨none, sp⟩ (.newLet x.content) bound body ∧
      bound.info.name = some (.newLet x.content) := by
  rw [convStmt] at h
  obtain ⟨a, c1, _, h⟩ := Conv.bind_ok h
  obtain ⟨d, c2, _, h⟩ := Conv.bind_ok h
  simp only [Option.some.injEq, Prod.mk.injEq, Except.ok.injEq] at h
  exact ⟨a.setName (some (.newLet x.content)), d, h.1.symm, by simp [NE.setName]⟩

/-- **C52.** The goal is named `Ast` unless its expression has a name of its own. -/
theorem C52_goal_names (sp : Nat) (x : Expr) (c c' : Ctx) (e : NE)
    (h : convStmt (.goal sp x) c = some (.ok e, c')) :
    ∃ e', convExpr x c = some (.ok e', c') ∧ e.erase = e'.erase ∧
      e.info.name = some (e'.info.name.getD (.newVariable (.spanless "Ast"))) := by
  rw [convStmt] at h
  obtain ⟨a, c1, h1, h⟩ := Conv.bind_ok h
  simp only [Option.some.injEq, Prod.mk.injEq, Except.ok.injEq] at h
  refine ⟨a, h.2 ▸ h1, by rw [← h.1]; simp, ?_⟩
  rw [← h.1]
  simp only [NE.setInfo_info]
  cases a.info.name with
  | none => rfl
  | some n => obtain ⟨n, k⟩ := n; cases k <;> rfl

example : ∃ e c, convStmt exShadow [] = some (.ok e, c) := ⟨_, _, rfl⟩

/-- **C52.** A label survives reduction: if an expression (other than a let, which the front end never
labels) is labelled, what it reduces to carries the same label. -/
theorem C52_label_survives_reduction (n : Nat) (e e' : NE) (l : Content)
    (hl : e.info.name = some (.newLabel l)) (hlet : ∀ i x b c, e ≠ .letE i x b c)
    (h : reduce n e = .ok e') : e'.info.name = some (.newLabel l) := by
  cases n with
  | zero => cases h
  | succ n =>
    cases e with
    | eps i => rw [reduce] at h; cases h; exact hl
    | lit i s => rw [reduce] at h; cases h; exact hl
    | var i k => rw [reduce] at h; cases h; exact hl
    | lam i a b => rw [reduce] at h; cases h; exact hl
    | letE i x b c => exact absurd rfl (hlet i x b c)
    | cat i f r =>
      rw [reduce] at h
      obtain ⟨f', _, h⟩ := Out.bind_ok h
      obtain ⟨r', _, h⟩ := Out.bind_ok h
      cases h; exact hl
    | alt i f r =>
      rw [reduce] at h
      obtain ⟨f', _, h⟩ := Out.bind_ok h
      obtain ⟨r', _, h⟩ := Out.bind_ok h
      cases h; exact hl
    | fix i b =>
      rw [reduce] at h
      obtain ⟨b', _, h⟩ := Out.bind_ok h
      cases b' with
      | lam j a c =>
        obtain ⟨c', _, h⟩ := Out.bind_ok h
        cases h; exact hl
      | _ => cases h; exact hl
    | call i o a =>
      rw [reduce] at h
      obtain ⟨o', _, h⟩ := Out.bind_ok h
      cases o' with
      | lam j ps b =>
        simp only at h
        split at h
        · cases h
        · obtain ⟨x, _, h⟩ := Out.bind_ok h
          obtain ⟨y, _, h⟩ := Out.bind_ok h
          cases h
          have : i.name = some (.newLabel l) := hl
          simp only [NE.setInfo_info, Name.mergeAll, List.foldl, this]
          rw [show Name.merge none (some (.newLabel l)) = some (.newLabel l) from rfl, merge_label_left,
            merge_label_left]
      | _ => cases h

example : ∃ e', reduce 9 (exCall.setInfo ⟨some (.newLabel (.spanless "l")), 3⟩) = .ok e' ∧
    e'.info.name = some (.newLabel (.spanless "l")) := ⟨_, rfl, rfl⟩

end Chomp
