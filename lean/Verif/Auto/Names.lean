import Verif.Auto.Model
import Verif.Ast.Provenance
import Verif.Props.Errors

/-!
# The names in what autonibble reads have no spans
-/

namespace Chomp

/-- A name without a span of its own. -/
def Name.Spanless (n : Name) : Prop := ∃ s, n.content = .spanless s

/-- A name that is an identifier of the source. -/
def Name.Spanned (n : Name) : Prop := ∃ r s p, n.content = .spanned r s p

theorem autoNames_spanless : ∀ (n : Nat) (t : Tree), sizeOf t < n → ∀ x ∈ autoNames t, ∃ s, x = .spanless s := by
  intro n
  induction n with
  | zero => intro t h; omega
  | succ n ih =>
    intro t h x hx
    unfold autoNames at hx
    split at hx
    · simp at hx; exact ⟨_, hx⟩
    · simp at hx; exact ⟨_, hx⟩
    · rcases List.mem_cons.1 hx with hx | hx
      · exact ⟨_, hx⟩
      · refine ih _ ?_ x hx
        simp at h; omega
    · simp at hx

theorem autoNames_spanless' (t : Tree) : ∀ x ∈ autoNames t, ∃ s, x = .spanless s := autoNames_spanless _ t (Nat.lt_succ_self _)

theorem autoVariable_spanless {t : Tree} {c c' : Ctx} {e : NE} (h : autoVariable t c = some (.ok e, c')) : e.AllNames Name.Spanless := by
  unfold autoVariable at h
  dsimp only at h
  split at h
  · cases h
  · cases h
    simp only [NE.AllNames, Option.mem_def, Option.some.injEq, forall_eq']
    exact ⟨_, rfl⟩

/-- What is shown of all the mutually recursive conversions. -/
structure AutoSpanless (n : Nat) : Prop where
  term : ∀ t c c' e, sizeOf t < n → autoTerm t c = some (.ok e, c') → e.AllNames Name.Spanless
  call : ∀ t c c' e, sizeOf t < n → autoCall t c = some (.ok e, c') → e.AllNames Name.Spanless
  args : ∀ t c c' e, sizeOf t < n → autoArgs t c = some (.ok e, c') → NE.AllNamesL Name.Spanless e
  cat : ∀ t c c' e, sizeOf t < n → autoCat t c = some (.ok e, c') → e.AllNames Name.Spanless
  calls : ∀ t c c' e, sizeOf t < n → autoCalls t c = some (.ok e, c') → NE.AllNamesP Name.Spanless e
  labelled : ∀ t c c' e, sizeOf t < n → autoLabelled t c = some (.ok e, c') → e.AllNames Name.Spanless
  alt : ∀ t c c' e, sizeOf t < n → autoAlt t c = some (.ok e, c') → e.AllNames Name.Spanless
  labelleds : ∀ t c c' e, sizeOf t < n → autoLabelleds t c = some (.ok e, c') → NE.AllNamesP Name.Spanless e
  expr : ∀ t c c' e, sizeOf t < n → autoExpr t c = some (.ok e, c') → e.AllNames Name.Spanless

theorem args_spanless (t : Tree) : ∀ n ∈ (autoNames t).map Name.newVariable, n.Spanless := by
  intro n hn
  rw [List.mem_map] at hn
  obtain ⟨x, hx, rfl⟩ := hn
  obtain ⟨s, rfl⟩ := autoNames_spanless' t x hx
  exact ⟨s, rfl⟩

theorem autoSpanless : ∀ n, AutoSpanless n := by
  intro n
  induction n with
  | zero => exact ⟨fun _ _ _ _ h => by omega, fun _ _ _ _ h => by omega, fun _ _ _ _ h => by omega, fun _ _ _ _ h => by omega,
      fun _ _ _ _ h => by omega, fun _ _ _ _ h => by omega, fun _ _ _ _ h => by omega, fun _ _ _ _ h => by omega, fun _ _ _ _ h => by omega⟩
  | succ n ih =>
    refine ⟨?_, ?_, ?_, ?_, ?_, ?_, ?_, ?_, ?_⟩
    · intro t c c' e hn h
      unfold autoTerm at h
      split at h
      · cases h; simp [NE.AllNames]
      · split at h
        · cases h
        · cases h; simp [NE.AllNames]
      · exact ih.expr _ _ _ _ (by simp at hn; omega) h
      · obtain ⟨a, c1, h1, h⟩ := Conv.bind_ok h
        cases h
        exact ⟨by simp, ih.term _ _ _ _ (by simp at hn; omega) h1⟩
      · exact autoVariable_spanless h
      · cases h
    · intro t c c' e hn h
      unfold autoCall at h
      split at h
      · obtain ⟨a, c1, h1, h⟩ := Conv.bind_ok h
        obtain ⟨b, c2, h2, h⟩ := Conv.bind_ok h
        have k1 := ih.term _ _ _ _ (by simp at hn; omega) h1
        have k2 := ih.args _ _ _ _ (by simp at hn; omega) h2
        split at h
        · cases h; exact k1
        · cases h; exact ⟨by simp, k1, k2⟩
      · cases h
    · intro t c c' e hn h
      unfold autoArgs at h
      split at h
      · cases h; trivial
      · cases h; trivial
      · obtain ⟨a, c1, h1, h⟩ := Conv.bind_ok h
        obtain ⟨b, c2, h2, h⟩ := Conv.bind_ok h
        cases h
        exact ⟨ih.term _ _ _ _ (by simp at hn; omega) h1, ih.args _ _ _ _ (by simp at hn; omega) h2⟩
      · cases h
    · intro t c c' e hn h
      unfold autoCat at h
      split at h
      · obtain ⟨a, c1, h1, h⟩ := Conv.bind_ok h
        obtain ⟨b, c2, h2, h⟩ := Conv.bind_ok h
        have k1 := ih.call _ _ _ _ (by simp at hn; omega) h1
        have k2 := ih.calls _ _ _ _ (by simp at hn; omega) h2
        split at h
        · cases h; exact k1
        · cases h; exact ⟨by simp, k1, k2⟩
      · cases h
    · intro t c c' e hn h
      unfold autoCalls at h
      split at h
      · cases h; trivial
      · obtain ⟨a, c1, h1, h⟩ := Conv.bind_ok h
        obtain ⟨b, c2, h2, h⟩ := Conv.bind_ok h
        cases h
        exact ⟨ih.call _ _ _ _ (by simp at hn; omega) h1, ih.calls _ _ _ _ (by simp at hn; omega) h2⟩
      · cases h
    · intro t c c' e hn h
      unfold autoLabelled at h
      split at h
      · obtain ⟨a, c1, h1, h⟩ := Conv.bind_ok h
        cases h
        have h1 := ih.cat _ _ _ _ (by simp at hn; omega) h1
        exact h1.setInfo (merge_mem (a := none) (by simp) h1.info)
      · obtain ⟨a, c1, h1, h⟩ := Conv.bind_ok h
        cases h
        have h1 := ih.cat _ _ _ _ (by simp at hn; omega) h1
        refine h1.setInfo (merge_mem ?_ h1.info)
        simp only [Option.mem_def, Option.some.injEq, forall_eq']
        exact ⟨_, rfl⟩
      · cases h
    · intro t c c' e hn h
      unfold autoAlt at h
      split at h
      · obtain ⟨a, c1, h1, h⟩ := Conv.bind_ok h
        obtain ⟨b, c2, h2, h⟩ := Conv.bind_ok h
        have k1 := ih.labelled _ _ _ _ (by simp at hn; omega) h1
        have k2 := ih.labelleds _ _ _ _ (by simp at hn; omega) h2
        split at h
        · cases h; exact k1
        · cases h; exact ⟨by simp, k1, k2⟩
      · cases h
    · intro t c c' e hn h
      unfold autoLabelleds at h
      split at h
      · cases h; trivial
      · obtain ⟨a, c1, h1, h⟩ := Conv.bind_ok h
        obtain ⟨b, c2, h2, h⟩ := Conv.bind_ok h
        cases h
        exact ⟨ih.labelled _ _ _ _ (by simp at hn; omega) h1, ih.labelleds _ _ _ _ (by simp at hn; omega) h2⟩
      · cases h
    · intro t c c' e hn h
      unfold autoExpr at h
      split at h
      · exact ih.alt _ _ _ _ (by simp at hn; omega) h
      · obtain ⟨a, c1, h1, h⟩ := Conv.bind_ok h
        cases h
        obtain ⟨d, d', h1⟩ := withVariables_ok h1
        exact ⟨by simp, args_spanless _, ih.alt _ _ _ _ (by simp at hn; omega) h1⟩
      · cases h

theorem autoExpr_spanless {t : Tree} {c c' : Ctx} {e : NE} (h : autoExpr t c = some (.ok e, c')) : e.AllNames Name.Spanless :=
  (autoSpanless _).expr t c c' e (Nat.lt_succ_self _) h

theorem autoStmt_spanless : ∀ (n : Nat) (t : Tree) (c c' : Ctx) (e : NE), sizeOf t < n → autoStmt t c = some (.ok e, c') →
    e.AllNames Name.Spanless := by
  intro n
  induction n with
  | zero => intro t c c' e h; omega
  | succ n ih =>
    intro t c c' e hn h
    unfold autoStmt at h
    split at h
    · rename_i names _ _ x _ _ s
      split at h
      · cases h
      · rename_i y args hy
        have hns := autoNames_spanless' names
        rw [hy] at hns
        obtain ⟨a, c1, h1, h⟩ := Conv.bind_ok h
        obtain ⟨b, c2, h2, h⟩ := Conv.bind_ok h
        cases h
        have hy : (Name.newLet y).Spanless := hns y (by simp)
        refine ⟨by simp, hy, NE.AllNames.setName ?_ ?_, ih _ _ _ _ (by simp at hn; omega) h2⟩
        · unfold autoBound at h1
          split at h1
          · exact autoExpr_spanless h1
          · obtain ⟨z, d1, h3, h1⟩ := Conv.bind_ok h1
            cases h1
            obtain ⟨d2, d3, h4⟩ := withVariables_ok h3
            refine ⟨by simp, fun m hm => ?_, autoExpr_spanless h4⟩
            rw [List.mem_map] at hm
            obtain ⟨w, hw, rfl⟩ := hm
            exact hns w (by simp [hw])
        · simp only [Option.mem_def, Option.some.injEq, forall_eq']
          exact hy
    · exact autoExpr_spanless h
    · cases h

theorem autoAst_spanless : ∀ (n : Nat) (t : Tree) (c c' : Ctx) (e : NE), sizeOf t < n → autoAst t c = some (.ok e, c') →
    e.AllNames Name.Spanless := by
  intro n
  induction n with
  | zero => intro t c c' e h; omega
  | succ n ih =>
    intro t c c' e hn h
    unfold autoAst at h
    split at h
    · exact ih _ _ _ _ (by simp at hn; omega) h
    · exact autoStmt_spanless _ _ _ _ _ (Nat.lt_succ_self _) h
    · cases h

end Chomp
