import Verif.Nibble.Lemmas

/-! Lemmas about the conversion of whole programs and the meaning of converted expressions. -/

namespace Chomp

theorem mkLam_free (c : Ctx) (ps : List Ident) (n : NCore) :
    (NCore.mkLam ps n).free c = n.free (c ++ ps.map Ident.content) := by
  cases ps <;> simp [NCore.mkLam, NCore.free]

theorem conv_bound (sp : Nat) (args : List Ident) (e : Expr) (c : Ctx) :
    Good (convBound sp args e c) c ((flatExpr e).map (NCore.mkLam args)) := by
  cases args with
  | nil =>
    have : NCore.mkLam [] = id := by funext x; rfl
    rw [convBound, this, Option.map_id]
    exact conv_expr e c
  | cons a args =>
    have : NCore.mkLam (a :: args) = NCore.lam (a :: args) := by funext x; rfl
    rw [convBound, this]
    exact good_withVariables c (a :: args) (convExpr e) (flatExpr e) sp (conv_expr e _)
    simp

/-- What converting a program must do in context `c`. -/
def GoodStmt (x : Conv NE) (c : Ctx) (lets : List Content) (f : Option NCore) : Prop :=
  match f with
  | none => ∃ e, ∃ k, x = some (.error e, c ++ lets.take k)
  | some n =>
    match n.free c with
    | [] => ∃ ne, x = some (.ok ne, c ++ lets) ∧ ne.erase = n.core c
    | i :: _ => ∃ k, x = some (.error (.undeclaredName (.newVariable i.content)), c ++ lets.take k)

theorem conv_stmt : ∀ (s : Stmt) (c : Ctx), GoodStmt (convStmt s c) c s.lets (flatStmt s)
  | .goal sp e, c => by
    have h := conv_expr e c
    rw [convStmt, flatStmt]
    simp only [Stmt.lets]
    cases hf : flatExpr e with
    | none =>
      rw [hf] at h
      obtain ⟨x, hx⟩ := h
      exact ⟨x, 0, by rw [hx]; simp [Conv.bind]⟩
    | some n =>
      rw [hf] at h
      simp only [Good, GoodStmt] at h ⊢
      cases hn : n.free c with
      | cons i l => rw [hn] at h; exact ⟨0, by simp [h, Conv.bind]⟩
      | nil =>
        rw [hn] at h
        obtain ⟨ne, h1, h2⟩ := h
        exact ⟨_, by simp only [h1, Conv.bind, List.append_nil]; rfl, by simp [h2]⟩
  | .letS sp x args e next, c => by
    have h1 := conv_bound sp args e c
    have h2 := conv_stmt next (c ++ [x.content])
    rw [convStmt, flatStmt]
    simp only [Stmt.lets]
    have hp : c.push (Name.newLet x.content) = c ++ [x.content] := rfl
    cases hf : flatExpr e with
    | none =>
      rw [hf] at h1
      obtain ⟨er, he⟩ := h1
      exact ⟨er, 0, by rw [he]; simp [Conv.bind]⟩
    | some b =>
      rw [hf] at h1
      simp only [Option.map_some, Good] at h1
      simp only [Option.bind_some]
      cases hb : (NCore.mkLam args b).free c with
      | cons i l =>
        rw [hb] at h1
        cases hg : flatStmt next with
        | none => exact ⟨.undeclaredName (.newVariable i.content), 0, by simp only [h1, Conv.bind, List.take_zero, List.append_nil]⟩
        | some n =>
          simp only [Option.map_some, GoodStmt, NCore.free, hb, List.cons_append]
          exact ⟨0, by simp [h1, Conv.bind]⟩
      | nil =>
        rw [hb] at h1
        obtain ⟨bne, h3, h4⟩ := h1
        simp only [h3, Conv.bind, hp]
        cases hg : flatStmt next with
        | none =>
          rw [hg] at h2
          obtain ⟨er, k, he⟩ := h2
          exact ⟨er, k + 1, by simp [he]⟩
        | some n =>
          rw [hg] at h2
          simp only [GoodStmt] at h2
          simp only [Option.map_some, GoodStmt, NCore.free, hb, List.nil_append]
          cases hn : n.free (c ++ [x.content]) with
          | cons i l =>
            rw [hn] at h2
            obtain ⟨k, hk⟩ := h2
            exact ⟨k + 1, by simp [hk]⟩
          | nil =>
            rw [hn] at h2
            obtain ⟨ne, h5, h6⟩ := h2
            refine ⟨.letE ⟨none, sp⟩ (Name.newLet x.content) (bne.setName (some (Name.newLet x.content))) ne,
              by simp [h5], ?_⟩
            simp [NE.erase, NCore.core, h4, h6]

theorem findIdx_lt {α : Type} {p : α → Bool} : ∀ {l : List α} {k : Nat}, findIdx p l = some k → k < l.length
  | [], _, h => by simp [findIdx] at h
  | a :: l, k, h => by
    simp only [findIdx] at h
    split at h
    · simp only [Option.some.injEq] at h; subst h; simp
    · simp only [Option.map_eq_some_iff] at h
      obtain ⟨j, h1, rfl⟩ := h
      have := findIdx_lt h1
      simp; omega

theorem findIdx_some {α : Type} {p : α → Bool} : ∀ {l : List α} {k : Nat}, findIdx p l = some k ↔
    (∃ a, l[k]? = some a ∧ p a = true) ∧ ∀ j < k, ∀ a, l[j]? = some a → p a = false
  | [], k => by simp [findIdx]
  | a :: l, k => by
    simp only [findIdx]
    by_cases ha : p a = true
    · simp only [ha, if_true, Option.some.injEq]
      constructor
      · rintro rfl; simp [ha]
      · rintro ⟨_, h⟩
        cases k with
        | zero => rfl
        | succ k => have := h 0 (by omega) a (by simp); simp [ha] at this
    · rw [if_neg ha, Option.map_eq_some_iff]
      cases k with
      | zero => simp [ha]
      | succ k =>
        simp only [List.getElem?_cons_succ]
        have ih := findIdx_some (p := p) (l := l) (k := k)
        constructor
        · rintro ⟨j, h1, h2⟩
          have : j = k := by omega
          subst this
          obtain ⟨h3, h4⟩ := ih.1 h1
          refine ⟨h3, ?_⟩
          intro i hi b hb
          cases i with
          | zero => simp only [List.getElem?_cons_zero, Option.some.injEq] at hb; subst hb; simpa using ha
          | succ i => exact h4 i (by omega) b (by simpa using hb)
        · rintro ⟨h3, h4⟩
          refine ⟨k, ih.2 ⟨h3, ?_⟩, rfl⟩
          intro i hi b hb
          exact h4 (i + 1) (by omega) b (by simpa using hb)

/-- Induction principle for `NCore`. -/
theorem NCore.ind {P : NCore → Prop} (eps : P .eps) (lit : ∀ s, P (.lit s))
    (cat : ∀ l, (∀ e ∈ l, P e) → P (.cat l)) (alt : ∀ l, (∀ e ∈ l, P e) → P (.alt l))
    (fix : ∀ b, P b → P (.fix b)) (id : ∀ i, P (.id i))
    (call : ∀ o a, P o → (∀ e ∈ a, P e) → P (.call o a)) (lam : ∀ n b, P b → P (.lam n b))
    (letE : ∀ x b c, P b → P c → P (.letE x b c)) (e : NCore) : P e :=
  NCore.rec (motive_1 := P) (motive_2 := fun l => ∀ e ∈ l, P e)
    eps lit cat alt fix id call lam letE (by simp) (by
      intro h t hh ht e he
      rcases List.mem_cons.1 he with rfl | he
      · exact hh
      · exact ht e he) e

theorem freeL_nil {c : Ctx} : ∀ {l : List NCore}, NCore.freeL c l = [] → ∀ e ∈ l, e.free c = []
  | [], _ => by simp
  | x :: l, h => by
    simp only [NCore.freeL, List.append_eq_nil_iff] at h
    intro e he
    rcases List.mem_cons.1 he with rfl | he
    · exact h.1
    · exact freeL_nil h.2 e he

theorem lookup_of_free {c : Ctx} {i : Ident} (h : (NCore.id i).free c = []) :
    ∃ k, c.lookup (.newVariable i.content) = some k ∧ k < c.length := by
  cases hl : c.lookup (.newVariable i.content) with
  | none =>
    rw [lookup_none] at hl
    simp [NCore.free, Name.newVariable] at h hl
    obtain ⟨x, h1, h2⟩ := h
    simp [hl x h1] at h2
  | some k =>
    refine ⟨k, rfl, ?_⟩
    have := findIdx_lt hl
    simpa using this

theorem core_closed (n : NCore) : ∀ c : Ctx, n.free c = [] → (n.core c).closed c.length := by
  have hL : ∀ (c : Ctx) (l : List NCore), (∀ e ∈ l, ∀ c : Ctx, e.free c = [] → (e.core c).closed c.length) →
      NCore.freeL c l = [] → Core.closedL c.length (NCore.coreL c l) := by
    intro c l
    induction l with
    | nil => intros; trivial
    | cons a l ih =>
      intro h1 h2
      simp only [NCore.freeL, List.append_eq_nil_iff] at h2
      exact ⟨h1 a (by simp) c h2.1, ih (fun e he => h1 e (by simp [he])) h2.2⟩
  induction n using NCore.ind with
  | eps => intros; trivial
  | lit s => intros; trivial
  | cat l ih => intro c h; exact hL c l ih h
  | alt l ih => intro c h; exact hL c l ih h
  | fix b ih => intro c h; exact ih c h
  | id i =>
    intro c h
    obtain ⟨k, h1, h2⟩ := lookup_of_free h
    simpa [NCore.core, Core.closed, h1] using h2
  | call o a ih1 ih2 =>
    intro c h
    simp only [NCore.free, List.append_eq_nil_iff] at h
    exact ⟨ih1 c h.1, hL c a ih2 h.2⟩
  | lam ps b ih =>
    intro c h
    simpa [NCore.core, Core.closed] using ih _ h
  | letE x b d ih1 ih2 =>
    intro c h
    simp only [NCore.free, List.append_eq_nil_iff] at h
    exact ⟨ih1 c h.1, by simpa using ih2 _ h.2⟩

theorem lookupEnv_eq {D : Type} (dflt : D) (i : Ident) : ∀ (env : List (Content × D)) (k : Nat),
    findIdx (fun m : Content => m.eqv i.content) (env.map (·.1)) = some k →
    ∃ x, env[k]? = some x ∧ lookupEnv dflt env i = x.2
  | [], k, h => by simp [findIdx] at h
  | (y, d) :: env, k, h => by
    simp only [List.map_cons, findIdx] at h
    simp only [lookupEnv]
    split at h
    · simp only [Option.some.injEq] at h; subst h; rename_i hy; simp [hy]
    · rename_i hy
      simp only [Option.map_eq_some_iff] at h
      obtain ⟨j, h1, rfl⟩ := h
      obtain ⟨x, h2, h3⟩ := lookupEnv_eq dflt i env j h1
      exact ⟨x, by simpa using h2, by simp [hy, h3]⟩

theorem core_eval {D : Type} (A : Alg D) (dflt : D) (n : NCore) :
    ∀ (c : Ctx) (env : List (Content × D)) (ρ : Nat → D), n.free c = [] → env.map (·.1) = c.reverse →
      (∀ (i : Nat) (x : Content × D), env[i]? = some x → ρ i = x.2) →
      (n.core c).eval A ρ = n.eval A dflt env := by
  have hL : ∀ (l : List NCore), (∀ e ∈ l, ∀ (c : Ctx) (env : List (Content × D)) (ρ : Nat → D),
      e.free c = [] → env.map (·.1) = c.reverse →
      (∀ (i : Nat) (x : Content × D), env[i]? = some x → ρ i = x.2) → (e.core c).eval A ρ = e.eval A dflt env) →
      ∀ (c : Ctx) (env : List (Content × D)) (ρ : Nat → D), NCore.freeL c l = [] → env.map (·.1) = c.reverse →
      (∀ (i : Nat) (x : Content × D), env[i]? = some x → ρ i = x.2) →
      Core.evalL A (NCore.coreL c l) ρ = NCore.evalL A dflt l env := by
    intro l
    induction l with
    | nil => intros; rfl
    | cons a l ih =>
      intro h1 c env ρ h2 h3 h4
      simp only [NCore.freeL, List.append_eq_nil_iff] at h2
      simp only [NCore.coreL, Core.evalL, NCore.evalL, h1 a (by simp) c env ρ h2.1 h3 h4,
        ih (fun e he => h1 e (by simp [he])) c env ρ h2.2 h3 h4]
  induction n using NCore.ind with
  | eps => intros; rfl
  | lit s => intros; rfl
  | cat l ih => intro c env ρ h1 h2 h3; simp only [NCore.core, Core.eval, NCore.eval, hL l ih c env ρ h1 h2 h3]
  | alt l ih => intro c env ρ h1 h2 h3; simp only [NCore.core, Core.eval, NCore.eval, hL l ih c env ρ h1 h2 h3]
  | fix b ih => intro c env ρ h1 h2 h3; simp only [NCore.core, Core.eval, NCore.eval, ih c env ρ h1 h2 h3]
  | id i =>
    intro c env ρ h1 h2 h3
    obtain ⟨k, h4, h5⟩ := lookup_of_free h1
    have h6 := h4
    rw [Ctx.lookup, ← h2] at h6
    obtain ⟨x, h7, h8⟩ := lookupEnv_eq dflt i env k h6
    simp only [NCore.core, Core.eval, NCore.eval, h4, Option.getD_some, h8, h3 k x h7]
  | call o a ih1 ih2 =>
    intro c env ρ h1 h2 h3
    simp only [NCore.free, List.append_eq_nil_iff] at h1
    simp only [NCore.core, Core.eval, NCore.eval, ih1 c env ρ h1.1 h2 h3, hL a ih2 c env ρ h1.2 h2 h3]
  | lam ps b ih =>
    intro c env ρ h1 h2 h3
    simp only [NCore.core, Core.eval, NCore.eval]
    congr 1
    funext ds
    refine ih _ _ _ h1 ?_ ?_
    · simp only [List.map_append, List.map_reverse, List.map_map, h2, List.reverse_append]
      congr 2
      refine List.ext_getElem? ?_
      intro i
      simp [List.getElem?_zipIdx]
      cases ps[i]? <;> rfl
    · intro i x hx
      by_cases hi : i < ps.length
      · rw [List.getElem?_append_left (by simpa using hi), List.getElem?_reverse (by simpa using hi)] at hx
        simp only [List.getElem?_map, List.getElem?_zipIdx, List.length_map, List.length_zipIdx,
          Option.map_eq_some_iff] at hx
        obtain ⟨y, ⟨z, hz, rfl⟩, rfl⟩ := hx
        simp [bindArgs, hi]
        intro h; omega
      · rw [List.getElem?_append_right (by simpa using Nat.le_of_not_lt hi)] at hx
        simp only [bindArgs, hi, dif_neg, not_false_eq_true]
        exact h3 _ x (by simpa using hx)
  | letE x b d ih1 ih2 =>
    intro c env ρ h1 h2 h3
    simp only [NCore.free, List.append_eq_nil_iff] at h1
    simp only [NCore.core, Core.eval, NCore.eval, ih1 c env ρ h1.1 h2 h3]
    congr 1
    funext v
    refine ih2 _ _ _ h1.2 (by simp [h2]) ?_
    intro i y hy
    cases i with
    | zero => simp only [List.getElem?_cons_zero, Option.some.injEq] at hy; subst hy; simp [bindArgs]
    | succ i => simp only [List.getElem?_cons_succ] at hy; simp [bindArgs, h3 i y hy]

end Chomp
