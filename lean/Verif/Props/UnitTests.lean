import Verif.Props.Ast
import Verif.Ast.Provenance

/-!
# C88: what the unit tests of the project check, in general

`/repo/src/chomp/ast/substitute.rs:404-482`, `/repo/src/chomp/typed/infer.rs:193-288`, `/repo/src/chomp/typed/mod.rs:277-292`: the tests
of the project check single instances of the statements below, with `==`.  Each test itself is an `example`.
-/

namespace Chomp

/-! ## Specification -/

/-- `(/x/ x) 'k`, with any names, spans and parameter name: `make_expr` of the tests (`substitute.rs:408-441`). -/
def identityCall (i j v w : Info) (x : Name) (k : Nat) : NE := .call i (.lam j [x] (.var v 0)) [.var w k]

/-- The number of elements of a typed concatenation. -/
inductive CatOf : TE → Nat → Prop where
  | cat (name : Option Name) (ty : Ty) (l : List TE) : CatOf (.cat name ty l) l.length

/-- The number of alternatives of a typed alternation. -/
inductive AltOf : TE → Nat → Prop where
  | alt (name : Option Name) (ty : Ty) (l : List TE) : AltOf (.alt name ty l) l.length

/-! ## Renaming, substitution and reduction -/

/-- **C88** (test `deepen_lambda`, for all variables and depths). Renaming does not touch the variable that the lambda binds, and moves the
argument. -/
theorem C88_rename_identity_call (i j v w : Info) (x : Name) (k n : Nat) :
    (identityCall i j v w x k).rename .deepen n 0 = some (identityCall i j v w x (k + n)) := rfl

/-- **C88** (the other direction). Renaming back succeeds exactly if the argument is deep enough. -/
theorem C88_rename_identity_call_back (i j v w : Info) (x : Name) (k n : Nat) :
    (identityCall i j v w x k).rename .shallow n 0 = if k < n then none else some (identityCall i j v w x (k - n)) := by
  by_cases h : k < n
  · simp only [if_pos h]
    simp [identityCall, NE.rename, NE.renameL, h]
  · simp only [if_neg h]
    simp [identityCall, NE.rename, NE.renameL, h]

/-- **C88** (test `substitute_renames_bigger`, for all variables and all expressions put in). Substituting for a smaller variable makes the
argument's index smaller by one, for a bigger one it changes nothing, and nothing happens to the variable that the lambda binds. -/
theorem C88_substitute_identity_call (i j v w : Info) (x : Name) (k n : Nat) (e : NE) (h : k ≠ n) :
    (identityCall i j v w x k).substitute n e = some (identityCall i j v w x (if k > n then k - 1 else k)) := by
  obtain ⟨e', h1, -, h3⟩ := e.rename_zero 1
  have henter : Sub.enter 1 ⟨n, e⟩ = some ⟨n + 1, e'⟩ := by simp [Sub.enter, h1]
  have hleave : Sub.leave 1 ⟨n + 1, e'⟩ = some ⟨n, e⟩ := by simp [Sub.leave, h3]
  simp [identityCall, NE.substitute, NE.substS, NE.substL, henter, hleave, h]

/-- **C88** (test `substitute_renames_bigger`, the variable itself). Substituting for the argument puts the expression there; the name of the
variable is merged into the name of the expression. -/
theorem C88_substitute_identity_call_hit (i j v w : Info) (x : Name) (k : Nat) (e : NE) :
    (identityCall i j v w x k).substitute k e =
      some (.call i (.lam j [x] (.var v 0)) [e.setName (Name.merge e.info.name w.name)]) := by
  obtain ⟨e', h1, -, h3⟩ := e.rename_zero 1
  have henter : Sub.enter 1 ⟨k, e⟩ = some ⟨k + 1, e'⟩ := by simp [Sub.enter, h1]
  have hleave : Sub.leave 1 ⟨k + 1, e'⟩ = some ⟨k, e⟩ := by simp [Sub.leave, h3]
  simp [identityCall, NE.substitute, NE.substS, NE.substL, henter, hleave]

/-- **C88** (test `reduce_lambda`, for all arguments). Applying the identity to a variable yields the variable, two levels of recursion deep,
and at the place of the call. -/
theorem C88_reduce_identity_call (i j v w : Info) (x : Name) (k n : Nat) (hn : 2 ≤ n) :
    ∃ name, reduce n (identityCall i j v w x k) = .ok (.var ⟨name, i.span⟩ k) := by
  obtain ⟨n, rfl⟩ : ∃ m, n = m + 2 := ⟨n - 2, by omega⟩
  exact ⟨_, rfl⟩

/-- **C88** (test `reduce_lambda`, the name). Without names and labels in the call, the result is called like the parameter. -/
theorem C88_reduce_identity_call_name (si sj sv sw k n : Nat) (x : Content) (hn : 2 ≤ n) :
    reduce n (identityCall ⟨none, si⟩ ⟨none, sj⟩ ⟨none, sv⟩ ⟨none, sw⟩ (.newVariable x) k) = .ok (.var ⟨some (.newVariable x), si⟩ k) := by
  obtain ⟨n, rfl⟩ : ∃ m, n = m + 2 := ⟨n - 2, by omega⟩
  rfl

/-! ## Inference -/

theorem inferCat_length (n : Nat) : ∀ (l : List (Nat × NE)) (ty : Ty) (c : TCtx) (r : List TE × Ty),
    (inferCat n ty l c).1 = .ok r → r.1.length = l.length
  | [], ty, c, r, h => by rw [inferCat] at h; cases h; rfl
  | (p, e) :: l, ty, c, r, h => by
    rw [inferCat] at h
    obtain ⟨right, -, h⟩ := Inf.bind_okE h
    split at h
    · obtain ⟨r', h2, h⟩ := Inf.bind_okE h
      cases h
      have := inferCat_length n l _ _ r' h2
      simp [this]
    · cases h

theorem inferAlt_length (n : Nat) : ∀ (l : List (Nat × NE)) (ty : Ty) (c : TCtx) (r : List TE × Ty),
    (inferAlt n ty l c).1 = .ok r → r.1.length = l.length
  | [], ty, c, r, h => by rw [inferAlt] at h; cases h; rfl
  | (p, e) :: l, ty, c, r, h => by
    rw [inferAlt] at h
    obtain ⟨right, -, h⟩ := Inf.bind_okE h
    split at h
    · cases h
    split at h
    · obtain ⟨r', h2, h⟩ := Inf.bind_okE h
      cases h
      have := inferAlt_length n l _ _ r' h2
      simp [this]
    · cases h

/-- **C88** (test `cat_uses_all`, for all concatenations and contexts). A concatenation that is accepted becomes a concatenation of as many
elements. -/
theorem C88_cat_uses_all (n : Nat) (i : Info) (f : NE) (rest : List (Nat × NE)) (c : TCtx) (te : TE)
    (h : (inferTop n (.cat i f rest) c).1 = .ok te) : CatOf te (1 + rest.length) := by
  unfold inferTop at h
  rw [infer] at h
  obtain ⟨first, -, h⟩ := Inf.bind_okE h
  split at h
  · cases h
  · obtain ⟨r, h2, h⟩ := Inf.bind_okE h
    cases h
    have h3 : ∀ c1 : TCtx, (c1.withUnguard (inferCat n first.ty rest)).1 = .ok r → r.1.length = rest.length := by
      intro c1 h2
      exact inferCat_length n rest _ _ r h2
    have := h3 _ h2
    have h4 := CatOf.cat i.name r.2 (first :: r.1)
    rwa [List.length_cons, this, Nat.add_comm] at h4

/-- **C88** (test `alt_uses_all`, for all alternations and contexts). -/
theorem C88_alt_uses_all (n : Nat) (i : Info) (f : NE) (rest : List (Nat × NE)) (c : TCtx) (te : TE)
    (h : (inferTop n (.alt i f rest) c).1 = .ok te) : AltOf te (1 + rest.length) := by
  unfold inferTop at h
  rw [infer] at h
  obtain ⟨first, -, h⟩ := Inf.bind_okE h
  obtain ⟨r, h2, h⟩ := Inf.bind_okE h
  cases h
  have := inferAlt_length n rest _ _ r h2
  have h4 := AltOf.alt i.name r.2 (first :: r.1)
  rwa [List.length_cons, this, Nat.add_comm] at h4

/-! ## Types -/

/-- **C88** (test `cat_right`, for all types). Concatenating something to a type that does not contain the empty text never changes what it
can start with, nor that it does not contain the empty text; concatenating the empty
text changes nothing; and if no continuation of the type is known and the other one adds none, nothing changes at all. -/
theorem C88_cat_right (a b : Ty) (ha : a.nullable = false) :
    (a.cat b).first = a.first ∧ (a.cat b).nullable = false ∧ a.cat .eps = a ∧
    (a.flast = .empty → (∀ c, c ∉ b.flast) → (b.nullable = true → ∀ c, c ∉ b.first) → a.cat b = a) := by
  have he : ∀ s : CharSet, (∀ c, c ∉ s) → s = .empty := fun s h => CharSet.ext fun c => by simp [h c]
  refine ⟨by simp [Ty.cat, ha], by simp [Ty.cat, ha], ?_, ?_⟩
  · obtain ⟨an, af, al⟩ := a
    cases ha
    simp only [Ty.cat, Ty.eps, Ty.mk.injEq]
    exact ⟨rfl, rfl, CharSet.ext fun c => by simp⟩
  · intro h1 h2 h3
    obtain ⟨an, af, al⟩ := a
    obtain ⟨bn, bf, bl⟩ := b
    cases ha
    dsimp only at h1 h2 h3
    subst h1
    have := he bl h2
    subst this
    cases bn with
    | false => rfl
    | true =>
      have := he bf (h3 rfl)
      subst this
      rfl

/-! ## The tests themselves -/

private def ti : Info := ⟨none, 0⟩
private def tx : Name := .newVariable (.spanless "x")
private def make (k : Nat) : NE := identityCall ti ti ti ti tx k

/-- `deepen_lambda`, `substitute.rs:443-452`. -/
example : ∃ e, (make 0).rename .deepen 1 0 = some e ∧ e.eqv (make 1) = true := ⟨_, rfl, by decide⟩

/-- `substitute_renames_bigger`, `substitute.rs:454-466`. -/
example : ∃ e, (make 1).substitute 0 (.eps ti) = some e ∧ e.eqv (make 0) = true := ⟨_, rfl, by decide⟩

/-- `reduce_lambda`, `substitute.rs:468-481`. -/
example : ∃ e, reduce 9 (make 1) = .ok e ∧ e.eqv (.var ⟨some tx, 0⟩ 1) = true ∧ e = .var ⟨some tx, 0⟩ 1 := ⟨_, rfl, by decide, rfl⟩

/-- `cat_uses_all`, `infer.rs:199-234`. -/
example : ∃ te, (inferTop 9 (.cat ti (.lit ti ['a']) [(0, .lit ti ['b'])]) ⟨[], []⟩).1 = .ok te ∧ CatOf te 2 :=
  ⟨_, rfl, C88_cat_uses_all 9 ti (.lit ti ['a']) [(0, .lit ti ['b'])] ⟨[], []⟩ _ rfl⟩

/-- `alt_uses_all`, `infer.rs:236-272`. -/
example : ∃ te, (inferTop 9 (.alt ti (.lit ti ['a']) [(0, .lit ti ['b'])]) ⟨[], []⟩).1 = .ok te ∧ AltOf te 2 :=
  ⟨_, rfl, C88_alt_uses_all 9 ti (.lit ti ['a']) [(0, .lit ti ['b'])] ⟨[], []⟩ _ rfl⟩

/-- `cat_right`, `typed/mod.rs:281-291`. -/
example : ((Ty.ofStr ['a']).cat (Ty.ofStr ['b']) = Ty.ofStr ['a']) ∧
    (((Ty.ofStr ['a']).cat (Ty.ofStr ['b'])).cat .default = Ty.ofStr ['a']) ∧
    ((((Ty.ofStr ['a']).cat (Ty.ofStr ['b'])).cat .default).cat .eps = Ty.ofStr ['a']) := by decide

end Chomp
