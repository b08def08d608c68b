import Verif.Props.Inline
import Verif.Props.Nibble

/-!
# C73: renaming definitions and parameters
-/

namespace Chomp

/-! ## Specification -/

/-- The same identifier, wherever it is written. -/
def Ident.Same (i j : Ident) : Prop := i.raw = j.raw ∧ i.sym = j.sym

/-- `i` in the first program refers to the same binding as `i'` in the second; `l` lists the bindings in
scope, the innermost first, with their names in both programs. -/
inductive SameVar : List (Ident × Ident) → Ident → Ident → Prop
  | here {l : List (Ident × Ident)} {a b i i' : Ident} : a.Same i → b.Same i' → SameVar ((a, b) :: l) i i'
  | there {l : List (Ident × Ident)} {a b i i' : Ident} : ¬ a.Same i → ¬ b.Same i' → SameVar l i i' → SameVar ((a, b) :: l) i i'
  | undeclared {i i' : Ident} : i.Same i' → SameVar [] i i'

mutual
/-- The named expressions are equal up to the names of their bindings. -/
inductive NCore.Alpha : List (Ident × Ident) → NCore → NCore → Prop
  | eps (l : List (Ident × Ident)) : Alpha l .eps .eps
  | lit (l : List (Ident × Ident)) (s : List Char) : Alpha l (.lit s) (.lit s)
  | cat {l : List (Ident × Ident)} {x y : List NCore} : AlphaL l x y → Alpha l (.cat x) (.cat y)
  | alt {l : List (Ident × Ident)} {x y : List NCore} : AlphaL l x y → Alpha l (.alt x) (.alt y)
  | fix {l : List (Ident × Ident)} {x y : NCore} : Alpha l x y → Alpha l (.fix x) (.fix y)
  | id {l : List (Ident × Ident)} {i j : Ident} : SameVar l i j → Alpha l (.id i) (.id j)
  | call {l : List (Ident × Ident)} {f g : NCore} {x y : List NCore} : Alpha l f g → AlphaL l x y → Alpha l (.call f x) (.call g y)
  | lam {l : List (Ident × Ident)} {ps qs : List Ident} {x y : NCore} : ps.length = qs.length →
      Alpha ((ps.zip qs).reverse ++ l) x y → Alpha l (.lam ps x) (.lam qs y)
  | letE {l : List (Ident × Ident)} {a b : Ident} {x y u v : NCore} : Alpha l x y → Alpha ((a, b) :: l) u v →
      Alpha l (.letE a x u) (.letE b y v)
/-- The same for lists. -/
inductive NCore.AlphaL : List (Ident × Ident) → List NCore → List NCore → Prop
  | nil (l : List (Ident × Ident)) : AlphaL l [] []
  | cons {l : List (Ident × Ident)} {x y : NCore} {xs ys : List NCore} : Alpha l x y → AlphaL l xs ys → AlphaL l (x :: xs) (y :: ys)
end

/-- The programs differ at most in the names of definitions and parameters, consistently renamed (and in
labels, spans and parentheses). -/
def Stmt.Alpha (s s' : Stmt) : Prop := ∃ n n', flatStmt s = some n ∧ flatStmt s' = some n' ∧ NCore.Alpha [] n n'

/-! ## Proofs -/

theorem Ident.same_iff (a i : Ident) : a.content.eqv i.content = true ↔ a.Same i := by
  simp [Ident.content, Content.eqv, Ident.Same]

/-- The contexts of the two programs. -/
def ctxL (l : List (Ident × Ident)) : Ctx := (l.map fun p => p.1.content).reverse
def ctxR (l : List (Ident × Ident)) : Ctx := (l.map fun p => p.2.content).reverse

theorem ctxL_zip (l : List (Ident × Ident)) {ps qs : List Ident} (h : ps.length = qs.length) :
    ctxL ((ps.zip qs).reverse ++ l) = ctxL l ++ ps.map Ident.content := by
  simp only [ctxL, List.map_append, List.map_reverse, List.reverse_append, List.reverse_reverse]
  congr 1
  have := congrArg (List.map Ident.content) (List.map_fst_zip (l₁ := ps) (l₂ := qs) (by omega))
  rwa [List.map_map] at this

theorem ctxR_zip (l : List (Ident × Ident)) {ps qs : List Ident} (h : ps.length = qs.length) :
    ctxR ((ps.zip qs).reverse ++ l) = ctxR l ++ qs.map Ident.content := by
  simp only [ctxR, List.map_append, List.map_reverse, List.reverse_append, List.reverse_reverse]
  congr 1
  have := congrArg (List.map Ident.content) (List.map_snd_zip (l₁ := ps) (l₂ := qs) (by omega))
  rwa [List.map_map] at this

theorem ctxL_cons (l : List (Ident × Ident)) (a b : Ident) : ctxL ((a, b) :: l) = ctxL l ++ [a.content] := by simp [ctxL]
theorem ctxR_cons (l : List (Ident × Ident)) (a b : Ident) : ctxR ((a, b) :: l) = ctxR l ++ [b.content] := by simp [ctxR]

theorem lookup_ctxL (l : List (Ident × Ident)) (i : Ident) :
    (ctxL l).lookup (.newVariable i.content) = findIdx (fun m => m.eqv i.content) (l.map fun p => p.1.content) := by
  simp only [Ctx.lookup, ctxL, List.reverse_reverse]; rfl
theorem lookup_ctxR (l : List (Ident × Ident)) (i : Ident) :
    (ctxR l).lookup (.newVariable i.content) = findIdx (fun m => m.eqv i.content) (l.map fun p => p.2.content) := by
  simp only [Ctx.lookup, ctxR, List.reverse_reverse]; rfl

theorem SameVar.idx {l : List (Ident × Ident)} {i i' : Ident} (h : SameVar l i i') :
    findIdx (fun m => m.eqv i.content) (l.map fun p => p.1.content) =
      findIdx (fun m => m.eqv i'.content) (l.map fun p => p.2.content) := by
  induction h with
  | here h1 h2 => simp [findIdx, (Ident.same_iff _ _).2 h1, (Ident.same_iff _ _).2 h2]
  | there h1 h2 _ ih =>
    rw [← Ident.same_iff] at h1 h2
    simp [findIdx, h1, h2, ih]
  | undeclared _ => rfl

theorem SameVar.of_idx {i i' : Ident} : ∀ {l : List (Ident × Ident)} (k : Nat),
    findIdx (fun m => m.eqv i.content) (l.map fun p => p.1.content) = some k →
    findIdx (fun m => m.eqv i'.content) (l.map fun p => p.2.content) = some k → SameVar l i i'
  | [], k, h, _ => by cases h
  | (a, b) :: l, k, h, h' => by
    simp only [List.map_cons, findIdx] at h h'
    by_cases h1 : a.content.eqv i.content = true
    · rw [if_pos h1] at h
      cases h
      by_cases h2 : b.content.eqv i'.content = true
      · exact .here ((Ident.same_iff _ _).1 h1) ((Ident.same_iff _ _).1 h2)
      · rw [if_neg h2] at h'
        simp at h'
    · rw [if_neg h1] at h
      by_cases h2 : b.content.eqv i'.content = true
      · rw [if_pos h2] at h'
        cases h'
        simp at h
      · rw [if_neg h2] at h'
        cases k with
        | zero => simp at h
        | succ k =>
          simp only [Option.map_eq_some_iff, Nat.add_right_cancel_iff, exists_eq_right] at h h'
          exact .there (fun h => h1 ((Ident.same_iff _ _).2 h)) (fun h => h2 ((Ident.same_iff _ _).2 h)) (SameVar.of_idx k h h')

mutual
theorem NCore.Alpha.core : ∀ {l : List (Ident × Ident)} {x y : NCore}, NCore.Alpha l x y → x.core (ctxL l) = y.core (ctxR l)
  | _, _, _, .eps _ => rfl
  | _, _, _, .lit _ _ => rfl
  | _, _, _, .cat h => by simp only [NCore.core, h.core]
  | _, _, _, .alt h => by simp only [NCore.core, h.core]
  | _, _, _, .fix h => by simp only [NCore.core, h.core]
  | _, _, _, .id h => by simp only [NCore.core, lookup_ctxL, lookup_ctxR, h.idx]
  | _, _, _, .call h1 h2 => by simp only [NCore.core, h1.core, h2.core]
  | _, _, _, .lam h1 h2 => by
    have := h2.core
    rw [ctxL_zip _ h1, ctxR_zip _ h1] at this
    simp only [NCore.core, this, h1]
  | _, _, _, .letE h1 h2 => by
    have := h2.core
    rw [ctxL_cons, ctxR_cons] at this
    simp only [NCore.core, h1.core, this]
theorem NCore.AlphaL.core : ∀ {l : List (Ident × Ident)} {x y : List NCore}, NCore.AlphaL l x y →
    NCore.coreL (ctxL l) x = NCore.coreL (ctxR l) y
  | _, _, _, .nil _ => rfl
  | _, _, _, .cons h1 h2 => by simp only [NCore.coreL, h1.core, h2.core]
end

theorem any_findIdx {α : Type} (p : α → Bool) : ∀ l : List α, l.any p = (findIdx p l).isSome
  | [] => rfl
  | a :: l => by
    simp only [List.any_cons, findIdx, any_findIdx p l]
    cases p a <;> simp

theorem any_ctxL (l : List (Ident × Ident)) (i : Ident) : (ctxL l).any (fun m => m.eqv i.content) =
    (findIdx (fun m => m.eqv i.content) (l.map fun p => p.1.content)).isSome := by
  rw [ctxL, List.any_reverse, any_findIdx]
theorem any_ctxR (l : List (Ident × Ident)) (i : Ident) : (ctxR l).any (fun m => m.eqv i.content) =
    (findIdx (fun m => m.eqv i.content) (l.map fun p => p.2.content)).isSome := by
  rw [ctxR, List.any_reverse, any_findIdx]

theorem SameVar.same_of_none {l : List (Ident × Ident)} {i i' : Ident} (h : SameVar l i i')
    (h0 : findIdx (fun m => m.eqv i.content) (l.map fun p => p.1.content) = none) : i.Same i' := by
  induction h with
  | here h1 _ => simp [findIdx, (Ident.same_iff _ _).2 h1] at h0
  | there h1 _ _ ih =>
    rw [← Ident.same_iff] at h1
    simp [findIdx, h1] at h0
    exact ih h0
  | undeclared h => exact h

mutual
theorem NCore.Alpha.free : ∀ {l : List (Ident × Ident)} {x y : NCore}, NCore.Alpha l x y →
    All2 Ident.Same (x.free (ctxL l)) (y.free (ctxR l))
  | _, _, _, .eps _ => .nil
  | _, _, _, .lit _ _ => .nil
  | _, _, _, .cat h => h.free
  | _, _, _, .alt h => h.free
  | _, _, _, .fix h => h.free
  | l, _, _, .id (i := i) (j := j) h => by
    simp only [NCore.free, any_ctxL, any_ctxR, ← h.idx]
    cases hi : findIdx (fun m => m.eqv i.content) (l.map fun p => p.1.content) with
    | some k => exact .nil
    | none => exact .cons (h.same_of_none hi) .nil
  | _, _, _, .call h1 h2 => h1.free.append h2.free
  | _, _, _, .lam h1 h2 => by
    have := h2.free
    rw [ctxL_zip _ h1, ctxR_zip _ h1] at this
    exact this
  | _, _, _, .letE h1 h2 => by
    have := h2.free
    rw [ctxL_cons, ctxR_cons] at this
    exact h1.free.append this
theorem NCore.AlphaL.free : ∀ {l : List (Ident × Ident)} {x y : List NCore}, NCore.AlphaL l x y →
    All2 Ident.Same (NCore.freeL (ctxL l) x) (NCore.freeL (ctxR l) y)
  | _, _, _, .nil _ => .nil
  | _, _, _, .cons h1 h2 => h1.free.append h2.free
end

mutual
theorem NCore.alpha_of_core : ∀ (x y : NCore) (l : List (Ident × Ident)), x.core (ctxL l) = y.core (ctxR l) → x.free (ctxL l) = [] →
    y.free (ctxR l) = [] → NCore.Alpha l x y
  | .eps, y, l, h, _, _ => by cases y <;> simp only [NCore.core, reduceCtorEq] at h; exact .eps l
  | .lit s, y, l, h, _, _ => by
    cases y <;> simp only [NCore.core, reduceCtorEq] at h
    cases h; exact .lit l s
  | .cat xs, y, l, h, hx, hy => by
    cases y <;> simp only [NCore.core, reduceCtorEq, Core.cat.injEq] at h
    exact .cat (NCore.alphaL_of_core xs _ l h hx hy)
  | .alt xs, y, l, h, hx, hy => by
    cases y <;> simp only [NCore.core, reduceCtorEq, Core.alt.injEq] at h
    exact .alt (NCore.alphaL_of_core xs _ l h hx hy)
  | .fix x, y, l, h, hx, hy => by
    cases y <;> simp only [NCore.core, reduceCtorEq, Core.fix.injEq] at h
    exact .fix (NCore.alpha_of_core x _ l h hx hy)
  | .id i, y, l, h, hx, hy => by
    cases y <;> simp only [NCore.core, reduceCtorEq, Core.var.injEq] at h
    rename_i j
    simp only [NCore.free, any_ctxL, any_ctxR] at hx hy
    rw [lookup_ctxL, lookup_ctxR] at h
    cases h1 : findIdx (fun m => m.eqv i.content) (l.map fun p => p.1.content) with
    | none => rw [h1] at hx; cases hx
    | some k =>
      cases h2 : findIdx (fun m => m.eqv j.content) (l.map fun p => p.2.content) with
      | none => rw [h2] at hy; cases hy
      | some k' =>
        rw [h1, h2] at h
        simp only [Option.getD_some] at h
        subst h
        exact .id (SameVar.of_idx k h1 h2)
  | .call f xs, y, l, h, hx, hy => by
    cases y <;> simp only [NCore.core, reduceCtorEq, Core.call.injEq] at h
    simp only [NCore.free, List.append_eq_nil_iff] at hx hy
    exact .call (NCore.alpha_of_core f _ l h.1 hx.1 hy.1) (NCore.alphaL_of_core xs _ l h.2 hx.2 hy.2)
  | .lam ps x, y, l, h, hx, hy => by
    cases y <;> simp only [NCore.core, reduceCtorEq, Core.lam.injEq] at h
    simp only [NCore.free] at hx hy
    rw [← ctxL_zip l h.1] at hx
    rw [← ctxR_zip l h.1] at hy
    rw [← ctxL_zip l h.1, ← ctxR_zip l h.1] at h
    exact .lam h.1 (NCore.alpha_of_core x _ _ h.2 hx hy)
  | .letE a x u, y, l, h, hx, hy => by
    cases y <;> simp only [NCore.core, reduceCtorEq, Core.letE.injEq] at h
    rename_i b y v
    simp only [NCore.free, List.append_eq_nil_iff] at hx hy
    rw [← ctxL_cons l a b] at hx
    rw [← ctxR_cons l a b] at hy
    rw [← ctxL_cons l a b, ← ctxR_cons l a b] at h
    exact .letE (NCore.alpha_of_core x _ l h.1 hx.1 hy.1) (NCore.alpha_of_core u _ _ h.2 hx.2 hy.2)
theorem NCore.alphaL_of_core : ∀ (x y : List NCore) (l : List (Ident × Ident)), NCore.coreL (ctxL l) x = NCore.coreL (ctxR l) y →
    NCore.freeL (ctxL l) x = [] → NCore.freeL (ctxR l) y = [] → NCore.AlphaL l x y
  | [], y, l, h, _, _ => by cases y <;> simp only [NCore.coreL, reduceCtorEq] at h; exact .nil l
  | x :: xs, y, l, h, hx, hy => by
    cases y <;> simp only [NCore.coreL, reduceCtorEq, List.cons.injEq] at h
    simp only [NCore.freeL, List.append_eq_nil_iff] at hx hy
    exact .cons (NCore.alpha_of_core x _ l h.1 hx.1 hy.1) (NCore.alphaL_of_core xs _ l h.2 hx.2 hy.2)
end

/-! ## Statements -/

/-- **C73.** Two programs that convert, convert to expressions of the same structure exactly if they are
equal up to consistent renaming (and labels, spans and parentheses). -/
theorem C73_alpha_iff (s s' : Stmt) (e e' : NE) (c c' : Ctx) (h : convStmt s [] = some (.ok e, c))
    (h' : convStmt s' [] = some (.ok e', c')) : s.Alpha s' ↔ e.erase = e'.erase := by
  have get : ∀ {s : Stmt} {e : NE} {c : Ctx}, convStmt s [] = some (.ok e, c) →
      ∃ n, flatStmt s = some n ∧ n.free [] = [] ∧ e.erase = n.core [] := by
    intro s e c h
    have g := conv_stmt s []
    unfold GoodStmt at g
    cases hf : flatStmt s with
    | none => rw [hf] at g; obtain ⟨_, _, g⟩ := g; rw [g] at h; cases h
    | some n =>
      rw [hf] at g
      simp only at g
      cases hn : n.free [] with
      | cons i l => rw [hn] at g; obtain ⟨k, g⟩ := g; rw [g] at h; cases h
      | nil =>
        rw [hn] at g
        obtain ⟨ne, g1, g2⟩ := g
        rw [g1] at h
        cases h
        exact ⟨n, rfl, hn, g2⟩
  obtain ⟨n, h1, h2, h3⟩ := get h
  obtain ⟨n', h1', h2', h3'⟩ := get h'
  rw [h3, h3']
  constructor
  · rintro ⟨m, m', h4, h5, h6⟩
    rw [h1] at h4; rw [h1'] at h5
    cases h4; cases h5
    exact h6.core
  · intro h4
    exact ⟨n, n', h1, h1', NCore.alpha_of_core n n' [] h4 h2 h2'⟩

/-- **C73** (conversion). Renaming consistently does not change whether the program converts; if it does
not, the same name is reported as undeclared. -/
theorem C73_converts_iff (s s' : Stmt) (ha : s.Alpha s') :
    (∃ e c e' c', convStmt s [] = some (.ok e, c) ∧ convStmt s' [] = some (.ok e', c') ∧ e.erase = e'.erase) ∨
      ∃ (i i' : Ident) (c c' : Ctx), i.Same i' ∧ convStmt s [] = some (.error (.undeclaredName (.newVariable i.content)), c) ∧
        convStmt s' [] = some (.error (.undeclaredName (.newVariable i'.content)), c') := by
  obtain ⟨n, n', h1, h2, h3⟩ := ha
  have g := conv_stmt s []
  have g' := conv_stmt s' []
  unfold GoodStmt at g g'
  rw [h1] at g
  rw [h2] at g'
  simp only at g g'
  have hf : All2 Ident.Same (n.free []) (n'.free []) := h3.free
  have hc : n.core [] = n'.core [] := h3.core
  generalize n.free [] = f at g hf
  generalize n'.free [] = f' at g' hf
  cases hf with
  | nil =>
    obtain ⟨e, g1, g2⟩ := g
    obtain ⟨e', g1', g2'⟩ := g'
    exact .inl ⟨e, _, e', _, g1, g1', by rw [g2, g2', hc]⟩
  | cons hs _ =>
    obtain ⟨k, g⟩ := g
    obtain ⟨k', g'⟩ := g'
    exact .inr ⟨_, _, _, _, hs, g, g'⟩

/-- **C73** (compilation). If a program is accepted, so is every program obtained by renaming
consistently, with the same typed grammar up to names. -/
theorem C73_renaming_preserves (s s' : Stmt) (ha : s.Alpha s') (e : NE) (c : Ctx) (n k : Nat) (r : NE) (te : TE)
    (h : convStmt s [] = some (.ok e, c)) (hr : reduce n e = .ok r) (ht : (inferTop k r ⟨[], []⟩).1 = .ok te) :
    ∃ e' c' n' r' te', convStmt s' [] = some (.ok e', c') ∧ reduce n' e' = .ok r' ∧
      (inferTop k r' ⟨[], []⟩).1 = .ok te' ∧ te'.strip = te.strip ∧ te'.gram = te.gram := by
  rcases C73_converts_iff s s' ha with ⟨e1, c1, e', c', h1, h2, h3⟩ | ⟨i, i', c1, c', -, h1, -⟩
  · rw [h] at h1
    cases h1
    obtain ⟨n', r', te', h4⟩ := C71_definitions_preserve n k e e' r te (h3 ▸ .refl _) hr ht
    exact ⟨e', c', n', r', te', h2, h4⟩
  · rw [h] at h1; cases h1

/-- **C73** (parsers). The generated parsers accept the same texts, with the same trees. -/
theorem C73_same_texts (s s' : Stmt) (ha : s.Alpha s') (e e' : NE) (c c' : Ctx) (h : convStmt s [] = some (.ok e, c))
    (h' : convStmt s' [] = some (.ok e', c')) (n n' : Nat) (r r' : NE) (te te' : TE) (b b' : BState) (id id' : Nat)
    (hr : reduce n e = .ok r) (hr' : reduce n' e' = .ok r') (hc : Compiled r te b id) (hc' : Compiled r' te' b' id')
    (hn : NoSharingConflict te) (hn' : NoSharingConflict te') (text : List Char) (t : Tree) :
    Parses b id text (.ok t) ↔ Parses b' id' text (.ok t) :=
  C71_same_texts n n' e e' r r' te te' b b' id id' (((C73_alpha_iff s s' e e' c c' h h').1 ha) ▸ .refl _) hr hr' hc hc' hn hn' text t

/-! ## Renaming with a function -/

mutual
/-- Renaming all identifiers. -/
def NCore.rename (f : Ident → Ident) : NCore → NCore
  | .eps => .eps
  | .lit s => .lit s
  | .cat l => .cat (NCore.renameL f l)
  | .alt l => .alt (NCore.renameL f l)
  | .fix b => .fix (b.rename f)
  | .id i => .id (f i)
  | .call o a => .call (o.rename f) (NCore.renameL f a)
  | .lam ps b => .lam (ps.map f) (b.rename f)
  | .letE x b c => .letE (f x) (b.rename f) (c.rename f)
def NCore.renameL (f : Ident → Ident) : List NCore → List NCore
  | [] => []
  | e :: l => e.rename f :: NCore.renameL f l
end

theorem SameVar.rename {f : Ident → Ident} (hf : ∀ a b : Ident, (f a).Same (f b) ↔ a.Same b) (i : Ident) : ∀ l : List Ident,
    (ctxL (l.map fun a => (a, f a))).any (fun m => m.eqv i.content) = true → SameVar (l.map fun a => (a, f a)) i (f i)
  | [], h => by simp [ctxL] at h
  | a :: l, h => by
    by_cases h1 : a.Same i
    · exact .here h1 ((hf _ _).2 h1)
    · refine .there h1 (fun h2 => h1 ((hf _ _).1 h2)) (SameVar.rename hf i l ?_)
      rw [List.map_cons, ctxL_cons, List.any_append] at h
      simpa [mt (Ident.same_iff _ _).1 h1] using h

mutual
theorem NCore.rename_alpha {f : Ident → Ident} (hf : ∀ a b : Ident, (f a).Same (f b) ↔ a.Same b) : ∀ (x : NCore) (l : List Ident),
    x.free (ctxL (l.map fun a => (a, f a))) = [] → NCore.Alpha (l.map fun a => (a, f a)) x (x.rename f)
  | .eps, l, _ => .eps _
  | .lit s, l, _ => .lit _ s
  | .cat xs, l, h => .cat (NCore.renameL_alpha hf xs l h)
  | .alt xs, l, h => .alt (NCore.renameL_alpha hf xs l h)
  | .fix x, l, h => .fix (NCore.rename_alpha hf x l h)
  | .id i, l, h => by
    refine .id (SameVar.rename hf i l ?_)
    simp only [NCore.free] at h
    split at h
    · assumption
    · cases h
  | .call g xs, l, h => by
    simp only [NCore.free, List.append_eq_nil_iff] at h
    exact .call (NCore.rename_alpha hf g l h.1) (NCore.renameL_alpha hf xs l h.2)
  | .lam ps x, l, h => by
    have he : (ps.zip (ps.map f)).reverse ++ l.map (fun a => (a, f a)) = (ps.reverse ++ l).map fun a => (a, f a) := by
      rw [List.map_append, List.map_reverse]
      congr 2
      clear h
      induction ps with
      | nil => rfl
      | cons p ps ih => simp_all
    refine .lam (by simp) ?_
    rw [he]
    refine NCore.rename_alpha hf x _ ?_
    rw [← he, ctxL_zip _ (by simp)]
    exact h
  | .letE a x u, l, h => by
    simp only [NCore.free, List.append_eq_nil_iff] at h
    refine .letE (NCore.rename_alpha hf x l h.1) (NCore.rename_alpha hf u (a :: l) ?_)
    rw [List.map_cons, ctxL_cons]
    exact h.2
theorem NCore.renameL_alpha {f : Ident → Ident} (hf : ∀ a b : Ident, (f a).Same (f b) ↔ a.Same b) : ∀ (x : List NCore) (l : List Ident),
    NCore.freeL (ctxL (l.map fun a => (a, f a))) x = [] → NCore.AlphaL (l.map fun a => (a, f a)) x (NCore.renameL f x)
  | [], l, _ => .nil _
  | x :: xs, l, h => by
    simp only [NCore.freeL, List.append_eq_nil_iff] at h
    exact .cons (NCore.rename_alpha hf x l h.1) (NCore.renameL_alpha hf xs l h.2)
end

/-- **C73** (renaming everything). A program that converts is equal, up to consistent renaming, to the
program in which every identifier `i` is replaced by `f i`, if `f` maps only equal identifiers to equal ones. -/
theorem C73_injective_renaming (s s' : Stmt) (f : Ident → Ident) (hf : ∀ a b : Ident, (f a).Same (f b) ↔ a.Same b)
    (e : NE) (c : Ctx) (h : convStmt s [] = some (.ok e, c)) (n : NCore) (hn : flatStmt s = some n)
    (hs : flatStmt s' = some (n.rename f)) : s.Alpha s' := by
  refine ⟨n, _, hn, hs, NCore.rename_alpha hf n [] ?_⟩
  have g := conv_stmt s []
  unfold GoodStmt at g
  rw [hn] at g
  simp only at g
  show n.free [] = []
  cases hf : n.free [] with
  | nil => rfl
  | cons i l => rw [hf] at g; obtain ⟨k, g⟩ := g; rw [g] at h; cases h

/-! ## Examples -/

private def exId (s : String) : Ident := ⟨false, s, 0⟩
private def exTerm (t : Term) : Labelled := .mk 0 (.mk 0 [(.mk 0 [t], 0)]) none
private def exVar (s : String) : Labelled := exTerm (.ident (exId s))

/-- `let f x y = x | y; f "a" x` for the given names of `f`, `x` and `y`. -/
private def exFun (f x y u v : String) : Stmt :=
  .letS 0 (exId f) [exId x, exId y] (.alt (.mk 0 [(exVar u, 0), (exVar v, 0)]))
    (.goal 0 (.alt (.mk 0 [(.mk 0 (.mk 0 [(.mk 0 [.ident (exId f), .lit 0 ['a'], .lit 0 ['b']], 0)]) none, 0)])))

/-- The parameters may be called like the function, -/
example : (exFun "f" "x" "y" "x" "y").Alpha (exFun "g" "g" "z" "g" "z") :=
  ⟨_, _, rfl, rfl, .letE (.lam rfl (.alt (.cons (.id (.there (by simp [Ident.Same, exId]) (by simp [Ident.Same, exId])
    (.here ⟨rfl, rfl⟩ ⟨rfl, rfl⟩))) (.cons (.id (.here ⟨rfl, rfl⟩ ⟨rfl, rfl⟩)) (.nil _)))))
    (.call (.id (.here ⟨rfl, rfl⟩ ⟨rfl, rfl⟩)) (.cons (.lit _ _) (.cons (.lit _ _) (.nil _))))⟩

/-- but calling both the same is no consistent renaming: it changes the grammar. -/
example : ¬ (exFun "f" "x" "y" "x" "y").Alpha (exFun "f" "x" "x" "x" "x") := by
  rw [C73_alpha_iff _ _ _ _ _ _ rfl rfl]
  intro h
  change Core.letE (.lam 2 (.alt [.var 1, .var 0])) _ = Core.letE (.lam 2 (.alt [.var 0, .var 0])) _ at h
  simp at h

end Chomp
