import Verif.Nibble.Spec
import Verif.Ast.Lemmas

/-! Lemmas about the conversion of nibble programs. -/

namespace Chomp

mutual
/-- Named expression to nameless expression (helper for the proofs). -/
def NCore.core : Ctx → NCore → Core
  | _, .eps => .eps
  | _, .lit s => .lit s
  | c, .cat l => .cat (NCore.coreL c l)
  | c, .alt l => .alt (NCore.coreL c l)
  | c, .fix b => .fix (b.core c)
  | c, .id i => .var ((c.lookup (.newVariable i.content)).getD 0)
  | c, .call o a => .call (o.core c) (NCore.coreL c a)
  | c, .lam ps b => .lam ps.length (b.core (c ++ ps.map Ident.content))
  | c, .letE x b d => .letE (b.core c) (d.core (c ++ [x.content]))
def NCore.coreL : Ctx → List NCore → List Core
  | _, [] => []
  | c, e :: l => e.core c :: NCore.coreL c l
end

/-- What a conversion must do in context `c` for a syntax tree that reads as `f`. -/
def Good (x : Conv NE) (c : Ctx) (f : Option NCore) : Prop :=
  match f with
  | none => ∃ e, x = some (.error e, c)
  | some n =>
    match n.free c with
    | [] => ∃ ne, x = some (.ok ne, c) ∧ ne.erase = n.core c
    | i :: _ => x = some (.error (.undeclaredName (.newVariable i.content)), c)

/-- The same for lists of syntax trees. -/
def GoodL {α : Type} (er : α → List Core) (x : Conv α) (c : Ctx) (f : Option (List NCore)) : Prop :=
  match f with
  | none => ∃ e, x = some (.error e, c)
  | some l =>
    match NCore.freeL c l with
    | [] => ∃ es, x = some (.ok es, c) ∧ er es = NCore.coreL c l
    | i :: _ => x = some (.error (.undeclaredName (.newVariable i.content)), c)

theorem findIdx_none {α : Type} {p : α → Bool} {l : List α} : findIdx p l = none ↔ l.any p = false := by
  induction l with
  | nil => simp [findIdx]
  | cons a l ih =>
    simp only [findIdx, List.any_cons]
    cases p a <;> simp_all

theorem lookup_none (c : Ctx) (n : Name) : c.lookup n = none ↔ c.any (fun m => m.eqv n.content) = false := by
  rw [Ctx.lookup, findIdx_none, List.any_reverse]

theorem conv_ident (i : Ident) (c : Ctx) : Good (convIdent i c) c (some (.id i)) := by
  simp only [Good, NCore.free]
  by_cases h : c.any (fun m => m.eqv i.content) = true
  · simp only [h, if_true]
    cases hl : c.lookup (.newVariable i.content) with
    | none => rw [lookup_none] at hl; simp [Name.newVariable, h] at hl
    | some k => exact ⟨_, by simp only [convIdent, hl]; rfl, by simp [NE.erase, NCore.core, hl]⟩
  · have hl : c.lookup (.newVariable i.content) = none := by
      rw [lookup_none]; simpa [Name.newVariable] using h
    simp only [h, convIdent, hl]; rfl

/-- Sequencing: a conversion followed by the conversion of a list. -/
theorem good_cons {α β : Type} {er : α → List Core} (x : Conv NE) (y : Ctx → Conv α) (c : Ctx)
    (f : Option NCore) (g : Option (List NCore)) (h1 : Good x c f) (h2 : GoodL er (y c) c g)
    (k : NE → α → Ctx → Conv β) :
    match f.bind fun e => g.map fun l => (e, l) with
    | none => ∃ e, (x.bind fun a c => (y c).bind fun b c => k a b c) = some (.error e, c)
    | some (n, l) =>
      match n.free c ++ NCore.freeL c l with
      | [] => ∃ a b, (x.bind fun a c => (y c).bind fun b c => k a b c) = k a b c ∧
          a.erase = n.core c ∧ er b = NCore.coreL c l
      | i :: _ => (x.bind fun a c => (y c).bind fun b c => k a b c) =
          some (.error (.undeclaredName (.newVariable i.content)), c) := by
  unfold Good at h1
  unfold GoodL at h2
  cases f with
  | none =>
    obtain ⟨e, rfl⟩ := h1
    exact ⟨e, rfl⟩
  | some n =>
    simp only at h1
    cases hf : n.free c with
    | cons i t =>
      rw [hf] at h1
      subst h1
      cases g with
      | none => exact ⟨_, rfl⟩
      | some l => simp only [Option.bind_some, Option.map_some, hf, List.cons_append]; rfl
    | nil =>
      rw [hf] at h1
      obtain ⟨ne, rfl, hne⟩ := h1
      cases g with
      | none =>
        obtain ⟨e, he⟩ := h2
        exact ⟨e, by simp [Conv.bind, he]⟩
      | some l =>
        simp only [Option.bind_some, Option.map_some, hf, List.nil_append]
        simp only at h2
        cases hl : NCore.freeL c l with
        | cons i t => rw [hl] at h2; simp [Conv.bind, h2]
        | nil =>
          rw [hl] at h2
          obtain ⟨es, h3, h4⟩ := h2
          exact ⟨ne, es, by simp [Conv.bind, h3], hne, h4⟩

theorem good_withVariables (c : Ctx) (ps : List Ident) (x : Ctx → Conv NE) (f : Option NCore) (sp : Nat)
    (h : Good (x (c ++ ps.map Ident.content)) (c ++ ps.map Ident.content) f) :
    Good ((c.withVariables (ps.map fun i => Name.newVariable i.content) x).bind fun inner c =>
      some (.ok (.lam ⟨none, sp⟩ (ps.map fun i => Name.newVariable i.content) inner), c)) c (f.map (.lam ps)) := by
  have hm : (ps.map fun i => Name.newVariable i.content).map (·.content) = ps.map Ident.content := by
    simp [Name.newVariable, Function.comp_def]
  have ht : ∀ r : Except ConvErr NE, x (c ++ ps.map Ident.content) = some (r, c ++ ps.map Ident.content) →
      c.withVariables (ps.map fun i => Name.newVariable i.content) x = some (r, c) := by
    intro r hr
    simp [Ctx.withVariables, hm, hr]
  cases f with
  | none =>
    obtain ⟨e, he⟩ := h
    exact ⟨e, by rw [ht _ he]; rfl⟩
  | some n =>
    simp only [Good] at h
    simp only [Good, Option.map_some, NCore.free]
    cases hf : n.free (c ++ ps.map Ident.content) with
    | cons i t => rw [hf] at h; simp only [ht _ h]; rfl
    | nil =>
      rw [hf] at h
      obtain ⟨ne, h1, h2⟩ := h
      exact ⟨_, by simp only [ht _ h1]; rfl, by simp [NE.erase, NCore.core, h2]⟩

theorem free_mkCall (c : Ctx) (n : NCore) (l : List NCore) :
    (NCore.mkCall n l).free c = n.free c ++ NCore.freeL c l := by
  cases l <;> simp [NCore.mkCall, NCore.free, NCore.freeL]
theorem free_mkCat (c : Ctx) (n : NCore) (l : List NCore) :
    (NCore.mkCat n l).free c = n.free c ++ NCore.freeL c l := by
  cases l <;> simp [NCore.mkCat, NCore.free, NCore.freeL]
theorem free_mkAlt (c : Ctx) (n : NCore) (l : List NCore) :
    (NCore.mkAlt n l).free c = n.free c ++ NCore.freeL c l := by
  cases l <;> simp [NCore.mkAlt, NCore.free, NCore.freeL]

theorem bind_map_eq {f : Option NCore} {g : Option (List NCore)} (k : NCore → List NCore → NCore) :
    (f.bind fun e => g.map (k e)) = (f.bind fun e => g.map fun l => (e, l)).map fun p => k p.1 p.2 := by
  cases f <;> cases g <;> rfl

theorem bind_map_eqL {f : Option NCore} {g : Option (List NCore)} :
    (f.bind fun e => g.map (e :: ·)) = (f.bind fun e => g.map fun l => (e, l)).map fun p => p.1 :: p.2 := by
  cases f <;> cases g <;> rfl

theorem good_head {α : Type} {er : α → List Core} (x : Conv NE) (y : Ctx → Conv α) (c : Ctx)
    (f : Option NCore) (g : Option (List NCore)) (h1 : Good x c f) (h2 : GoodL er (y c) c g)
    (k : NE → α → Ctx → Conv NE) (mk : NCore → List NCore → NCore)
    (hfree : ∀ n l, (mk n l).free c = n.free c ++ NCore.freeL c l)
    (hk : ∀ a b n l, a.erase = n.core c → er b = NCore.coreL c l →
      ∃ ne, k a b c = some (.ok ne, c) ∧ ne.erase = (mk n l).core c) :
    Good (x.bind fun a c => (y c).bind fun b c => k a b c) c (f.bind fun e => g.map (mk e)) := by
  have h := good_cons x y c f g h1 h2 k
  rw [bind_map_eq]
  revert h
  cases (f.bind fun e => g.map fun l => (e, l)) with
  | none => intro h; exact h
  | some p =>
    obtain ⟨n, l⟩ := p
    simp only [Option.map_some, Good, hfree]
    cases n.free c ++ NCore.freeL c l with
    | cons i t => intro h; exact h
    | nil =>
      rintro ⟨a, b, h1, h2, h3⟩
      obtain ⟨ne, h4, h5⟩ := hk a b n l h2 h3
      exact ⟨ne, by rw [h1, h4], h5⟩

theorem good_tail {α : Type} {er : α → List Core} (x : Conv NE) (y : Ctx → Conv α) (c : Ctx)
    (f : Option NCore) (g : Option (List NCore)) (h1 : Good x c f) (h2 : GoodL er (y c) c g)
    (k : NE → α → α) (hk : ∀ a b, er (k a b) = a.erase :: er b) :
    GoodL er (x.bind fun a c => (y c).bind fun b c => some (.ok (k a b), c)) c (f.bind fun e => g.map (e :: ·)) := by
  have h := good_cons x y c f g h1 h2 (fun a b c => some (.ok (k a b), c))
  rw [bind_map_eqL]
  revert h
  cases (f.bind fun e => g.map fun l => (e, l)) with
  | none => intro h; exact h
  | some p =>
    obtain ⟨n, l⟩ := p
    simp only [Option.map_some, GoodL, NCore.freeL]
    cases n.free c ++ NCore.freeL c l with
    | cons i t => intro h; exact h
    | nil =>
      rintro ⟨a, b, h1, h2, h3⟩
      exact ⟨_, h1, by rw [hk, h2, h3]; rfl⟩

theorem good_nil {α : Type} (er : α → List Core) (a : α) (ha : er a = []) (c : Ctx) :
    GoodL er (some (.ok a, c)) c (some []) :=
  ⟨a, rfl, ha⟩

mutual
theorem conv_term : ∀ (t : Term) (c : Ctx), Good (convTerm t c) c (flatTerm t)
  | .eps sp, c => ⟨_, rfl, rfl⟩
  | .ident i, c => conv_ident i c
  | .lit sp s, c => ⟨_, rfl, rfl⟩
  | .fix sp t, c => by
    have h := conv_term t c
    rw [convTerm, flatTerm]
    cases hf : flatTerm t with
    | none =>
      rw [hf] at h
      obtain ⟨e, he⟩ := h
      exact ⟨e, by rw [he]; rfl⟩
    | some n =>
      rw [hf] at h
      simp only [Good, Option.map_some, NCore.free] at h ⊢
      cases hn : n.free c with
      | cons i l => rw [hn] at h; simp only [h, Conv.bind]
      | nil =>
        rw [hn] at h
        obtain ⟨ne, h1, h2⟩ := h
        exact ⟨_, by simp only [h1, Conv.bind]; rfl, by simp [NE.erase, NCore.core, h2]⟩
  | .parens e, c => by rw [convTerm, flatTerm]; exact conv_expr e c
theorem conv_call : ∀ (x : Call) (c : Ctx), Good (convCall x c) c (flatCall x)
  | .mk sp [], c => ⟨_, rfl⟩
  | .mk sp (t :: ts), c => by
    rw [convCall, flatCall]
    refine good_head _ (convTerms ts) c _ _ (conv_term t c) (conv_terms ts c) _ NCore.mkCall
      (free_mkCall c) ?_
    intro a b n l ha hb
    cases b with
    | nil =>
      cases l with
      | nil => exact ⟨a, rfl, ha⟩
      | cons x l => simp [NCore.coreL, NE.eraseL] at hb
    | cons x b =>
      cases l with
      | nil => simp [NCore.coreL, NE.eraseL] at hb
      | cons y l => exact ⟨_, rfl, by simp only [NE.erase, NCore.mkCall, NCore.core, ha, hb]⟩
theorem conv_terms : ∀ (ts : List Term) (c : Ctx), GoodL NE.eraseL (convTerms ts c) c (flatTerms ts)
  | [], c => good_nil _ _ rfl c
  | t :: ts, c => by
    rw [convTerms, flatTerms]
    exact good_tail _ (convTerms ts) c _ _ (conv_term t c) (conv_terms ts c) (fun e es => e :: es)
      (fun _ _ => rfl)
theorem conv_cat : ∀ (x : Cat) (c : Ctx), Good (convCat x c) c (flatCat x)
  | .mk sp [], c => ⟨_, rfl⟩
  | .mk sp ((x, p) :: l), c => by
    rw [convCat, flatCat]
    refine good_head _ (convCalls p l) c _ _ (conv_call x c) (conv_calls p l c) _ NCore.mkCat
      (free_mkCat c) ?_
    intro a b n l ha hb
    cases b with
    | nil =>
      cases l with
      | nil => exact ⟨a, rfl, ha⟩
      | cons x l => simp [NCore.coreL, NE.eraseP] at hb
    | cons x b =>
      cases l with
      | nil => simp [NCore.coreL] at hb
      | cons y l => exact ⟨_, rfl, by simp only [NE.erase, NCore.mkCat, NCore.core, ha, hb]; rfl⟩
theorem conv_calls : ∀ (q : Nat) (l : List (Call × Nat)) (c : Ctx),
    GoodL NE.eraseP (convCalls q l c) c (flatCalls l)
  | _, [], c => good_nil _ _ rfl c
  | q, (x, p) :: l, c => by
    rw [convCalls, flatCalls]
    exact good_tail _ (convCalls p l) c _ _ (conv_call x c) (conv_calls p l c) (fun e es => (q, e) :: es)
      (fun _ _ => rfl)
theorem conv_labelled : ∀ (x : Labelled) (c : Ctx), Good (convLabelled x c) c (flatLabelled x)
  | .mk sp cat label, c => by
    have h := conv_cat cat c
    rw [convLabelled, flatLabelled]
    cases hf : flatCat cat with
    | none =>
      rw [hf] at h
      obtain ⟨e, he⟩ := h
      exact ⟨e, by rw [he]; rfl⟩
    | some n =>
      rw [hf] at h
      simp only [Good] at h ⊢
      cases hn : n.free c with
      | cons i l => rw [hn] at h; simp only [h, Conv.bind]
      | nil =>
        rw [hn] at h
        obtain ⟨ne, h1, h2⟩ := h
        exact ⟨_, by simp only [h1, Conv.bind]; rfl, by simp [h2]⟩
theorem conv_alt : ∀ (x : Alt) (c : Ctx), Good (convAlt x c) c (flatAlt x)
  | .mk sp [], c => ⟨_, rfl⟩
  | .mk sp ((x, p) :: l), c => by
    rw [convAlt, flatAlt]
    refine good_head _ (convLabelleds p l) c _ _ (conv_labelled x c) (conv_labelleds p l c) _ NCore.mkAlt
      (free_mkAlt c) ?_
    intro a b n l ha hb
    cases b with
    | nil =>
      cases l with
      | nil => exact ⟨a, rfl, ha⟩
      | cons x l => simp [NCore.coreL, NE.eraseP] at hb
    | cons x b =>
      cases l with
      | nil => simp [NCore.coreL] at hb
      | cons y l => exact ⟨_, rfl, by simp only [NE.erase, NCore.mkAlt, NCore.core, ha, hb]; rfl⟩
theorem conv_labelleds : ∀ (q : Nat) (l : List (Labelled × Nat)) (c : Ctx),
    GoodL NE.eraseP (convLabelleds q l c) c (flatLabelleds l)
  | _, [], c => good_nil _ _ rfl c
  | q, (x, p) :: l, c => by
    rw [convLabelleds, flatLabelleds]
    exact good_tail _ (convLabelleds p l) c _ _ (conv_labelled x c) (conv_labelleds p l c)
      (fun e es => (q, e) :: es) (fun _ _ => rfl)
theorem conv_expr : ∀ (e : Expr) (c : Ctx), Good (convExpr e c) c (flatExpr e)
  | .alt a, c => by rw [convExpr, flatExpr]; exact conv_alt a c
  | .lam sp args body, c => by
    rw [convExpr, flatExpr]
    exact good_withVariables c args (convAlt body) (flatAlt body) sp (conv_alt body _)
end

end Chomp
