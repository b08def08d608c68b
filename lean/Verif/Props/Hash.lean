import Verif.Lower.Hash
import Verif.Auto.Names
import Verif.Driver.Model
import Verif.Props.Auto

/-!
# C74: what is generated does not depend on the hash map
-/

namespace Chomp

variable {P : Name → Prop}

/-- All names are in `P` except those of the expression itself and, if it is a `let`, of its body, and so on. -/
def NE.Spine (P : Name → Prop) : NE → Prop
  | .cat _ f r => f.AllNames P ∧ NE.AllNamesP P r
  | .alt _ f r => f.AllNames P ∧ NE.AllNamesP P r
  | .fix _ b => b.AllNames P
  | .call _ o a => o.AllNames P ∧ NE.AllNamesL P a
  | .lam _ a b => (∀ n ∈ a, P n) ∧ b.AllNames P
  | .letE _ x b c => P x ∧ b.AllNames P ∧ c.Spine P
  | _ => True

theorem NE.AllNames.spine : ∀ {e : NE}, e.AllNames P → e.Spine P
  | .eps _, _ => trivial
  | .lit _ _, _ => trivial
  | .var _ _, _ => trivial
  | .cat _ _ _, h => h.2
  | .alt _ _ _, h => h.2
  | .fix _ _, h => h.2
  | .call _ _ _, h => h.2
  | .lam _ _ _, h => h.2
  | .letE _ _ _ _, h => ⟨h.2.1, h.2.2.1, h.2.2.2.spine⟩

theorem NE.Spine.setInfo {e : NE} (h : e.Spine P) (i : Info) : (e.setInfo i).Spine P := by
  cases e <;> exact h

theorem NE.Spine.substS : ∀ {e e' : NE} {st st' : Sub}, e.Spine P → st.expr.AllNames P → e.substS st = some (e', st') → e'.Spine P
  | .eps i, e', st, st', h, hs, he => by simp only [NE.substS] at he; cases he; exact h
  | .lit i s, e', st, st', h, hs, he => by simp only [NE.substS] at he; cases he; exact h
  | .cat i f r, e', st, st', h, hs, he => by
    simp only [NE.substS, Option.bind_eq_bind, Option.bind_eq_some_iff] at he
    obtain ⟨⟨f', st1⟩, hf, ⟨r', st2⟩, hr, he⟩ := he
    cases he
    have h1 := h.1.substS hs hf
    exact ⟨h1.1, (NE.AllNamesP.substP h.2 h1.2 hr).1⟩
  | .alt i f r, e', st, st', h, hs, he => by
    simp only [NE.substS, Option.bind_eq_bind, Option.bind_eq_some_iff] at he
    obtain ⟨⟨f', st1⟩, hf, ⟨r', st2⟩, hr, he⟩ := he
    cases he
    have h1 := h.1.substS hs hf
    exact ⟨h1.1, (NE.AllNamesP.substP h.2 h1.2 hr).1⟩
  | .fix i b, e', st, st', h, hs, he => by
    simp only [NE.substS, Option.bind_eq_bind, Option.bind_eq_some_iff] at he
    obtain ⟨⟨f', st1⟩, hf, he⟩ := he
    cases he
    exact (NE.AllNames.substS h hs hf).1
  | .var i k, e', st, st', h, hs, he => by
    simp only [NE.substS] at he
    split at he
    · cases he
      exact hs.spine.setInfo _
    · cases he
      exact h
  | .call i o a, e', st, st', h, hs, he => by
    simp only [NE.substS, Option.bind_eq_bind, Option.bind_eq_some_iff] at he
    obtain ⟨⟨f', st1⟩, hf, ⟨r', st2⟩, hr, he⟩ := he
    cases he
    have h1 := h.1.substS hs hf
    exact ⟨h1.1, (NE.AllNamesL.substL h.2 h1.2 hr).1⟩
  | .lam i a b, e', st, st', h, hs, he => by
    simp only [NE.substS, Option.bind_eq_bind, Option.bind_eq_some_iff] at he
    obtain ⟨st1, h1, ⟨f', st2⟩, hf, st3, h3, he⟩ := he
    cases he
    exact ⟨h.1, (h.2.substS (Sub.enter_names hs h1) hf).1⟩
  | .letE i x b c, e', st, st', h, hs, he => by
    simp only [NE.substS, Option.bind_eq_bind, Option.bind_eq_some_iff] at he
    obtain ⟨⟨b', st0⟩, hb, st1, h1, ⟨f', st2⟩, hf, st3, h3, he⟩ := he
    cases he
    have h0 := h.2.1.substS hs hb
    exact ⟨h.1, h0.1, h.2.2.substS (Sub.enter_names h0.2 h1) hf⟩

theorem NE.Spine.reduce : ∀ (n : Nat) (e e' : NE), e.Spine P → reduce n e = .ok e' → e'.Spine P := by
  intro n
  induction n with
  | zero => intro e e' _ he; cases he
  | succ n ih =>
    intro e e' h he
    have key : ∀ e e' : NE, e.AllNames P → Chomp.reduce n e = .ok e' → e'.AllNames P := fun _ _ => NE.AllNames.reduce n _ _
    cases e <;> rw [Chomp.reduce] at he
    case eps i => cases he; exact h
    case lit i s => cases he; exact h
    case var i k => cases he; exact h
    case lam i a b => cases he; exact h
    case cat i f r =>
      obtain ⟨f', h1, he⟩ := Out.bind_ok he
      obtain ⟨r', h2, he⟩ := Out.bind_ok he
      cases he
      exact ⟨key _ _ h.1 h1, mapP_names key h.2 h2⟩
    case alt i f r =>
      obtain ⟨f', h1, he⟩ := Out.bind_ok he
      obtain ⟨r', h2, he⟩ := Out.bind_ok he
      cases he
      exact ⟨key _ _ h.1 h1, mapP_names key h.2 h2⟩
    case fix i b =>
      obtain ⟨b', h1, he⟩ := Out.bind_ok he
      have hb' := key _ _ h h1
      cases b' with
      | lam j a c =>
        obtain ⟨c', h2, he⟩ := Out.bind_ok he
        cases he
        exact ⟨hb'.1, hb'.2.1, key _ _ hb'.2.2 h2⟩
      | _ => cases he; exact hb'
    case call i o a =>
      obtain ⟨o', h1, he⟩ := Out.bind_ok he
      have ho := key _ _ h.1 h1
      cases o' with
      | lam j ps b =>
        simp only at he
        split at he
        · cases he
        · obtain ⟨x, hx, he⟩ := Out.bind_ok he
          obtain ⟨y, hy, he⟩ := Out.bind_ok he
          cases he
          have hx' : x.AllNames P := by
            unfold Out.ofOption at hx
            split at hx
            · rename_i z hz
              cases hx
              exact applyArgs_names ho.2.2 ho.2.1 h.2 hz
            · cases hx
          exact (key _ _ hx' hy).spine.setInfo _
      | _ => cases he
    case letE i x b c =>
      obtain ⟨z, hz, he⟩ := Out.bind_ok he
      obtain ⟨y, hy, he⟩ := Out.bind_ok he
      cases he
      have hz' : z.Spine P := by
        unfold Out.ofOption at hz
        split at hz
        · rename_i w hw
          cases hz
          simp only [NE.substitute, Option.map_eq_some_iff] at hw
          obtain ⟨⟨v, st⟩, hv, rfl⟩ := hw
          exact h.2.2.substS (st := ⟨0, b⟩) h.2.1 hv
        · cases hz
      exact (ih _ _ hz' hy).setInfo _

theorem convStmt_spine : ∀ (s : Stmt) (c c' : Ctx) (e : NE), (∀ n ∈ s.names, P n) → convStmt s c = some (.ok e, c') → e.Spine P
  | .goal sp x, c, c', e, h, he => by
    rw [convStmt] at he
    obtain ⟨a, c1, h1, he⟩ := Conv.bind_ok he
    cases he
    exact (convExpr_names x _ _ _ h h1).spine.setInfo _
  | .letS sp x args b next, c, c', e, h, he => by
    rw [convStmt] at he
    obtain ⟨a, c1, h1, he⟩ := Conv.bind_ok he
    obtain ⟨d, c2, h2, he⟩ := Conv.bind_ok he
    cases he
    have hx : P (.newLet x.content) := h _ (by simp [Stmt.names])
    have hb : a.AllNames P := by
      unfold convBound at h1
      split at h1
      · exact convExpr_names b _ _ _ (fun n hn => h n (by simp [Stmt.names, hn])) h1
      · obtain ⟨y, d1, h3, h1⟩ := Conv.bind_ok h1
        cases h1
        obtain ⟨d2, d3, h4⟩ := withVariables_ok h3
        refine ⟨by simp, fun n hn => h n ?_, convExpr_names b _ _ _ (fun n hn => h n (by simp [Stmt.names, hn])) h4⟩
        rw [Stmt.names, List.mem_cons, List.mem_append]
        exact .inr (.inl hn)
    refine ⟨hx, hb.setName ?_, convStmt_spine next _ _ _ (fun n hn => h n (by simp [Stmt.names, hn])) h2⟩
    simpa using hx

/-- Only a chain of fix points at the root passes a name on to its parts. -/
theorem infer_inner (n : Nat) : ∀ (e : NE) (nm : Option Name) (c : TCtx) (te : TE), e.Spine P → (infer n nm e c).1 = .ok te → te.Inner P
  | .eps i, nm, c, te, h, he => by simp only [infer] at he; cases he; trivial
  | .lit i s, nm, c, te, h, he => by simp only [infer] at he; cases he; trivial
  | .var i k, nm, c, te, h, he => by
    simp only [infer] at he
    split at he
    · cases he; trivial
    · cases he
  | .cat i f r, nm, c, te, h, he => by
    simp only [infer] at he
    obtain ⟨f', h1, he⟩ := Inf.bind_okE he
    split at he
    · cases he
    · obtain ⟨⟨l, t⟩, h2, he⟩ := Inf.bind_okE he
      cases he
      have hf := infer_src n f _ _ _ h.1 h.1.info h1
      have hr := inferCat_src n r _ _ l t h.2 h2
      intro x hx
      simp only [TE.namesL, List.mem_append] at hx
      exact hx.elim (hf x) (hr x)
  | .alt i f r, nm, c, te, h, he => by
    simp only [infer] at he
    obtain ⟨f', h1, he⟩ := Inf.bind_okE he
    obtain ⟨⟨l, t⟩, h2, he⟩ := Inf.bind_okE he
    cases he
    have hf := infer_src n f _ _ _ h.1 h.1.info h1
    have hr := inferAlt_src n r _ _ l t h.2 h2
    intro x hx
    simp only [TE.namesL, List.mem_append] at hx
    exact hx.elim (hf x) (hr x)
  | .fix i (.lam j a b), nm, c, te, h, he => by
    simp only [infer] at he
    obtain ⟨b', h1, he⟩ := Inf.bind_okE he
    cases he
    have hb : b'.Inner P := by
      refine fixLoop_post (Q := fun te => te.Inner P) (fun t c te hte => ?_) n _ _ _ h1
      exact infer_inner n b _ _ te h.2.2.spine hte
    exact hb
  | .fix i (.eps _), nm, c, te, h, he => by simp only [infer] at he; cases he
  | .fix i (.lit _ _), nm, c, te, h, he => by simp only [infer] at he; cases he
  | .fix i (.cat _ _ _), nm, c, te, h, he => by simp only [infer] at he; cases he
  | .fix i (.alt _ _ _), nm, c, te, h, he => by simp only [infer] at he; cases he
  | .fix i (.fix _ _), nm, c, te, h, he => by simp only [infer] at he; cases he
  | .fix i (.var _ _), nm, c, te, h, he => by simp only [infer] at he; cases he
  | .fix i (.call _ _ _), nm, c, te, h, he => by simp only [infer] at he; cases he
  | .fix i (.letE _ _ _ _), nm, c, te, h, he => by simp only [infer] at he; cases he
  | .call _ _ _, nm, c, te, h, he => by simp only [infer] at he; cases he
  | .lam _ _ _, nm, c, te, h, he => by simp only [infer] at he; cases he
  | .letE _ _ _ _, nm, c, te, h, he => by simp only [infer] at he; cases he

theorem uniform_spanned : Uniform Name.Spanned := by
  rintro ⟨a, ak⟩ ⟨b, bk⟩ ⟨c, ck⟩ ⟨_, _, _, ha⟩ ⟨_, _, _, hb⟩ ⟨_, _, _, hc⟩ h1 h2
  dsimp only at ha hb hc
  subst ha hb hc
  simp only [Name.eqv, Content.eqv, Bool.and_eq_true, beq_iff_eq] at h1 h2 ⊢
  exact ⟨⟨h1.1.1.trans h2.1.1, h1.1.2.trans h2.1.2⟩, h1.2.trans h2.2⟩

theorem uniform_spanless : Uniform Name.Spanless := by
  rintro ⟨a, ak⟩ ⟨b, bk⟩ ⟨c, ck⟩ ⟨_, ha⟩ ⟨_, hb⟩ ⟨_, hc⟩ h1 h2
  dsimp only at ha hb hc
  subst ha hb hc
  simp only [Name.eqv, Content.eqv, Bool.and_eq_true, beq_iff_eq] at h1 h2 ⊢
  exact ⟨h1.1.trans h2.1, h1.2.trans h2.2⟩

mutual
theorem Term.names_spanned : ∀ (t : Term), ∀ n ∈ t.names, n.Spanned
  | .eps _, n, h => by simp [Term.names] at h
  | .ident i, n, h => by simp only [Term.names, List.mem_singleton] at h; subst h; exact ⟨_, _, _, rfl⟩
  | .lit _ _, n, h => by simp [Term.names] at h
  | .fix _ t, n, h => by rw [Term.names] at h; exact Term.names_spanned t n h
  | .parens e, n, h => by rw [Term.names] at h; exact Expr.names_spanned e n h
theorem Call.names_spanned : ∀ (t : Call), ∀ n ∈ t.names, n.Spanned
  | .mk _ l, n, h => by rw [Call.names] at h; exact Term.namesL_spanned l n h
theorem Term.namesL_spanned : ∀ (l : List Term), ∀ n ∈ Term.namesL l, n.Spanned
  | [], n, h => by simp [Term.namesL] at h
  | t :: l, n, h => by
    rw [Term.namesL, List.mem_append] at h
    exact h.elim (Term.names_spanned t n) (Term.namesL_spanned l n)
theorem Cat.names_spanned : ∀ (t : Cat), ∀ n ∈ t.names, n.Spanned
  | .mk _ l, n, h => by rw [Cat.names] at h; exact Call.namesL_spanned l n h
theorem Call.namesL_spanned : ∀ (l : List (Call × Nat)), ∀ n ∈ Call.namesL l, n.Spanned
  | [], n, h => by simp [Call.namesL] at h
  | (x, _) :: l, n, h => by
    rw [Call.namesL, List.mem_append] at h
    exact h.elim (Call.names_spanned x n) (Call.namesL_spanned l n)
theorem Labelled.names_spanned : ∀ (t : Labelled), ∀ n ∈ t.names, n.Spanned
  | .mk _ cat label, n, h => by
    rw [Labelled.names, List.mem_append] at h
    rcases h with h | h
    · simp only [Option.mem_toList, Option.map_eq_some_iff] at h
      obtain ⟨i, -, rfl⟩ := h
      exact ⟨_, _, _, rfl⟩
    · exact Cat.names_spanned cat n h
theorem Alt.names_spanned : ∀ (t : Alt), ∀ n ∈ t.names, n.Spanned
  | .mk _ l, n, h => by rw [Alt.names] at h; exact Labelled.namesL_spanned l n h
theorem Labelled.namesL_spanned : ∀ (l : List (Labelled × Nat)), ∀ n ∈ Labelled.namesL l, n.Spanned
  | [], n, h => by simp [Labelled.namesL] at h
  | (x, _) :: l, n, h => by
    rw [Labelled.namesL, List.mem_append] at h
    exact h.elim (Labelled.names_spanned x n) (Labelled.namesL_spanned l n)
theorem Expr.names_spanned : ∀ (t : Expr), ∀ n ∈ t.names, n.Spanned
  | .alt a, n, h => by rw [Expr.names] at h; exact Alt.names_spanned a n h
  | .lam _ args body, n, h => by
    rw [Expr.names, List.mem_append, List.mem_map] at h
    rcases h with ⟨i, -, rfl⟩ | h
    · exact ⟨_, _, _, rfl⟩
    · exact Alt.names_spanned body n h
end

theorem Stmt.names_spanned : ∀ (s : Stmt), ∀ n ∈ s.names, n.Spanned
  | .goal _ e, n, h => by rw [Stmt.names] at h; exact Expr.names_spanned e n h
  | .letS _ x args e next, n, h => by
    rw [Stmt.names, List.mem_cons, List.mem_append, List.mem_append, List.mem_map] at h
    rcases h with rfl | ⟨i, -, rfl⟩ | h | h
    · exact ⟨_, _, _, rfl⟩
    · exact ⟨_, _, _, rfl⟩
    · exact Expr.names_spanned e n h
    · exact Stmt.names_spanned next n h

/-- The stages after conversion (`backEnd`) when the lookups in the hash map are resolved by `pick`. -/
def backEndWith (pick : Lookup) (cas : Casing) (fuel : Nat) (r : Conv NE) : Compile :=
  match r with
  | none => .panic
  | some (.error e, _) => .convert e
  | some (.ok e, _) =>
    match reduce fuel e with
    | .err e => .reduce e
    | .panic => .panic
    | .oof => .oof
    | .ok e =>
      match (inferTop fuel e ⟨[], []⟩).1 with
      | .err e => .typing e
      | .panic => .panic
      | .oof => .oof
      | .ok te =>
        match genWith pick cas te {} with
        | .error _ => .panic
        | .ok (id, st) =>
          match st.emitIds fuel id with
          | none => .oof
          | some (.error _) => .panic
          | some (.ok out) => .ok te id st out

theorem backEndWith_eq (hP : Uniform P) {pick : Lookup} (hp : pick.Valid) (cas : Casing) (fuel : Nat) (r : Conv NE)
    (h : ∀ e c, r = some (.ok e, c) → e.Spine P) : backEndWith pick cas fuel r = backEnd cas fuel r := by
  unfold backEndWith backEnd
  cases r with
  | none => rfl
  | some x =>
    obtain ⟨x, c⟩ := x
    cases x with
    | error e => rfl
    | ok e =>
      have he := h e c rfl
      dsimp only
      cases hr : reduce fuel e with
      | ok e' =>
        dsimp only
        cases hi : (inferTop fuel e' ⟨[], []⟩).1 with
        | ok te =>
          dsimp only
          rw [genWith_inner hP hp cas te {} (infer_inner fuel e' _ _ te (he.reduce fuel e e' hr) hi) (fun p hp => by simp at hp)]
          rfl
        | _ => rfl
      | _ => rfl

/-- **C74.** However the lookups in the hash map of fix points are resolved — `pick` is any behaviour of `HashMap::get`, which may
depend on the whole contents of the map and so on its random seed — a program read by nibble's own parser is compiled to the same
table of types and the same emitted code, or fails with the same error. -/
theorem C74_nibble_deterministic (pick : Lookup) (hp : pick.Valid) (cas : Casing) (fuel : Nat) (s : Stmt) :
    backEndWith pick cas fuel (convStmt s []) = compile cas fuel s :=
  backEndWith_eq uniform_spanned hp cas fuel _ fun e c h => convStmt_spine s [] c e (Stmt.names_spanned s) h

/-- **C74.** So is a program read by autonibble. -/
theorem C74_autonibble_deterministic (pick : Lookup) (hp : pick.Valid) (cas : Casing) (fuel : Nat) (t : Tree) :
    backEndWith pick cas fuel (autoAst t []) = backEnd cas fuel (autoAst t []) :=
  backEndWith_eq uniform_spanless hp cas fuel _ fun e c h => (autoAst_spanless _ t [] c e (Nat.lt_succ_self _) h).spine

/-- **C74.** Equal keys have equal hashes, as `HashMap` requires: `Lookup.Valid` is how its `get` behaves. -/
theorem C74_equal_keys_hash_equally (a b : TE) (h : a.eqv b = true) : a.hashed = b.hashed := TE.hashed_eq a b h

/-- The newest matching key. -/
def pickNewest : Lookup := fun m b => (m.find? fun p => p.1.eqv b).map (·.2)
/-- The oldest matching key. -/
def pickOldest : Lookup := fun m b => (m.reverse.find? fun p => p.1.eqv b).map (·.2)

theorem pick_find_valid (f : List (TE × Nat) → List (TE × Nat)) (hf : ∀ m p, p ∈ f m ↔ p ∈ m) :
    Lookup.Valid fun m b => ((f m).find? fun p => p.1.eqv b).map (·.2) := by
  refine ⟨fun {m b id} h => ?_, fun {m b} h p hp => ?_⟩
  · rw [Option.map_eq_some_iff] at h
    obtain ⟨p, h1, rfl⟩ := h
    exact ⟨p.1, (hf m _).1 (List.mem_of_find?_eq_some h1), List.find?_some (p := fun p : TE × Nat => p.1.eqv b) h1⟩
  · rw [Option.map_eq_none_iff, List.find?_eq_none] at h
    exact Bool.eq_false_iff.2 (h p ((hf m p).2 hp))

theorem pickNewest_valid : pickNewest.Valid := pick_find_valid id fun _ _ => Iff.rfl
theorem pickOldest_valid : pickOldest.Valid := pick_find_valid List.reverse fun _ _ => List.mem_reverse

/-- Three fix points whose bodies are named `r#x`, `x` and `x` without a span. -/
def mixedNames : TE :=
      .cat none .default [.fix none (.lit (some (.newLet (.spanned true "x" 1))) ['a']), .fix none (.lit (some (.newLet (.spanned false "x" 1))) ['a']),
    .fix none (.lit (some (.newLet (.spanless "x"))) ['a'])]

/-- **C74.** For expressions that mix names of both sorts, which neither front end makes, the result would depend on the map: the
parts of the concatenation are different types. -/
theorem C74_mixed_names_differ : ∃ cas, pickNewest.Valid ∧ pickOldest.Valid ∧
    (∃ id s e, genWith pickNewest cas mixedNames {} = .ok (id, s) ∧ s.data[id]? = some e ∧ e.deps = [0, 2, 2]) ∧
    (∃ id s e, genWith pickOldest cas mixedNames {} = .ok (id, s) ∧ s.data[id]? = some e ∧ e.deps = [0, 2, 0]) := by
  refine ⟨⟨some, some⟩, pickNewest_valid, pickOldest_valid, ⟨3, _, _, rfl, rfl, rfl⟩, ⟨3, _, _, rfl, rfl, rfl⟩⟩

/-- `match !(/x/ "a" . (_ | x));` -/
def exHash : Stmt :=
  .goal 0 (.alt (.mk 0 [(.mk 0 (.mk 0 [(.mk 0 [.fix 0 (.parens (.lam 0 [⟨false, "x", 1⟩] (.mk 0 [(.mk 0 (.mk 0
    [(.mk 0 [.lit 0 ['a']], 0), (.mk 0 [.parens (.alt (.mk 0 [(.mk 0 (.mk 0 [(.mk 0 [.eps 0], 0)]) none, 0),
      (.mk 0 (.mk 0 [(.mk 0 [.ident ⟨false, "x", 2⟩], 0)]) none, 0)]))], 0)]) none, 0)])))], 0)]) none, 0)]))

/-- The theorem applies to programs that compile. -/
example : pickOldest.Valid ∧ ∃ te id st out, backEndWith pickOldest ⟨some, some⟩ 20 (convStmt exHash []) = .ok te id st (0 :: out) :=
  ⟨pickOldest_valid, _, _, _, _, (C74_nibble_deterministic _ pickOldest_valid _ _ _).trans rfl⟩

/-- Lookups do hit: equal fix points are shared. -/
example : ∃ s e, genWith pickOldest ⟨some, some⟩ (.cat none .default
      [.fix none (.lit (some (.newLet (.spanned false "x" 1))) ['a']), .fix none (.lit (some (.newLet (.spanned false "x" 2))) ['a'])]) {} =
    .ok (2, s) ∧ s.data[2]? = some e ∧ e.deps = [0, 0] := ⟨_, _, rfl, rfl, rfl⟩

end Chomp
