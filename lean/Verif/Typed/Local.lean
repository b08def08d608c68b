import Verif.Typed.Total

/-!
# Inference only looks at the variables that occur

Used to evaluate type inference for large grammars inside the kernel: the result for a fix point with given
types of its free variables is computed once (`NX`), where the program (and `infer`) infers it again in every
iteration of every enclosing fix point.
-/

namespace Chomp

mutual
/-- The free variables, as inference counts them. -/
def NE.fvs : NE → List Nat
  | .cat _ f r => f.fvs ++ NE.fvsP r
  | .alt _ f r => f.fvs ++ NE.fvsP r
  | .fix _ (.lam _ _ b) => b.fvs.filterMap fun k => if k = 0 then none else some (k - 1)
  | .var _ k => [k]
  | _ => []
def NE.fvsP : List (Nat × NE) → List Nat
  | [] => []
  | (_, e) :: l => e.fvs ++ NE.fvsP l
end

mutual
/-- No variable stands where inference could find it guarded; `m` says that all variables but the innermost `m` are unguarded, if it is
not `none`. -/
def NE.calm (m : Option Nat) : NE → Bool
  | .cat _ f r => f.calm m && NE.calmP (some 0) r
  | .alt _ f r => f.calm m && NE.calmP m r
  | .fix _ (.lam _ _ b) => b.calm (m.map (· + 1))
  | .var _ k => match m with
    | some m => decide (m ≤ k)
    | none => false
  | _ => true
def NE.calmP (m : Option Nat) : List (Nat × NE) → Bool
  | [] => true
  | (_, e) :: l => e.calm m && NE.calmP m l
end

/-- All variables but the innermost `m` are unguarded. -/
def TCtx.free (m : Nat) (c : TCtx) : Prop := c.vars.length ≤ c.unguard.getLast?.getD 0 + m

/-- The contexts agree on the given variables. -/
def agree (l : List Nat) (c c' : TCtx) : Prop := ∀ k ∈ l, c.vars.reverse[k]? = c'.vars.reverse[k]?

theorem agree_append {l l' : List Nat} {c c' : TCtx} (h : agree (l ++ l') c c') : agree l c c' ∧ agree l' c c' :=
  ⟨fun k hk => h k (by simp [hk]), fun k hk => h k (by simp [hk])⟩

theorem agree_push {l : List Nat} {c c' : TCtx} {t : Ty}
    (h : agree (l.filterMap fun k => if k = 0 then none else some (k - 1)) c c') :
    agree l ⟨c.vars ++ [t], c.unguard⟩ ⟨c'.vars ++ [t], c'.unguard⟩ := by
  intro k hk
  simp only [List.reverse_append, List.reverse_cons, List.reverse_nil, List.nil_append, List.singleton_append]
  cases k with
  | zero => rfl
  | succ k =>
    simp only [List.getElem?_cons_succ]
    exact h k (List.mem_filterMap.2 ⟨k + 1, hk, by simp⟩)

theorem TCtx.free_unguard (c : TCtx) : TCtx.free 0 ⟨c.vars, c.unguard ++ [c.vars.length]⟩ := by simp [TCtx.free]

theorem fixLoop_local {f : Ty → TCtx → Inf TE} {c c' : TCtx} (hf : ∀ t c, (f t c).2 = c)
    (h : ∀ t, (f t c).1 = (f t c').1) : ∀ (n : Nat) (t : Ty), (fixLoop f n t c).1 = (fixLoop f n t c').1
  | 0, _ => rfl
  | n + 1, t => by
    simp only [fixLoop]
    rw [Inf.bind_fst (hf t c), Inf.bind_fst (hf t c'), h t]
    congr 1
    funext a
    split
    · rfl
    · exact fixLoop_local hf h n _

mutual
theorem infer_local (n : Nat) : ∀ (m : Option Nat) (nm : Option Name) (e : NE) (c c' : TCtx), e.calm m = true →
    (∀ k, m = some k → c.free k ∧ c'.free k) → agree e.fvs c c' → (infer n nm e c).1 = (infer n nm e c').1
  | _, _, .eps _, _, _, _, _, _ => rfl
  | _, _, .lit _ _, _, _, _, _, _ => rfl
  | m, nm, .cat _ f rest, c, c', h, hm, ha => by
    simp only [NE.calm, Bool.and_eq_true] at h
    simp only [NE.fvs] at ha
    have h1 := infer_local n m f.info.name f c c' h.1 hm (agree_append ha).1
    simp only [infer]
    rw [Inf.bind_fst (infer_snd n _ f c), Inf.bind_fst (infer_snd n _ f c'), h1]
    congr 1
    funext a
    split
    · rfl
    · have h2 := inferCat_local n a.ty rest ⟨c.vars, c.unguard ++ [c.vars.length]⟩ ⟨c'.vars, c'.unguard ++ [c'.vars.length]⟩
        h.2 c.free_unguard c'.free_unguard (agree_append ha).2
      rw [Inf.bind_fst (withUnguard_snd fun c => inferCat_snd n _ rest c),
        Inf.bind_fst (withUnguard_snd fun c => inferCat_snd n _ rest c), withUnguard_fst, withUnguard_fst, h2]
  | m, nm, .alt _ f rest, c, c', h, hm, ha => by
    simp only [NE.calm, Bool.and_eq_true] at h
    simp only [NE.fvs] at ha
    have h1 := infer_local n m f.info.name f c c' h.1 hm (agree_append ha).1
    simp only [infer]
    rw [Inf.bind_fst (infer_snd n _ f c), Inf.bind_fst (infer_snd n _ f c'), h1]
    congr 1
    funext a
    rw [Inf.bind_fst (inferAlt_snd n _ rest c), Inf.bind_fst (inferAlt_snd n _ rest c'),
      inferAlt_local n m a.ty rest c c' h.2 hm (agree_append ha).2]
  | m, nm, .fix _ (.lam j _ b), c, c', h, hm, ha => by
    simp only [NE.calm] at h
    simp only [NE.fvs] at ha
    simp only [infer]
    have hs : ∀ t c, (TCtx.withVar c t (infer n (Name.mergeAll [j.name, b.info.name, nm]) b)).2 = c :=
      fun t c => withVar_snd fun c => infer_snd n _ b c
    rw [Inf.bind_fst (fixLoop_snd hs _ _ _), Inf.bind_fst (fixLoop_snd hs _ _ _),
      fixLoop_local (c := c) (c' := c') hs (fun t => infer_local n _ _ b _ _ h (fun k hk => by
        obtain ⟨k', hk', rfl⟩ := Option.map_eq_some_iff.1 hk
        obtain ⟨h1, h2⟩ := hm k' hk'
        unfold TCtx.free at h1 h2 ⊢
        simp only [List.length_append, List.length_cons, List.length_nil]
        omega) (agree_push ha))]
  | m, nm, .var i k, c, c', h, hm, ha => by
    cases m with
    | none => cases h
    | some m =>
    simp only [NE.calm, decide_eq_true_eq] at h
    obtain ⟨h1, h2⟩ := hm m rfl
    have h3 := ha k (by simp [NE.fvs])
    simp only [infer, TCtx.getVar, ← h3]
    unfold TCtx.free at h1 h2
    cases hk : c.vars.reverse[k]? with
    | none => rfl
    | some ty =>
      simp only
      rw [if_pos (by omega), if_pos (by omega)]
  | _, _, .call _ _ _, _, _, _, _, _ | _, _, .lam _ _ _, _, _, _, _, _ | _, _, .letE _ _ _ _, _, _, _, _, _
  | _, _, .fix _ (.eps _), _, _, _, _, _ | _, _, .fix _ (.lit _ _), _, _, _, _, _
  | _, _, .fix _ (.cat _ _ _), _, _, _, _, _ | _, _, .fix _ (.alt _ _ _), _, _, _, _, _
  | _, _, .fix _ (.fix _ _), _, _, _, _, _ | _, _, .fix _ (.var _ _), _, _, _, _, _
  | _, _, .fix _ (.call _ _ _), _, _, _, _, _ | _, _, .fix _ (.letE _ _ _ _), _, _, _, _, _ => rfl
theorem inferCat_local (n : Nat) : ∀ (ty : Ty) (l : List (Nat × NE)) (c c' : TCtx), NE.calmP (some 0) l = true →
    c.free 0 → c'.free 0 → agree (NE.fvsP l) c c' → (inferCat n ty l c).1 = (inferCat n ty l c').1
  | _, [], _, _, _, _, _, _ => rfl
  | ty, (p, e) :: l, c, c', h, hc, hc', ha => by
    simp only [NE.calmP, Bool.and_eq_true] at h
    simp only [NE.fvsP] at ha
    simp only [inferCat]
    rw [Inf.bind_fst (infer_snd n _ e c), Inf.bind_fst (infer_snd n _ e c'),
      infer_local n (some 0) _ e c c' h.1 (fun _ hk => by cases hk; exact ⟨hc, hc'⟩) (agree_append ha).1]
    congr 1
    funext a
    split
    · rw [Inf.bind_fst (inferCat_snd n _ l c), Inf.bind_fst (inferCat_snd n _ l c'),
        inferCat_local n _ l c c' h.2 hc hc' (agree_append ha).2]
    · rfl
theorem inferAlt_local (n : Nat) : ∀ (m : Option Nat) (ty : Ty) (l : List (Nat × NE)) (c c' : TCtx), NE.calmP m l = true →
    (∀ k, m = some k → c.free k ∧ c'.free k) → agree (NE.fvsP l) c c' → (inferAlt n ty l c).1 = (inferAlt n ty l c').1
  | _, _, [], _, _, _, _, _ => rfl
  | m, ty, (p, e) :: l, c, c', h, hm, ha => by
    simp only [NE.calmP, Bool.and_eq_true] at h
    simp only [NE.fvsP] at ha
    simp only [inferAlt]
    rw [Inf.bind_fst (infer_snd n _ e c), Inf.bind_fst (infer_snd n _ e c'),
      infer_local n m _ e c c' h.1 hm (agree_append ha).1]
    congr 1
    funext a
    split
    · rfl
    split
    · rw [Inf.bind_fst (inferAlt_snd n _ l c), Inf.bind_fst (inferAlt_snd n _ l c'),
        inferAlt_local n m _ l c c' h.2 hm (agree_append ha).2]
    · rfl
end

/-! ## Inference with a table of known results -/

/-- What is known about an expression: its typing for each listed choice of types of variables. -/
abbrev Known := List (List (Nat × Ty) × TE)

/-- Expressions some of whose subexpressions have known results. -/
inductive NX where
  | done (e : NE) (known : Known)
  | eps (i : Info)
  | lit (i : Info) (s : List Char)
  | cat (i : Info) (first : NX) (rest : List (Nat × NX))
  | alt (i : Info) (first : NX) (rest : List (Nat × NX))
  | fix (i j : Info) (args : List Name) (b : NX)
  | var (i : Info) (k : Nat)

mutual
/-- The expression. -/
def NX.toNE : NX → NE
  | .done e _ => e
  | .eps i => .eps i
  | .lit i s => .lit i s
  | .cat i f r => .cat i f.toNE (NX.toP r)
  | .alt i f r => .alt i f.toNE (NX.toP r)
  | .fix i j args b => .fix i (.lam j args b.toNE)
  | .var i k => .var i k
def NX.toP : List (Nat × NX) → List (Nat × NE)
  | [] => []
  | (s, x) :: l => (s, x.toNE) :: NX.toP l
end

/-- The variables have the given types. -/
def met (needs : List (Nat × Ty)) (c : TCtx) : Bool := needs.all fun p => decide (c.vars.reverse[p.1]? = some p.2)

/-- `e.info.name` for the expression. -/
def NX.nm (x : NX) : Option Name := x.toNE.info.name

mutual
/-- Inference with known results. -/
def inferX (n : Nat) : Option Name → NX → TCtx → Inf TE
  | _, .done _ known, c =>
    match known.find? fun p => met p.1 c with
    | some p => (.ok p.2, c)
    | none => (.oof, c)
  | nm, .eps _, c => (.ok (.eps nm), c)
  | nm, .lit _ s, c => (.ok (.lit nm s), c)
  | nm, .cat _ f rest, c =>
    (inferX n f.nm f c).bind fun first c =>
      if first.ty.nullable then
        (.err (.firstNullable first ((NX.toP rest).head?.map (·.1) |>.getD 0)), c)
      else
        (c.withUnguard (inferXCat n first.ty rest)).bind fun r c =>
          (.ok (.cat nm r.2 (first :: r.1)), c)
  | nm, .alt _ f rest, c =>
    (inferX n f.nm f c).bind fun first c =>
      (inferXAlt n first.ty rest c).bind fun r c => (.ok (.alt nm r.2 (first :: r.1)), c)
  | nm, .fix _ j _ b, c =>
    (fixLoop (fun t c => c.withVar t (inferX n (Name.mergeAll [j.name, b.nm, nm]) b)) n .default c).bind
      fun res c => (.ok (.fix nm res), c)
  | nm, .var i k, c =>
    match c.getVar k with
    | .ok ty => (.ok (.var nm k ty), c)
    | .error e => (.err (.variable e k i.span nm), c)
def inferXCat (n : Nat) : Ty → List (Nat × NX) → TCtx → Inf (List TE × Ty)
  | ty, [], c => (.ok ([], ty), c)
  | ty, (punct, e) :: l, c =>
    (inferX n e.nm e c).bind fun right c =>
      if ty.flast.disjoint right.ty.first then
        (inferXCat n (ty.cat right.ty) l c).bind fun r c => (.ok (right :: r.1, r.2), c)
      else (.err (.firstFlastOverlap ty punct right), c)
def inferXAlt (n : Nat) : Ty → List (Nat × NX) → TCtx → Inf (List TE × Ty)
  | ty, [], c => (.ok ([], ty), c)
  | ty, (punct, e) :: l, c =>
    (inferX n e.nm e c).bind fun right c =>
      if ty.nullable && right.ty.nullable then (.err (.bothNullable ty punct right), c)
      else if ty.first.disjoint right.ty.first then
        (inferXAlt n (ty.alt right.ty) l c).bind fun r c => (.ok (right :: r.1, r.2), c)
      else (.err (.firstOverlap ty punct right), c)
end

/-- The known results are right. -/
def KnownOk (n : Nat) (e : NE) (known : Known) : Prop :=
  ∀ p ∈ known, ∀ c, met p.1 c = true → infer n e.info.name e c = (.ok p.2, c)

mutual
/-- All known results are right, and stand only where the name passed to the inference is that of the expression. -/
def NX.good (n : Nat) : NX → Prop
  | .done e known => KnownOk n e known
  | .cat _ f r => f.good n ∧ NX.goodP n r
  | .alt _ f r => f.good n ∧ NX.goodP n r
  | .fix _ _ _ b => b.good n ∧ ∀ e k, b ≠ .done e k
  | _ => True
def NX.goodP (n : Nat) : List (Nat × NX) → Prop
  | [] => True
  | (_, x) :: l => x.good n ∧ NX.goodP n l
end

mutual
theorem inferX_eq (n : Nat) : ∀ (nm : Option Name) (x : NX) (c : TCtx), x.good n → ((∃ e k, x = .done e k) → nm = x.nm) →
    (inferX n nm x c).1 ≠ .oof → infer n nm x.toNE c = inferX n nm x c
  | nm, .done e known, c, hg, hn, h => by
    have := hn ⟨e, known, rfl⟩
    subst this
    simp only [NX.toNE, NX.nm, inferX] at h ⊢
    cases hk : known.find? fun p => met p.1 c with
    | none => rw [hk] at h; exact absurd rfl h
    | some p => exact hg p (List.mem_of_find?_eq_some hk) c (by have := List.find?_some hk; exact this)
  | _, .eps _, _, _, _, _ => rfl
  | _, .lit _ _, _, _, _, _ => rfl
  | nm, .cat i f rest, c, hg, _, h => by
    simp only [NX.toNE, infer, inferX] at h ⊢
    refine Inf.bind_fuel (inferX_eq n _ f c hg.1 fun _ => rfl) (fun a c h => ?_) h
    split
    · rfl
    · rename_i hne
      rw [if_neg hne] at h
      exact Inf.bind_fuel (withUnguard_fuel fun c => inferXCat_eq n _ rest c hg.2) (fun _ _ _ => rfl) h
  | nm, .alt i f rest, c, hg, _, h => by
    simp only [NX.toNE, infer, inferX] at h ⊢
    refine Inf.bind_fuel (inferX_eq n _ f c hg.1 fun _ => rfl) (fun a c h => ?_) h
    exact Inf.bind_fuel (inferXAlt_eq n _ rest c hg.2) (fun _ _ _ => rfl) h
  | nm, .fix i j args b, c, hg, _, h => by
    simp only [NX.toNE, infer, inferX] at h ⊢
    exact Inf.bind_fuel (fixLoop_fuel (fun t c => withVar_fuel fun c => inferX_eq n _ b c hg.1 (fun ⟨e, k, he⟩ => absurd he (hg.2 e k)))
      (Nat.le_refl _)) (fun _ _ _ => rfl) h
  | nm, .var i k, c, _, _, _ => by simp only [NX.toNE, infer, inferX]; cases c.getVar k <;> rfl
theorem inferXCat_eq (n : Nat) : ∀ (ty : Ty) (l : List (Nat × NX)) (c : TCtx), NX.goodP n l →
    (inferXCat n ty l c).1 ≠ .oof → inferCat n ty (NX.toP l) c = inferXCat n ty l c
  | _, [], _, _, _ => rfl
  | ty, (p, e) :: l, c, hg, h => by
    simp only [NX.toP, inferCat, inferXCat] at h ⊢
    refine Inf.bind_fuel (inferX_eq n _ e c hg.1 fun _ => rfl) (fun a c h => ?_) h
    split
    · rename_i hne
      rw [if_pos hne] at h
      exact Inf.bind_fuel (inferXCat_eq n _ l c hg.2) (fun _ _ _ => rfl) h
    · rfl
theorem inferXAlt_eq (n : Nat) : ∀ (ty : Ty) (l : List (Nat × NX)) (c : TCtx), NX.goodP n l →
    (inferXAlt n ty l c).1 ≠ .oof → inferAlt n ty (NX.toP l) c = inferXAlt n ty l c
  | _, [], _, _, _ => rfl
  | ty, (p, e) :: l, c, hg, h => by
    simp only [NX.toP, inferAlt, inferXAlt] at h ⊢
    refine Inf.bind_fuel (inferX_eq n _ e c hg.1 fun _ => rfl) (fun a c h => ?_) h
    split
    · rfl
    rename_i hne
    rw [if_neg hne] at h
    split
    · rename_i hne
      rw [if_pos hne] at h
      exact Inf.bind_fuel (inferXAlt_eq n _ l c hg.2) (fun _ _ _ => rfl) h
    · rfl
end

mutual
/-- The subexpressions with known results. -/
def NX.dones : NX → List (NE × Known)
  | .done e known => [(e, known)]
  | .cat _ f r => f.dones ++ NX.donesP r
  | .alt _ f r => f.dones ++ NX.donesP r
  | .fix _ _ _ b => b.dones
  | _ => []
def NX.donesP : List (Nat × NX) → List (NE × Known)
  | [] => []
  | (_, x) :: l => x.dones ++ NX.donesP l
end

/-- A known result. -/
def NX.isDone : NX → Bool
  | .done _ _ => true
  | _ => false

mutual
/-- No known result right below a fix point. -/
def NX.fixOk : NX → Bool
  | .cat _ f r => f.fixOk && NX.fixOkP r
  | .alt _ f r => f.fixOk && NX.fixOkP r
  | .fix _ _ _ b => b.fixOk && !b.isDone
  | _ => true
def NX.fixOkP : List (Nat × NX) → Bool
  | [] => true
  | (_, x) :: l => x.fixOk && NX.fixOkP l
end

/-- All known results are right. -/
def AllKnown (n : Nat) : List (NE × Known) → Prop
  | [] => True
  | p :: l => KnownOk n p.1 p.2 ∧ AllKnown n l

theorem allKnown_append {n : Nat} : ∀ {l l' : List (NE × Known)}, AllKnown n (l ++ l') → AllKnown n l ∧ AllKnown n l'
  | [], _, h => ⟨trivial, h⟩
  | _ :: _, _, h => ⟨⟨h.1, (allKnown_append h.2).1⟩, (allKnown_append h.2).2⟩

mutual
theorem NX.good_of {n : Nat} : ∀ (x : NX), x.fixOk = true → AllKnown n x.dones → x.good n
  | .done _ _, _, h => h.1
  | .eps _, _, _ | .lit _ _, _, _ | .var _ _, _, _ => trivial
  | .cat _ f r, h, hk => by
    simp only [NX.fixOk, Bool.and_eq_true] at h
    simp only [NX.dones] at hk
    exact ⟨NX.good_of f h.1 (allKnown_append hk).1, NX.goodP_of r h.2 (allKnown_append hk).2⟩
  | .alt _ f r, h, hk => by
    simp only [NX.fixOk, Bool.and_eq_true] at h
    simp only [NX.dones] at hk
    exact ⟨NX.good_of f h.1 (allKnown_append hk).1, NX.goodP_of r h.2 (allKnown_append hk).2⟩
  | .fix _ _ _ b, h, hk => by
    simp only [NX.fixOk, Bool.and_eq_true] at h
    simp only [NX.dones] at hk
    refine ⟨NX.good_of b h.1 hk, fun e k he => ?_⟩
    rw [he] at h
    cases h.2
theorem NX.goodP_of {n : Nat} : ∀ (l : List (Nat × NX)), NX.fixOkP l = true → AllKnown n (NX.donesP l) → NX.goodP n l
  | [], _, _ => trivial
  | (_, x) :: l, h, hk => by
    simp only [NX.fixOkP, Bool.and_eq_true] at h
    simp only [NX.donesP] at hk
    exact ⟨NX.good_of x h.1 (allKnown_append hk).1, NX.goodP_of l h.2 (allKnown_append hk).2⟩
end

/-- A result computed in one context holds in all contexts that give the same types to the free variables. -/
theorem known_entry (n : Nat) (x : NX) (e : NE) (te : TE) (needs : List (Nat × Ty)) (c : TCtx) (hx : x.toNE = e)
    (hf : x.fixOk = true) (hk : AllKnown n x.dones) (hd : x.isDone = false) (hcalm : e.calm none = true)
    (hfv : e.fvs.all (fun k => (needs.map (·.1)).contains k) = true) (hc : met needs c = true)
    (h : inferX n e.info.name x c = (.ok te, c)) (c' : TCtx) (hc' : met needs c' = true) :
    infer n e.info.name e c' = (.ok te, c') := by
  subst hx
  have h1 := inferX_eq n x.toNE.info.name x c (NX.good_of x hf hk)
    (fun ⟨e, k, he⟩ => by rw [he] at hd; cases hd) (by rw [h]; simp)
  rw [h] at h1
  have h2 : agree x.toNE.fvs c' c := by
    intro k hk
    rw [List.all_eq_true] at hfv
    have := hfv k hk
    rw [List.contains_iff_mem, List.mem_map] at this
    obtain ⟨p, hp, rfl⟩ := this
    unfold met at hc hc'
    rw [List.all_eq_true] at hc hc'
    have a := hc p hp
    have b := hc' p hp
    rw [decide_eq_true_eq] at a b
    rw [a, b]
  have h3 := infer_local n none x.toNE.info.name x.toNE c' c hcalm (by simp) h2
  rw [h1] at h3
  have h4 := infer_snd n x.toNE.info.name x.toNE c'
  exact Prod.ext h3 h4

theorem knownOk_nil (n : Nat) (e : NE) : KnownOk n e [] := by intro p hp; cases hp

theorem knownOk_cons (n : Nat) (e : NE) (needs : List (Nat × Ty)) (te : TE) (l : Known)
    (h : ∀ c, met needs c = true → infer n e.info.name e c = (.ok te, c)) (hl : KnownOk n e l) :
    KnownOk n e ((needs, te) :: l) := by
  intro p hp
  rcases List.mem_cons.1 hp with rfl | hp
  · exact h
  · exact hl p hp

end Chomp
