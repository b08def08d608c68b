import Verif.Lower.Sim

/-!
# Generated parsers behave like the reference parser
-/

namespace Chomp

/-- Equal-looking fix points behave alike wherever they occur. -/
def Coherent (root : TE) : Prop :=
  ∀ ρ1 n1 b1 ρ2 n2 b2, Occ root ρ1 (.fix n1 b1) → Occ root ρ2 (.fix n2 b2) → b1.eqv b2 = true →
    ∀ n w, takeR n ρ1 (.fix n1 b1) w = takeR n ρ2 (.fix n2 b2) w ∧
      runCost stepR n (ρ1, .fix n1 b1) w = runCost stepR n (ρ2, .fix n2 b2) w

theorem ImplL.all2 {D : List Entry} {R : Records} {ρ : List TE} : ∀ {l : List TE} {ids : List Nat}, ImplL D R ρ l ids →
    All2 (fun id c => ∃ t, c = (ρ, t) ∧ t ∈ l ∧ Impl D R ρ t id) ids (l.map fun t => (ρ, t))
  | [], ids, h => by
    simp only [ImplL] at h
    subst h
    exact .nil
  | e :: l, ids, h => by
    simp only [ImplL] at h
    obtain ⟨id, ids', rfl, h1, h2⟩ := h
    exact .cons ⟨e, rfl, by simp, h1⟩ ((ImplL.all2 h2).mono (fun _ _ ⟨t, a, b, c⟩ => ⟨t, a, by simp [b], c⟩))

/-- All records are complete. -/
structure Complete (root : TE) (D : List Entry) (R : Records) : Prop where
  occ : ∀ id ρ b, (id, ρ, b) ∈ R → ∃ nm, Occ root ρ (.fix nm b)
  impl : ∀ id ρ b, (id, ρ, b) ∈ R → ∃ j, nodeAt D id = .alias j ∧ Impl D R (b :: ρ) b j

theorem runCost_fix_name (n : Nat) (ρ : List TE) (n1 n2 : Option Name) (b : TE) (w : IW) :
    runCost stepR n (ρ, .fix n1 b) w = runCost stepR n (ρ, .fix n2 b) w := by
  cases n <;> rfl

theorem run_fix_name (n : Nat) (ρ : List TE) (n1 n2 : Option Name) (b : TE) (w : IW) :
    run stepR n (ρ, .fix n1 b) w = run stepR n (ρ, .fix n2 b) w := by
  cases n <;> rfl

theorem run_impl {root : TE} {D : List Entry} {R : Records} (hC : Complete root D R) (hco : Coherent root) :
    ∀ (n : Nat) (id : Nat) (ρ : List TE) (te : TE) (w : IW), Occ root ρ te → Impl D R ρ te id →
      run (nodeAt D) n id w = run stepR n (ρ, te) w ∧ runCost (nodeAt D) n id w = runCost stepR n (ρ, te) w := by
  intro n
  induction n using Nat.strongRecOn with
  | ind n ih =>
    cases n with
    | zero => intros; exact ⟨rfl, rfl⟩
    | succ n =>
    -- a recorded fix point
    have hrec : ∀ m, m ≤ n + 1 → ∀ id ρ b, (id, ρ, b) ∈ R → ∀ w,
        run (nodeAt D) m id w = run stepR m (ρ, .fix none b) w ∧
        runCost (nodeAt D) m id w = runCost stepR m (ρ, .fix none b) w := by
      intro m hm id ρ b hr w
      obtain ⟨j, h1, h2⟩ := hC.impl id ρ b hr
      obtain ⟨nm, h3⟩ := hC.occ id ρ b hr
      cases m with
      | zero => exact ⟨rfl, rfl⟩
      | succ m =>
        obtain ⟨h4, h5⟩ := ih m (by omega) j (b :: ρ) b w h3.fix h2
        simp only [run, runCost, h1, stepR, h4, h5, and_self]
    have hn : ∀ (l : List TE) (ids : List Nat) (ρ : List TE), ImplL D R ρ l ids → (∀ t ∈ l, Occ root ρ t) →
        All2 (fun id c => ∀ w, run (nodeAt D) n id w = run stepR n c w ∧ runCost (nodeAt D) n id w = runCost stepR n c w)
          ids (l.map fun t => (ρ, t)) := by
      intro l ids ρ hi ho
      refine (ImplL.all2 hi).mono ?_
      rintro id c ⟨t, rfl, ht, h⟩ w
      exact ih n (by omega) id ρ t w (ho t ht) h
    intro id ρ te w hO hI
    cases te with
    | eps nm => simp only [Impl] at hI; simp only [run, runCost, hI, stepR, and_self]
    | lit nm s => simp only [Impl] at hI; simp only [run, runCost, hI, stepR, and_self]
    | cat nm ty l =>
      simp only [Impl] at hI
      obtain ⟨ids, h1, h2⟩ := hI
      have h3 := hn l ids ρ h2 (fun t ht => hO.cat ht)
      simp only [run, runCost, h1, stepR]
      rw [seqTake_congr (fun a b w h => (h w).1) h3 w,
        seqCost_congr (fun a b w h => (h w).1) (fun a b w h => (h w).2) h3 w]
      exact ⟨rfl, rfl⟩
    | alt nm ty l =>
      simp only [Impl] at hI
      obtain ⟨ids, h1, h2⟩ := hI
      have h3 := hn l ids ρ h2 (fun t ht => hO.alt ht)
      simp only [run, runCost, h1, stepR]
      refine ⟨altTake_congr (fun a b w h => (h w).1) h3 _ w, ?_⟩
      congr 1
      cases altChoose w.peek.1 (l.map TE.ty) with
      | none => rfl
      | some k =>
        dsimp only
        rcases h3.getElem? k with ⟨h4, h5⟩ | ⟨a, b, h4, h5, h6⟩
        · rw [h4, h5]
        · rw [h4, h5]; exact (h6 _).2
    | fix nm b =>
      simp only [Impl] at hI
      obtain ⟨ρ0, b0, h1, h2⟩ := hI
      obtain ⟨nm0, h3⟩ := hC.occ id ρ0 b0 h1
      obtain ⟨h4, h5⟩ := hrec (n + 1) (Nat.le_refl _) id ρ0 b0 h1 w
      obtain ⟨h6, h7⟩ := hco ρ0 nm0 b0 ρ nm b h3 hO h2 (n + 1) w
      rw [takeR_eq_run, takeR_eq_run] at h6
      rw [h4, h5, ← h6, ← h7]
      exact ⟨run_fix_name .., runCost_fix_name ..⟩
    | var nm i ty =>
      simp only [Impl] at hI
      obtain ⟨f, b, ρ', h1, h2, h3⟩ := hI
      obtain ⟨h4, h5⟩ := hrec n (by omega) f ρ' b h3 w
      simp only [run, runCost, h1, stepR, h2, h4, h5, and_self]

theorem gen_initial (cas : Casing) (te : TE) (hA : Ann [] 0 te) :
    GenOk (gen cas te {}) (Post te {} [] [] [] te) := by
  refine gen_sim cas te te {} [] [] [] [] 0 ?_ ⟨rfl, by simp⟩ .nil hA .root
  constructor <;> simp

/-- The generated parser behaves like the reference parser. -/
theorem gen_run {cas : Casing} {te : TE} (hA : Ann [] 0 te) (hco : Coherent te) {id : Nat} {s : BState}
    (hg : gen cas te {} = .ok (id, s)) (n : Nat) (w : IW) :
    run s.step n id w = takeR n [] te w ∧ runCost s.step n id w = runCost stepR n ([], te) w := by
  have h := gen_initial cas te hA
  rw [hg] at h
  obtain ⟨R, τ, h1, h2, h3⟩ := h
  rw [takeR_eq_run]
  refine run_impl ⟨fun id ρ b h => (h1.inv.recTy id ρ b h).2, ?_⟩ hco n id [] te w .root h2
  intro id ρ b hm
  rcases h1.inv.done id ρ b hm with h | h
  · rw [h1.ctx] at h; simp at h
  · exact h

/-! ## A syntactic criterion -/

mutual
/-- The free variables of a typed expression, below `d` binders. -/
def TE.freeVars : Nat → TE → List Nat
  | _, .eps _ => []
  | _, .lit _ _ => []
  | d, .cat _ _ l => TE.freeVarsL d l
  | d, .alt _ _ l => TE.freeVarsL d l
  | d, .fix _ b => b.freeVars (d + 1)
  | d, .var _ i _ => if d ≤ i then [i - d] else []
def TE.freeVarsL : Nat → List TE → List Nat
  | _, [] => []
  | d, e :: l => e.freeVars d ++ TE.freeVarsL d l
end

mutual
/-- A typed expression without names. -/
def TE.strip : TE → TE
  | .eps _ => .eps none
  | .lit _ s => .lit none s
  | .cat _ t l => .cat none t (TE.stripL l)
  | .alt _ t l => .alt none t (TE.stripL l)
  | .fix _ b => .fix none b.strip
  | .var _ i t => .var none i t
def TE.stripL : List TE → List TE
  | [] => []
  | e :: l => e.strip :: TE.stripL l
end

mutual
theorem TE.eqv_strip : ∀ {a b : TE}, a.eqv b = true → a.strip = b.strip
  | .eps _, b, h => by cases b <;> simp_all [TE.eqv, TE.strip]
  | .lit _ s, b, h => by cases b <;> simp_all [TE.eqv, TE.strip]
  | .cat _ _ l, b, h => by
    cases b with
    | cat n t l' =>
      simp only [TE.eqv, Bool.and_eq_true, decide_eq_true_eq] at h
      simp only [TE.strip, h.1.2, TE.eqvL_strip h.1.1]
    | _ => simp [TE.eqv] at h
  | .alt _ _ l, b, h => by
    cases b with
    | alt n t l' =>
      simp only [TE.eqv, Bool.and_eq_true, decide_eq_true_eq] at h
      simp only [TE.strip, h.1.2, TE.eqvL_strip h.1.1]
    | _ => simp [TE.eqv] at h
  | .fix _ a, b, h => by
    cases b with
    | fix n' b => simp only [TE.eqv, Bool.and_eq_true] at h; simp only [TE.strip, TE.eqv_strip h.1]
    | _ => simp [TE.eqv] at h
  | .var _ _ _, b, h => by cases b <;> simp_all [TE.eqv, TE.strip]
theorem TE.eqvL_strip : ∀ {a b : List TE}, TE.eqvL a b = true → TE.stripL a = TE.stripL b
  | [], b, h => by cases b <;> simp_all [TE.eqvL, TE.stripL]
  | x :: l, b, h => by
    cases b with
    | nil => simp [TE.eqvL] at h
    | cons y l' =>
      simp only [TE.eqvL, Bool.and_eq_true] at h
      simp only [TE.stripL, TE.eqv_strip h.1, TE.eqvL_strip h.2]
end

mutual
/-- The same expression, with the same meaning of its free variables: `SameFix ρ1 ρ2 t1 t2`. -/
inductive SameFix : List TE → List TE → TE → TE → Prop
  | mk (ρ1 ρ2 : List TE) (t1 t2 : TE) : t1.strip = t2.strip → SameFixAll ρ1 ρ2 (t1.freeVars 0) → SameFix ρ1 ρ2 t1 t2
/-- The variables refer to enclosing fix points that are the same. -/
inductive SameFixAll : List TE → List TE → List Nat → Prop
  | nil (ρ1 ρ2 : List TE) : SameFixAll ρ1 ρ2 []
  | cons (ρ1 ρ2 : List TE) (i : Nat) (l : List Nat) (b1 b2 : TE) (ρ1' ρ2' : List TE) :
      ρ1.drop i = b1 :: ρ1' → ρ2.drop i = b2 :: ρ2' → SameFix ρ1' ρ2' (.fix none b1) (.fix none b2) →
      SameFixAll ρ1 ρ2 l → SameFixAll ρ1 ρ2 (i :: l)
end

/-- What `SameFix` says about free variables. -/
def SameFixVars (ρ1 ρ2 : List TE) (l : List Nat) : Prop :=
  ∀ i ∈ l, ∃ b1 ρ1' b2 ρ2', ρ1.drop i = b1 :: ρ1' ∧ ρ2.drop i = b2 :: ρ2' ∧ SameFix ρ1' ρ2' (.fix none b1) (.fix none b2)

theorem SameFixAll.vars {ρ1 ρ2 : List TE} : ∀ {l : List Nat}, SameFixAll ρ1 ρ2 l → SameFixVars ρ1 ρ2 l
  | _, .nil _ _ => by intro i hi; cases hi
  | _, .cons _ _ i l b1 b2 ρ1' ρ2' h1 h2 h3 h4 => by
    intro j hj
    rcases List.mem_cons.1 hj with rfl | hj
    · exact ⟨b1, ρ1', b2, ρ2', h1, h2, h3⟩
    · exact h4.vars j hj

theorem SameFixVars.all {ρ1 ρ2 : List TE} : ∀ {l : List Nat}, SameFixVars ρ1 ρ2 l → SameFixAll ρ1 ρ2 l
  | [], _ => .nil _ _
  | i :: l, h => by
    obtain ⟨b1, ρ1', b2, ρ2', h1, h2, h3⟩ := h i (by simp)
    exact .cons _ _ _ _ _ _ _ _ h1 h2 h3 (SameFixVars.all (fun j hj => h j (by simp [hj])))

theorem SameFix.of {ρ1 ρ2 : List TE} {t1 t2 : TE} (h1 : t1.strip = t2.strip) (h2 : SameFixVars ρ1 ρ2 (t1.freeVars 0)) :
    SameFix ρ1 ρ2 t1 t2 := .mk _ _ _ _ h1 h2.all

theorem SameFix.inv {ρ1 ρ2 : List TE} {t1 t2 : TE} (h : SameFix ρ1 ρ2 t1 t2) :
    t1.strip = t2.strip ∧ SameFixVars ρ1 ρ2 (t1.freeVars 0) := by
  cases h with
  | mk _ _ _ _ h1 h2 => exact ⟨h1, h2.vars⟩

theorem stripL_all2 {ρ1 ρ2 : List TE} : ∀ {l1 l2 : List TE}, TE.stripL l1 = TE.stripL l2 →
    SameFixVars ρ1 ρ2 (TE.freeVarsL 0 l1) →
    All2 (fun c1 c2 : List TE × TE => SameFix c1.1 c2.1 c1.2 c2.2) (l1.map fun t => (ρ1, t)) (l2.map fun t => (ρ2, t))
  | [], [], _, _ => .nil
  | [], _ :: _, h, _ => by simp [TE.stripL] at h
  | _ :: _, [], h, _ => by simp [TE.stripL] at h
  | a :: l1, b :: l2, h, hv => by
    simp only [TE.stripL, List.cons.injEq] at h
    simp only [TE.freeVarsL] at hv
    exact .cons (.of h.1 (fun i hi => hv i (by simp [hi]))) (stripL_all2 h.2 (fun i hi => hv i (by simp [hi])))

theorem TE.strip_ty : ∀ a : TE, a.strip.ty = a.ty
  | .eps _ => rfl
  | .lit _ _ => rfl
  | .cat _ _ _ => rfl
  | .alt _ _ _ => rfl
  | .fix _ b => by simp only [TE.strip, TE.ty]; exact b.strip_ty
  | .var _ _ _ => rfl

theorem stripL_tys : ∀ {l1 l2 : List TE}, TE.stripL l1 = TE.stripL l2 → l1.map TE.ty = l2.map TE.ty
  | [], [], _ => rfl
  | [], _ :: _, h => by simp [TE.stripL] at h
  | _ :: _, [], h => by simp [TE.stripL] at h
  | a :: l1, b :: l2, h => by
    simp only [TE.stripL, List.cons.injEq] at h
    have : a.ty = b.ty := by rw [← a.strip_ty, h.1, b.strip_ty]
    simp [this, stripL_tys h.2]

mutual
theorem freeVars_succ : ∀ (t : TE) (d i : Nat), i + 1 ∈ t.freeVars d → i ∈ t.freeVars (d + 1)
  | .eps _, d, i, h => by simp [TE.freeVars] at h
  | .lit _ _, d, i, h => by simp [TE.freeVars] at h
  | .cat _ _ l, d, i, h => by simp only [TE.freeVars] at h ⊢; exact freeVarsL_succ l d i h
  | .alt _ _ l, d, i, h => by simp only [TE.freeVars] at h ⊢; exact freeVarsL_succ l d i h
  | .fix _ b, d, i, h => by simp only [TE.freeVars] at h ⊢; exact freeVars_succ b (d + 1) i h
  | .var _ j _, d, i, h => by
    simp only [TE.freeVars] at h ⊢
    split at h
    · simp at h
      rw [if_pos (by omega)]
      simp; omega
    · simp at h
theorem freeVarsL_succ : ∀ (l : List TE) (d i : Nat), i + 1 ∈ TE.freeVarsL d l → i ∈ TE.freeVarsL (d + 1) l
  | [], d, i, h => by simp [TE.freeVarsL] at h
  | e :: l, d, i, h => by
    simp only [TE.freeVarsL, List.mem_append] at h ⊢
    rcases h with h | h
    · exact .inl (freeVars_succ e d i h)
    · exact .inr (freeVarsL_succ l d i h)
end

theorem SameFix.step {c1 c2 : List TE × TE} (h : SameFix c1.1 c2.1 c1.2 c2.2) :
    NodeF.Rel (fun c1 c2 : List TE × TE => SameFix c1.1 c2.1 c1.2 c2.2) (stepR c1) (stepR c2) := by
  obtain ⟨ρ1, t1⟩ := c1
  obtain ⟨ρ2, t2⟩ := c2
  dsimp only at h
  obtain ⟨h1, h2⟩ := h.inv
  cases t1 with
  | eps nm => cases t2 <;> simp only [TE.strip, reduceCtorEq] at h1; exact .eps
  | lit nm s =>
    cases t2 <;> simp only [TE.strip, reduceCtorEq] at h1
    cases h1; exact .lit s
  | cat nm ty l =>
    cases t2 <;> simp only [TE.strip, reduceCtorEq, TE.cat.injEq, true_and] at h1
    exact .cat (stripL_all2 h1.2 h2)
  | alt nm ty l =>
    cases t2 <;> simp only [TE.strip, reduceCtorEq, TE.alt.injEq, true_and] at h1
    replace h1 := h1.2
    simp only [stepR]
    rw [stripL_tys h1]
    exact .alt _ (stripL_all2 h1 h2)
  | fix nm b =>
    cases t2 with
    | fix nm' b' =>
      simp only [TE.strip, TE.fix.injEq, true_and] at h1
      simp only [stepR]
      refine .alias (.of h1 ?_)
      intro i hi
      cases i with
      | zero =>
        refine ⟨b, ρ1, b', ρ2, rfl, rfl, .of (by simp [TE.strip, h1]) ?_⟩
        intro i hi
        exact h2 i (by simpa [TE.freeVars] using hi)
      | succ i =>
        obtain ⟨b1, ρ1', b2, ρ2', h3, h4, h5⟩ := h2 i (by simpa [TE.freeVars] using freeVars_succ b 0 i hi)
        exact ⟨b1, ρ1', b2, ρ2', by simpa using h3, by simpa using h4, h5⟩
    | _ => simp [TE.strip] at h1
  | var nm i ty =>
    cases t2 with
    | var nm' i' ty' =>
      simp only [TE.strip, TE.var.injEq, true_and] at h1
      obtain ⟨rfl, rfl⟩ := h1
      obtain ⟨b1, ρ1', b2, ρ2', h3, h4, h5⟩ := h2 i (by simp [TE.freeVars])
      simp only [stepR, h3, h4]
      exact .box h5
    | _ => simp [TE.strip] at h1

/-- Repeated fix points mean the same where they occur. -/
theorem coherent_of_same {root : TE} (h : ∀ ρ1 n1 b1 ρ2 n2 b2, Occ root ρ1 (.fix n1 b1) → Occ root ρ2 (.fix n2 b2) →
    b1.eqv b2 = true → SameFix ρ1 ρ2 (.fix n1 b1) (.fix n2 b2)) : Coherent root := by
  intro ρ1 n1 b1 ρ2 n2 b2 h1 h2 h3 n w
  have := h ρ1 n1 b1 ρ2 n2 b2 h1 h2 h3
  rw [takeR_eq_run, takeR_eq_run]
  exact ⟨run_bisim (fun a b h => SameFix.step h) n _ _ w this, runCost_bisim (fun a b h => SameFix.step h) n _ _ w this⟩

theorem same_of_eqv {ρ1 ρ2 : List TE} {n1 n2 : Option Name} {b1 b2 : TE} (h : b1.eqv b2 = true)
    (hv : SameFixVars ρ1 ρ2 (TE.freeVars 1 b1)) : SameFix ρ1 ρ2 (.fix n1 b1) (.fix n2 b2) :=
  .of (by simp [TE.strip, TE.eqv_strip h]) (fun i hi => hv i (by simpa [TE.freeVars] using hi))

/-- Wherever two fix points of the grammar have equal bodies, they are the same fix point: their free variables
refer to enclosing fix points that are, again, the same. -/
def NoSharingConflict (root : TE) : Prop :=
  ∀ ρ1 n1 b1 ρ2 n2 b2, Occ root ρ1 (.fix n1 b1) → Occ root ρ2 (.fix n2 b2) →
    b1.eqv b2 = true → SameFix ρ1 ρ2 (.fix n1 b1) (.fix n2 b2)

theorem NoSharingConflict.coherent {root : TE} (h : NoSharingConflict root) : Coherent root := coherent_of_same h

/-! ## Deciding the criterion -/

mutual
theorem TE.strip_strip : ∀ t : TE, t.strip.strip = t.strip
  | .eps _ => rfl
  | .lit _ _ => rfl
  | .cat _ _ l => by simp only [TE.strip, TE.stripL_stripL l]
  | .alt _ _ l => by simp only [TE.strip, TE.stripL_stripL l]
  | .fix _ b => by simp only [TE.strip, TE.strip_strip b]
  | .var _ _ _ => rfl
theorem TE.stripL_stripL : ∀ l : List TE, TE.stripL (TE.stripL l) = TE.stripL l
  | [] => rfl
  | e :: l => by simp only [TE.stripL, TE.strip_strip e, TE.stripL_stripL l]
end

/-- Decides `SameFix`, given enough fuel. -/
def sameB : Nat → List TE → List TE → TE → TE → Bool
  | 0, _, _, _, _ => false
  | n + 1, ρ1, ρ2, t1, t2 => t1.strip.eqv t2.strip && (t1.freeVars 0).all fun i =>
    match ρ1.drop i, ρ2.drop i with
    | b1 :: ρ1', b2 :: ρ2' => sameB n ρ1' ρ2' (.fix none b1) (.fix none b2)
    | _, _ => false

theorem sameB_sound : ∀ (n : Nat) {ρ1 ρ2 : List TE} {t1 t2 : TE}, sameB n ρ1 ρ2 t1 t2 = true → SameFix ρ1 ρ2 t1 t2
  | 0, _, _, _, _, h => by simp [sameB] at h
  | n + 1, ρ1, ρ2, t1, t2, h => by
    simp only [sameB, Bool.and_eq_true, List.all_eq_true] at h
    have h1 := TE.eqv_strip h.1
    rw [TE.strip_strip, TE.strip_strip] at h1
    refine .of h1 (fun i hi => ?_)
    have h2 := h.2 i hi
    cases hd1 : ρ1.drop i with
    | nil => rw [hd1] at h2; simp at h2
    | cons b1 ρ1' =>
      cases hd2 : ρ2.drop i with
      | nil => rw [hd1, hd2] at h2; simp at h2
      | cons b2 ρ2' =>
        rw [hd1, hd2] at h2
        exact ⟨b1, ρ1', b2, ρ2', rfl, rfl, sameB_sound n h2⟩

mutual
/-- All fix points with their environments. -/
def TE.fixes (ρ : List TE) : TE → List (List TE × TE)
  | .eps _ => []
  | .lit _ _ => []
  | .cat _ _ l => TE.fixesL ρ l
  | .alt _ _ l => TE.fixesL ρ l
  | .fix _ b => (ρ, b) :: b.fixes (b :: ρ)
  | .var _ _ _ => []
def TE.fixesL (ρ : List TE) : List TE → List (List TE × TE)
  | [] => []
  | e :: l => e.fixes ρ ++ TE.fixesL ρ l
end

theorem fixesL_mem {ρ : List TE} {t : TE} {x : List TE × TE} (hx : x ∈ t.fixes ρ) : ∀ {l : List TE}, t ∈ l → x ∈ TE.fixesL ρ l
  | [], h => by cases h
  | e :: l, h => by
    simp only [TE.fixesL, List.mem_append]
    rcases List.mem_cons.1 h with rfl | h
    · exact .inl hx
    · exact .inr (fixesL_mem hx h)

theorem Occ.fixes {root : TE} {ρ : List TE} {te : TE} (h : Occ root ρ te) : ∀ x ∈ te.fixes ρ, x ∈ root.fixes [] := by
  induction h with
  | root => exact fun x hx => hx
  | cat _ hm ih => exact fun x hx => ih x (by simp only [TE.fixes]; exact fixesL_mem hx hm)
  | alt _ hm ih => exact fun x hx => ih x (by simp only [TE.fixes]; exact fixesL_mem hx hm)
  | fix _ ih => exact fun x hx => ih x (by simp only [TE.fixes]; exact List.mem_cons_of_mem _ hx)

/-- A check for `NoSharingConflict`. -/
def TE.shareSafe (te : TE) : Bool :=
  (te.fixes []).all fun f => (te.fixes []).all fun g =>
    !(f.2.eqv g.2) || sameB (f.1.length + 1) f.1 g.1 (.fix none f.2) (.fix none g.2)

theorem SameFix.fix_name {ρ1 ρ2 : List TE} {n1 n2 m1 m2 : Option Name} {b1 b2 : TE} (h : SameFix ρ1 ρ2 (.fix n1 b1) (.fix n2 b2)) :
    SameFix ρ1 ρ2 (.fix m1 b1) (.fix m2 b2) := .of h.inv.1 h.inv.2

theorem TE.shareSafe_sound {te : TE} (h : te.shareSafe = true) : NoSharingConflict te := by
  intro ρ1 n1 b1 ρ2 n2 b2 h1 h2 he
  simp only [TE.shareSafe, List.all_eq_true] at h
  have := h (ρ1, b1) (h1.fixes _ (by simp [TE.fixes])) (ρ2, b2) (h2.fixes _ (by simp [TE.fixes]))
  simp only [he, Bool.not_true, Bool.false_or] at this
  exact (sameB_sound _ this).fix_name

/-- Fix points without free variables never conflict. -/
theorem same_of_closed {ρ1 ρ2 : List TE} {n1 n2 : Option Name} {b1 b2 : TE} (h : b1.eqv b2 = true)
    (hv : TE.freeVars 1 b1 = []) : SameFix ρ1 ρ2 (.fix n1 b1) (.fix n2 b2) :=
  same_of_eqv h (by rw [hv]; intro i hi; cases hi)

end Chomp
