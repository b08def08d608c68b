import Verif.Lower.TableProps
import Verif.Ast.Provenance

/-!
# Code generation and the order of hash maps

`fix_map` is a `HashMap` keyed by typed expressions.  Its equality is not transitive in general (C09), so a lookup may match several
keys, and which one `HashMap::get` returns depends on the (randomly seeded) hashes.  Here code generation is parametrised by how
lookups are resolved.
-/

namespace Chomp

/-- A way to resolve the lookups in `fix_map`: any function of the contents of the map and the key. -/
abbrev Lookup : Type := List (TE × Nat) → TE → Option Nat

/-- It behaves as `HashMap::get` (for keys whose hashes agree when they are equal, see `TE.hashed_eq`): it returns the value of
some equal key if there is one. -/
structure Lookup.Valid (pick : Lookup) : Prop where
  hit : ∀ {m b id}, pick m b = some id → ∃ k, (k, id) ∈ m ∧ k.eqv b = true
  miss : ∀ {m b}, pick m b = none → ∀ p ∈ m, p.1.eqv b = false

mutual
/-- `src/chomp/typed/lower.rs:33-42`, `src/lower/mod.rs:380-405`: `gen` (see there) with `fix_map.get` resolved by `pick`. -/
def genWith (pick : Lookup) (cas : Casing) : TE → BState → Except GenPanic (Nat × BState)
  | .eps _, s => .ok (genEps s)
  | .lit nm str, s => genLit cas nm str s
  | .cat nm _ l, s => (genWithL pick cas l s).bind fun (ids, s) => genCat cas nm (l.map TE.name) ids s
  | .alt nm _ l, s => (genWithL pick cas l s).bind fun (ids, s) => genAlt cas nm (l.map TE.ty) (l.map TE.name) ids s
  | .fix nm b, s =>
    match pick s.fixMap b with
    | some id => .ok (id, s)
    | none =>
      (s.newTypeName cas "Fix" nm).bind fun (name, s) =>
        let id := s.data.length
        (genWith pick cas b
          { s with
            fixMap := (b, id) :: s.fixMap
            data := s.data ++ [⟨name, .bad, [], [], false⟩]
            context := s.context ++ [id] }).bind fun (inner, s) =>
          match s.data[inner]? with
          | none => .error .index
          | some _ =>
            .ok (id,
              { s with
                context := s.context.dropLast
                data := s.data.set id ⟨name, .alias inner, [], [inner], false⟩ })
  | .var _ i _, s => genVar i s
/-- `src/lower/mod.rs:60-75`: `recurse_exprs`. -/
def genWithL (pick : Lookup) (cas : Casing) : List TE → BState → Except GenPanic (List Nat × BState)
  | [], s => .ok ([], s)
  | e :: l, s => (genWith pick cas e s).bind fun (id, s) => (genWithL pick cas l s).map fun (ids, s) => (id :: ids, s)
end

/-! ## Equality of typed expressions -/

theorem optNameEqv_comm (a b : Option Name) : optNameEqv a b = optNameEqv b a := by
  cases a <;> cases b <;> simp only [optNameEqv]
  rename_i a b
  obtain ⟨ac, ak⟩ := a
  obtain ⟨bc, bk⟩ := b
  cases ac <;> cases bc <;> simp only [Name.eqv, Content.eqv, Bool.beq_comm]

theorem decide_eq_comm {α : Type} [DecidableEq α] (a b : α) : decide (a = b) = decide (b = a) := by
  rw [decide_eq_decide]; exact eq_comm

mutual
theorem TE.eqv_comm : ∀ a b : TE, a.eqv b = b.eqv a
  | .eps _, b => by cases b <;> simp only [TE.eqv, optNameEqv_comm]
  | .lit _ _, b => by cases b <;> simp only [TE.eqv, optNameEqv_comm, BEq.comm]
  | .cat _ _ l, b => by
    cases b <;> simp only [TE.eqv]
    rename_i t l'
    rw [TE.eqvL_comm l l', decide_eq_comm, optNameEqv_comm]
  | .alt _ _ l, b => by
    cases b <;> simp only [TE.eqv]
    rename_i t l'
    rw [TE.eqvL_comm l l', decide_eq_comm, optNameEqv_comm]
  | .fix _ x, b => by
    cases b <;> simp only [TE.eqv]
    rename_i y
    rw [TE.eqv_comm x y, optNameEqv_comm]
  | .var _ _ _, b => by
    cases b <;> simp only [TE.eqv]
    rw [decide_eq_comm, optNameEqv_comm, BEq.comm]
theorem TE.eqvL_comm : ∀ l m : List TE, TE.eqvL l m = TE.eqvL m l
  | [], m => by cases m <;> simp only [TE.eqvL]
  | e :: l, m => by
    cases m <;> simp only [TE.eqvL]
    rename_i x m
    rw [TE.eqv_comm e x, TE.eqvL_comm l m]
end

/-- Among these names `==` is transitive. -/
def Uniform (P : Name → Prop) : Prop := ∀ a b c, P a → P b → P c → a.eqv b = true → b.eqv c = true → a.eqv c = true

theorem optNameEqv_trans {P : Name → Prop} (hP : Uniform P) {a b c : Option Name} (ha : ∀ n ∈ a, P n) (hb : ∀ n ∈ b, P n)
    (hc : ∀ n ∈ c, P n) (h1 : optNameEqv a b = true) (h2 : optNameEqv b c = true) : optNameEqv a c = true := by
  cases a <;> cases b <;> cases c <;> simp_all [optNameEqv]
  exact hP _ _ _ ha hb hc h1 h2

mutual
theorem TE.eqv_trans {P : Name → Prop} (hP : Uniform P) : ∀ (a b c : TE), (∀ n ∈ a.names, P n) → (∀ n ∈ b.names, P n) →
    (∀ n ∈ c.names, P n) → a.eqv b = true → b.eqv c = true → a.eqv c = true
  | .eps _, b, c, ha, hb, hc, h1, h2 => by
    cases b <;> simp only [TE.eqv, Bool.false_eq_true] at h1
    cases c <;> simp only [TE.eqv, Bool.false_eq_true] at h2
    simp only [TE.names, Option.mem_toList] at ha hb hc
    simp only [TE.eqv]
    exact optNameEqv_trans hP ha hb hc h1 h2
  | .lit _ _, b, c, ha, hb, hc, h1, h2 => by
    cases b <;> simp only [TE.eqv, Bool.false_eq_true, Bool.and_eq_true, beq_iff_eq] at h1
    cases c <;> simp only [TE.eqv, Bool.false_eq_true, Bool.and_eq_true, beq_iff_eq] at h2
    simp only [TE.names, Option.mem_toList] at ha hb hc
    simp only [TE.eqv, Bool.and_eq_true, beq_iff_eq]
    exact ⟨h1.1.trans h2.1, optNameEqv_trans hP ha hb hc h1.2 h2.2⟩
  | .cat _ _ l, b, c, ha, hb, hc, h1, h2 => by
    cases b <;> simp only [TE.eqv, Bool.false_eq_true, Bool.and_eq_true, decide_eq_true_eq] at h1
    cases c <;> simp only [TE.eqv, Bool.false_eq_true, Bool.and_eq_true, decide_eq_true_eq] at h2
    simp only [TE.names, List.mem_append, Option.mem_toList] at ha hb hc
    simp only [TE.eqv, Bool.and_eq_true, decide_eq_true_eq]
    exact ⟨⟨TE.eqvL_trans hP l _ _ (fun n hn => ha n (.inr hn)) (fun n hn => hb n (.inr hn)) (fun n hn => hc n (.inr hn)) h1.1.1 h2.1.1,
      h1.1.2.trans h2.1.2⟩,
      optNameEqv_trans hP (fun n hn => ha n (.inl hn)) (fun n hn => hb n (.inl hn)) (fun n hn => hc n (.inl hn)) h1.2 h2.2⟩
  | .alt _ _ l, b, c, ha, hb, hc, h1, h2 => by
    cases b <;> simp only [TE.eqv, Bool.false_eq_true, Bool.and_eq_true, decide_eq_true_eq] at h1
    cases c <;> simp only [TE.eqv, Bool.false_eq_true, Bool.and_eq_true, decide_eq_true_eq] at h2
    simp only [TE.names, List.mem_append, Option.mem_toList] at ha hb hc
    simp only [TE.eqv, Bool.and_eq_true, decide_eq_true_eq]
    exact ⟨⟨TE.eqvL_trans hP l _ _ (fun n hn => ha n (.inr hn)) (fun n hn => hb n (.inr hn)) (fun n hn => hc n (.inr hn)) h1.1.1 h2.1.1,
      h1.1.2.trans h2.1.2⟩,
      optNameEqv_trans hP (fun n hn => ha n (.inl hn)) (fun n hn => hb n (.inl hn)) (fun n hn => hc n (.inl hn)) h1.2 h2.2⟩
  | .fix _ x, b, c, ha, hb, hc, h1, h2 => by
    cases b <;> simp only [TE.eqv, Bool.false_eq_true, Bool.and_eq_true] at h1
    cases c <;> simp only [TE.eqv, Bool.false_eq_true, Bool.and_eq_true] at h2
    simp only [TE.names, List.mem_append, Option.mem_toList] at ha hb hc
    simp only [TE.eqv, Bool.and_eq_true]
    exact ⟨TE.eqv_trans hP x _ _ (fun n hn => ha n (.inr hn)) (fun n hn => hb n (.inr hn)) (fun n hn => hc n (.inr hn)) h1.1 h2.1,
      optNameEqv_trans hP (fun n hn => ha n (.inl hn)) (fun n hn => hb n (.inl hn)) (fun n hn => hc n (.inl hn)) h1.2 h2.2⟩
  | .var _ _ _, b, c, ha, hb, hc, h1, h2 => by
    cases b <;> simp only [TE.eqv, Bool.false_eq_true, Bool.and_eq_true, decide_eq_true_eq, beq_iff_eq] at h1
    cases c <;> simp only [TE.eqv, Bool.false_eq_true, Bool.and_eq_true, decide_eq_true_eq, beq_iff_eq] at h2
    simp only [TE.names, Option.mem_toList] at ha hb hc
    simp only [TE.eqv, Bool.and_eq_true, decide_eq_true_eq, beq_iff_eq]
    exact ⟨⟨h1.1.1.trans h2.1.1, h1.1.2.trans h2.1.2⟩, optNameEqv_trans hP ha hb hc h1.2 h2.2⟩
theorem TE.eqvL_trans {P : Name → Prop} (hP : Uniform P) : ∀ (a b c : List TE), (∀ n ∈ TE.namesL a, P n) → (∀ n ∈ TE.namesL b, P n) →
    (∀ n ∈ TE.namesL c, P n) → TE.eqvL a b = true → TE.eqvL b c = true → TE.eqvL a c = true
  | [], b, c, ha, hb, hc, h1, h2 => by
    cases b <;> simp only [TE.eqvL, Bool.false_eq_true] at h1
    exact h2
  | x :: a, b, c, ha, hb, hc, h1, h2 => by
    cases b <;> simp only [TE.eqvL, Bool.false_eq_true, Bool.and_eq_true] at h1
    cases c <;> simp only [TE.eqvL, Bool.false_eq_true, Bool.and_eq_true] at h2
    simp only [TE.namesL, List.mem_append] at ha hb hc
    simp only [TE.eqvL, Bool.and_eq_true]
    exact ⟨TE.eqv_trans hP x _ _ (fun n hn => ha n (.inl hn)) (fun n hn => hb n (.inl hn)) (fun n hn => hc n (.inl hn)) h1.1 h2.1,
      TE.eqvL_trans hP a _ _ (fun n hn => ha n (.inr hn)) (fun n hn => hb n (.inr hn)) (fun n hn => hc n (.inr hn)) h1.2 h2.2⟩
end

/-! ## Hashes -/

/-- `src/chomp/name.rs:83-90,113,136`: what the derived `Hash for Name` feeds to the hasher. -/
def Name.hashed (n : Name) : String × Kind := (n.content.hashed, n.kind)

/-- What `Hash for TypedExpression` feeds to the hasher. -/
inductive HashIn where
  | eps (n : Option (String × Kind))
  | lit (n : Option (String × Kind)) (s : List Char)
  | cat (n : Option (String × Kind)) (t : Ty) (l : List HashIn)
  | alt (n : Option (String × Kind)) (t : Ty) (l : List HashIn)
  | fix (n : Option (String × Kind)) (b : HashIn)
  | var (n : Option (String × Kind)) (i : Nat) (t : Ty)

mutual
/-- `src/chomp/typed/mod.rs:77,90,115,131,147,158,170,231-236`: `Hash for TypedExpression` and the derived implementations for its
parts.  The types of epsilons and literals, which are functions of the rest, are left out. -/
def TE.hashed : TE → HashIn
  | .eps n => .eps (n.map Name.hashed)
  | .lit n s => .lit (n.map Name.hashed) s
  | .cat n t l => .cat (n.map Name.hashed) t (TE.hashedL l)
  | .alt n t l => .alt (n.map Name.hashed) t (TE.hashedL l)
  | .fix n b => .fix (n.map Name.hashed) b.hashed
  | .var n i t => .var (n.map Name.hashed) i t
def TE.hashedL : List TE → List HashIn
  | [] => []
  | e :: l => e.hashed :: TE.hashedL l
end

theorem optName_hashed {a b : Option Name} (h : optNameEqv a b = true) : a.map Name.hashed = b.map Name.hashed := by
  cases a <;> cases b <;> simp only [optNameEqv, Bool.false_eq_true] at h
  · rfl
  · rename_i a b
    obtain ⟨ac, ak⟩ := a
    obtain ⟨bc, bk⟩ := b
    cases ac <;> cases bc <;> simp_all [Name.eqv, Content.eqv, Name.hashed, Content.hashed]

mutual
theorem TE.hashed_eq : ∀ (a b : TE), a.eqv b = true → a.hashed = b.hashed
  | .eps _, b, h => by
    cases b <;> simp only [TE.eqv, Bool.false_eq_true] at h
    simp only [TE.hashed, optName_hashed h]
  | .lit _ _, b, h => by
    cases b <;> simp only [TE.eqv, Bool.false_eq_true, Bool.and_eq_true, beq_iff_eq] at h
    simp only [TE.hashed, optName_hashed h.2, h.1]
  | .cat _ _ l, b, h => by
    cases b <;> simp only [TE.eqv, Bool.false_eq_true, Bool.and_eq_true, decide_eq_true_eq] at h
    simp only [TE.hashed, optName_hashed h.2, h.1.2, TE.hashedL_eq l _ h.1.1]
  | .alt _ _ l, b, h => by
    cases b <;> simp only [TE.eqv, Bool.false_eq_true, Bool.and_eq_true, decide_eq_true_eq] at h
    simp only [TE.hashed, optName_hashed h.2, h.1.2, TE.hashedL_eq l _ h.1.1]
  | .fix _ x, b, h => by
    cases b <;> simp only [TE.eqv, Bool.false_eq_true, Bool.and_eq_true] at h
    simp only [TE.hashed, optName_hashed h.2, TE.hashed_eq x _ h.1]
  | .var _ _ _, b, h => by
    cases b <;> simp only [TE.eqv, Bool.false_eq_true, Bool.and_eq_true, decide_eq_true_eq, beq_iff_eq] at h
    simp only [TE.hashed, optName_hashed h.2, h.1.1, h.1.2]
theorem TE.hashedL_eq : ∀ (a b : List TE), TE.eqvL a b = true → TE.hashedL a = TE.hashedL b
  | [], b, h => by
    cases b <;> simp only [TE.eqvL, Bool.false_eq_true] at h
    rfl
  | x :: a, b, h => by
    cases b <;> simp only [TE.eqvL, Bool.false_eq_true, Bool.and_eq_true] at h
    simp only [TE.hashedL, TE.hashed_eq x _ h.1, TE.hashedL_eq a _ h.2]
end

/-! ## The keys of `fix_map` -/

/-- The keys of size at most `M` have names in `P` and are different from each other. -/
structure Keys (P : Name → Prop) (M : Nat) (m : List (TE × Nat)) : Prop where
  big : ∀ p ∈ m, (∀ n ∈ p.1.names, P n) ∨ M < p.1.size
  uniq : ∀ p ∈ m, ∀ q ∈ m, p.1.size ≤ M → p.1.eqv q.1 = true → p = q

theorem Keys.pick {P : Name → Prop} (hP : Uniform P) {M : Nat} {m : List (TE × Nat)} (hm : Keys P M m) {pick : Lookup} (hp : pick.Valid)
    {b : TE} (hb : ∀ n ∈ b.names, P n) (hM : b.size ≤ M) : pick m b = (m.find? fun p => p.1.eqv b).map (·.2) := by
  have small : ∀ p ∈ m, p.1.eqv b = true → ∀ n ∈ p.1.names, P n := fun p hpm he => by
    rcases hm.big p hpm with h | h
    · exact h
    · have := TE.eqv_size he; omega
  cases hf : m.find? (fun p => p.1.eqv b) with
  | none =>
    rw [List.find?_eq_none] at hf
    cases hq : pick m b with
    | none => rfl
    | some id =>
      obtain ⟨k, hk, he⟩ := hp.hit hq
      exact absurd he (hf _ hk)
  | some q =>
    have hqm := List.mem_of_find?_eq_some hf
    have hqe : q.1.eqv b = true := List.find?_some (p := fun p : TE × Nat => p.1.eqv b) hf
    cases hq : pick m b with
    | none => rw [hp.miss hq q hqm] at hqe; cases hqe
    | some id =>
      obtain ⟨k, hk, he⟩ := hp.hit hq
      have h1 := small q hqm hqe
      have h2 : ∀ n ∈ k.names, P n := small _ hk he
      have := hm.uniq q hqm (k, id) hk (by rw [TE.eqv_size hqe]; exact hM) (TE.eqv_trans hP q.1 b k h1 hb h2 hqe (by rw [TE.eqv_comm]; exact he))
      rw [this]; rfl

theorem Keys.add {P : Name → Prop} {M : Nat} {m : List (TE × Nat)} (hm : Keys P M m) {b : TE} {id : Nat}
    (hn : m.find? (fun p => p.1.eqv b) = none) (hb : ∀ n ∈ b.names, P n) : Keys P M ((b, id) :: m) := by
  rw [List.find?_eq_none] at hn
  refine ⟨?_, ?_⟩
  · intro p hp
    rcases List.mem_cons.1 hp with rfl | hp
    · exact .inl hb
    · exact hm.big p hp
  · intro p hp q hq h1 he
    rcases List.mem_cons.1 hp with rfl | hp <;> rcases List.mem_cons.1 hq with rfl | hq
    · rfl
    · rw [TE.eqv_comm] at he; exact absurd he (hn q hq)
    · exact absurd he (hn p hp)
    · exact hm.uniq p hp q hq h1 he

theorem newTypeName_fixMap {cas : Casing} {pre : String} {nm : Option Name} {s s' : BState} {name : String}
    (h : s.newTypeName cas pre nm = .ok (name, s')) : s'.fixMap = s.fixMap := by
  unfold BState.newTypeName at h
  split at h
  · cases h; rfl
  · split at h
    · cases h
    · cases h; rfl

theorem genLit_fixMap {cas : Casing} {nm : Option Name} {str : List Char} {s s' : BState} {id : Nat}
    (h : genLit cas nm str s = .ok (id, s')) : s'.fixMap = s.fixMap := by
  unfold genLit at h
  split at h
  · cases h; rfl
  · cases h1 : s.newTypeName cas "Lit" nm with
    | error e => rw [h1] at h; cases h
    | ok r =>
      obtain ⟨name, t⟩ := r
      rw [h1] at h
      cases h
      exact (show t.fixMap = s.fixMap from newTypeName_fixMap h1)

theorem genCat_fixMap {cas : Casing} {nm : Option Name} {ns : List (Option Name)} {ids : List Nat} {s s' : BState} {id : Nat}
    (h : genCat cas nm ns ids s = .ok (id, s')) : s'.fixMap = s.fixMap := by
  unfold genCat at h
  split at h
  · cases h; rfl
  · cases h1 : s.newTypeName cas "Cat" nm with
    | error e => rw [h1] at h; cases h
    | ok r =>
      obtain ⟨name, t⟩ := r
      rw [h1] at h
      simp only [Except.bind] at h
      cases h2 : t.tyNames ids with
      | error e => rw [h2] at h; cases h
      | ok l =>
        rw [h2] at h
        simp only at h
        cases h3 : partNames cas.snake "part" 0 [] ns with
        | error e => rw [h3] at h; cases h
        | ok l => rw [h3] at h; cases h; exact (show t.fixMap = s.fixMap from newTypeName_fixMap h1)

theorem genAlt_fixMap {cas : Casing} {nm : Option Name} {tys : List Ty} {ns : List (Option Name)} {ids : List Nat} {s s' : BState} {id : Nat}
    (h : genAlt cas nm tys ns ids s = .ok (id, s')) : s'.fixMap = s.fixMap := by
  unfold genAlt at h
  split at h
  · cases h; rfl
  · cases h1 : s.newTypeName cas "Alt" nm with
    | error e => rw [h1] at h; cases h
    | ok r =>
      obtain ⟨name, t⟩ := r
      rw [h1] at h
      simp only [Except.bind] at h
      cases h2 : t.tyNames ids with
      | error e => rw [h2] at h; cases h
      | ok l =>
        rw [h2] at h
        simp only at h
        cases h3 : partNames cas.camel "Branch" 0 [] ns with
        | error e => rw [h3] at h; cases h
        | ok l => rw [h3] at h; cases h; exact (show t.fixMap = s.fixMap from newTypeName_fixMap h1)

theorem genVar_fixMap {i : Nat} {s s' : BState} {id : Nat} (h : genVar i s = .ok (id, s')) : s'.fixMap = s.fixMap := by
  unfold genVar at h
  split at h
  · split at h
    · cases h
    · split at h
      · cases h; rfl
      · split at h
        · cases h
        · cases h; rfl
  · cases h

theorem genEps_fixMap (s : BState) : (genEps s).2.fixMap = s.fixMap := by
  unfold genEps; split <;> rfl

/-- The result is the same, and the keys stay in order. -/
def SameGen {α : Type} (P : Name → Prop) (M : Nat) (x y : Except GenPanic (α × BState)) : Prop :=
  x = y ∧ ∀ a s', y = .ok (a, s') → Keys P M s'.fixMap

theorem SameGen.bind {α β : Type} {P : Name → Prop} {M : Nat} {x y : Except GenPanic (α × BState)} (h : SameGen P M x y)
    {f g : α × BState → Except GenPanic (β × BState)}
    (hf : ∀ a s, y = .ok (a, s) → Keys P M s.fixMap → SameGen P M (f (a, s)) (g (a, s))) : SameGen P M (x.bind f) (y.bind g) := by
  obtain ⟨rfl, h⟩ := h
  cases x with
  | error e => exact ⟨rfl, fun a s h => by cases h⟩
  | ok r => obtain ⟨a, s⟩ := r; exact hf a s rfl (h a s rfl)

mutual
theorem genWith_eq {P : Name → Prop} (hP : Uniform P) {pick : Lookup} (hp : pick.Valid) (cas : Casing) (M : Nat) :
    ∀ (te : TE) (s : BState), (∀ n ∈ te.names, P n) → te.size ≤ M → Keys P M s.fixMap →
      SameGen P M (genWith pick cas te s) (gen cas te s)
  | .eps _, s, hn, hM, hk => by
    refine ⟨by simp only [genWith, gen], fun a s' h => ?_⟩
    simp only [gen] at h
    injection h with h
    have := genEps_fixMap s
    rw [h] at this
    rw [this]; exact hk
  | .lit nm str, s, hn, hM, hk => by
    refine ⟨by simp only [genWith, gen], fun a s' h => ?_⟩
    simp only [gen] at h
    rw [genLit_fixMap h]; exact hk
  | .cat nm t l, s, hn, hM, hk => by
    simp only [TE.names, List.mem_append] at hn
    simp only [TE.size] at hM
    simp only [genWith, gen]
    refine (genWithL_eq hP hp cas M l s (fun n h => hn n (.inr h)) (by omega) hk).bind fun ids s1 _ hk1 => ⟨rfl, fun a s' h => ?_⟩
    rw [genCat_fixMap h]; exact hk1
  | .alt nm t l, s, hn, hM, hk => by
    simp only [TE.names, List.mem_append] at hn
    simp only [TE.size] at hM
    simp only [genWith, gen]
    refine (genWithL_eq hP hp cas M l s (fun n h => hn n (.inr h)) (by omega) hk).bind fun ids s1 _ hk1 => ⟨rfl, fun a s' h => ?_⟩
    rw [genAlt_fixMap h]; exact hk1
  | .fix nm b, s, hn, hM, hk => by
    simp only [TE.names, List.mem_append] at hn
    simp only [TE.size] at hM
    have hb : ∀ n ∈ b.names, P n := fun n h => hn n (.inr h)
    simp only [genWith, gen, BState.findFix]
    rw [hk.pick hP hp hb (by omega)]
    cases hf : s.fixMap.find? (fun p => p.1.eqv b) with
    | some q => exact ⟨rfl, fun a s' h => by cases h; exact hk⟩
    | none =>
      simp only [Option.map_none]
      cases h1 : s.newTypeName cas "Fix" nm with
      | error e => exact ⟨rfl, fun a s' h => by cases h⟩
      | ok r =>
        obtain ⟨name, s1⟩ := r
        have hfm := newTypeName_fixMap h1
        simp only [Except.bind]
        refine SameGen.bind (x := genWith pick cas b _) (y := gen cas b _)
          (genWith_eq hP hp cas M b _ hb (by omega) ?_) fun inner s2 _ hk2 => ⟨rfl, fun a s' h => ?_⟩
        · rw [hfm]; exact hk.add hf hb
        · dsimp only at h
          split at h
          · cases h
          · cases h; exact hk2
  | .var _ i _, s, hn, hM, hk => by
    refine ⟨by simp only [genWith, gen], fun a s' h => ?_⟩
    simp only [gen] at h
    rw [genVar_fixMap h]; exact hk
theorem genWithL_eq {P : Name → Prop} (hP : Uniform P) {pick : Lookup} (hp : pick.Valid) (cas : Casing) (M : Nat) :
    ∀ (l : List TE) (s : BState), (∀ n ∈ TE.namesL l, P n) → TE.sizeL l ≤ M → Keys P M s.fixMap →
      SameGen P M (genWithL pick cas l s) (genL cas l s)
  | [], s, hn, hM, hk => ⟨by simp only [genWithL, genL], fun a s' h => by simp only [genL] at h; cases h; exact hk⟩
  | e :: l, s, hn, hM, hk => by
    simp only [TE.namesL, List.mem_append] at hn
    simp only [TE.sizeL] at hM
    simp only [genWithL, genL]
    refine (genWith_eq hP hp cas M e s (fun n h => hn n (.inl h)) (by omega) hk).bind fun id s1 _ hk1 => ?_
    obtain ⟨h1, h2⟩ := genWithL_eq hP hp cas M l s1 (fun n h => hn n (.inr h)) (by omega) hk1
    dsimp only
    rw [h1]
    refine ⟨rfl, fun a s' h => ?_⟩
    cases h3 : genL cas l s1 with
    | error e => rw [h3] at h; cases h
    | ok r =>
      obtain ⟨ids, s2⟩ := r
      rw [h3] at h
      cases h
      exact h2 _ _ h3
end

/-- All names are in `P`, except those of the expression itself and, if it is a fix point, of its body, and so on. -/
def TE.Inner (P : Name → Prop) : TE → Prop
  | .cat _ _ l => ∀ n ∈ TE.namesL l, P n
  | .alt _ _ l => ∀ n ∈ TE.namesL l, P n
  | .fix _ b => b.Inner P
  | _ => True

theorem genWith_inner {P : Name → Prop} (hP : Uniform P) {pick : Lookup} (hp : pick.Valid) (cas : Casing) :
    ∀ (te : TE) (s : BState), te.Inner P → (∀ p ∈ s.fixMap, te.size ≤ p.1.size) → genWith pick cas te s = gen cas te s
  | .eps _, s, hn, hk => by simp only [genWith, gen]
  | .lit _ _, s, hn, hk => by simp only [genWith, gen]
  | .var _ _ _, s, hn, hk => by simp only [genWith, gen]
  | .cat nm t l, s, hn, hk => by
    have hkeys : Keys P (TE.sizeL l) s.fixMap := by
      have hlt : ∀ p ∈ s.fixMap, TE.sizeL l < p.1.size := fun p hp => by
        have := hk p hp; simp only [TE.size] at this; omega
      exact ⟨fun p hp => .inr (hlt p hp), fun p hpm q hqm h1 he => absurd (hlt p hpm) (by omega)⟩
    simp only [genWith, gen]
    rw [(genWithL_eq hP hp cas (TE.sizeL l) l s hn (Nat.le_refl _) hkeys).1]
  | .alt nm t l, s, hn, hk => by
    have hkeys : Keys P (TE.sizeL l) s.fixMap := by
      have hlt : ∀ p ∈ s.fixMap, TE.sizeL l < p.1.size := fun p hp => by
        have := hk p hp; simp only [TE.size] at this; omega
      exact ⟨fun p hp => .inr (hlt p hp), fun p hpm q hqm h1 he => absurd (hlt p hpm) (by omega)⟩
    simp only [genWith, gen]
    rw [(genWithL_eq hP hp cas (TE.sizeL l) l s hn (Nat.le_refl _) hkeys).1]
  | .fix nm b, s, hn, hk => by
    have none1 : s.fixMap.find? (fun p => p.1.eqv b) = none := by
      rw [List.find?_eq_none]
      intro p hpm he
      have h1 := TE.eqv_size he
      have h2 := hk p hpm
      simp only [TE.size] at h2
      omega
    have none2 : pick s.fixMap b = none := by
      cases h : pick s.fixMap b with
      | none => rfl
      | some id =>
        obtain ⟨k, hkm, he⟩ := hp.hit h
        have h1 := TE.eqv_size he
        have h2 := hk _ hkm
        simp only [TE.size] at h2
        omega
    simp only [genWith, gen, BState.findFix, none1, none2, Option.map_none]
    cases h1 : s.newTypeName cas "Fix" nm with
    | error e => rfl
    | ok r =>
      obtain ⟨name, s1⟩ := r
      have hfm := newTypeName_fixMap h1
      simp only [Except.bind]
      rw [genWith_inner hP hp cas b _ hn]
      · rfl
      intro p hpm
      dsimp only at hpm
      rw [hfm] at hpm
      rcases List.mem_cons.1 hpm with rfl | hpm
      · exact Nat.le_refl _
      · have := hk p hpm
        simp only [TE.size] at this
        omega

end Chomp
