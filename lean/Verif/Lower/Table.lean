import Verif.Lower.Sim

/-!
# Code generation as a sequence of elementary steps on the table of generated types
-/

namespace Chomp

/-- Literals of one character. -/
def oneChar (str : List Char) : Bool := match str with | [_] => true | _ => false

/-- Elementary steps of code generation. -/
inductive BStep (cas : Casing) (N : Name → Prop) : BState → BState → Prop
  | eps (s : BState) : BStep cas N s { s with data := s.data ++ [⟨"Epsilon", .eps, [], [], false⟩] }
  | lit (s : BState) (nm : Option Name) (str : List Char) (name : String) (m : List (String × Nat)) :
      (∀ n, nm = some n → N n) → s.litMap.lookup str = none → s.newTypeName cas "Lit" nm = .ok (name, { s with nameMap := m }) →
      BStep cas N s
        { s with
          nameMap := m
          data := s.data ++ [⟨name, .lit str, [], [], oneChar str⟩]
          litMap := (str, s.data.length) :: s.litMap
          canChar := if oneChar str then s.data.length :: s.canChar else s.canChar }
  | cat (s : BState) (nm : Option Name) (names : List (Option Name)) (ids : List Nat) (name : String)
      (m : List (String × Nat)) (parts : List String) :
      (∀ n, nm = some n → N n) → s.catMap.lookup ids = none → (∀ i ∈ ids, i < s.data.length) →
      s.newTypeName cas "Cat" nm = .ok (name, { s with nameMap := m }) →
      partNames cas.snake "part" 0 [] names = .ok parts →
      BStep cas N s
        { s with
          nameMap := m
          data := s.data ++ [⟨name, .cat ids, if names.any Option.isSome then parts else [], ids, false⟩]
          catMap := (ids, s.data.length) :: s.catMap }
  | alt (s : BState) (nm : Option Name) (tys : List Ty) (names : List (Option Name)) (ids : List Nat) (name : String)
      (m : List (String × Nat)) (parts : List String) :
      (∀ n, nm = some n → N n) → s.altMap.lookup ids = none → (∀ i ∈ ids, i < s.data.length) →
      s.newTypeName cas "Alt" nm = .ok (name, { s with nameMap := m }) →
      partNames cas.camel "Branch" 0 [] names = .ok parts →
      BStep cas N s
        { s with
          nameMap := m
          data := s.data ++ [⟨name, .alt tys ids, parts, ids, ids.all fun id => s.canChar.contains id⟩]
          altMap := (ids, s.data.length) :: s.altMap
          canChar := if ids.all fun id => s.canChar.contains id then s.data.length :: s.canChar else s.canChar }
  | fixOpen (s : BState) (nm : Option Name) (b : TE) (name : String) (m : List (String × Nat)) :
      (∀ n, nm = some n → N n) → s.findFix b = none → s.newTypeName cas "Fix" nm = .ok (name, { s with nameMap := m }) →
      BStep cas N s
        { s with
          nameMap := m
          fixMap := (b, s.data.length) :: s.fixMap
          data := s.data ++ [⟨name, .bad, [], [], false⟩]
          context := s.context ++ [s.data.length] }
  | fixClose (s : BState) (c : List Nat) (id : Nat) (name : String) (inner : Nat) : s.context = c ++ [id] →
      s.data[id]? = some ⟨name, .bad, [], [], false⟩ → inner < s.data.length →
      BStep cas N s { s with context := c, data := s.data.set id ⟨name, .alias inner, [], [inner], false⟩ }
  | var (s : BState) (f : Nat) (e : Entry) : f ∈ s.context → s.varMap.lookup f = none → s.data[f]? = some e →
      BStep cas N s
        { s with
          data := s.data ++ [⟨"Box<" ++ e.name ++ ">", .box f, [], [], false⟩]
          varMap := (f, s.data.length) :: s.varMap }

/-- Any number of steps. -/
inductive BSteps (cas : Casing) (N : Name → Prop) : BState → BState → Prop
  | refl (s : BState) : BSteps cas N s s
  | tail {a b c : BState} : BSteps cas N a b → BStep cas N b c → BSteps cas N a c

theorem BSteps.one {cas : Casing} {N : Name → Prop} {a b : BState} (h : BStep cas N a b) : BSteps cas N a b := .tail (.refl _) h

theorem BSteps.trans {cas : Casing} {N : Name → Prop} {a b c : BState} (h1 : BSteps cas N a b) (h2 : BSteps cas N b c) : BSteps cas N a c := by
  induction h2 with
  | refl => exact h1
  | tail _ h ih => exact .tail ih h

/-- An invariant of the steps. -/
theorem BSteps.inv {cas : Casing} {N : Name → Prop} {P : BState → Prop} (h : ∀ a b, P a → BStep cas N a b → P b) {a b : BState}
    (hs : BSteps cas N a b) (ha : P a) : P b := by
  induction hs with
  | refl => exact ha
  | tail _ hs ih => exact h _ _ ih hs

theorem newTypeName_state {cas : Casing} {pre : String} {nm : Option Name} {s s1 : BState} {name : String}
    (h : s.newTypeName cas pre nm = .ok (name, s1)) : ∃ m, s1 = { s with nameMap := m } := by
  cases nm with
  | none => simp only [BState.newTypeName] at h; cases h; exact ⟨_, rfl⟩
  | some n =>
    simp only [BState.newTypeName] at h
    split at h
    · cases h
    · cases h; exact ⟨_, rfl⟩

theorem except_map_ok {ε α β : Type} {r : Except ε α} {f : α → β} {b : β} (h : r.map f = .ok b) : ∃ a, r = .ok a ∧ f a = b := by
  cases r with
  | error e => cases h
  | ok a => cases h; exact ⟨a, rfl, rfl⟩

theorem except_bind_ok {ε α β : Type} {r : Except ε α} {f : α → Except ε β} {b : β} (h : r.bind f = .ok b) :
    ∃ a, r = .ok a ∧ f a = .ok b := by
  cases r with
  | error e => cases h
  | ok a => exact ⟨a, rfl, h⟩

theorem tyNames_lt {s : BState} : ∀ {ids : List Nat} {r : List String}, s.tyNames ids = .ok r → ∀ i ∈ ids, i < s.data.length
  | [], _, _, i, hi => by cases hi
  | j :: ids, r, h, i, hi => by
    simp only [BState.tyNames] at h
    cases hd : s.data[j]? with
    | none => rw [hd] at h; cases h
    | some e =>
      rw [hd] at h
      obtain ⟨r', h1, _⟩ := except_map_ok h
      rcases List.mem_cons.1 hi with rfl | hi
      · exact (List.getElem?_eq_some_iff.1 hd).1
      · exact tyNames_lt h1 i hi

/-- What one generation does to the state, apart from the details of the new entries. -/
structure Gen1 (cas : Casing) (N : Name → Prop) (s s' : BState) : Prop where
  steps : BSteps cas N s s'
  ctx : s'.context = s.context
  keep : ∀ i < s.data.length, s'.data[i]? = s.data[i]?
  len : s.data.length ≤ s'.data.length

theorem Gen1.refl (cas : Casing) (N : Name → Prop) (s : BState) : Gen1 cas N s s := ⟨.refl _, rfl, fun _ _ => rfl, Nat.le_refl _⟩

theorem Gen1.trans {cas : Casing} {N : Name → Prop} {a b c : BState} (h1 : Gen1 cas N a b) (h2 : Gen1 cas N b c) : Gen1 cas N a c :=
  ⟨h1.steps.trans h2.steps, h2.ctx.trans h1.ctx, fun i hi => (h2.keep i (Nat.lt_of_lt_of_le hi h1.len)).trans (h1.keep i hi),
    Nat.le_trans h1.len h2.len⟩

theorem Gen1.push {cas : Casing} {N : Name → Prop} {s s' : BState} (h : BStep cas N s s') (hc : s'.context = s.context) (e : Entry)
    (hd : s'.data = s.data ++ [e]) : Gen1 cas N s s' :=
  ⟨.one h, hc, fun i hi => by rw [hd, List.getElem?_append_left hi], by rw [hd]; simp⟩

theorem genLit_gen1 {cas : Casing} {N : Name → Prop} {nm : Option Name} {str : List Char} {s s' : BState} {id : Nat}
    (h : genLit cas nm str s = .ok (id, s')) (hN : ∀ n, nm = some n → N n) :
    (s.litMap.lookup str = some id ∧ s' = s) ∨
    (id = s.data.length ∧ BStep cas N s s' ∧ s'.context = s.context ∧ ∃ e, s'.data = s.data ++ [e] ∧ e.node = .lit str ∧ e.deps = []) := by
  simp only [genLit] at h
  cases hl : s.litMap.lookup str with
  | some k => rw [hl] at h; cases h; exact .inl ⟨rfl, rfl⟩
  | none =>
    rw [hl] at h
    obtain ⟨⟨name, s1⟩, h1, h2⟩ := except_map_ok h
    obtain ⟨m, rfl⟩ := newTypeName_state h1
    dsimp only at h2
    cases h2
    exact .inr ⟨rfl, .lit s nm str name m hN hl h1, rfl, _, rfl, rfl, rfl⟩

theorem genCat_gen1 {cas : Casing} {N : Name → Prop} {nm : Option Name} {names : List (Option Name)} {ids : List Nat} {s s' : BState} {id : Nat}
    (h : genCat cas nm names ids s = .ok (id, s')) (hN : ∀ n, nm = some n → N n) :
    (s.catMap.lookup ids = some id ∧ s' = s) ∨
    (id = s.data.length ∧ BStep cas N s s' ∧ s'.context = s.context ∧
      ∃ e, s'.data = s.data ++ [e] ∧ e.node = .cat ids ∧ e.deps = ids) := by
  simp only [genCat] at h
  cases hl : s.catMap.lookup ids with
  | some k => rw [hl] at h; cases h; exact .inl ⟨rfl, rfl⟩
  | none =>
    rw [hl] at h
    obtain ⟨⟨name, s1⟩, h1, h2⟩ := except_bind_ok h
    obtain ⟨m, rfl⟩ := newTypeName_state h1
    dsimp only at h2
    obtain ⟨tn, h3, h4⟩ := except_bind_ok h2
    obtain ⟨parts, h5, h6⟩ := except_map_ok h4
    cases h6
    exact .inr ⟨rfl, .cat s nm names ids name m parts hN hl (tyNames_lt (s := { s with nameMap := m }) h3) h1 h5, rfl, _, rfl, rfl, rfl⟩

theorem genAlt_gen1 {cas : Casing} {N : Name → Prop} {nm : Option Name} {tys : List Ty} {names : List (Option Name)} {ids : List Nat}
    {s s' : BState} {id : Nat} (h : genAlt cas nm tys names ids s = .ok (id, s')) (hN : ∀ n, nm = some n → N n) :
    (s.altMap.lookup ids = some id ∧ s' = s) ∨
    (id = s.data.length ∧ BStep cas N s s' ∧ s'.context = s.context ∧
      ∃ e, s'.data = s.data ++ [e] ∧ e.node = .alt tys ids ∧ e.deps = ids) := by
  simp only [genAlt] at h
  cases hl : s.altMap.lookup ids with
  | some k => rw [hl] at h; cases h; exact .inl ⟨rfl, rfl⟩
  | none =>
    rw [hl] at h
    obtain ⟨⟨name, s1⟩, h1, h2⟩ := except_bind_ok h
    obtain ⟨m, rfl⟩ := newTypeName_state h1
    dsimp only at h2
    obtain ⟨tn, h3, h4⟩ := except_bind_ok h2
    obtain ⟨parts, h5, h6⟩ := except_map_ok h4
    cases h6
    exact .inr ⟨rfl, .alt s nm tys names ids name m parts hN hl (tyNames_lt (s := { s with nameMap := m }) h3) h1 h5, rfl, _, rfl, rfl, rfl⟩

theorem genVar_gen1 {cas : Casing} {N : Name → Prop} {i : Nat} {s s' : BState} {id : Nat} (h : genVar i s = .ok (id, s')) :
    ∃ f ∈ s.context, s.context[s.context.length - i - 1]? = some f ∧ ((s.varMap.lookup f = some id ∧ s' = s) ∨
    (id = s.data.length ∧ BStep cas N s s' ∧ s'.context = s.context ∧
      ∃ e, s'.data = s.data ++ [e] ∧ e.node = .box f ∧ e.deps = [])) := by
  simp only [genVar] at h
  split at h
  · cases hc : s.context[s.context.length - i - 1]? with
    | none => rw [hc] at h; cases h
    | some f =>
      rw [hc] at h
      dsimp only at h
      have hf : f ∈ s.context := List.mem_of_getElem? hc
      refine ⟨f, hf, rfl, ?_⟩
      cases hl : s.varMap.lookup f with
      | some k => rw [hl] at h; cases h; exact .inl ⟨rfl, rfl⟩
      | none =>
        rw [hl] at h
        dsimp only at h
        cases hd : s.data[f]? with
        | none => rw [hd] at h; cases h
        | some e =>
          rw [hd] at h
          cases h
          exact .inr ⟨rfl, .var s f e hf hl hd, rfl, _, rfl, rfl, rfl⟩
  · cases h

/-- Generating a new fix point. -/
theorem genFix_inv {cas : Casing} {nm : Option Name} {b : TE} {s s' : BState} {id : Nat}
    (h : gen cas (.fix nm b) s = .ok (id, s')) :
    (s.findFix b = some id ∧ s' = s) ∨
    ∃ name m inner s2 e, s.findFix b = none ∧ s.newTypeName cas "Fix" nm = .ok (name, { s with nameMap := m }) ∧
      id = s.data.length ∧
      gen cas b
        { s with
          nameMap := m
          fixMap := (b, s.data.length) :: s.fixMap
          data := s.data ++ [⟨name, .bad, [], [], false⟩]
          context := s.context ++ [s.data.length] } = .ok (inner, s2) ∧ s2.data[inner]? = some e ∧
      s' = { s2 with
              context := s2.context.dropLast
              data := s2.data.set id ⟨name, .alias inner, [], [inner], false⟩ } := by
  simp only [gen] at h
  cases hl : s.findFix b with
  | some k => rw [hl] at h; cases h; exact .inl ⟨rfl, rfl⟩
  | none =>
    rw [hl] at h
    obtain ⟨⟨name, s1⟩, h1, h2⟩ := except_bind_ok h
    obtain ⟨m, rfl⟩ := newTypeName_state h1
    dsimp only at h2
    obtain ⟨⟨inner, s2⟩, h3, h4⟩ := except_bind_ok h2
    dsimp only at h4
    cases hd : s2.data[inner]? with
    | none => rw [hd] at h4; cases h4
    | some e =>
      rw [hd] at h4
      cases h4
      exact .inr ⟨name, m, inner, s2, e, rfl, h1, rfl, h3, hd, rfl⟩

mutual
/-- The names occurring in a typed expression. -/
def TE.names : TE → List Name
  | .eps nm => nm.toList
  | .lit nm _ => nm.toList
  | .cat nm _ l => nm.toList ++ TE.namesL l
  | .alt nm _ l => nm.toList ++ TE.namesL l
  | .fix nm b => nm.toList ++ b.names
  | .var nm _ _ => nm.toList
def TE.namesL : List TE → List Name
  | [] => []
  | e :: l => e.names ++ TE.namesL l
end

mutual
theorem gen_gen1 (cas : Casing) (N : Name → Prop) : ∀ (te : TE) (s s' : BState) (id : Nat), gen cas te s = .ok (id, s') →
    (∀ n ∈ te.names, N n) → Gen1 cas N s s'
  | .eps _, s, s', id, h, hN => by
    simp only [gen, genEps] at h
    split at h
    · cases h; exact .refl _ _ _
    · cases h; exact .push (.eps s) rfl _ rfl
  | .lit nm str, s, s', id, h, hN => by
    simp only [gen] at h
    rcases genLit_gen1 (N := N) h (fun n hn => hN n (by simp [TE.names, hn])) with ⟨_, rfl⟩ | ⟨_, h1, h2, e, h3, _⟩
    · exact .refl _ _ _
    · exact .push h1 h2 e h3
  | .cat nm ty l, s, s', id, h, hN => by
    simp only [gen] at h
    obtain ⟨⟨ids, s1⟩, h1, h2⟩ := except_bind_ok h
    refine (genL_gen1 cas N l s s1 ids h1 (fun n hn => hN n (by simp [TE.names, hn]))).trans ?_
    rcases genCat_gen1 (N := N) h2 (fun n hn => hN n (by simp [TE.names, hn])) with ⟨_, rfl⟩ | ⟨_, h1, h2, e, h3, _⟩
    · exact .refl _ _ _
    · exact .push h1 h2 e h3
  | .alt nm ty l, s, s', id, h, hN => by
    simp only [gen] at h
    obtain ⟨⟨ids, s1⟩, h1, h2⟩ := except_bind_ok h
    refine (genL_gen1 cas N l s s1 ids h1 (fun n hn => hN n (by simp [TE.names, hn]))).trans ?_
    rcases genAlt_gen1 (N := N) h2 (fun n hn => hN n (by simp [TE.names, hn])) with ⟨_, rfl⟩ | ⟨_, h1, h2, e, h3, _⟩
    · exact .refl _ _ _
    · exact .push h1 h2 e h3
  | .fix nm b, s, s', id, h, hN => by
    rcases genFix_inv h with ⟨_, rfl⟩ | ⟨name, m, inner, s2, e, h1, h2, rfl, h3, h4, rfl⟩
    · exact .refl _ _ _
    · have ih := gen_gen1 cas N b _ _ _ h3 (fun n hn => hN n (by simp [TE.names, hn]))
      have hop := BStep.fixOpen (N := N) s nm b name m (fun n hn => hN n (by simp [TE.names, hn])) h1 h2
      have hk : s2.data[s.data.length]? = some ⟨name, .bad, [], [], false⟩ := by
        rw [ih.keep _ (by simp)]; simp
      have hc : s2.context = s.context ++ [s.data.length] := ih.ctx
      have hlen : s.data.length + 1 ≤ s2.data.length := by simpa using ih.len
      refine ⟨((BSteps.one hop).trans ih.steps).tail ?_, by simp [hc], ?_, by simp; omega⟩
      · have := BStep.fixClose (cas := cas) (N := N) s2 s.context s.data.length name inner hc hk (List.getElem?_eq_some_iff.1 h4).1
        rw [hc, List.dropLast_concat]
        exact this
      · intro i hi
        rw [List.getElem?_set_ne (by omega), ih.keep i (by simp; omega), List.getElem?_append_left hi]
  | .var nm i ty, s, s', id, h, hN => by
    simp only [gen] at h
    obtain ⟨f, hf, _, ⟨_, rfl⟩ | ⟨_, h1, h2, e, h3, _⟩⟩ := genVar_gen1 (cas := cas) (N := N) h
    · exact .refl _ _ _
    · exact .push h1 h2 e h3
theorem genL_gen1 (cas : Casing) (N : Name → Prop) : ∀ (l : List TE) (s s' : BState) (ids : List Nat), genL cas l s = .ok (ids, s') →
    (∀ n ∈ TE.namesL l, N n) → Gen1 cas N s s'
  | [], s, s', ids, h, hN => by simp only [genL] at h; cases h; exact .refl _ _ _
  | e :: l, s, s', ids, h, hN => by
    simp only [genL] at h
    obtain ⟨⟨id, s1⟩, h1, h2⟩ := except_bind_ok h
    obtain ⟨⟨ids', s2⟩, h3, h4⟩ := except_map_ok h2
    cases h4
    exact (gen_gen1 cas N e s s1 id h1 (fun n hn => hN n (by simp [TE.namesL, hn]))).trans (genL_gen1 cas N l s1 _ ids' h3 (fun n hn => hN n (by simp [TE.namesL, hn])))
end

/-! ## The table -/

/-- The ids an entry's definition mentions (other than through `Box`). -/
def NodeF.subs : NodeF Nat → List Nat
  | .cat ids => ids
  | .alt _ ids => ids
  | .alias j => [j]
  | _ => []

/-- Entries of fix points: closed (`alias`) or still open (`bad`). -/
def NodeF.IsFix (n : NodeF Nat) : Prop := n = .bad ∨ ∃ j, n = .alias j

/-- Entries convertible to a character. -/
inductive NodeF.CharNode (S : List Nat) : NodeF Nat → Prop
  | lit (c : Char) : CharNode S (.lit [c])
  | alt (tys : List Ty) (ids : List Nat) : (∀ j ∈ ids, j ∈ S) → CharNode S (.alt tys ids)

/-- What the table looks like. -/
structure TInv (s : BState) : Prop where
  eps : s.epsId = none
  deps : ∀ (i : Nat) (e : Entry), s.data[i]? = some e → e.deps = e.node.subs
  depsLt : ∀ (i : Nat) (e : Entry), s.data[i]? = some e → ∀ d ∈ e.node.subs, d < s.data.length
  lower : ∀ (i : Nat) (e : Entry), s.data[i]? = some e → ¬ e.node.IsFix → ∀ d ∈ e.node.subs, d < i
  bad : ∀ (i : Nat) (e : Entry), s.data[i]? = some e → (e.node = .bad ↔ i ∈ s.context)
  ctx : ∀ f ∈ s.context, f < s.data.length
  litOf : ∀ (k : Nat) (str : List Char), (str, k) ∈ s.litMap ↔ ∃ e : Entry, s.data[k]? = some e ∧ e.node = .lit str
  catOf : ∀ (k : Nat) (ids : List Nat), (ids, k) ∈ s.catMap ↔ ∃ e : Entry, s.data[k]? = some e ∧ e.node = .cat ids
  altOf : ∀ (k : Nat) (ids : List Nat), (ids, k) ∈ s.altMap ↔
    ∃ (e : Entry) (tys : List Ty), s.data[k]? = some e ∧ e.node = .alt tys ids
  varOf : ∀ (k f : Nat), (f, k) ∈ s.varMap ↔ ∃ e : Entry, s.data[k]? = some e ∧ e.node = .box f
  litU : ∀ str k k', (str, k) ∈ s.litMap → (str, k') ∈ s.litMap → k = k'
  catU : ∀ ids k k', (ids, k) ∈ s.catMap → (ids, k') ∈ s.catMap → k = k'
  altU : ∀ ids k k', (ids, k) ∈ s.altMap → (ids, k') ∈ s.altMap → k = k'
  varU : ∀ f k k', (f, k) ∈ s.varMap → (f, k') ∈ s.varMap → k = k'
  box : ∀ (i : Nat) (e : Entry) (f : Nat), s.data[i]? = some e → e.node = .box f →
    ∃ e' : Entry, s.data[f]? = some e' ∧ e'.node.IsFix ∧ e.name = "Box<" ++ e'.name ++ ">"
  fix : ∀ (b : TE) (k : Nat), (b, k) ∈ s.fixMap → ∃ e' : Entry, s.data[k]? = some e' ∧ e'.node.IsFix
  char : ∀ (i : Nat) (e : Entry), s.data[i]? = some e → (e.toChar = true ↔ i ∈ s.canChar)
  charLt : ∀ i ∈ s.canChar, i < s.data.length
  charNode : ∀ (i : Nat) (e : Entry), s.data[i]? = some e → (i ∈ s.canChar ↔ e.node.CharNode s.canChar)

theorem lookup_none_mem {α β : Type} [BEq α] [LawfulBEq α] : ∀ {l : List (α × β)} {a : α}, l.lookup a = none → ∀ b, (a, b) ∉ l
  | [], _, _, _, h => by cases h
  | (x, y) :: l, a, h, b, hm => by
    simp only [List.lookup] at h
    split at h
    · cases h
    · rename_i he
      rcases List.mem_cons.1 hm with hm | hm
      · cases hm; simp at he
      · exact lookup_none_mem h b hm

theorem push_get {α : Type} {l : List α} {e x : α} {i : Nat} :
    (l ++ [e])[i]? = some x ↔ (i < l.length ∧ l[i]? = some x) ∨ (i = l.length ∧ x = e) := by
  by_cases h : i < l.length
  · rw [List.getElem?_append_left h]
    constructor
    · exact fun hx => .inl ⟨h, hx⟩
    · rintro (⟨_, hx⟩ | ⟨rfl, _⟩)
      · exact hx
      · omega
  · by_cases h' : i = l.length
    · subst h'
      simp
      constructor
      · exact fun hx => hx.symm
      · exact fun hx => hx.symm
    · rw [List.getElem?_eq_none (by simp; omega)]
      constructor
      · intro hx; cases hx
      · rintro (⟨h1, _⟩ | ⟨h1, _⟩)
        · exact absurd h1 h
        · exact absurd h1 h'

theorem NodeF.CharNode.agree {S S' : List Nat} {nd : NodeF Nat} (h : ∀ d ∈ nd.subs, d ∈ S → d ∈ S') (hc : nd.CharNode S) :
    nd.CharNode S' := by
  cases hc with
  | lit c => exact .lit c
  | alt tys ids h1 => exact .alt tys ids fun j hj => h j hj (h1 j hj)

/-- Adding an entry keeps the invariant. -/
theorem TInv.push {s s' : BState} (h : TInv s) (e : Entry) (hd : s'.data = s.data ++ [e]) (he : s'.epsId = s.epsId)
    (hdeps : e.deps = e.node.subs) (hlt : ∀ d ∈ e.node.subs, d < s.data.length)
    (hctx : (s'.context = s.context ∧ e.node ≠ .bad) ∨ (s'.context = s.context ++ [s.data.length] ∧ e.node = .bad))
    (hlit : ∀ str k, (str, k) ∈ s'.litMap ↔ (str, k) ∈ s.litMap ∨ (k = s.data.length ∧ e.node = .lit str))
    (hlitN : ∀ str, e.node = .lit str → ∀ k, (str, k) ∉ s.litMap)
    (hcat : ∀ ids k, (ids, k) ∈ s'.catMap ↔ (ids, k) ∈ s.catMap ∨ (k = s.data.length ∧ e.node = .cat ids))
    (hcatN : ∀ ids, e.node = .cat ids → ∀ k, (ids, k) ∉ s.catMap)
    (halt : ∀ ids k, (ids, k) ∈ s'.altMap ↔ (ids, k) ∈ s.altMap ∨ (k = s.data.length ∧ ∃ tys, e.node = .alt tys ids))
    (haltN : ∀ tys ids, e.node = .alt tys ids → ∀ k, (ids, k) ∉ s.altMap)
    (hvar : ∀ f k, (f, k) ∈ s'.varMap ↔ (f, k) ∈ s.varMap ∨ (k = s.data.length ∧ e.node = .box f))
    (hvarN : ∀ f, e.node = .box f → ∀ k, (f, k) ∉ s.varMap)
    (hbox : ∀ f, e.node = .box f → ∃ e' : Entry, s.data[f]? = some e' ∧ e'.node.IsFix ∧ e.name = "Box<" ++ e'.name ++ ">")
    (hfix : ∀ b k, (b, k) ∈ s'.fixMap → (b, k) ∈ s.fixMap ∨ (k = s.data.length ∧ e.node.IsFix))
    (hchar : e.toChar = true ↔ e.node.CharNode s.canChar)
    (hcan : ∀ i, i ∈ s'.canChar ↔ i ∈ s.canChar ∨ (i = s.data.length ∧ e.toChar = true)) : TInv s' := by
  have hlen : s'.data.length = s.data.length + 1 := by simp [hd]
  have old : ∀ {i : Nat} {x : Entry}, s.data[i]? = some x → i < s.data.length := fun hx => (List.getElem?_eq_some_iff.1 hx).1
  have get : ∀ {i : Nat} {x : Entry}, s'.data[i]? = some x ↔
      (i < s.data.length ∧ s.data[i]? = some x) ∨ (i = s.data.length ∧ x = e) := by
    intro i x; rw [hd]; exact push_get
  have oldN : ¬ s.data.length < s.data.length := Nat.lt_irrefl _
  have canOld : ∀ {d : Nat}, d < s.data.length → (d ∈ s'.canChar ↔ d ∈ s.canChar) := by
    intro d hd
    rw [hcan]
    constructor
    · rintro (h | ⟨rfl, _⟩)
      · exact h
      · omega
    · exact .inl
  have charEq : ∀ {nd : NodeF Nat}, (∀ d ∈ nd.subs, d < s.data.length) → (nd.CharNode s'.canChar ↔ nd.CharNode s.canChar) := by
    intro nd hn
    constructor
    · exact fun hc => hc.agree fun d hd => (canOld (hn d hd)).1
    · exact fun hc => hc.agree fun d hd => (canOld (hn d hd)).2
  refine
    { eps := he.trans h.eps, deps := ?_, depsLt := ?_, lower := ?_, bad := ?_, ctx := ?_, litOf := ?_, catOf := ?_, altOf := ?_,
      varOf := ?_, litU := ?_, catU := ?_, altU := ?_, varU := ?_, box := ?_, fix := ?_, char := ?_, charLt := ?_, charNode := ?_ }
  · intro i x hx
    rcases get.1 hx with ⟨_, hx⟩ | ⟨_, rfl⟩
    · exact h.deps i x hx
    · exact hdeps
  · intro i x hx d hs
    rcases get.1 hx with ⟨_, hx⟩ | ⟨_, rfl⟩
    · have := h.depsLt i x hx d hs; omega
    · have := hlt d hs; omega
  · intro i x hx hn d hs
    rcases get.1 hx with ⟨_, hx⟩ | ⟨rfl, rfl⟩
    · exact h.lower i x hx hn d hs
    · exact hlt d hs
  · intro i x hx
    rcases get.1 hx with ⟨hi, hx⟩ | ⟨rfl, rfl⟩
    · rw [h.bad i x hx]
      rcases hctx with ⟨hc, _⟩ | ⟨hc, _⟩
      · rw [hc]
      · rw [hc]; simp; omega
    · rcases hctx with ⟨hc, hn⟩ | ⟨hc, hn⟩
      · rw [hc]
        exact ⟨fun hb => absurd hb hn, fun hi => absurd (h.ctx _ hi) oldN⟩
      · rw [hc]; simp [hn]
  · intro f hf
    rcases hctx with ⟨hc, _⟩ | ⟨hc, _⟩
    · have := h.ctx f (hc ▸ hf); omega
    · rw [hc] at hf
      rcases List.mem_append.1 hf with hf | hf
      · have := h.ctx f hf; omega
      · simp at hf; omega
  · intro k str
    rw [hlit, h.litOf]
    constructor
    · rintro (⟨x, hx, hn⟩ | ⟨hk, hn⟩)
      · exact ⟨x, get.2 (.inl ⟨old hx, hx⟩), hn⟩
      · exact ⟨e, get.2 (.inr ⟨hk, rfl⟩), hn⟩
    · rintro ⟨x, hx, hn⟩
      rcases get.1 hx with ⟨_, hx⟩ | ⟨hk, rfl⟩
      · exact .inl ⟨x, hx, hn⟩
      · exact .inr ⟨hk, hn⟩
  · intro k str
    rw [hcat, h.catOf]
    constructor
    · rintro (⟨x, hx, hn⟩ | ⟨hk, hn⟩)
      · exact ⟨x, get.2 (.inl ⟨old hx, hx⟩), hn⟩
      · exact ⟨e, get.2 (.inr ⟨hk, rfl⟩), hn⟩
    · rintro ⟨x, hx, hn⟩
      rcases get.1 hx with ⟨_, hx⟩ | ⟨hk, rfl⟩
      · exact .inl ⟨x, hx, hn⟩
      · exact .inr ⟨hk, hn⟩
  · intro k str
    rw [halt, h.altOf]
    constructor
    · rintro (⟨x, tys, hx, hn⟩ | ⟨hk, tys, hn⟩)
      · exact ⟨x, tys, get.2 (.inl ⟨old hx, hx⟩), hn⟩
      · exact ⟨e, tys, get.2 (.inr ⟨hk, rfl⟩), hn⟩
    · rintro ⟨x, tys, hx, hn⟩
      rcases get.1 hx with ⟨_, hx⟩ | ⟨hk, rfl⟩
      · exact .inl ⟨x, tys, hx, hn⟩
      · exact .inr ⟨hk, tys, hn⟩
  · intro k str
    rw [hvar, h.varOf]
    constructor
    · rintro (⟨x, hx, hn⟩ | ⟨hk, hn⟩)
      · exact ⟨x, get.2 (.inl ⟨old hx, hx⟩), hn⟩
      · exact ⟨e, get.2 (.inr ⟨hk, rfl⟩), hn⟩
    · rintro ⟨x, hx, hn⟩
      rcases get.1 hx with ⟨_, hx⟩ | ⟨hk, rfl⟩
      · exact .inl ⟨x, hx, hn⟩
      · exact .inr ⟨hk, hn⟩
  · intro str k k' h1 h2
    rcases (hlit _ _).1 h1 with h1 | ⟨rfl, h3⟩ <;> rcases (hlit _ _).1 h2 with h2 | ⟨rfl, h4⟩
    · exact h.litU _ _ _ h1 h2
    · exact absurd h1 (hlitN _ h4 _)
    · exact absurd h2 (hlitN _ h3 _)
    · rfl
  · intro str k k' h1 h2
    rcases (hcat _ _).1 h1 with h1 | ⟨rfl, h3⟩ <;> rcases (hcat _ _).1 h2 with h2 | ⟨rfl, h4⟩
    · exact h.catU _ _ _ h1 h2
    · exact absurd h1 (hcatN _ h4 _)
    · exact absurd h2 (hcatN _ h3 _)
    · rfl
  · intro str k k' h1 h2
    rcases (halt _ _).1 h1 with h1 | ⟨rfl, tys, h1⟩ <;> rcases (halt _ _).1 h2 with h2 | ⟨rfl, tys', h2⟩
    · exact h.altU _ _ _ h1 h2
    · exact absurd h1 (haltN _ _ h2 _)
    · exact absurd h2 (haltN _ _ h1 _)
    · rfl
  · intro str k k' h1 h2
    rcases (hvar _ _).1 h1 with h1 | ⟨rfl, h3⟩ <;> rcases (hvar _ _).1 h2 with h2 | ⟨rfl, h4⟩
    · exact h.varU _ _ _ h1 h2
    · exact absurd h1 (hvarN _ h4 _)
    · exact absurd h2 (hvarN _ h3 _)
    · rfl
  · intro i x f hx hn
    rcases get.1 hx with ⟨_, hx⟩ | ⟨_, rfl⟩
    · obtain ⟨e', h1, h2⟩ := h.box i x f hx hn
      exact ⟨e', get.2 (.inl ⟨old h1, h1⟩), h2⟩
    · obtain ⟨e', h1, h2⟩ := hbox f hn
      exact ⟨e', get.2 (.inl ⟨old h1, h1⟩), h2⟩
  · intro b k hb
    rcases hfix b k hb with hb | ⟨hk, hb⟩
    · obtain ⟨e', h1, h2⟩ := h.fix b k hb
      exact ⟨e', get.2 (.inl ⟨old h1, h1⟩), h2⟩
    · exact ⟨e, get.2 (.inr ⟨hk, rfl⟩), hb⟩
  · intro i x hx
    rcases get.1 hx with ⟨hi, hx⟩ | ⟨rfl, rfl⟩
    · rw [h.char i x hx, canOld hi]
    · rw [hcan]
      exact ⟨fun ht => .inr ⟨rfl, ht⟩, fun ht => ht.elim (fun hm => absurd (h.charLt _ hm) oldN) (·.2)⟩
  · intro i hi
    rcases (hcan i).1 hi with hi | ⟨rfl, _⟩
    · have := h.charLt i hi; omega
    · omega
  · intro i x hx
    rcases get.1 hx with ⟨hi, hx⟩ | ⟨rfl, rfl⟩
    · rw [canOld hi, h.charNode i x hx, charEq (h.depsLt i x hx)]
    · rw [charEq hlt, ← hchar, hcan]
      exact ⟨fun ht => ht.elim (fun hm => absurd (h.charLt _ hm) oldN) (·.2), fun ht => .inr ⟨rfl, ht⟩⟩

theorem oneChar_iff {str : List Char} {S : List Nat} : oneChar str = true ↔ (NodeF.lit str : NodeF Nat).CharNode S := by
  constructor
  · intro h
    match str, h with
    | [c], _ => exact .lit c
  · intro h; cases h; rfl

theorem mem_cons_pair {α β : Type} {a a' : α} {b b' : β} {l : List (α × β)} :
    (a, b) ∈ (a', b') :: l ↔ (a, b) ∈ l ∨ (b = b' ∧ a' = a) := by
  simp only [List.mem_cons, Prod.mk.injEq]
  constructor
  · rintro (⟨rfl, rfl⟩ | h)
    · exact .inr ⟨rfl, rfl⟩
    · exact .inl h
  · rintro (h | ⟨rfl, rfl⟩)
    · exact .inr h
    · exact .inl ⟨rfl, rfl⟩

theorem mem_if_cons {a i : Nat} {b : Bool} {l : List Nat} :
    i ∈ (if b then a :: l else l) ↔ i ∈ l ∨ (i = a ∧ b = true) := by
  cases b <;> simp [or_comm]

/-- Steps keep the invariant. -/
theorem TInv.step {cas : Casing} {N : Name → Prop} {s s' : BState} (h : TInv s) (hs : BStep cas N s s') (hn : s.context.Nodup) : TInv s' := by
  cases hs with
  | eps =>
    refine h.push ⟨"Epsilon", .eps, [], [], false⟩ rfl rfl rfl ?_ (.inl ⟨rfl, by simp⟩) ?_ ?_ ?_ ?_ ?_ ?_ ?_ ?_ ?_ ?_ ?_ ?_ <;>
      simp [NodeF.subs, NodeF.IsFix]
    · intro hc; cases hc
  | lit nm str name m hN hl h1 =>
    refine h.push ⟨name, .lit str, [], [], oneChar str⟩ rfl rfl rfl ?_ (.inl ⟨rfl, by simp⟩) ?_ ?_ ?_ ?_ ?_ ?_ ?_ ?_ ?_ ?_ ?_ ?_
    · simp [NodeF.subs]
    · intro str' k; simp only [mem_cons_pair, NodeF.lit.injEq]
    · intro str' h' k; cases h'; exact lookup_none_mem hl k
    · simp
    · simp
    · simp
    · simp
    · simp
    · simp
    · simp
    · exact fun b k hb => .inl hb
    · exact oneChar_iff
    · exact fun i => mem_if_cons
  | cat nm names ids name m parts hN hl hlt h1 h2 =>
    refine h.push ⟨name, .cat ids, if names.any Option.isSome then parts else [], ids, false⟩ rfl rfl rfl ?_ (.inl ⟨rfl, by simp⟩)
      ?_ ?_ ?_ ?_ ?_ ?_ ?_ ?_ ?_ ?_ ?_ ?_
    · exact hlt
    · simp
    · simp
    · intro str' k; simp only [mem_cons_pair, NodeF.cat.injEq]
    · intro str' h' k; cases h'; exact lookup_none_mem hl k
    · simp
    · simp
    · simp
    · simp
    · simp
    · exact fun b k hb => .inl hb
    · simp; intro hc; cases hc
    · simp
  | alt nm tys names ids name m parts hN hl hlt h1 h2 =>
    refine h.push ⟨name, .alt tys ids, parts, ids, ids.all fun id => s.canChar.contains id⟩ rfl rfl rfl ?_ (.inl ⟨rfl, by simp⟩)
      ?_ ?_ ?_ ?_ ?_ ?_ ?_ ?_ ?_ ?_ ?_ ?_
    · exact hlt
    · simp
    · simp
    · simp
    · simp
    · intro str' k
      simp only [mem_cons_pair, NodeF.alt.injEq]
      refine or_congr Iff.rfl (and_congr Iff.rfl ⟨fun h => ⟨tys, rfl, h⟩, fun ⟨_, _, h⟩ => h⟩)
    · intro tys' str' h' k; cases h'; exact lookup_none_mem hl k
    · simp
    · simp
    · simp
    · exact fun b k hb => .inl hb
    · constructor
      · intro ha; exact .alt _ _ fun j hj => by simpa using List.all_eq_true.1 ha j hj
      · intro hc; cases hc with | alt _ _ hc => exact List.all_eq_true.2 fun j hj => by simpa using hc j hj
    · exact fun i => mem_if_cons
  | fixOpen nm b name m hN hl h1 =>
    refine h.push ⟨name, .bad, [], [], false⟩ rfl rfl rfl ?_ (.inr ⟨rfl, rfl⟩)
      ?_ ?_ ?_ ?_ ?_ ?_ ?_ ?_ ?_ ?_ ?_ ?_
    · simp [NodeF.subs]
    · simp
    · simp
    · simp
    · simp
    · simp
    · simp
    · simp
    · simp
    · simp
    · intro b' k hb
      rcases List.mem_cons.1 hb with hb | hb
      · cases hb; exact .inr ⟨rfl, .inl rfl⟩
      · exact .inl hb
    · simp; intro hc; cases hc
    · simp
  | var f e hf hl hd =>
    refine h.push ⟨"Box<" ++ e.name ++ ">", .box f, [], [], false⟩ rfl rfl rfl ?_ (.inl ⟨rfl, by simp⟩)
      ?_ ?_ ?_ ?_ ?_ ?_ ?_ ?_ ?_ ?_ ?_ ?_
    · simp [NodeF.subs]
    · simp
    · simp
    · simp
    · simp
    · simp
    · simp
    · intro str' k; simp only [mem_cons_pair, NodeF.box.injEq]
    · intro str' h' k; cases h'; exact lookup_none_mem hl k
    · intro f' h'; cases h'; exact ⟨e, hd, .inl ((h.bad f e hd).2 hf), rfl⟩
    · exact fun b k hb => .inl hb
    · simp; intro hc; cases hc
    · simp
  | fixClose c id name inner hc hid hin =>
    have hidlt := (List.getElem?_eq_some_iff.1 hid).1
    have get : ∀ {i : Nat} {x : Entry}, (s.data.set id ⟨name, .alias inner, [], [inner], false⟩)[i]? = some x ↔
        (i ≠ id ∧ s.data[i]? = some x) ∨ (i = id ∧ x = ⟨name, .alias inner, [], [inner], false⟩) := by
      intro i x
      by_cases hi : i = id
      · subst hi; rw [List.getElem?_set_self hidlt]; simp [eq_comm]
      · rw [List.getElem?_set_ne (fun hh => hi hh.symm)]; simp [hi]
    have key : ∀ (P : NodeF Nat → Prop), ¬ P .bad → ¬ P (.alias inner) → ∀ k : Nat,
        (∃ e : Entry, s.data[k]? = some e ∧ P e.node) ↔
          ∃ e : Entry, (s.data.set id ⟨name, .alias inner, [], [inner], false⟩)[k]? = some e ∧ P e.node := by
      intro P h1 h2 k
      constructor
      · rintro ⟨e, he, hp⟩
        refine ⟨e, get.2 (.inl ⟨?_, he⟩), hp⟩
        rintro rfl
        rw [hid] at he; cases he; exact h1 hp
      · rintro ⟨e, he, hp⟩
        rcases get.1 he with ⟨_, he⟩ | ⟨_, rfl⟩
        · exact ⟨e, he, hp⟩
        · exact absurd hp h2
    have fixKey : ∀ {k : Nat} {e : Entry}, s.data[k]? = some e → e.node.IsFix →
        ∃ e' : Entry, (s.data.set id ⟨name, .alias inner, [], [inner], false⟩)[k]? = some e' ∧ e'.node.IsFix ∧ e'.name = e.name := by
      intro k e he hf
      by_cases hk : k = id
      · subst hk
        rw [hid] at he; cases he
        exact ⟨_, get.2 (.inr ⟨rfl, rfl⟩), .inr ⟨_, rfl⟩, rfl⟩
      · exact ⟨e, get.2 (.inl ⟨hk, he⟩), hf, rfl⟩
    have hnid : id ∉ c := by
      rw [hc] at hn
      have := (List.nodup_append.1 hn).2.2
      exact fun hm => this id hm id (by simp) rfl
    have hcid : id ∉ s.canChar := fun hm => by
      have := (h.charNode _ _ hid).1 hm
      cases this
    refine
      { eps := h.eps, deps := ?_, depsLt := ?_, lower := ?_, bad := ?_, ctx := ?_, litOf := ?_, catOf := ?_, altOf := ?_,
        varOf := ?_, litU := h.litU, catU := h.catU, altU := h.altU, varU := h.varU, box := ?_, fix := ?_, char := ?_, charLt := ?_,
        charNode := ?_ }
    · intro i x hx
      rcases get.1 hx with ⟨_, hx⟩ | ⟨_, rfl⟩
      · exact h.deps i x hx
      · rfl
    · intro i x hx d hd
      rcases get.1 hx with ⟨_, hx⟩ | ⟨_, rfl⟩
      · simpa using h.depsLt i x hx d hd
      · simp [NodeF.subs] at hd; subst hd; simpa using hin
    · intro i x hx hn d hd
      rcases get.1 hx with ⟨_, hx⟩ | ⟨_, rfl⟩
      · exact h.lower i x hx hn d hd
      · exact absurd (.inr ⟨_, rfl⟩) hn
    · intro i x hx
      rcases get.1 hx with ⟨hi, hx⟩ | ⟨rfl, rfl⟩
      · rw [h.bad i x hx, hc]; simp [hi]
      · simp [hnid]
    · intro f hf
      have := h.ctx f (by rw [hc]; simp [show f ∈ c from hf])
      simpa using this
    · intro k str
      exact (h.litOf k str).trans (key (fun nd => nd = .lit str) (by simp) (by simp) k)
    · intro k str
      exact (h.catOf k str).trans (key (fun nd => nd = .cat str) (by simp) (by simp) k)
    · intro k ids
      have := key (fun nd => ∃ tys, nd = .alt tys ids) (by simp) (by simp) k
      rw [h.altOf k ids]
      constructor
      · rintro ⟨e, tys, h1, h2⟩
        obtain ⟨e, h1, tys, h2⟩ := this.1 ⟨e, h1, tys, h2⟩
        exact ⟨e, tys, h1, h2⟩
      · rintro ⟨e, tys, h1, h2⟩
        obtain ⟨e, h1, tys, h2⟩ := this.2 ⟨e, h1, tys, h2⟩
        exact ⟨e, tys, h1, h2⟩
    · intro k f
      exact (h.varOf k f).trans (key (fun nd => nd = .box f) (by simp) (by simp) k)
    · intro i x f hx hn
      rcases get.1 hx with ⟨_, hx⟩ | ⟨_, rfl⟩
      · obtain ⟨e', h1, h2, h3⟩ := h.box i x f hx hn
        obtain ⟨e2, h4, h5, h6⟩ := fixKey h1 h2
        exact ⟨e2, h4, h5, by rw [h6]; exact h3⟩
      · cases hn
    · intro b k hb
      obtain ⟨e', h1, h2⟩ := h.fix b k hb
      obtain ⟨e2, h4, h5, _⟩ := fixKey h1 h2
      exact ⟨e2, h4, h5⟩
    · intro i x hx
      rcases get.1 hx with ⟨_, hx⟩ | ⟨rfl, rfl⟩
      · exact h.char i x hx
      · simp [hcid]
    · intro i hi
      have := h.charLt i hi
      simpa using this
    · intro i x hx
      rcases get.1 hx with ⟨_, hx⟩ | ⟨rfl, rfl⟩
      · exact h.charNode i x hx
      · simp [hcid]; intro hh; cases hh

theorem ctx_nodup {cas : Casing} {N : Name → Prop} {s s' : BState} (h : TInv s) (hs : BStep cas N s s') (hn : s.context.Nodup) :
    s'.context.Nodup := by
  cases hs with
  | eps => exact hn
  | lit => exact hn
  | cat => exact hn
  | alt => exact hn
  | var => exact hn
  | fixOpen =>
    refine List.nodup_append.2 ⟨hn, by simp, ?_⟩
    intro a ha b hb
    simp at hb; subst hb
    have := h.ctx a ha
    omega
  | fixClose c id name inner hc => rw [hc] at hn; exact (List.nodup_append.1 hn).1

theorem TInv.empty : TInv {} := by
  refine
    { eps := rfl, deps := ?_, depsLt := ?_, lower := ?_, bad := ?_, ctx := ?_, litOf := ?_, catOf := ?_, altOf := ?_,
      varOf := ?_, litU := ?_, catU := ?_, altU := ?_, varU := ?_, box := ?_, fix := ?_, char := ?_, charLt := ?_, charNode := ?_ } <;>
    simp

theorem BSteps.tinv {cas : Casing} {N : Name → Prop} {s s' : BState} (hs : BSteps cas N s s') (h : TInv s) (hn : s.context.Nodup) : TInv s' :=
  (hs.inv (P := fun s => TInv s ∧ s.context.Nodup) (fun _ _ ha hb => ⟨ha.1.step hb ha.2, ctx_nodup ha.1 hb ha.2⟩) ⟨h, hn⟩).1

/-- The table after code generation. -/
theorem gen_tinv {cas : Casing} {te : TE} {s : BState} {id : Nat} (h : gen cas te {} = .ok (id, s)) : TInv s :=
  (gen_gen1 cas (fun _ => True) te _ _ _ h fun _ _ => trivial).steps.tinv .empty (by simp)

theorem gen_ctx {cas : Casing} {te : TE} {s : BState} {id : Nat} (h : gen cas te {} = .ok (id, s)) : s.context = [] :=
  (gen_gen1 cas (fun _ => True) te _ _ _ h fun _ _ => trivial).ctx

end Chomp
