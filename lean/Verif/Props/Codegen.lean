import Verif.Lower.TableProps
import Verif.Lower.NameLemmas
import Verif.Props.Parser

/-! # C37–C42, C53: the table of generated types and the emitted program -/

namespace Chomp

/-! ## Examples -/

private def xi : Info := ⟨none, 0⟩
private def xl (l : List Char) : NE := .lit xi l
private def xn : Name := .newVariable (.spanless "x")
private def xmu (b : NE) : NE := .fix xi (.lam xi [xn] b)
private def xcat (a : NE) (l : List NE) : NE := .cat xi a (l.map fun b => (0, b))
private def xalt (a : NE) (l : List NE) : NE := .alt xi a (l.map fun b => (0, b))
private def xcas : Casing := ⟨some, some⟩
private def named (s : String) (e : TE) : TE :=
  let nm := some (Name.newVariable (.spanless s))
  match e with
  | .eps _ => .eps nm
  | .lit _ t => .lit nm t
  | .cat _ t l => .cat nm t l
  | .alt _ t l => .alt nm t l
  | .fix _ b => .fix nm b
  | .var _ i t => .var nm i t

/-- `!(/x/ "[" . !(/y/ "," . x . y | "]") | "a" | "b")`: two fix points and an alternation. -/
private def exList : NE :=
  xmu (xalt (xcat (xl ['[']) [xmu (xalt (xcat (xl [',']) [.var xi 1, .var xi 0]) [xl [']']])]) [xalt (xl ['a']) [xl ['b']]])

private theorem exList_compiled : ∃ te s, Compiled exList te s 0 ∧ s.data.length = 14 :=
  ⟨_, _, ⟨⟨9, rfl⟩, xcas, rfl⟩, rfl⟩

/-! ## C37 -/

/-- **C37.** Code generation for an accepted expression indexes neither the context nor the table out of
range: the only way it can fail is an impossible identifier (and only if a name in the grammar has no
camel or snake case version). -/
theorem C37_no_index_panic (cas : Casing) (n : Nat) (e : NE) (te : TE) (h : (inferTop n e ⟨[], []⟩).1 = .ok te) :
    gen cas te {} ≠ .error .index :=
  gen_no_index cas te {} .empty (by simp) (C23_annotations n e te h).scoped

/-- **C37** (emission). Emission indexes the table out of range on no generated table. -/
theorem C37_emission_no_index_panic {cas : Casing} {te : TE} {s : BState} {id : Nat} (h : gen cas te {} = .ok (id, s))
    (n : Nat) : s.emitIds n id ≠ some (.error .index) := by
  have ht := gen_tinv h
  obtain ⟨hid, _⟩ := gen_reach cas te _ _ _ h .empty (by simp)
  have key : ∀ (n : Nat) (todo completed out : List Nat), (∀ i ∈ todo, i < s.data.length) →
      emitLoop s.data n todo completed out ≠ some (.error .index) := by
    intro n
    induction n with
    | zero => intro todo c o _; cases todo <;> simp [emitLoop]
    | succ n ih =>
      intro todo c o hlt
      cases todo with
      | nil => simp [emitLoop]
      | cons a l =>
        obtain ⟨todo', h1, _, h3⟩ := emitRound_ok (completed := extendNat c (a :: l)) hlt (todo := []) (by simp [Sorted])
        simp only [emitLoop, h1]
        refine ih _ _ _ fun d hd => ?_
        rcases (h3 d).1 hd with hd | ⟨_, i, _, e, he, hd⟩
        · cases hd
        · rw [ht.deps i e he] at hd
          exact ht.depsLt i e he d hd
  exact key n [id] [] [] (by simpa using hid)

/-- Why the hypothesis of `C37_no_index_panic` matters: a variable without fix point. -/
example : ∃ te, gen xcas te {} = .error .index := ⟨.var none 0 .eps, rfl⟩

example : ∃ n te, (inferTop n exList ⟨[], []⟩).1 = .ok te ∧ te.scoped 0 := by
  refine ⟨9, _, rfl, ?_⟩
  exact (C23_annotations 9 exList _ rfl).scoped

/-! ## C38 -/

/-- **C38** (any table). From any table whose dependencies are in range, emission started at `root`
terminates, after at most one round per entry, and lists exactly the types that can be reached from
`root` through dependencies, each once. -/
theorem C38_emits_reachable (s : BState)
    (hlt : ∀ (i : Nat) (e : Entry), s.data[i]? = some e → ∀ d ∈ e.deps, d < s.data.length) (root : Nat)
    (hr : root < s.data.length) (n : Nat) (hn : s.data.length < n) :
    ∃ out, s.emitIds n root = some (.ok out) ∧ out.Nodup ∧ ∀ j, j ∈ out ↔ DepReach s.data root j :=
  emit_reach hlt hr hn

/-- The ids the definition of a type mentions, including contents of `Box`es. -/
def NodeF.mentions : NodeF Nat → List Nat
  | .cat ids => ids
  | .alt _ ids => ids
  | .alias j => [j]
  | .box f => [f]
  | _ => []

/-- **C38.** For every generated table the emitted program contains every generated type exactly once,
and so every type that any of its definitions mentions; no entry is left unfinished. -/
theorem C38_emits_everything_once {cas : Casing} {te : TE} {s : BState} {id : Nat} (h : gen cas te {} = .ok (id, s)) :
    ∃ out, s.emitIds (s.data.length + 1) id = some (.ok out) ∧ out.Nodup ∧ (∀ j, j ∈ out ↔ j < s.data.length) ∧
      id ∈ out ∧ (∀ j ∈ out, ∀ k ∈ (s.step j).mentions, k ∈ out) ∧ ∀ j ∈ out, s.step j ≠ .bad := by
  have ht := gen_tinv h
  obtain ⟨hid, hre⟩ := gen_reach cas te _ _ _ h .empty (by simp)
  have hlt : ∀ (i : Nat) (e : Entry), s.data[i]? = some e → ∀ d ∈ e.deps, d < s.data.length := by
    intro i e he d hd
    rw [ht.deps i e he] at hd
    exact ht.depsLt i e he d hd
  obtain ⟨out, h1, h2, h3⟩ := emit_reach hlt hid (Nat.lt_succ_self _)
  have hiff : ∀ j, j ∈ out ↔ j < s.data.length := by
    intro j
    rw [h3]
    constructor
    · intro hr
      cases hr with
      | refl => exact hid
      | step _ he hd => exact hlt _ _ he _ hd
    · exact fun hj => hre j (Nat.zero_le _) hj
  refine ⟨out, h1, h2, hiff, (hiff _).2 hid, fun j hj k hk => (hiff _).2 ?_, fun j hj => ?_⟩
  · have hj' := (hiff _).1 hj
    have he : s.data[j]? = some s.data[j] := List.getElem?_eq_getElem hj'
    rw [step_eq he] at hk
    generalize hnd : s.data[j].node = nd at hk
    cases nd with
    | cat ids => exact ht.depsLt j _ he k (by rw [hnd]; exact hk)
    | alt tys ids => exact ht.depsLt j _ he k (by rw [hnd]; exact hk)
    | alias i => exact ht.depsLt j _ he k (by rw [hnd]; exact hk)
    | box f =>
      obtain ⟨e', h4, _⟩ := ht.box j _ f he hnd
      simp only [NodeF.mentions, List.mem_singleton] at hk
      subst hk
      exact (List.getElem?_eq_some_iff.1 h4).1
    | eps => cases hk
    | lit => cases hk
    | bad => cases hk
  · have hj' := (hiff _).1 hj
    have he : s.data[j]? = some s.data[j] := List.getElem?_eq_getElem hj'
    rw [step_eq he]
    intro hb
    have := (ht.bad j _ he).1 hb
    rw [gen_ctx h] at this
    cases this

example : ∃ te s out, Compiled exList te s 0 ∧ s.emitIds 15 0 = some (.ok out) ∧ out.length = 14 :=
  ⟨_, _, _, ⟨⟨9, rfl⟩, xcas, rfl⟩, rfl, rfl⟩

/-! ## C53 -/

/-- **C53.** The generated types have finite size: descending from a type to the types its definition
contains other than in a `Box` ends after finitely many steps. -/
theorem C53_types_finite {cas : Casing} {te : TE} {s : BState} {id : Nat} (h : gen cas te {} = .ok (id, s)) :
    WellFounded fun d i => d ∈ (s.step i).subs := by
  have hb := (gen_built cas te _ _ _ h .empty (by simp) (fun i hi => by simp at hi) (fun b k hb => by cases hb)).1
  refine ⟨fun i => ?_⟩
  by_cases hi : i < s.data.length
  · exact (hb i hi (by rw [gen_ctx h]; simp)).acc
  · refine ⟨_, fun d hd => ?_⟩
    simp only [BState.step, List.getElem?_eq_none (Nat.le_of_not_lt hi), NodeF.subs] at hd
    cases hd

/-- **C53** (aliases). For an accepted expression, replacing type aliases by their definitions, also
inside `Box`es, ends: no alias is defined in terms of itself without a struct or enum in between. -/
theorem C53_aliases_end {e : NE} {te : TE} {s : BState} {id : Nat} (h : Compiled e te s id) : WellFounded s.Expands := by
  obtain ⟨cas, hc⟩ := h.code
  have := (gen_head cas te _ _ _ [] 0 hc .empty (by simp) h.ann (fun f e j hx => by simp at hx) rfl
    (fun i hi => by simp at hi) (fun b k hb => by cases hb)).1
  exact ⟨this.acc (gen_tinv hc)⟩

/-- Expressions that inference rejects can give circular aliases: `!(/x/ x)` would give
`type Fix1 = Box<Fix1>`. -/
example : ∃ s, gen xcas (.fix none (.var none 0 .eps)) {} = .ok (0, s) ∧ s.Expands 1 0 ∧ s.Expands 0 1 :=
  ⟨_, rfl, .inl rfl, .inr rfl⟩

/-! ## C39 -/

/-- The names of the types defined by the emitted program, in order. -/
def BState.definedNames (s : BState) (out : List Nat) : List String :=
  out.filterMap fun i => (s.data[i]?).bind fun e => if e.defines then some e.name else none

/-- **C39** (for grammars whose names do not interfere). If no camel case version of a name in the
grammar ends in a digit or is one of `Lit`, `Cat`, `Alt` and `Fix`, the types defined in the emitted
program, including the final alias `Ast`, have different names.  Missing: other names, for which the
claim is false (`C39_default_collision`, `C39_count_collision`). -/
theorem C39_type_names_distinct_partial {cas : Casing} {te : TE} {s : BState} {id : Nat}
    (h : gen cas te {} = .ok (id, s))
    (hN : ∀ n ∈ te.names, ∀ c, cas.camel n.content.hashed = some c →
      endsInDigit c = false ∧ c ∉ ["Lit", "Cat", "Alt", "Fix"]) :
    ∃ out, s.emitIds (s.data.length + 1) id = some (.ok out) ∧ (s.rootName none :: s.definedNames out).Nodup := by
  obtain ⟨out, h1, h2, -⟩ := C38_emits_everything_once h
  have hn := gen_names h hN
  refine ⟨out, h1, List.nodup_cons.2 ⟨?_, ?_⟩⟩
  · simp only [BState.rootName, BState.definedNames, List.mem_filterMap, Option.bind_eq_some_iff]
    rintro ⟨i, _, e, he, h3⟩
    split at h3
    · rename_i hd
      obtain ⟨b, k, h4, _⟩ := hn.tag i e he hd
      have h5 := base_digits_endsInDigit b k
      rw [← h4] at h5
      simp only [Option.some.injEq] at h3
      rw [h3] at h5
      revert h5
      decide
    · cases h3
  · unfold BState.definedNames
    clear h1
    induction out with
    | nil => simp
    | cons i out ih =>
      have hi := List.nodup_cons.1 h2
      simp only [List.filterMap_cons]
      cases hx : (s.data[i]?).bind fun e => if e.defines then some e.name else none with
      | none => exact ih hi.2
      | some nm =>
        refine List.nodup_cons.2 ⟨?_, ih hi.2⟩
        rw [Option.bind_eq_some_iff] at hx
        obtain ⟨e, he, hx⟩ := hx
        simp only [List.mem_filterMap, Option.bind_eq_some_iff]
        rintro ⟨j, hj, e', he', hx'⟩
        split at hx
        · split at hx'
          · rename_i hd hd'
            simp only [Option.some.injEq] at hx hx'
            have := hn.inj i j e e' he he' hd hd' (by rw [hx, hx'])
            subst this
            exact hi.1 hj
          · cases hx'
        · cases hx

/-- Non-vacuity: a grammar with named parts. -/
example : ∃ te s out, gen xcas te {} = .ok (2, s) ∧
    (∀ n ∈ te.names, ∀ c, xcas.camel n.content.hashed = some c → endsInDigit c = false ∧ c ∉ ["Lit", "Cat", "Alt", "Fix"]) ∧
    s.emitIds 4 2 = some (.ok out) ∧ s.definedNames out = ["Seq1", "Foo1", "Lit2"] := by
  refine ⟨named "Seq" (.cat none .eps [named "Foo" (.lit none ['a']), .lit none ['b']]), _, _, rfl, ?_, rfl, rfl⟩
  intro n hn
  have : n = Name.newVariable (.spanless "Seq") ∨ n = Name.newVariable (.spanless "Foo") := by
    simpa [TE.names, TE.namesL, named] using hn
  rcases this with rfl | rfl <;> (intro c hc; cases hc; decide)

/-- **C39** (counterexample in the code). A rule called `lit` (in camel case `Lit`) gets the name `Lit1`,
and so does the unnamed literal generated first. -/
theorem C39_default_collision : ∃ e te s id out, Compiled e te s id ∧ s.emitIds (s.data.length + 1) id = some (.ok out) ∧
    ¬ (s.definedNames out).Nodup := by
  refine ⟨xcat (xl ['a']) [.lit ⟨some (.newVariable (.spanless "lit")), 0⟩ ['b']], _, _, _, _,
    ⟨⟨5, rfl⟩, ⟨fun s => some (if s = "lit" then "Lit" else s), some⟩, rfl⟩, rfl, by decide⟩

/-- `n` literals named `s`. -/
private def manyLits (s : String) : List Char → List NE
  | [] => []
  | c :: l => .lit ⟨some (.newVariable (.spanless s)), 0⟩ [c] :: manyLits s l

/-- **C39** (counterexample in the code). The eleventh type called `Foo` and the first one called `Foo1`
are both named `Foo11`. -/
theorem C39_count_collision : ∃ e te s id out, Compiled e te s id ∧ s.emitIds (s.data.length + 1) id = some (.ok out) ∧
    ¬ (s.definedNames out).Nodup := by
  refine ⟨xcat (.lit ⟨some (.newVariable (.spanless "Foo1")), 0⟩ ['0']) (manyLits "Foo" "abcdefghijk".toList), _, _, _, _,
    ⟨⟨14, rfl⟩, xcas, rfl⟩, rfl, by decide⟩

/-! ## C40 -/

/-- **C40** (for names that do not interfere). If no converted part name ends in a digit or equals the
default `part` (`Branch` for variants), the fields of a struct (the variants of an enum) have different
names.  Missing: other names, for which the claim is false (`C40_collision`, `C40_count_collision`). -/
theorem C40_part_names_distinct_partial (conv : String → Option String) (dflt : String)
    (hd : dflt = "part" ∨ dflt = "Branch") (names : List (Option Name)) (parts : List String)
    (h : partNames conv dflt 0 [] names = .ok parts)
    (hN : ∀ n, some n ∈ names → ∀ c, conv n.content.hashed = some c → endsInDigit c = false ∧ c ≠ dflt) :
    parts.Nodup ∧ parts.length = names.length := by
  refine ⟨(partNames_fresh (by rcases hd with rfl | rfl <;> decide) hN h).1, ?_⟩
  have key : ∀ (names : List (Option Name)) (i : Nat) (m : List (String × Nat)) (parts : List String),
      partNames conv dflt i m names = .ok parts → parts.length = names.length := by
    intro names
    induction names with
    | nil => intro i m parts h; simp only [partNames] at h; cases h; rfl
    | cons nm l ih =>
      intro i m parts h
      cases nm with
      | none =>
        simp only [partNames] at h
        obtain ⟨ps, h1, rfl⟩ := except_map_ok h
        simp [ih _ _ _ h1]
      | some n =>
        simp only [partNames] at h
        split at h
        · cases h
        · obtain ⟨ps, h1, rfl⟩ := except_map_ok h
          simp [ih _ _ _ h1]
  exact key _ _ _ _ h

example : ∃ parts, partNames some "part" 0 [] [some (.newVariable (.spanless "key")), none,
    some (.newVariable (.spanless "key"))] = .ok parts ∧ parts = ["key1", "part2", "key2"] := ⟨_, rfl, rfl⟩

/-- **C40** (counterexample in the code). A part called `part` collides with an unnamed part: the struct
generated for `"a" . "b" : part` has two fields `part1`. -/
theorem C40_collision : ∃ e te s id, Compiled e te s id ∧ ∃ en, s.data[id]? = some en ∧ en.node = .cat [0, 1] ∧
    en.fields = ["part1", "part1"] :=
  ⟨xcat (xl ['a']) [.lit ⟨some (.newVariable (.spanless "part")), 0⟩ ['b']], _, _, _, ⟨⟨5, rfl⟩, xcas, rfl⟩, _, rfl, rfl, rfl⟩

/-- **C40** (counterexample in the code). Eleven parts called `x` and one called `x1`. -/
theorem C40_count_collision : ∃ names parts, partNames some "part" 0 [] names = .ok parts ∧ ¬ parts.Nodup :=
  ⟨some (.newVariable (.spanless "x1")) :: List.replicate 11 (some (.newVariable (.spanless "x"))), _, rfl, by decide⟩

/-! ## C41 -/

/-- **C41** (literals, concatenations, alternations and recursive references). In every generated table
there is at most one type per literal text, per concatenation of given types, per alternation of given
types and per boxed fix point.  Missing: epsilon, for which the claim is false, see
`C41_epsilon_not_shared`. -/
theorem C41_one_type_each_partial {cas : Casing} {te : TE} {s : BState} {id : Nat} (h : gen cas te {} = .ok (id, s))
    (i j : Nat) :
    (∀ str, s.step i = .lit str → s.step j = .lit str → i = j) ∧
    (∀ ids, s.step i = .cat ids → s.step j = .cat ids → i = j) ∧
    (∀ tys tys' ids, s.step i = .alt tys ids → s.step j = .alt tys' ids → i = j) ∧
    (∀ f, s.step i = .box f → s.step j = .box f → i = j) := by
  have ht := gen_tinv h
  have get : ∀ {i : Nat} {nd : NodeF Nat}, s.step i = nd → nd ≠ .bad → ∃ e : Entry, s.data[i]? = some e ∧ e.node = nd := by
    intro i nd hs hb
    cases he : s.data[i]? with
    | none => simp only [BState.step, he] at hs; exact absurd hs.symm hb
    | some e => exact ⟨e, rfl, by rw [← step_eq he]; exact hs⟩
  refine ⟨fun str h1 h2 => ?_, fun ids h1 h2 => ?_, fun tys tys' ids h1 h2 => ?_, fun f h1 h2 => ?_⟩
  · exact ht.litU str i j ((ht.litOf _ _).2 (get h1 (by simp))) ((ht.litOf _ _).2 (get h2 (by simp)))
  · exact ht.catU ids i j ((ht.catOf _ _).2 (get h1 (by simp))) ((ht.catOf _ _).2 (get h2 (by simp)))
  · obtain ⟨e, h3, h4⟩ := get h1 (by simp)
    obtain ⟨e', h5, h6⟩ := get h2 (by simp)
    exact ht.altU ids i j ((ht.altOf _ _).2 ⟨e, tys, h3, h4⟩) ((ht.altOf _ _).2 ⟨e', tys', h5, h6⟩)
  · exact ht.varU f i j ((ht.varOf _ _).2 (get h1 (by simp))) ((ht.varOf _ _).2 (get h2 (by simp)))

mutual
/-- No epsilon and no fix point inside. -/
def TE.plain : TE → Prop
  | .eps _ => False
  | .lit _ _ => True
  | .cat _ _ l => TE.plainL l
  | .alt _ _ l => TE.plainL l
  | .fix _ _ => False
  | .var _ _ _ => True
def TE.plainL : List TE → Prop
  | [] => True
  | e :: l => e.plain ∧ TE.plainL l
end

private theorem lookup_unique {α : Type} [BEq α] [LawfulBEq α] {l : List (α × Nat)} {a : α} {k : Nat} (hm : (a, k) ∈ l)
    (hu : ∀ k k', (a, k) ∈ l → (a, k') ∈ l → k = k') : l.lookup a = some k := by
  cases hl : l.lookup a with
  | none => exact absurd hm (lookup_none_mem hl k)
  | some k' => rw [hu k k' hm (lookup_mem hl)]

mutual
private theorem gen_again (cas : Casing) : ∀ (te : TE) (s s' : BState) (id : Nat), gen cas te s = .ok (id, s') → te.plain →
    TInv s → s.context.Nodup → ∀ s'' : BState, TInv s'' → (∀ k < s'.data.length, s''.data[k]? = s'.data[k]?) →
    s''.context = s.context → gen cas te s'' = .ok (id, s'')
  | .eps _, s, s', id, h, hp, ht, hn, s'', ht'', hk, hc => hp.elim
  | .lit nm str, s, s', id, h, hp, ht, hn, s'', ht'', hk, hc => by
    have hg := gen_gen1 cas (fun _ => True) _ s s' id h fun _ _ => trivial
    have hid := (gen_reach cas _ s s' id h ht hn).1
    have ht' := hg.tinv ht hn
    have hs : ∃ e : Entry, s'.data[id]? = some e ∧ e.node = .lit str := by
      simp only [gen] at h
      rcases genLit_gen1 (N := fun _ => True) h (fun _ _ => trivial) with ⟨hl, rfl⟩ | ⟨rfl, _, _, e, h3, hnd, _⟩
      · exact (ht.litOf _ _).1 (lookup_mem hl)
      · exact ⟨e, by rw [h3]; simp, hnd⟩
    rw [← hk id hid] at hs
    simp only [gen, genLit, lookup_unique ((ht''.litOf _ _).2 hs) (ht''.litU str)]
  | .cat nm ty l, s, s', id, h, hp, ht, hn, s'', ht'', hk, hc => by
    have hid := (gen_reach cas _ s s' id h ht hn).1
    have hg := gen_gen1 cas (fun _ => True) _ s s' id h fun _ _ => trivial
    have ht' := hg.tinv ht hn
    simp only [gen] at h
    obtain ⟨⟨ids, s1⟩, h1, h2⟩ := except_bind_ok h
    have hg1 := genL_gen1 cas (fun _ => True) l s s1 ids h1 fun _ _ => trivial
    have ht1 := hg1.tinv ht hn
    have hs : (∃ e : Entry, s'.data[id]? = some e ∧ e.node = .cat ids) ∧ ∀ k < s1.data.length, s'.data[k]? = s1.data[k]? := by
      rcases genCat_gen1 (N := fun _ => True) h2 (fun _ _ => trivial) with ⟨hl, rfl⟩ | ⟨rfl, _, _, e, h3, hnd, _⟩
      · exact ⟨(ht1.catOf _ _).1 (lookup_mem hl), fun _ _ => rfl⟩
      · exact ⟨⟨e, by rw [h3]; simp, hnd⟩, fun k hk => by rw [h3, List.getElem?_append_left hk]⟩
    obtain ⟨hs, hkeep⟩ := hs
    have hlen : s1.data.length ≤ s'.data.length := by
      rcases genCat_gen1 (N := fun _ => True) h2 (fun _ _ => trivial) with ⟨hl, rfl⟩ | ⟨rfl, _, _, e, h3, hnd, _⟩
      · exact Nat.le_refl _
      · rw [h3]; simp
    have ih := genL_again cas l s s1 ids h1 hp ht hn s'' ht''
      (fun k hk1 => (hk k (Nat.lt_of_lt_of_le hk1 hlen)).trans (hkeep k hk1)) hc
    rw [← hk id hid] at hs
    simp only [gen, ih, Except.bind, genCat, lookup_unique ((ht''.catOf _ _).2 hs) (ht''.catU ids)]
  | .alt nm ty l, s, s', id, h, hp, ht, hn, s'', ht'', hk, hc => by
    have hid := (gen_reach cas _ s s' id h ht hn).1
    have hg := gen_gen1 cas (fun _ => True) _ s s' id h fun _ _ => trivial
    have ht' := hg.tinv ht hn
    simp only [gen] at h
    obtain ⟨⟨ids, s1⟩, h1, h2⟩ := except_bind_ok h
    have hg1 := genL_gen1 cas (fun _ => True) l s s1 ids h1 fun _ _ => trivial
    have ht1 := hg1.tinv ht hn
    have hs : (∃ (e : Entry) (tys : List Ty), s'.data[id]? = some e ∧ e.node = .alt tys ids) ∧
        ∀ k < s1.data.length, s'.data[k]? = s1.data[k]? := by
      rcases genAlt_gen1 (N := fun _ => True) h2 (fun _ _ => trivial) with ⟨hl, rfl⟩ | ⟨rfl, _, _, e, h3, hnd, _⟩
      · exact ⟨(ht1.altOf _ _).1 (lookup_mem hl), fun _ _ => rfl⟩
      · exact ⟨⟨e, _, by rw [h3]; simp, hnd⟩, fun k hk => by rw [h3, List.getElem?_append_left hk]⟩
    obtain ⟨hs, hkeep⟩ := hs
    have hlen : s1.data.length ≤ s'.data.length := by
      rcases genAlt_gen1 (N := fun _ => True) h2 (fun _ _ => trivial) with ⟨hl, rfl⟩ | ⟨rfl, _, _, e, h3, hnd, _⟩
      · exact Nat.le_refl _
      · rw [h3]; simp
    have ih := genL_again cas l s s1 ids h1 hp ht hn s'' ht''
      (fun k hk1 => (hk k (Nat.lt_of_lt_of_le hk1 hlen)).trans (hkeep k hk1)) hc
    rw [← hk id hid] at hs
    simp only [gen, ih, Except.bind, genAlt, lookup_unique ((ht''.altOf _ _).2 hs) (ht''.altU ids)]
  | .fix _ _, s, s', id, h, hp, ht, hn, s'', ht'', hk, hc => hp.elim
  | .var nm i ty, s, s', id, h, hp, ht, hn, s'', ht'', hk, hc => by
    have hid := (gen_reach cas _ s s' id h ht hn).1
    simp only [gen] at h
    have hi : i < s.context.length := by
      simp only [genVar] at h
      split at h
      · assumption
      · cases h
    obtain ⟨f, hf, hf', h'⟩ := genVar_gen1 (cas := cas) (N := fun _ => True) h
    have hs : ∃ e : Entry, s'.data[id]? = some e ∧ e.node = .box f := by
      rcases h' with ⟨hl, rfl⟩ | ⟨rfl, _, _, e, h3, hnd, _⟩
      · exact (ht.varOf _ _).1 (lookup_mem hl)
      · exact ⟨e, by rw [h3]; simp, hnd⟩
    rw [← hk id hid] at hs
    rw [← hc] at hf' hi
    simp only [gen, genVar, if_pos hi, hf', lookup_unique ((ht''.varOf _ _).2 hs) (ht''.varU f)]
private theorem genL_again (cas : Casing) : ∀ (l : List TE) (s s' : BState) (ids : List Nat), genL cas l s = .ok (ids, s') →
    TE.plainL l → TInv s → s.context.Nodup → ∀ s'' : BState, TInv s'' → (∀ k < s'.data.length, s''.data[k]? = s'.data[k]?) →
    s''.context = s.context → genL cas l s'' = .ok (ids, s'')
  | [], s, s', ids, h, hp, ht, hn, s'', ht'', hk, hc => by
    simp only [genL] at h ⊢; cases h; rfl
  | e :: l, s, s', ids, h, hp, ht, hn, s'', ht'', hk, hc => by
    simp only [genL] at h
    obtain ⟨⟨id, s1⟩, h1, h2⟩ := except_bind_ok h
    obtain ⟨⟨ids', s2⟩, h3, h4⟩ := except_map_ok h2
    have hg := gen_gen1 cas (fun _ => True) e s s1 id h1 fun _ _ => trivial
    have hg2 := genL_gen1 cas (fun _ => True) l s1 s2 ids' h3 fun _ _ => trivial
    have ih2 := genL_again cas l s1 s2 ids' h3 hp.2 (hg.tinv ht hn) (by rw [hg.ctx]; exact hn) s'' ht''
    have ih1 := gen_again cas e s s1 id h1 hp.1 ht hn s'' ht''
    cases h4
    rw [genL, ih1 (fun k hk1 => (hk k (Nat.lt_of_lt_of_le hk1 hg2.len)).trans (hg2.keep k hk1)) hc]
    simp only [Except.bind]
    rw [ih2 hk (hc.trans hg.ctx.symm)]
    rfl
end

/-- **C41** (generating an expression again). If an expression without epsilon and fix point was generated
once, generating it again at any later time below the same fix points gives the same type and changes
nothing: here the state `s` is reached by generating anything (`a`, from scratch), and `b` is generated in
between. -/
theorem C41_generate_again_partial {cas : Casing} {a te b : TE} {s s1 s2 : BState} {ida id idb : Nat}
    (ha : gen cas a {} = .ok (ida, s)) (h : gen cas te s = .ok (id, s1)) (hb : gen cas b s1 = .ok (idb, s2))
    (hp : te.plain) : gen cas te s2 = .ok (id, s2) := by
  have ht := gen_tinv ha
  have hn : s.context.Nodup := by rw [gen_ctx ha]; simp
  have hg1 := gen_gen1 cas (fun _ => True) te s s1 id h fun _ _ => trivial
  have hg2 := gen_gen1 cas (fun _ => True) b s1 s2 idb hb fun _ _ => trivial
  have ht1 := hg1.tinv ht hn
  have hn1 : s1.context.Nodup := by rw [hg1.ctx]; exact hn
  exact gen_again cas te s s1 id h hp ht hn s2 (hg2.tinv ht1 hn1) hg2.keep (hg2.ctx.trans hg1.ctx)

/-- **C41** (fix points). A fix point whose body equals the body of one generated before gets the type of
such a fix point, and nothing changes. -/
theorem C41_fix_shared (cas : Casing) (s : BState) (b0 b : TE) (k : Nat) (nm : Option Name) (h : (b0, k) ∈ s.fixMap)
    (he : b0.eqv b = true) : ∃ b1 k1, (b1, k1) ∈ s.fixMap ∧ b1.eqv b = true ∧ gen cas (.fix nm b) s = .ok (k1, s) := by
  have hf : (s.fixMap.find? fun p => p.1.eqv b).isSome = true := by
    rw [List.find?_isSome]
    exact ⟨(b0, k), h, he⟩
  obtain ⟨⟨b1, k1⟩, hp⟩ := Option.isSome_iff_exists.1 hf
  refine ⟨b1, k1, List.mem_of_find?_eq_some hp, by simpa using List.find?_some hp, ?_⟩
  simp only [gen, BState.findFix, hp, Option.map_some]

/-- Non-vacuity: `("a" . "b") . "c" . ("a" . "b")` gives one type for `"a" . "b"`. -/
example : ∃ e te s, Compiled e te s 4 ∧ s.data.length = 5 ∧ s.step 4 = .cat [2, 3, 2] :=
  ⟨xcat (xcat (xl ['a']) [xl ['b']]) [xl ['c'], xcat (xl ['a']) [xl ['b']]], _, _, ⟨⟨7, rfl⟩, xcas, rfl⟩, rfl, rfl⟩

/-- **C41** (counterexample in the code). `eps_id` is never set: each occurrence of epsilon is a new
entry, and so `_ | "a"` is generated twice in `"a" . (_ | "a") . "b" . (_ | "a")`. -/
theorem C41_epsilon_not_shared : ∃ e te s id i j, Compiled e te s id ∧ i ≠ j ∧ s.step i = .eps ∧ s.step j = .eps ∧
    ∃ k l tys, k ≠ l ∧ s.step k = .alt tys [i, 0] ∧ s.step l = .alt tys [j, 0] :=
  ⟨xcat (xl ['a']) [xalt (.eps xi) [xl ['a']], xl ['b'], xalt (.eps xi) [xl ['a']]], _, _, _, 1, 4,
    ⟨⟨7, rfl⟩, xcas, rfl⟩, by decide, rfl, rfl, 2, 5, _, by decide, rfl, rfl⟩

/-! ## C42 -/

private theorem toChar_aux {s : BState} (ht : TInv s) : ∀ {i : Nat} {t : Tree}, Value s.step i t →
    ∀ e : Entry, s.data[i]? = some e → e.toChar = true → ∃ c, t.toChar = some c ∧ t.display = [c]
  | _, _, .eps a hs, e, he, hc => by
    have := (ht.charNode _ _ he).1 ((ht.char _ _ he).1 hc)
    rw [step_eq he] at hs; rw [hs] at this; cases this
  | _, _, .lit a str hs, e, he, hc => by
    have := (ht.charNode _ _ he).1 ((ht.char _ _ he).1 hc)
    rw [step_eq he] at hs; rw [hs] at this
    cases this with | lit c => exact ⟨c, rfl, rfl⟩
  | _, _, .cat a l ts hs _, e, he, hc => by
    have := (ht.charNode _ _ he).1 ((ht.char _ _ he).1 hc)
    rw [step_eq he] at hs; rw [hs] at this; cases this
  | _, _, .alias a b t hs _, e, he, hc => by
    have := (ht.charNode _ _ he).1 ((ht.char _ _ he).1 hc)
    rw [step_eq he] at hs; rw [hs] at this; cases this
  | _, _, .box a b t hs _, e, he, hc => by
    have := (ht.charNode _ _ he).1 ((ht.char _ _ he).1 hc)
    rw [step_eq he] at hs; rw [hs] at this; cases this
  | _, _, .alt a tys l k b t hs hl hv, e, he, hc => by
    have ih := toChar_aux ht hv
    have := (ht.charNode _ _ he).1 ((ht.char _ _ he).1 hc)
    rw [step_eq he] at hs; rw [hs] at this
    cases this with
    | alt _ _ hb =>
      have hbc := hb b (List.mem_of_getElem? hl)
      have hlt := ht.charLt b hbc
      have heb : s.data[b]? = some s.data[b] := List.getElem?_eq_getElem hlt
      obtain ⟨c, h1, h2⟩ := ih _ heb ((ht.char _ _ heb).2 hbc)
      exact ⟨c, by simpa [Tree.toChar] using h1, by simpa [Tree.display] using h2⟩

/-- **C42.** Whenever a generated type offers conversion to `char`, the conversion of every value of the
type is a character, and the value displays as exactly that character. -/
theorem C42_to_char {cas : Casing} {te : TE} {s : BState} {id : Nat} (h : gen cas te {} = .ok (id, s)) (i : Nat) (e : Entry)
    (he : s.data[i]? = some e) (hc : e.toChar = true) (t : Tree) (hv : Value s.step i t) :
    ∃ c, t.toChar = some c ∧ t.display = [c] :=
  toChar_aux (gen_tinv h) hv e he hc

/-- **C42** (nothing is lost). A value that converts to a character displays as exactly that character. -/
theorem C42_only_single : ∀ (t : Tree) (c : Char), t.toChar = some c → t.display = [c]
  | .lit [_], _, h => by cases h; rfl
  | .alt _ t, c, h => by
    simp only [Tree.toChar] at h
    simp only [Tree.display]
    exact C42_only_single t c h
  | .lit [], _, h | .lit (_ :: _ :: _), _, h | .eps, _, h | .cat _, _, h | .box _, _, h => by cases h

/-- **C42** (which types). Exactly the literals of one character and the alternations all of whose branches
offer it offer conversion to `char`; in particular the conversions the code of an enum relies on exist. -/
theorem C42_which_types {cas : Casing} {te : TE} {s : BState} {id : Nat} (h : gen cas te {} = .ok (id, s)) (i : Nat) (e : Entry)
    (he : s.data[i]? = some e) :
    e.toChar = true ↔ (∃ c, e.node = .lit [c]) ∨
      ∃ tys ids, e.node = .alt tys ids ∧ ∀ j ∈ ids, ∃ e' : Entry, s.data[j]? = some e' ∧ e'.toChar = true := by
  have ht := gen_tinv h
  rw [ht.char i e he, ht.charNode i e he]
  constructor
  · intro hc
    generalize hnd : e.node = nd at hc
    cases hc with
    | lit c => exact .inl ⟨c, rfl⟩
    | alt tys ids hb =>
      refine .inr ⟨tys, ids, rfl, fun j hj => ?_⟩
      have hlt := ht.charLt j (hb j hj)
      have hej : s.data[j]? = some s.data[j] := List.getElem?_eq_getElem hlt
      exact ⟨_, hej, (ht.char _ _ hej).2 (hb j hj)⟩
  · rintro (⟨c, hc⟩ | ⟨tys, ids, hn, hb⟩)
    · rw [hc]; exact .lit c
    · rw [hn]
      refine .alt tys ids fun j hj => ?_
      obtain ⟨e', h1, h2⟩ := hb j hj
      exact (ht.char _ _ h1).1 h2

/-- Non-vacuity: a nested alternation of characters, and a value of it. -/
example : ∃ e te s, Compiled e te s 4 ∧ (∃ en, s.data[4]? = some en ∧ en.toChar = true) ∧
    Value s.step 4 (.alt 1 (.alt 0 (.lit ['b']))) :=
  ⟨xalt (xl ['a']) [xalt (xl ['b']) [xl ['c']]], _, _, ⟨⟨6, rfl⟩, xcas, rfl⟩, ⟨_, rfl, rfl⟩,
    .alt 4 _ [0, 3] 1 3 _ rfl rfl (.alt 3 _ [1, 2] 0 1 _ rfl rfl (.lit 1 _ rfl))⟩

end Chomp
