import Verif.Lower.Hash
import Verif.Props.Emitted

/-!
# C75: the size of the emitted program
-/

namespace Chomp

/-- The size of a generated type: one, plus the characters of its literal, the fields of its struct, the variants of its enum, or the
target of its alias.  (`Epsilon` and boxes, which get no definition of their own, count one.) -/
def NodeF.weight : NodeF Nat → Nat
  | .lit s => 1 + s.length
  | .cat l => 1 + l.length
  | .alt _ l => 1 + l.length
  | .alias _ => 2
  | _ => 1

/-- The size of a list of types. -/
def dataWeight (l : List Entry) : Nat := (l.map fun e => e.node.weight).sum

theorem dataWeight_append (l m : List Entry) : dataWeight (l ++ m) = dataWeight l + dataWeight m := by
  simp [dataWeight]

theorem NodeF.weight_pos (x : NodeF Nat) : 1 ≤ x.weight := by cases x <;> simp only [NodeF.weight] <;> omega

theorem length_le_dataWeight : ∀ l : List Entry, l.length ≤ dataWeight l
  | [] => Nat.le_refl _
  | e :: l => by
    have := length_le_dataWeight l
    have := e.node.weight_pos
    simp only [dataWeight, List.map_cons, List.sum_cons, List.length_cons] at *
    omega

theorem dataWeight_set : ∀ (l : List Entry) (i : Nat) (e x : Entry), l[i]? = some x →
    dataWeight (l.set i e) + x.node.weight = dataWeight l + e.node.weight
  | [], i, e, x, h => by simp at h
  | y :: l, 0, e, x, h => by
    simp only [List.getElem?_cons_zero, Option.some.injEq] at h
    subst h
    simp [dataWeight]; omega
  | y :: l, i + 1, e, x, h => by
    have := dataWeight_set l i e x (by simpa using h)
    simp only [dataWeight, List.set_cons_succ, List.map_cons, List.sum_cons] at *
    omega

mutual
theorem gen_weight (cas : Casing) : ∀ (te : TE) (s s' : BState) (id : Nat), gen cas te s = .ok (id, s') →
    dataWeight s'.data + 1 ≤ dataWeight s.data + 2 * te.size
  | .eps _, s, s', id, h => by
    simp only [gen, genEps] at h
    split at h <;> cases h
    · simp only [TE.size]; omega
    · simp only [dataWeight_append, TE.size]
      simp [dataWeight, NodeF.weight]
  | .lit nm str, s, s', id, h => by
    simp only [gen] at h
    rcases genLit_gen1 (N := fun _ => True) h (fun _ _ => trivial) with ⟨_, rfl⟩ | ⟨_, -, -, e, h3, h4, _⟩
    · simp only [TE.size]; omega
    · rw [h3, dataWeight_append]
      simp only [dataWeight, List.map_cons, List.map_nil, List.sum_cons, List.sum_nil, h4, NodeF.weight, TE.size]
      omega
  | .cat nm ty l, s, s', id, h => by
    simp only [gen] at h
    obtain ⟨⟨ids, s1⟩, h1, h2⟩ := except_bind_ok h
    have ih := genL_weight cas l s s1 ids h1
    have hlen := genL_length cas h1
    rcases genCat_gen1 (N := fun _ => True) h2 (fun _ _ => trivial) with ⟨_, rfl⟩ | ⟨_, -, -, e, h3, h4, _⟩
    · simp only [TE.size]; omega
    · rw [h3, dataWeight_append]
      simp only [dataWeight, List.map_cons, List.map_nil, List.sum_cons, List.sum_nil, h4, NodeF.weight, TE.size] at *
      omega
  | .alt nm ty l, s, s', id, h => by
    simp only [gen] at h
    obtain ⟨⟨ids, s1⟩, h1, h2⟩ := except_bind_ok h
    have ih := genL_weight cas l s s1 ids h1
    have hlen := genL_length cas h1
    rcases genAlt_gen1 (N := fun _ => True) h2 (fun _ _ => trivial) with ⟨_, rfl⟩ | ⟨_, -, -, e, h3, h4, _⟩
    · simp only [TE.size]; omega
    · rw [h3, dataWeight_append]
      simp only [dataWeight, List.map_cons, List.map_nil, List.sum_cons, List.sum_nil, h4, NodeF.weight, TE.size] at *
      omega
  | .fix nm b, s, s', id, h => by
    rcases genFix_inv h with ⟨_, rfl⟩ | ⟨name, m, inner, s2, e, h1, h2, rfl, h3, h4, rfl⟩
    · simp only [TE.size]; omega
    · have ih := gen_weight cas b _ _ _ h3
      have hk : s2.data[s.data.length]? = some ⟨name, .bad, [], [], false⟩ := by
        rw [(gen_gen1 cas (fun _ => True) b _ _ _ h3 (fun _ _ => trivial)).keep _ (by simp)]; simp
      have h5 := dataWeight_set s2.data s.data.length ⟨name, .alias inner, [], [inner], false⟩ _ hk
      simp only [dataWeight_append] at ih
      simp only [dataWeight, List.map_cons, List.map_nil, List.sum_cons, List.sum_nil, NodeF.weight, TE.size] at *
      omega
  | .var nm i ty, s, s', id, h => by
    simp only [gen] at h
    obtain ⟨f, hf, _, ⟨_, rfl⟩ | ⟨_, -, -, e, h3, h4, _⟩⟩ := genVar_gen1 (cas := cas) (N := fun _ => True) h
    · simp only [TE.size]; omega
    · rw [h3, dataWeight_append]
      simp only [dataWeight, List.map_cons, List.map_nil, List.sum_cons, List.sum_nil, h4, NodeF.weight, TE.size]
      omega
theorem genL_weight (cas : Casing) : ∀ (l : List TE) (s s' : BState) (ids : List Nat), genL cas l s = .ok (ids, s') →
    dataWeight s'.data + l.length ≤ dataWeight s.data + 2 * TE.sizeL l
  | [], s, s', ids, h => by simp only [genL] at h; cases h; simp
  | e :: l, s, s', ids, h => by
    simp only [genL] at h
    obtain ⟨⟨id, s1⟩, h1, h2⟩ := except_bind_ok h
    obtain ⟨⟨ids', s2⟩, h3, h4⟩ := except_map_ok h2
    cases h4
    have := gen_weight cas e s s1 id h1
    have := genL_weight cas l s1 _ ids' h3
    simp only [TE.sizeL, List.length_cons]
    omega
end

mutual
theorem gen_count (cas : Casing) : ∀ (te : TE) (s s' : BState) (id : Nat), gen cas te s = .ok (id, s') →
    s'.data.length ≤ s.data.length + te.size
  | .eps _, s, s', id, h => by
    simp only [gen, genEps] at h
    split at h <;> cases h
    · omega
    · simp [TE.size]
  | .lit nm str, s, s', id, h => by
    simp only [gen] at h
    rcases genLit_gen1 (N := fun _ => True) h (fun _ _ => trivial) with ⟨_, rfl⟩ | ⟨_, -, -, e, h3, _⟩
    · omega
    · simp only [h3, List.length_append, List.length_singleton, TE.size]; omega
  | .cat nm ty l, s, s', id, h => by
    simp only [gen] at h
    obtain ⟨⟨ids, s1⟩, h1, h2⟩ := except_bind_ok h
    have ih := genL_count cas l s s1 ids h1
    rcases genCat_gen1 (N := fun _ => True) h2 (fun _ _ => trivial) with ⟨_, rfl⟩ | ⟨_, -, -, e, h3, _⟩
    · simp only [TE.size]; omega
    · simp only [h3, List.length_append, List.length_singleton, TE.size]; omega
  | .alt nm ty l, s, s', id, h => by
    simp only [gen] at h
    obtain ⟨⟨ids, s1⟩, h1, h2⟩ := except_bind_ok h
    have ih := genL_count cas l s s1 ids h1
    rcases genAlt_gen1 (N := fun _ => True) h2 (fun _ _ => trivial) with ⟨_, rfl⟩ | ⟨_, -, -, e, h3, _⟩
    · simp only [TE.size]; omega
    · simp only [h3, List.length_append, List.length_singleton, TE.size]; omega
  | .fix nm b, s, s', id, h => by
    rcases genFix_inv h with ⟨_, rfl⟩ | ⟨name, m, inner, s2, e, h1, h2, rfl, h3, h4, rfl⟩
    · omega
    · have ih := gen_count cas b _ _ _ h3
      simp only [List.length_append, List.length_singleton] at ih
      simp only [List.length_set, TE.size]
      omega
  | .var nm i ty, s, s', id, h => by
    simp only [gen] at h
    obtain ⟨f, hf, _, ⟨_, rfl⟩ | ⟨_, -, -, e, h3, _⟩⟩ := genVar_gen1 (cas := cas) (N := fun _ => True) h
    · omega
    · simp only [h3, List.length_append, List.length_singleton, TE.size]; omega
theorem genL_count (cas : Casing) : ∀ (l : List TE) (s s' : BState) (ids : List Nat), genL cas l s = .ok (ids, s') →
    s'.data.length ≤ s.data.length + TE.sizeL l
  | [], s, s', ids, h => by simp only [genL] at h; cases h; simp
  | e :: l, s, s', ids, h => by
    simp only [genL] at h
    obtain ⟨⟨id, s1⟩, h1, h2⟩ := except_bind_ok h
    obtain ⟨⟨ids', s2⟩, h3, h4⟩ := except_map_ok h2
    cases h4
    have := gen_count cas e s s1 id h1
    have := genL_count cas l s1 _ ids' h3
    simp only [TE.sizeL]
    omega
end

/-! ## The emitted program -/

/-- The size of an emitted item: one, plus the characters of the literal, the fields of the struct, the variants of the enum, or the
target of the alias. -/
def RItem.size : RItem → Nat
  | .unit _ text _ _ => 1 + text.length
  | .named _ fields _ _ _ => 1 + fields.length
  | .tuple _ fields _ _ _ => 1 + fields.length
  | .enum _ variants _ _ _ _ => 1 + variants.length
  | .alias _ _ => 2

/-- The size of an emitted program. -/
def RProg.size (p : RProg) : Nat := (List.map RItem.size p).sum

theorem item_size {s : BState} {e : Entry} {i : RItem} (h : s.item e = some i) : i.size ≤ e.node.weight := by
  unfold BState.item at h
  cases hn : e.node with
  | eps => rw [hn] at h; cases h
  | box f => rw [hn] at h; cases h
  | bad => rw [hn] at h; cases h
  | lit str => rw [hn] at h; cases h; exact Nat.le_refl _
  | alias j => rw [hn] at h; cases h; exact Nat.le_refl _
  | cat ids =>
    rw [hn] at h
    dsimp only at h
    split at h
    · cases h; simp [RItem.size, NodeF.weight]
    · cases h; simp only [RItem.size, NodeF.weight, List.length_zip, List.length_map]; omega
  | alt tys ids =>
    rw [hn] at h
    cases h
    simp only [RItem.size, NodeF.weight, List.length_zip, List.length_map]; omega

theorem items_size (s : BState) : ∀ out : List Nat, (List.map RItem.size (out.filterMap fun i => (s.data[i]?).bind s.item)).sum ≤
    (out.map fun i => ((s.data[i]?).map fun e => e.node.weight).getD 0).sum
  | [] => Nat.le_refl _
  | i :: out => by
    have ih := items_size s out
    rw [List.filterMap_cons]
    cases h : (s.data[i]?).bind s.item with
    | none => simp only [List.map_cons, List.sum_cons]; omega
    | some x =>
      obtain ⟨e, h1, h2⟩ := Option.bind_eq_some_iff.1 h
      have := item_size h2
      simp only [List.map_cons, List.sum_cons, h1, Option.map_some, Option.getD_some]
      omega

theorem sum_range_getElem (l : List Entry) : ((List.range l.length).map fun i => ((l[i]?).map fun e => e.node.weight).getD 0).sum = dataWeight l := by
  unfold dataWeight
  congr 1
  apply List.ext_getElem?
  intro i
  simp only [List.getElem?_map]
  by_cases h : i < l.length
  · simp [h]
  · simp [h]

/-- **C75.** The emitted program is at most twice as large as the grammar (after evaluation), and one alias: counting types with their
fields and variants, and the characters of literals. -/
theorem C75_program_linear {cas : Casing} {te : TE} {s : BState} {id : Nat} (h : gen cas te {} = .ok (id, s)) {fuel : Nat} {out : List Nat}
    (ho : s.emitIds fuel id = some (.ok out)) (nm : Option Name) : (s.program nm id out).size ≤ 2 * te.size + 1 := by
  obtain ⟨out', h1, h2, h3, -⟩ := C38_emits_everything_once h
  have he : out' = out := by cases emitLoop_det h1 ho; rfl
  subst he
  have hw := gen_weight cas te {} s id h
  have hperm : out'.Perm (List.range s.data.length) :=
    (List.perm_ext_iff_of_nodup h2 List.nodup_range).2 fun j => by rw [h3, List.mem_range]
  have hi := items_size s out'
  rw [(hperm.map _).sum_nat, sum_range_getElem] at hi
  unfold BState.program RProg.size
  rw [List.map_append, List.sum_append]
  simp only [List.map_cons, List.map_nil, List.sum_cons, List.sum_nil, RItem.size]
  simp only [dataWeight, List.map_nil, List.sum_nil] at *
  omega

/-- **C75.** There are at most as many types as the grammar has parts. -/
theorem C75_types_at_most_parts {cas : Casing} {te : TE} {s : BState} {id : Nat} (h : gen cas te {} = .ok (id, s)) :
    s.data.length ≤ te.size := by
  simpa using gen_count cas te {} s id h

/-- The theorems apply, and the bound on the number of types is attained. -/
example : ∃ s id, gen ⟨some, some⟩ (.fix none (.alt none .default [.eps none, .cat none .default [.lit none ['a'], .var none 0 .default]])) {} =
    .ok (id, s) ∧ s.data.length = 6 := ⟨_, _, rfl, rfl⟩

/-- **C75.** For a program that `chomp` accepts: the size of what is emitted against the size of the evaluated grammar. -/
theorem C75_accepted_programs {cas : Casing} {fuel : Nat} {p : Stmt} {te : TE} {id : Nat} {s : BState} {out : List Nat}
    (h : compile cas fuel p = .ok te id s out) (nm : Option Name) :
    out.length ≤ te.size ∧ (s.program nm id out).size ≤ 2 * te.size + 1 := by
  obtain ⟨e, c, e', h1, h2, hc, h5⟩ := compile_ok h
  obtain ⟨cas, h4⟩ := hc.code
  obtain ⟨out', g1, g2, g3, -⟩ := C38_emits_everything_once h4
  have he : out' = out := by cases emitLoop_det g1 h5; rfl
  subst he
  have hperm : out'.Perm (List.range s.data.length) :=
    (List.perm_ext_iff_of_nodup g2 List.nodup_range).2 fun j => by rw [g3, List.mem_range]
  refine ⟨?_, C75_program_linear h4 h5 nm⟩
  rw [hperm.length_eq, List.length_range]
  exact C75_types_at_most_parts h4

end Chomp
