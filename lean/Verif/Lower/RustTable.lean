import Verif.Lower.NameLemmas
import Verif.Lower.TableProps

/-!
# Names of types, fields and variants in every generated table
-/

namespace Chomp

/-- The names of the fields or variants of an entry come from names satisfying `N`. -/
def Entry.FieldsOk (cas : Casing) (N : Name → Prop) (e : Entry) : Prop :=
  match e.node with
  | .cat ids => ∃ names parts, (∀ n, some n ∈ names → N n) ∧ names.length = ids.length ∧
      partNames cas.snake "part" 0 [] names = .ok parts ∧ e.fields = if names.any Option.isSome then parts else []
  | .alt tys ids => ∃ names, (∀ n, some n ∈ names → N n) ∧ names.length = ids.length ∧ tys.length = ids.length ∧ ids ≠ [] ∧
      partNames cas.camel "Branch" 0 [] names = .ok e.fields
  | _ => True

mutual
/-- No alternation is empty. -/
def TE.full : TE → Prop
  | .eps _ => True
  | .lit _ _ => True
  | .cat _ _ l => TE.fullL l
  | .alt _ _ l => l ≠ [] ∧ TE.fullL l
  | .fix _ b => b.full
  | .var _ _ _ => True
def TE.fullL : List TE → Prop
  | [] => True
  | e :: l => e.full ∧ TE.fullL l
end

mutual
theorem Ann.full : ∀ {Γ : List Ty} {k : Nat} {te : TE}, Ann Γ k te → te.full
  | _, _, _, .eps _ _ _ => trivial
  | _, _, _, .lit _ _ _ _ => trivial
  | _, _, _, .cat _ _ _ _ _ _ h _ h' => ⟨h.full, h'.full⟩
  | _, _, _, .alt _ _ _ _ _ _ h h' => ⟨by simp, h.full, h'.full⟩
  | _, _, _, .fix _ _ _ _ h => h.full
  | _, _, _, .var _ _ _ _ _ _ _ => trivial
theorem AnnCat.full : ∀ {Γ : List Ty} {τ : Ty} {ts : List TE} {υ : Ty}, AnnCat Γ τ ts υ → TE.fullL ts
  | _, _, _, _, .nil _ _ => trivial
  | _, _, _, _, .cons _ _ _ _ _ h _ h' => ⟨h.full, h'.full⟩
theorem AnnAlt.full : ∀ {Γ : List Ty} {k : Nat} {τ : Ty} {ts : List TE} {υ : Ty}, AnnAlt Γ k τ ts υ → TE.fullL ts
  | _, _, _, _, _, .nil _ _ _ => trivial
  | _, _, _, _, _, .cons _ _ _ _ _ _ h _ _ h' => ⟨h.full, h'.full⟩
end

theorem TE.name_in_names {e : TE} {n : Name} (h : e.name = some n) : n ∈ e.names := by
  cases e <;> simp only [TE.name] at h <;> simp [TE.names, h]

theorem TE.name_in_namesL : ∀ {l : List TE} {n : Name}, some n ∈ l.map TE.name → n ∈ TE.namesL l
  | e :: l, n, h => by
    rcases List.mem_cons.1 h with h | h
    · exact List.mem_append_left _ (TE.name_in_names h.symm)
    · exact List.mem_append_right _ (TE.name_in_namesL h)

theorem genL_length (cas : Casing) : ∀ {l : List TE} {s s' : BState} {ids : List Nat}, genL cas l s = .ok (ids, s') →
    ids.length = l.length
  | [], s, s', ids, h => by simp only [genL] at h; cases h; rfl
  | e :: l, s, s', ids, h => by
    simp only [genL] at h
    obtain ⟨⟨id, s1⟩, _, h2⟩ := except_bind_ok h
    obtain ⟨⟨ids', s2⟩, h3, h4⟩ := except_map_ok h2
    cases h4
    simp [genL_length cas h3]

mutual
theorem gen_fields (cas : Casing) (N : Name → Prop) : ∀ (te : TE) (s s' : BState) (id : Nat), gen cas te s = .ok (id, s') →
    (∀ n ∈ te.names, N n) → te.full → (∀ e ∈ s.data, e.FieldsOk cas N) → ∀ e ∈ s'.data, e.FieldsOk cas N
  | .eps _, s, s', id, h, hN, hf, hs => by
    simp only [gen, genEps] at h
    split at h
    · cases h; exact hs
    · cases h
      intro e he
      rcases List.mem_append.1 he with he | he
      · exact hs e he
      · rw [List.mem_singleton] at he; subst he; trivial
  | .lit nm str, s, s', id, h, hN, hf, hs => by
    simp only [gen] at h
    rcases genLit_gen1 (N := N) h (fun n hn => hN n (by simp [TE.names, hn])) with ⟨_, rfl⟩ | ⟨_, _, _, x, h3, hx, _⟩
    · exact hs
    · intro e he
      rw [h3] at he
      rcases List.mem_append.1 he with he | he
      · exact hs e he
      · rw [List.mem_singleton] at he; subst he; simp only [Entry.FieldsOk, hx]
  | .cat nm ty l, s, s', id, h, hN, hf, hs => by
    simp only [gen] at h
    obtain ⟨⟨ids, s1⟩, h1, h2⟩ := except_bind_ok h
    have ih := genL_fields cas N l s s1 ids h1 (fun n hn => hN n (by simp [TE.names, hn])) hf hs
    have hlen := genL_length cas h1
    simp only [genCat] at h2
    split at h2
    · cases h2; exact ih
    · obtain ⟨⟨name, s2⟩, h3, h4⟩ := except_bind_ok h2
      obtain ⟨m, rfl⟩ := newTypeName_state h3
      dsimp only at h4
      obtain ⟨_, _, h5⟩ := except_bind_ok h4
      obtain ⟨parts, h6, h7⟩ := except_map_ok h5
      cases h7
      intro e he
      rcases List.mem_append.1 he with he | he
      · exact ih e he
      · rw [List.mem_singleton] at he
        subst he
        exact ⟨_, parts, fun n hn => hN n (List.mem_append_right _ (TE.name_in_namesL hn)), by simp [hlen], h6, rfl⟩
  | .alt nm ty l, s, s', id, h, hN, hf, hs => by
    simp only [gen] at h
    obtain ⟨⟨ids, s1⟩, h1, h2⟩ := except_bind_ok h
    have ih := genL_fields cas N l s s1 ids h1 (fun n hn => hN n (by simp [TE.names, hn])) hf.2 hs
    have hlen := genL_length cas h1
    simp only [genAlt] at h2
    split at h2
    · cases h2; exact ih
    · obtain ⟨⟨name, s2⟩, h3, h4⟩ := except_bind_ok h2
      obtain ⟨m, rfl⟩ := newTypeName_state h3
      dsimp only at h4
      obtain ⟨_, _, h5⟩ := except_bind_ok h4
      obtain ⟨parts, h6, h7⟩ := except_map_ok h5
      cases h7
      intro e he
      rcases List.mem_append.1 he with he | he
      · exact ih e he
      · rw [List.mem_singleton] at he
        subst he
        refine ⟨_, fun n hn => hN n (List.mem_append_right _ (TE.name_in_namesL hn)), by simp [hlen], by simp [hlen], ?_, h6⟩
        have := hf.1
        intro h0
        rw [h0] at hlen
        exact this (List.eq_nil_of_length_eq_zero hlen.symm)
  | .fix nm b, s, s', id, h, hN, hf, hs => by
    rcases genFix_inv h with ⟨_, rfl⟩ | ⟨name, m, inner, s2, e, h1, h2, rfl, h3, h4, rfl⟩
    · exact hs
    · have ih := gen_fields cas N b _ _ _ h3 (fun n hn => hN n (by simp [TE.names, hn])) hf (by
        intro e he
        rcases List.mem_append.1 he with he | he
        · exact hs e he
        · rw [List.mem_singleton] at he; subst he; trivial)
      intro e he
      rcases List.mem_or_eq_of_mem_set he with he | rfl
      · exact ih e he
      · trivial
  | .var nm i ty, s, s', id, h, hN, hf, hs => by
    simp only [gen] at h
    obtain ⟨f, _, _, ⟨_, rfl⟩ | ⟨_, _, _, x, h3, hx, _⟩⟩ := genVar_gen1 (cas := cas) (N := N) h
    · exact hs
    · intro e he
      rw [h3] at he
      rcases List.mem_append.1 he with he | he
      · exact hs e he
      · rw [List.mem_singleton] at he; subst he; simp only [Entry.FieldsOk, hx]
theorem genL_fields (cas : Casing) (N : Name → Prop) : ∀ (l : List TE) (s s' : BState) (ids : List Nat),
    genL cas l s = .ok (ids, s') → (∀ n ∈ TE.namesL l, N n) → TE.fullL l → (∀ e ∈ s.data, e.FieldsOk cas N) →
    ∀ e ∈ s'.data, e.FieldsOk cas N
  | [], s, s', ids, h, hN, hf, hs => by simp only [genL] at h; cases h; exact hs
  | e :: l, s, s', ids, h, hN, hf, hs => by
    simp only [genL] at h
    obtain ⟨⟨id, s1⟩, h1, h2⟩ := except_bind_ok h
    obtain ⟨⟨ids', s2⟩, h3, h4⟩ := except_map_ok h2
    cases h4
    exact genL_fields cas N l s1 _ ids' h3 (fun n hn => hN n (by simp [TE.namesL, hn])) hf.2
      (gen_fields cas N e s s1 id h1 (fun n hn => hN n (by simp [TE.namesL, hn])) hf.1 hs)
end

theorem partNames_length {conv : String → Option String} {dflt : String} : ∀ {names : List (Option Name)} {i : Nat}
    {m : List (String × Nat)} {parts : List String}, partNames conv dflt i m names = .ok parts → parts.length = names.length
  | [], i, m, parts, h => by simp only [partNames] at h; cases h; rfl
  | none :: l, i, m, parts, h => by
    simp only [partNames] at h
    obtain ⟨ps, h1, rfl⟩ := except_map_ok h
    simp [partNames_length h1]
  | some n :: l, i, m, parts, h => by
    simp only [partNames] at h
    split at h
    · cases h
    · obtain ⟨ps, h1, rfl⟩ := except_map_ok h
      simp [partNames_length h1]

theorem newTypeName_digit {cas : Casing} {pre : String} {nm : Option Name} {s s1 : BState} {name : String}
    (h : s.newTypeName cas pre nm = .ok (name, s1)) : endsInDigit name = true := by
  cases nm with
  | none => simp only [BState.newTypeName] at h; cases h; exact base_digits_endsInDigit _ _
  | some n =>
    simp only [BState.newTypeName] at h
    split at h
    · cases h
    · cases h; exact base_digits_endsInDigit _ _

/-- Whatever the names in the grammar are, the names of defined types end in a digit. -/
theorem gen_digits {cas : Casing} {te : TE} {s : BState} {id : Nat} (h : gen cas te {} = .ok (id, s)) :
    ∀ e ∈ s.data, e.defines = true → endsInDigit e.name = true := by
  refine (gen_gen1 cas (fun _ => True) te _ _ _ h fun _ _ => trivial).steps.inv
    (P := fun s => ∀ e ∈ s.data, e.defines = true → endsInDigit e.name = true) ?_ (by simp)
  intro a b ha hb
  have push : ∀ {x : Entry}, (x.defines = true → endsInDigit x.name = true) → ∀ e ∈ a.data ++ [x], e.defines = true → endsInDigit e.name = true := by
    intro x hx e he
    rcases List.mem_append.1 he with he | he
    · exact ha e he
    · rw [List.mem_singleton] at he; subst he; exact hx
  cases hb with
  | eps => exact push fun h => by simp [Entry.defines] at h
  | lit nm str name m _ _ h1 => exact push fun _ => newTypeName_digit h1
  | cat nm names ids name m parts _ _ _ h1 => exact push fun _ => newTypeName_digit h1
  | alt nm tys names ids name m parts _ _ _ h1 => exact push fun _ => newTypeName_digit h1
  | fixOpen nm b name m _ _ h1 => exact push fun _ => newTypeName_digit h1
  | fixClose c id name inner _ h1 =>
    intro e he hd
    rcases List.mem_or_eq_of_mem_set he with he | rfl
    · exact ha e he hd
    · exact ha ⟨name, .bad, [], [], false⟩ (List.mem_of_getElem? h1) rfl
  | var f e => exact push fun h => by simp [Entry.defines] at h

end Chomp
