import Verif.Lower.Table
import Std.Data.String.ToNat

/-!
# Names of generated types, fields and variants
-/

namespace Chomp

/-- The last character is a digit. -/
def endsInDigit (s : String) : Bool := (s.toList.getLast?.map Char.isDigit).getD false

theorem digits_toList_isDigit {n : Nat} {c : Char} (h : c ∈ (digits n).toList) : c.isDigit = true := by
  have h' : c ∈ Nat.toDigits 10 n := by simpa [digits, toString, Nat.repr] using h
  exact Nat.isDigit_of_mem_toDigits (by decide) (by decide) h'

theorem digits_injective {m n : Nat} (h : digits m = digits n) : m = n := Nat.repr_injective h

theorem split_digits {l l' d d' : List Char} (h : l ++ d = l' ++ d') (hd : ∀ c ∈ d, c.isDigit = true)
    (hd' : ∀ c ∈ d', c.isDigit = true) (hl : (l.getLast?.map Char.isDigit).getD false = false)
    (hl' : (l'.getLast?.map Char.isDigit).getD false = false) : l = l' ∧ d = d' := by
  rcases List.append_eq_append_iff.1 h with ⟨x, h1, h2⟩ | ⟨x, h1, h2⟩
  · rcases List.eq_nil_or_concat x with rfl | ⟨y, c, rfl⟩
    · simp at h1 h2; exact ⟨h1.symm, h2⟩
    · exfalso
      have : c.isDigit = true := hd c (by rw [h2]; simp)
      rw [h1] at hl'
      simp [this] at hl'
  · rcases List.eq_nil_or_concat x with rfl | ⟨y, c, rfl⟩
    · simp at h1 h2; exact ⟨h1, h2.symm⟩
    · exfalso
      have : c.isDigit = true := hd' c (by rw [h2]; simp)
      rw [h1] at hl
      simp [this] at hl

/-- A base that does not end in a digit and a number are determined by their concatenation. -/
theorem base_digits_inj {a b : String} {m n : Nat} (h : a ++ digits m = b ++ digits n) (ha : endsInDigit a = false)
    (hb : endsInDigit b = false) : a = b ∧ m = n := by
  have h' := congrArg String.toList h
  rw [String.toList_append, String.toList_append] at h'
  obtain ⟨h1, h2⟩ := split_digits h' (fun _ => digits_toList_isDigit) (fun _ => digits_toList_isDigit) ha hb
  exact ⟨String.toList_inj.1 h1, digits_injective (String.toList_inj.1 h2)⟩

theorem base_digits_endsInDigit (a : String) (n : Nat) : endsInDigit (a ++ digits n) = true := by
  unfold endsInDigit
  rw [String.toList_append]
  have hne : (digits n).toList ≠ [] := by
    have : Nat.toDigits 10 n ≠ [] := Nat.toDigits_ne_nil
    simpa [digits, toString, Nat.repr] using this
  rcases List.eq_nil_or_concat (digits n).toList with h | ⟨y, c, h⟩
  · exact absurd h hne
  · rw [h, List.concat_eq_append, ← List.append_assoc, List.getLast?_concat]
    have := digits_toList_isDigit (n := n) (c := c) (by rw [h]; simp)
    simp [this]

/-- The prefixes of the names of unnamed types. -/
def defaultPrefixes : List String := ["Lit", "Cat", "Alt", "Fix"]

/-- The names of the grammar give type names that cannot collide. -/
def GoodType (cas : Casing) (n : Name) : Prop :=
  ∀ c, cas.camel n.content.hashed = some c → endsInDigit c = false ∧ c ∉ defaultPrefixes

/-- How the name of the type `i` was made. -/
def NameTag (s : BState) (i : Nat) (name : String) : Prop :=
  ∃ base k, name = base ++ digits k ∧ endsInDigit base = false ∧
    ((base ∈ defaultPrefixes ∧ k = i + 1) ∨ (base ∉ defaultPrefixes ∧ k ≤ (s.nameMap.lookup base).getD 0))

/-- The names so far. -/
structure NInv (s : BState) : Prop where
  tag : ∀ (i : Nat) (e : Entry), s.data[i]? = some e → e.defines = true → NameTag s i e.name
  inj : ∀ (i j : Nat) (e e' : Entry), s.data[i]? = some e → s.data[j]? = some e' → e.defines = true → e'.defines = true →
    e.name = e'.name → i = j

theorem defaultPrefixes_noDigit : ∀ p ∈ defaultPrefixes, endsInDigit p = false := by decide

/-- A fresh name. -/
theorem NInv.fresh {cas : Casing} {s : BState} (h : NInv s) {pre : String} (hp : pre ∈ defaultPrefixes) {nm : Option Name}
    (hg : ∀ n, nm = some n → GoodType cas n) {name : String} {m : List (String × Nat)}
    (hn : s.newTypeName cas pre nm = .ok (name, { s with nameMap := m })) :
    NameTag { s with nameMap := m } s.data.length name ∧
      (∀ (i : Nat) (e : Entry), s.data[i]? = some e → e.defines = true → NameTag { s with nameMap := m } i e.name) ∧
      ∀ (i : Nat) (e : Entry), s.data[i]? = some e → e.defines = true → e.name ≠ name := by
  cases nm with
  | none =>
    simp only [BState.newTypeName, Except.ok.injEq, Prod.mk.injEq] at hn
    obtain ⟨rfl, hm⟩ := hn
    have hm' : s.nameMap = m := congrArg BState.nameMap hm
    subst hm'
    refine ⟨⟨pre, _, rfl, defaultPrefixes_noDigit _ hp, .inl ⟨hp, rfl⟩⟩, h.tag, ?_⟩
    intro i e he hd heq
    obtain ⟨base, k, h1, h2, h3⟩ := h.tag i e he hd
    rw [h1] at heq
    obtain ⟨rfl, rfl⟩ := base_digits_inj heq h2 (defaultPrefixes_noDigit _ hp)
    rcases h3 with ⟨_, h3⟩ | ⟨h3, _⟩
    · have := (List.getElem?_eq_some_iff.1 he).1; omega
    · exact h3 hp
  | some n =>
    simp only [BState.newTypeName] at hn
    cases hc : cas.camel n.content.hashed with
    | none => rw [hc] at hn; cases hn
    | some c =>
      obtain ⟨g1, g2⟩ := hg n rfl c hc
      rw [hc] at hn
      simp only [Except.ok.injEq, Prod.mk.injEq] at hn
      obtain ⟨rfl, hm⟩ := hn
      have hm' : (c, (s.nameMap.lookup c).getD 0 + 1) :: s.nameMap = m := congrArg BState.nameMap hm
      subst hm'
      refine ⟨⟨c, _, rfl, g1, .inr ⟨g2, by simp⟩⟩, ?_, ?_⟩
      · intro i e he hd
        obtain ⟨base, k, h1, h2, h3⟩ := h.tag i e he hd
        refine ⟨base, k, h1, h2, ?_⟩
        rcases h3 with h3 | ⟨h3, h4⟩
        · exact .inl h3
        · refine .inr ⟨h3, ?_⟩
          simp only [List.lookup]
          by_cases hbc : base = c
          · subst hbc; simp; omega
          · rw [show (base == c) = false by simpa using hbc]; exact h4
      · intro i e he hd heq
        obtain ⟨base, k, h1, h2, h3⟩ := h.tag i e he hd
        rw [h1] at heq
        obtain ⟨rfl, rfl⟩ := base_digits_inj heq h2 g1
        rcases h3 with ⟨h3, _⟩ | ⟨_, h3⟩
        · exact g2 h3
        · omega

theorem NInv.push_named {cas : Casing} {s s' : BState} (h : NInv s) {pre : String} (hp : pre ∈ defaultPrefixes)
    {nm : Option Name} (hg : ∀ n, nm = some n → GoodType cas n) {name : String} {m : List (String × Nat)}
    (hn : s.newTypeName cas pre nm = .ok (name, { s with nameMap := m })) (e : Entry) (hd : s'.data = s.data ++ [e])
    (hm : s'.nameMap = m) (he : e.name = name) : NInv s' := by
  obtain ⟨h1, h2, h3⟩ := h.fresh hp hg hn
  have tg : ∀ i x, NameTag { s with nameMap := m } i x → NameTag s' i x := by
    rintro i x ⟨b, k, h4, h5, h6⟩
    exact ⟨b, k, h4, h5, by rw [hm]; exact h6⟩
  constructor
  · intro i x hx hdx
    rw [hd] at hx
    rcases push_get.1 hx with ⟨_, hx⟩ | ⟨rfl, rfl⟩
    · exact tg _ _ (h2 i x hx hdx)
    · rw [he]; exact tg _ _ h1
  · intro i j x y hx hy dx dy heq
    rw [hd] at hx hy
    rcases push_get.1 hx with ⟨_, hx'⟩ | ⟨rfl, rfl⟩ <;> rcases push_get.1 hy with ⟨_, hy'⟩ | ⟨rfl, rfl⟩
    · exact h.inj i j x y hx' hy' dx dy heq
    · exact absurd (heq.trans he) (h3 i x hx' dx)
    · exact absurd (heq.symm.trans he) (h3 j y hy' dy)
    · rfl

theorem NInv.push_unnamed {s s' : BState} (h : NInv s) (e : Entry) (hd : s'.data = s.data ++ [e]) (hm : s'.nameMap = s.nameMap)
    (hn : e.defines = false) : NInv s' := by
  constructor
  · intro i x hx hdx
    rw [hd] at hx
    rcases push_get.1 hx with ⟨_, hx⟩ | ⟨rfl, rfl⟩
    · obtain ⟨b, k, h4, h5, h6⟩ := h.tag i x hx hdx
      exact ⟨b, k, h4, h5, by rw [hm]; exact h6⟩
    · rw [hn] at hdx; cases hdx
  · intro i j x y hx hy dx dy heq
    rw [hd] at hx hy
    rcases push_get.1 hx with ⟨_, hx⟩ | ⟨rfl, rfl⟩ <;> rcases push_get.1 hy with ⟨_, hy⟩ | ⟨rfl, rfl⟩
    · exact h.inj i j x y hx hy dx dy heq
    · rw [hn] at dy; cases dy
    · rw [hn] at dx; cases dx
    · rfl

theorem NInv.step {cas : Casing} {s s' : BState} (h : NInv s) (hs : BStep cas (GoodType cas) s s') : NInv s' := by
  cases hs with
  | eps => exact h.push_unnamed _ rfl rfl rfl
  | lit nm str name m hN hl h1 => exact h.push_named (by decide) hN h1 _ rfl rfl rfl
  | cat nm names ids name m parts hN hl hlt h1 h2 => exact h.push_named (by decide) hN h1 _ rfl rfl rfl
  | alt nm tys names ids name m parts hN hl hlt h1 h2 => exact h.push_named (by decide) hN h1 _ rfl rfl rfl
  | fixOpen nm b name m hN hl h1 => exact h.push_named (by decide) hN h1 _ rfl rfl rfl
  | var f e hf hl hd => exact h.push_unnamed _ rfl rfl rfl
  | fixClose c id name inner hc hid hin =>
    have hidlt := (List.getElem?_eq_some_iff.1 hid).1
    have get : ∀ {i : Nat} {x : Entry}, (s.data.set id ⟨name, .alias inner, [], [inner], false⟩)[i]? = some x →
        ∃ y : Entry, s.data[i]? = some y ∧ y.name = x.name ∧ y.defines = x.defines := by
      intro i x hx
      by_cases hi : i = id
      · subst hi; rw [List.getElem?_set_self hidlt] at hx; cases hx
        exact ⟨_, hid, rfl, rfl⟩
      · rw [List.getElem?_set_ne (fun hh => hi hh.symm)] at hx
        exact ⟨x, hx, rfl, rfl⟩
    constructor
    · intro i x hx hdx
      obtain ⟨y, h1, h2, h3⟩ := get hx
      rw [← h2]
      exact h.tag i y h1 (h3.trans hdx)
    · intro i j x y hx hy dx dy heq
      obtain ⟨x', h1, h2, h3⟩ := get hx
      obtain ⟨y', h4, h5, h6⟩ := get hy
      exact h.inj i j x' y' h1 h4 (h3.trans dx) (h6.trans dy) (by rw [h2, h5, heq])

theorem NInv.empty : NInv {} := by constructor <;> simp

theorem gen_names {cas : Casing} {te : TE} {s : BState} {id : Nat} (h : gen cas te {} = .ok (id, s))
    (hN : ∀ n ∈ te.names, GoodType cas n) : NInv s :=
  (gen_gen1 cas (GoodType cas) te _ _ _ h hN).steps.inv (P := NInv) (fun _ _ ha hb => ha.step hb) .empty

/-! ## Fields and variants -/

/-- The names of the parts give field names that cannot collide. -/
def GoodPart (conv : String → Option String) (dflt : String) (n : Name) : Prop :=
  ∀ c, conv n.content.hashed = some c → endsInDigit c = false ∧ c ≠ dflt

theorem partNames_fresh {conv : String → Option String} {dflt : String} (hd : endsInDigit dflt = false) :
    ∀ {names : List (Option Name)} {i : Nat} {m : List (String × Nat)} {parts : List String},
    (∀ n, some n ∈ names → GoodPart conv dflt n) → partNames conv dflt i m names = .ok parts →
    parts.Nodup ∧ ∀ p ∈ parts, ∃ base k, p = base ++ digits k ∧ endsInDigit base = false ∧
      ((base = dflt ∧ i < k) ∨ (base ≠ dflt ∧ (m.lookup base).getD 0 < k))
  | [], i, m, parts, _, h => by
    simp only [partNames] at h; cases h; simp
  | none :: l, i, m, parts, hg, h => by
    simp only [partNames] at h
    obtain ⟨ps, h1, rfl⟩ := except_map_ok h
    obtain ⟨ih1, ih2⟩ := partNames_fresh hd (fun n hn => hg n (.tail _ hn)) h1
    refine ⟨List.nodup_cons.2 ⟨fun hm => ?_, ih1⟩, ?_⟩
    · obtain ⟨b, k, h2, h3, h4⟩ := ih2 _ hm
      obtain ⟨rfl, rfl⟩ := base_digits_inj h2 hd h3
      rcases h4 with ⟨_, h4⟩ | ⟨h4, _⟩
      · omega
      · exact h4 rfl
    · intro p hp
      rcases List.mem_cons.1 hp with rfl | hp
      · exact ⟨dflt, _, rfl, hd, .inl ⟨rfl, by omega⟩⟩
      · obtain ⟨b, k, h2, h3, h4⟩ := ih2 p hp
        refine ⟨b, k, h2, h3, ?_⟩
        rcases h4 with ⟨h4, h5⟩ | h4
        · exact .inl ⟨h4, by omega⟩
        · exact .inr h4
  | some n :: l, i, m, parts, hg, h => by
    simp only [partNames] at h
    cases hc : conv n.content.hashed with
    | none => rw [hc] at h; cases h
    | some c =>
      rw [hc] at h
      obtain ⟨ps, h1, rfl⟩ := except_map_ok h
      obtain ⟨g1, g2⟩ := hg n (.head _) c hc
      obtain ⟨ih1, ih2⟩ := partNames_fresh hd (fun n hn => hg n (.tail _ hn)) h1
      refine ⟨List.nodup_cons.2 ⟨fun hm => ?_, ih1⟩, ?_⟩
      · obtain ⟨b, k, h2, h3, h4⟩ := ih2 _ hm
        obtain ⟨rfl, rfl⟩ := base_digits_inj h2 g1 h3
        rcases h4 with ⟨h4, _⟩ | ⟨_, h4⟩
        · exact g2 h4
        · simp [List.lookup] at h4
      · intro p hp
        rcases List.mem_cons.1 hp with rfl | hp
        · exact ⟨c, _, rfl, g1, .inr ⟨g2, by omega⟩⟩
        · obtain ⟨b, k, h2, h3, h4⟩ := ih2 p hp
          refine ⟨b, k, h2, h3, ?_⟩
          rcases h4 with ⟨h4, h5⟩ | ⟨h4, h5⟩
          · exact .inl ⟨h4, by omega⟩
          · refine .inr ⟨h4, ?_⟩
            simp only [List.lookup] at h5
            split at h5
            · rename_i hq
              have := eq_of_beq hq
              subst this
              simp at h5; omega
            · exact h5

end Chomp
