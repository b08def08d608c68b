import Verif.Props.Json

/-!
# C50, exactly

A JSON value can be displayed – and then, if numbers can be read back, read back – exactly if no string or
key anywhere in it contains a control character without a short escape.
-/

namespace Chomp

/-- A string or key that occurs in a value. -/
inductive JValue.HasText {F : F64} : JValue F → List Char → Prop
  | string (s : List Char) : HasText (.string s) s
  | item (l : List (JValue F)) (v : JValue F) (s : List Char) : v ∈ l → HasText v s → HasText (.array l) s
  | key (l : List (List Char × JValue F)) (k : List Char) (v : JValue F) : (k, v) ∈ l → HasText (.object l) k
  | member (l : List (List Char × JValue F)) (k : List Char) (v : JValue F) (s : List Char) : (k, v) ∈ l → HasText v s →
      HasText (.object l) s

theorem writeStr_iff (m : Ovf) (s : List Char) : (∃ t, writeStr m s = some t) ↔ ∀ c ∈ s, Displayable c := by
  constructor
  · rintro ⟨t, h⟩ c hc
    by_cases hd : Displayable c
    · exact hd
    · have := C50_display_panics ⟨Nat, fun _ => none, fun _ => []⟩ m s ⟨c, hc, hd⟩
      rw [JValue.display, h] at this
      cases this
  · exact fun h => ⟨_, writeStr_doc m s h⟩

mutual
theorem display_iff {F : F64} (m : Ovf) : ∀ v : JValue F,
    (∃ t, v.display m = some t) ↔ ∀ s, v.HasText s → ∀ c ∈ s, Displayable c
  | .null => ⟨(fun _ s h => by cases h), fun _ => ⟨_, rfl⟩⟩
  | .bool _ => ⟨(fun _ s h => by cases h), fun _ => ⟨_, rfl⟩⟩
  | .number _ => ⟨(fun _ s h => by cases h), fun _ => ⟨_, rfl⟩⟩
  | .string s => by
    rw [JValue.display, writeStr_iff]
    exact ⟨fun h s' hs => by cases hs; exact h, fun h => h s (.string s)⟩
  | .array l => by
    have ih := displayL_iff m l
    constructor
    · rintro ⟨t, h⟩ s hs
      rw [JValue.display, Option.map_eq_some_iff] at h
      obtain ⟨t', h, _⟩ := h
      cases hs with
      | item _ v _ hv hs => exact ih.1 ⟨t', h⟩ v hv s hs
    · intro h
      obtain ⟨t, ht⟩ := ih.2 fun v hv s hs => h s (.item l v s hv hs)
      exact ⟨_, by rw [JValue.display, ht]; rfl⟩
  | .object l => by
    have ih := displayO_iff m l
    constructor
    · rintro ⟨t, h⟩ s hs
      rw [JValue.display, Option.map_eq_some_iff] at h
      obtain ⟨t', h, _⟩ := h
      cases hs with
      | key _ _ v hv => exact (ih.1 ⟨t', h⟩ s v hv).1
      | member _ k v _ hv hs => exact (ih.1 ⟨t', h⟩ k v hv).2 s hs
    · intro h
      obtain ⟨t, ht⟩ := ih.2 fun k v hv => ⟨h k (.key l k v hv), fun s hs => h s (.member l k v s hv hs)⟩
      exact ⟨_, by rw [JValue.display, ht]; rfl⟩
theorem displayL_iff {F : F64} (m : Ovf) : ∀ l : List (JValue F),
    (∃ t, JValue.displayL m l = some t) ↔ ∀ v ∈ l, ∀ s, v.HasText s → ∀ c ∈ s, Displayable c
  | [] => ⟨fun _ v h => by simp at h, fun _ => ⟨_, rfl⟩⟩
  | v :: l => by
    have ih := displayL_iff m l
    have ih0 := display_iff m v
    constructor
    · rintro ⟨t, h⟩ x hx
      rw [JValue.displayL, Option.bind_eq_some_iff] at h
      obtain ⟨a, h1, h⟩ := h
      rw [Option.map_eq_some_iff] at h
      obtain ⟨b, h2, _⟩ := h
      rcases List.mem_cons.1 hx with rfl | hx
      · exact ih0.1 ⟨a, h1⟩
      · exact ih.1 ⟨b, h2⟩ x hx
    · intro h
      obtain ⟨a, h1⟩ := ih0.2 (h v (by simp))
      obtain ⟨b, h2⟩ := ih.2 fun x hx => h x (by simp [hx])
      exact ⟨_, by rw [JValue.displayL, h1, Option.bind_some, h2, Option.map_some]⟩
theorem displayO_iff {F : F64} (m : Ovf) : ∀ l : List (List Char × JValue F),
    (∃ t, JValue.displayO m l = some t) ↔ ∀ k v, (k, v) ∈ l → (∀ c ∈ k, Displayable c) ∧
      ∀ s, v.HasText s → ∀ c ∈ s, Displayable c
  | [] => ⟨fun _ k v h => by simp at h, fun _ => ⟨_, rfl⟩⟩
  | (k, v) :: l => by
    have ih := displayO_iff m l
    have ih0 := display_iff m v
    constructor
    · rintro ⟨t, h⟩ k' v' hx
      rw [JValue.displayO, Option.bind_eq_some_iff] at h
      obtain ⟨a, h1, h⟩ := h
      rw [Option.bind_eq_some_iff] at h
      obtain ⟨b, h2, h⟩ := h
      rw [Option.map_eq_some_iff] at h
      obtain ⟨c, h3, _⟩ := h
      rcases List.mem_cons.1 hx with hx | hx
      · cases hx
        exact ⟨(writeStr_iff m k).1 ⟨a, h1⟩, ih0.1 ⟨b, h2⟩⟩
      · exact ih.1 ⟨c, h3⟩ k' v' hx
    · intro h
      obtain ⟨h4, h5⟩ := h k v (by simp)
      obtain ⟨a, h1⟩ := (writeStr_iff m k).2 h4
      obtain ⟨b, h2⟩ := ih0.2 h5
      obtain ⟨c, h3⟩ := ih.2 fun k' v' hx => h k' v' (by simp [hx])
      exact ⟨_, by rw [JValue.displayO, h1, Option.bind_some, h2, Option.bind_some, h3, Option.map_some]⟩
end

/-- **C50** (exactly when it panics). Displaying a value panics iff some string or key in it contains a control
character without a short escape. -/
theorem C50_display_panics_iff (F : F64) (m : Ovf) (v : JValue F) :
    v.display m = none ↔ ∃ s, v.HasText s ∧ ∃ c ∈ s, ¬ Displayable c := by
  have h := display_iff m v
  constructor
  · intro hn
    by_cases hx : ∃ s, v.HasText s ∧ ∃ c ∈ s, ¬ Displayable c
    · exact hx
    · obtain ⟨t, ht⟩ := h.2 fun s hs c hc => by
        by_cases hd : Displayable c
        · exact hd
        · exact absurd ⟨s, hs, c, hc, hd⟩ hx
      rw [hn] at ht
      cases ht
  · rintro ⟨s, hs, c, hc, hd⟩
    cases ht : v.display m with
    | none => rfl
    | some t => exact absurd (h.1 ⟨t, ht⟩ s hs c hc) hd

mutual
theorem displayable_of_texts {F : F64} (hF : ∀ n, HandNumber (F.display n) ∧ F.parse (F.display n) = some n) :
    ∀ v : JValue F, (∀ s, v.HasText s → ∀ c ∈ s, Displayable c) → v.Displayable
  | .null, _ => trivial
  | .bool _, _ => trivial
  | .number n, _ => hF n
  | .string s, h => h s (.string s)
  | .array l, h => displayableL_of_texts hF l fun v hv s hs => h s (.item l v s hv hs)
  | .object l, h => displayableO_of_texts hF l fun k v hv => ⟨h k (.key l k v hv), fun s hs => h s (.member l k v s hv hs)⟩
theorem displayableL_of_texts {F : F64} (hF : ∀ n, HandNumber (F.display n) ∧ F.parse (F.display n) = some n) :
    ∀ l : List (JValue F), (∀ v ∈ l, ∀ s, v.HasText s → ∀ c ∈ s, Displayable c) → JValue.DisplayableL l
  | [], _ => trivial
  | v :: l, h => ⟨displayable_of_texts hF v (h v (by simp)), displayableL_of_texts hF l fun x hx => h x (by simp [hx])⟩
theorem displayableO_of_texts {F : F64} (hF : ∀ n, HandNumber (F.display n) ∧ F.parse (F.display n) = some n) :
    ∀ l : List (List Char × JValue F), (∀ k v, (k, v) ∈ l → (∀ c ∈ k, Displayable c) ∧ ∀ s, v.HasText s → ∀ c ∈ s, Displayable c) →
    JValue.DisplayableO l
  | [], _ => trivial
  | (k, v) :: l, h => ⟨(h k v (by simp)).1, displayable_of_texts hF v (h k v (by simp)).2,
      displayableO_of_texts hF l fun k' v' hx => h k' v' (by simp [hx])⟩
end

/-- **C50** (exactly when values are read back). If numbers are displayed as numbers that are read back, displaying
a value and parsing the result gives the value back iff no string or key contains such a character. -/
theorem C50_roundtrip_iff (F : F64) (hF : ∀ n, HandNumber (F.display n) ∧ F.parse (F.display n) = some n) (m : Ovf) (v : JValue F) :
    (∃ t, v.display m = some t ∧ HandJson F m t (.ok v)) ↔ ∀ s, v.HasText s → ∀ c ∈ s, Displayable c := by
  constructor
  · rintro ⟨t, h, _⟩
    exact (display_iff m v).1 ⟨t, h⟩
  · intro h
    exact C50_value_roundtrip_partial F m v (displayable_of_texts hF v h)

/-- One number, displayed as `0`: the assumption on numbers can be met. -/
example : ∃ F : F64, (∀ n, HandNumber (F.display n) ∧ F.parse (F.display n) = some n) ∧
    ∃ v : JValue F, (∀ s, v.HasText s → ∀ c ∈ s, Displayable c) ∧ v.HasText ['k'] := by
  refine ⟨⟨Unit, fun _ => some (), fun _ => ['0']⟩, fun n => ⟨⟨'0', [], rfl, .inl (by decide), by decide⟩, rfl⟩,
    .object [(['k'], .number ())], ?_, .key _ _ (.number ()) (by simp)⟩
  intro s hs
  cases hs with
  | key _ _ v hv => simp at hv; obtain ⟨rfl, _⟩ := hv; unfold Displayable; decide
  | member _ k v _ hv hs => simp at hv; obtain ⟨_, rfl⟩ := hv; cases hs

end Chomp
