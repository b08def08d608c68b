/-!
# Sets of characters: `/repo/src/chomp/set.rs`

`BTreeSet<char>` is modelled by its sorted sequence of elements (which is also the order in which the
code iterates over it).  `FirstSet` and `FlastSet` are both newtypes of it.
-/

namespace Chomp

/-- Insertion into a strictly sorted list. -/
def insertChar (c : Char) : List Char → List Char
  | [] => [c]
  | d :: l => if c < d then c :: d :: l else if c = d then d :: l else d :: insertChar c l

theorem mem_insertChar {c x : Char} {l : List Char} : x ∈ insertChar c l ↔ x = c ∨ x ∈ l := by
  induction l with
  | nil => simp [insertChar]
  | cons d l ih =>
    simp only [insertChar]
    split
    · simp
    · split
      · subst c; simp
      · simp only [List.mem_cons, ih]; grind

theorem insertChar_sorted {c : Char} {l : List Char} (h : l.Pairwise (· < ·)) :
    (insertChar c l).Pairwise (· < ·) := by
  induction l with
  | nil => simp [insertChar]
  | cons d l ih =>
    simp only [insertChar]
    rw [List.pairwise_cons] at h
    split
    · rename_i hc
      refine List.pairwise_cons.2 ⟨?_, List.pairwise_cons.2 h⟩
      intro x hx
      rcases List.mem_cons.1 hx with rfl | hx
      · exact hc
      · exact Char.lt_trans hc (h.1 x hx)
    · split
      · exact List.pairwise_cons.2 h
      · rename_i h1 h2
        refine List.pairwise_cons.2 ⟨?_, ih h.2⟩
        intro x hx
        rcases mem_insertChar.1 hx with rfl | hx
        · rcases Nat.lt_trichotomy x.toNat d.toNat with h3 | h3 | h3
          · exact absurd (show x < d from h3) h1
          · exact absurd (Char.ext (UInt32.toNat_inj.1 h3)) h2
          · exact h3
        · exact h.1 x hx

/-- `src/chomp/set.rs:3-6,43-46`: the `BTreeSet<char>` inside `FirstSet` and `FlastSet`. -/
structure CharSet where
  chars : List Char
  sorted : chars.Pairwise (· < ·)

/-- Two strictly sorted lists with the same elements are equal. -/
theorem sorted_ext : ∀ {a b : List Char}, a.Pairwise (· < ·) → b.Pairwise (· < ·) →
    (∀ c, c ∈ a ↔ c ∈ b) → a = b
  | [], [], _, _, _ => rfl
  | [], y :: b, _, _, h => by have := (h y).2 (by simp); simp at this
  | x :: a, [], _, _, h => by have := (h x).1 (by simp); simp at this
  | x :: a, y :: b, ha, hb, h => by
    rw [List.pairwise_cons] at ha hb
    have hxy : x = y := by
      rcases List.mem_cons.1 ((h x).1 (by simp)) with rfl | hx
      · rfl
      · rcases List.mem_cons.1 ((h y).2 (by simp)) with rfl | hy
        · rfl
        · exact absurd (Char.lt_trans (hb.1 x hx) (ha.1 y hy)) (Char.lt_irrefl _)
    subst hxy
    rw [sorted_ext ha.2 hb.2]
    intro c
    constructor
    · intro hc
      rcases List.mem_cons.1 ((h c).1 (by simp [hc])) with rfl | h'
      · exact absurd (ha.1 c hc) (Char.lt_irrefl _)
      · exact h'
    · intro hc
      rcases List.mem_cons.1 ((h c).2 (by simp [hc])) with rfl | h'
      · exact absurd (hb.1 c hc) (Char.lt_irrefl _)
      · exact h'

namespace CharSet

instance : Membership Char CharSet := ⟨fun s c => c ∈ s.chars⟩
instance (c : Char) (s : CharSet) : Decidable (c ∈ s) := inferInstanceAs (Decidable (c ∈ s.chars))

theorem mem_def {c : Char} {s : CharSet} : c ∈ s ↔ c ∈ s.chars := Iff.rfl

theorem ext {a b : CharSet} (h : ∀ c, c ∈ a ↔ c ∈ b) : a = b := by
  obtain ⟨a, ha⟩ := a
  obtain ⟨b, hb⟩ := b
  have : a = b := sorted_ext ha hb h
  subst this; rfl

instance : DecidableEq CharSet := fun a b =>
  if h : a.chars = b.chars then isTrue (by cases a; cases b; simp_all) else isFalse (by intro e; exact h (e ▸ rfl))

/-- `src/chomp/set.rs:9-11,49-51`: `new` and `Default`. -/
def empty : CharSet := ⟨[], .nil⟩

/-- `src/chomp/set.rs:13-18`: `FirstSet::of_str`. -/
def ofStr : List Char → CharSet
  | [] => empty
  | c :: _ => ⟨[c], by simp⟩

/-- `src/chomp/set.rs:20-22,53-55`: `is_empty`. -/
def isEmpty (s : CharSet) : Bool := s.chars.isEmpty

/-- `BTreeSet::insert`. -/
def insert (c : Char) (s : CharSet) : CharSet := ⟨insertChar c s.chars, insertChar_sorted s.sorted⟩

/-- `src/chomp/set.rs:24-26,57-63`: `union` and `union_first` (`BTreeSet::append`). -/
def union (a b : CharSet) : CharSet := b.chars.foldr insert a

/-- `src/chomp/set.rs:28-30,65-67`: `disjoint`. -/
def disjoint (a b : CharSet) : Bool := !(a.chars.any fun c => b.chars.contains c)

@[simp] theorem not_mem_empty (c : Char) : c ∉ empty := by simp [mem_def, empty]

theorem mem_ofStr {c : Char} {s : List Char} : c ∈ ofStr s ↔ s.head? = some c := by
  cases s with
  | nil => simp [ofStr]
  | cons a s => simp [ofStr, mem_def, eq_comm]

@[simp] theorem mem_insert {c x : Char} {s : CharSet} : x ∈ s.insert c ↔ x = c ∨ x ∈ s := mem_insertChar

@[simp] theorem mem_union {c : Char} {a b : CharSet} : c ∈ a.union b ↔ c ∈ a ∨ c ∈ b := by
  obtain ⟨b, hb⟩ := b
  simp only [union, mem_def (s := ⟨b, hb⟩)]
  clear hb
  induction b with
  | nil => simp
  | cons d b ih => simp only [List.foldr_cons, mem_insert, ih, List.mem_cons]; grind

theorem disjoint_iff {a b : CharSet} : a.disjoint b = true ↔ ∀ c, c ∈ a → c ∉ b := by
  simp [disjoint, mem_def]

theorem isEmpty_iff {a : CharSet} : a.isEmpty = true ↔ ∀ c, c ∉ a := by
  simp only [isEmpty, mem_def]
  cases h : a.chars with
  | nil => simp
  | cons c l => simp; exact ⟨c, by simp⟩

instance : HasSubset CharSet := ⟨fun a b => ∀ c, c ∈ a → c ∈ b⟩

theorem subset_def {a b : CharSet} : a ⊆ b ↔ ∀ c, c ∈ a → c ∈ b := Iff.rfl

theorem subset_antisymm {a b : CharSet} (h : a ⊆ b) (h' : b ⊆ a) : a = b := ext fun c => ⟨h c, h' c⟩

end CharSet

/-- A strictly sorted list all of whose elements occur in another is not longer. -/
theorem sorted_length_le : ∀ {a b : List Char}, a.Pairwise (· < ·) → b.Pairwise (· < ·) →
    (∀ c, c ∈ a → c ∈ b) → a.length ≤ b.length
  | [], _, _, _, _ => by simp
  | x :: a, [], _, _, h => by have := h x (by simp); simp at this
  | x :: a, y :: b, ha, hb, h => by
    have ha' := List.pairwise_cons.1 ha
    have hb' := List.pairwise_cons.1 hb
    by_cases hxy : x = y
    · subst hxy
      have := sorted_length_le ha'.2 hb'.2 (by
        intro c hc
        rcases List.mem_cons.1 (h c (by simp [hc])) with rfl | h'
        · exact absurd (ha'.1 c hc) (Char.lt_irrefl _)
        · exact h')
      simpa using this
    · have hx : x ∈ b := by
        rcases List.mem_cons.1 (h x (by simp)) with h' | h'
        · exact absurd h' hxy
        · exact h'
      have := sorted_length_le ha hb'.2 (by
        intro c hc
        rcases List.mem_cons.1 (h c hc) with rfl | h'
        · rcases List.mem_cons.1 hc with rfl | hc
          · exact absurd rfl hxy
          · exact absurd (Char.lt_trans (hb'.1 x hx) (ha'.1 c hc)) (Char.lt_irrefl _)
        · exact h')
      simp at this ⊢; omega

theorem CharSet.size_le {a b : CharSet} (h : a ⊆ b) : a.chars.length ≤ b.chars.length :=
  sorted_length_le a.sorted b.sorted h

/-- A subset of the same size is everything. -/
theorem sorted_eq_of_length : ∀ {a b : List Char}, a.Pairwise (· < ·) → b.Pairwise (· < ·) →
    (∀ c, c ∈ a → c ∈ b) → b.length ≤ a.length → a = b := by
  intro a b ha hb h hl
  apply sorted_ext ha hb
  intro c
  refine ⟨h c, fun hc => ?_⟩
  by_cases hca : c ∈ a
  · exact hca
  · have := sorted_length_le (insertChar_sorted (c := c) ha) hb (by
      intro x hx
      rcases mem_insertChar.1 hx with rfl | hx
      · exact hc
      · exact h x hx)
    have hlen : ∀ l : List Char, c ∉ l → (insertChar c l).length = l.length + 1 := by
      intro l
      induction l with
      | nil => simp [insertChar]
      | cons d l ih =>
        intro hcl
        simp only [List.mem_cons, not_or] at hcl
        simp only [insertChar]
        split
        · simp
        · simp [hcl.1, ih hcl.2]
    rw [hlen a hca] at this
    omega

theorem CharSet.eq_of_size {a b : CharSet} (h : a ⊆ b) (hl : b.chars.length ≤ a.chars.length) : a = b := by
  have := sorted_eq_of_length a.sorted b.sorted h hl
  cases a; cases b; simp_all

end Chomp
