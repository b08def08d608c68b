import Verif.Props.Typed

/-!
# C95: without fix points, exactly the deterministic grammars are accepted

`Gram.Det` speaks about the languages of the parts of a grammar only: no types, no first or flast sets.
-/

namespace Chomp

/-- The strings of `P` followed by a string of `Q`. -/
def Lang.seq (P Q : Lang) : Lang := fun w => ∃ u v, w = u ++ v ∧ P u ∧ Q v

/-- After a non-empty string of `P` the character `c` can continue a string of `P`. -/
def Lang.Continues (P : Lang) (c : Char) : Prop := ∃ u v, u ≠ [] ∧ P u ∧ P (u ++ c :: v)

/-- A string of `P` starts with `c`. -/
def Lang.Starts (P : Lang) (c : Char) : Prop := ∃ v, P (c :: v)

mutual
/-- Grammars in which one character of lookahead always decides what to do: where a part of a
concatenation ends and which branch of an alternation is meant. -/
def Gram.Det : Gram → Prop
  | .eps => True
  | .lit _ => True
  | .cat [] => False
  | .cat (g :: l) => g.Det ∧ ¬ g.language [] ∧ Gram.DetCat g.language l
  | .alt [] => False
  | .alt (g :: l) => g.Det ∧ Gram.DetAlt g.language l
  | .fix _ => False
  | .var _ => False
/-- The remaining parts of a concatenation after parts with the language `P`: no character can both
continue what has been read and begin the next part. -/
def Gram.DetCat : Lang → List Gram → Prop
  | _, [] => True
  | P, g :: l => g.Det ∧ (∀ c, ¬ (P.Continues c ∧ g.language.Starts c)) ∧ Gram.DetCat (P.seq g.language) l
/-- The remaining branches of an alternation after branches with the language `P`: none matches the
empty string if an earlier one does, or a string that starts like one of an earlier branch. -/
def Gram.DetAlt : Lang → List Gram → Prop
  | _, [] => True
  | P, g :: l => g.Det ∧ ¬ (P [] ∧ g.language []) ∧ (∀ c, ¬ (P.Starts c ∧ g.language.Starts c)) ∧
      Gram.DetAlt (fun w => P w ∨ g.language w) l
end

mutual
/-- No fix points. -/
def Gram.FixFree : Gram → Prop
  | .eps => True
  | .lit _ => True
  | .cat l => Gram.FixFreeL l
  | .alt l => Gram.FixFreeL l
  | .fix _ => False
  | .var _ => True
def Gram.FixFreeL : List Gram → Prop
  | [] => True
  | g :: l => g.FixFree ∧ Gram.FixFreeL l
end

/-- The type says exactly what it should about the language. -/
structure Ty.Exact (τ : Ty) (P : Lang) : Prop where
  some : ∃ w, P w
  nullable : τ.nullable = true ↔ P []
  first : ∀ c, c ∈ τ.first ↔ P.Starts c
  flast : ∀ c, c ∈ τ.flast ↔ P.Continues c

theorem Ty.Exact.eps : Ty.Exact ⟨true, .empty, .empty⟩ (Gram.language .eps) := by
  constructor
  · exact ⟨[], rfl⟩
  · simp [Gram.language, Gram.lang]
  · intro c
    simp [Lang.Starts, Gram.language, Gram.lang]
  · intro c
    simp [Lang.Continues, Gram.language, Gram.lang]

theorem Ty.Exact.lit (s : List Char) : Ty.Exact ⟨s.isEmpty, .ofStr s, .empty⟩ (Gram.language (.lit s)) := by
  constructor
  · exact ⟨s, rfl⟩
  · cases s <;> simp [Gram.language, Gram.lang]
  · intro c
    simp only [CharSet.mem_ofStr, Lang.Starts, Gram.language, Gram.lang]
    cases s with
    | nil => simp
    | cons x s => simp only [List.head?_cons, Option.some.injEq, List.cons.injEq]
                  exact ⟨fun h => ⟨s, h.symm, rfl⟩, fun ⟨_, h, _⟩ => h.symm⟩
  · intro c
    simp only [CharSet.not_mem_empty, Lang.Continues, Gram.language, Gram.lang, false_iff]
    rintro ⟨u, v, _, h1, h2⟩
    rw [h1] at h2
    have := congrArg List.length h2
    simp at this

theorem Ty.Exact.seq {τ σ : Ty} {P Q : Lang} (hP : τ.Exact P) (hQ : σ.Exact Q) (hn : τ.nullable = false)
    (hd : ∀ c, c ∈ τ.flast → c ∉ σ.first) : (τ.cat σ).Exact (P.seq Q) := by
  have hne : ∀ u, P u → u ≠ [] := by
    rintro u hu rfl
    rw [hP.nullable.2 hu] at hn
    cases hn
  obtain ⟨p, hp⟩ := hP.some
  obtain ⟨q, hq⟩ := hQ.some
  constructor
  · exact ⟨p ++ q, p, q, rfl, hp, hq⟩
  · simp only [Ty.cat, hn, Bool.false_and]
    constructor
    · intro h; cases h
    · rintro ⟨u, v, h1, h2, _⟩
      have : u = [] := by
        cases u with
        | nil => rfl
        | cons _ _ => cases h1
      exact absurd this (hne u h2)
  · intro c
    simp only [Ty.cat, hn, Bool.false_eq_true, if_false]
    rw [hP.first]
    constructor
    · rintro ⟨v, hv⟩
      exact ⟨v ++ q, c :: v, q, by simp, hv, hq⟩
    · rintro ⟨v, a, b, h1, h2, _⟩
      cases a with
      | nil => exact absurd rfl (hne [] h2)
      | cons x a =>
        simp only [List.cons_append, List.cons.injEq] at h1
        exact ⟨a, h1.1 ▸ h2⟩
  · intro c
    have key : (P.seq Q).Continues c ↔ (Q [] ∧ (P.Continues c ∨ Q.Starts c)) ∨ Q.Continues c := by
      constructor
      · rintro ⟨u, v, _, ⟨a, b, e, ha, hb⟩, ⟨a', b', e', ha', hb'⟩⟩
        rw [e, List.append_assoc] at e'
        rcases List.append_eq_append_iff.1 e' with ⟨d, h1, h2⟩ | ⟨d, h1, h2⟩
        · cases d with
          | nil =>
            simp only [List.nil_append] at h2
            cases b with
            | nil => exact .inl ⟨hb, .inr ⟨v, by subst h2; exact hb'⟩⟩
            | cons y b => exact .inr ⟨y :: b, v, by simp, hb, h2 ▸ hb'⟩
          | cons x d =>
            have hx : P.Continues x := ⟨a, d, hne a ha, ha, h1 ▸ ha'⟩
            cases b with
            | nil =>
              simp only [List.nil_append, List.cons_append, List.cons.injEq] at h2
              exact .inl ⟨hb, .inl (h2.1 ▸ hx)⟩
            | cons y b =>
              simp only [List.cons_append, List.cons.injEq] at h2
              exact absurd ((hQ.first x).2 ⟨b, h2.1 ▸ hb⟩) (hd x ((hP.flast x).2 hx))
        · cases d with
          | nil =>
            simp only [List.nil_append] at h2
            cases b with
            | nil => exact .inl ⟨hb, .inr ⟨v, by subst h2; exact hb'⟩⟩
            | cons y b => exact .inr ⟨y :: b, v, by simp, hb, h2 ▸ hb'⟩
          | cons x d =>
            have hx : P.Continues x := ⟨a', d, hne a' ha', ha', h1 ▸ ha⟩
            exact absurd ((hQ.first x).2 ⟨d ++ (b ++ c :: v), by
              rw [← List.cons_append, ← h2]; exact hb'⟩) (hd x ((hP.flast x).2 hx))
      · rintro (⟨hn', ⟨u, v, h0, h1, h2⟩ | ⟨v, hv⟩⟩ | ⟨u, v, h0, h1, h2⟩)
        · exact ⟨u, v, h0, ⟨u, [], by simp, h1, hn'⟩, ⟨u ++ c :: v, [], by simp, h2, hn'⟩⟩
        · exact ⟨p, v, hne p hp, ⟨p, [], by simp, hp, hn'⟩, ⟨p, c :: v, rfl, hp, hv⟩⟩
        · exact ⟨p ++ u, v, by simp [h0], ⟨p, u, rfl, hp, h1⟩, ⟨p, u ++ c :: v, by simp, hp, h2⟩⟩
    rw [key]
    simp only [Ty.cat]
    cases hs : σ.nullable with
    | true =>
      have := hQ.nullable.1 hs
      simp only [if_true, CharSet.mem_union, hP.flast, hQ.first, hQ.flast, this, true_and]
    | false =>
      have : ¬ Q [] := fun h => by rw [hQ.nullable.2 h] at hs; cases hs
      simp only [Bool.false_eq_true, if_false, hQ.flast, this, false_and, false_or]

theorem Ty.Exact.union {τ σ : Ty} {P Q : Lang} (hP : τ.Exact P) (hQ : σ.Exact Q)
    (hd : ∀ c, c ∈ τ.first → c ∉ σ.first) : (τ.alt σ).Exact fun w => P w ∨ Q w := by
  constructor
  · obtain ⟨p, hp⟩ := hP.some
    exact ⟨p, .inl hp⟩
  · simp only [Ty.alt, Bool.or_eq_true, hP.nullable, hQ.nullable]
  · intro c
    simp only [Ty.alt, CharSet.mem_union, hP.first, hQ.first, Lang.Starts]
    exact ⟨fun h => h.elim (fun ⟨v, h⟩ => ⟨v, .inl h⟩) fun ⟨v, h⟩ => ⟨v, .inr h⟩,
      fun ⟨v, h⟩ => h.elim (fun h => .inl ⟨v, h⟩) fun h => .inr ⟨v, h⟩⟩
  · intro c
    simp only [Ty.alt, CharSet.mem_union, hP.flast, hQ.flast]
    constructor
    · rintro (⟨u, v, h0, h1, h2⟩ | ⟨u, v, h0, h1, h2⟩)
      · exact ⟨u, v, h0, .inl h1, .inl h2⟩
      · exact ⟨u, v, h0, .inr h1, .inr h2⟩
    · rintro ⟨u, v, h0, h1, h2⟩
      cases u with
      | nil => exact absurd rfl h0
      | cons x u =>
        rcases h1 with h1 | h1 <;> rcases h2 with h2 | h2
        · exact .inl ⟨x :: u, v, h0, h1, h2⟩
        · exact absurd ((hQ.first x).2 ⟨_, h2⟩) (hd x ((hP.first x).2 ⟨_, h1⟩))
        · exact absurd ((hQ.first x).2 ⟨_, h1⟩) (hd x ((hP.first x).2 ⟨_, h2⟩))
        · exact .inr ⟨x :: u, v, h0, h1, h2⟩

theorem Lang.seq_assoc (P Q R : Lang) : (P.seq Q).seq R = P.seq (Q.seq R) := by
  funext w
  apply propext
  constructor
  · rintro ⟨_, v, rfl, ⟨a, b, rfl, h1, h2⟩, h3⟩
    exact ⟨a, b ++ v, by simp, h1, b, v, rfl, h2, h3⟩
  · rintro ⟨a, _, rfl, h1, b, v, rfl, h2, h3⟩
    exact ⟨a ++ b, v, by simp, ⟨a, b, rfl, h1, h2⟩, h3⟩

theorem Lang.seq_nil (P : Lang) : P.seq (fun w => w = []) = P := by
  funext w
  apply propext
  constructor
  · rintro ⟨a, b, rfl, h1, rfl⟩
    simpa using h1
  · intro h
    exact ⟨w, [], by simp, h, rfl⟩

theorem Gram.langCat_cons (g : Gram) (l : List Gram) (ρ : Nat → Lang) :
    Gram.langCat (g :: l) ρ = Lang.seq (g.lang ρ) (Gram.langCat l ρ) := by
  rw [Gram.langCat]; rfl

/-- The claim about a grammar: a type exists iff the grammar is deterministic, and types are exact. -/
def Gram.DetOk (g : Gram) : Prop :=
  (∀ k, g.Det ↔ ∃ τ, HasTy [] k g τ) ∧ ∀ k τ, HasTy [] k g τ → τ.Exact g.language

theorem detCat_iff : ∀ (l : List Gram) (τ : Ty) (P : Lang), (∀ g ∈ l, g.DetOk) → τ.Exact P → τ.nullable = false →
    (Gram.DetCat P l ↔ ∃ σ, HasTyCat [] τ l σ) ∧
      ∀ σ, HasTyCat [] τ l σ → σ.Exact (P.seq (Gram.langCat l fun _ _ => False))
  | [], τ, P, _, hP, _ => by
    constructor
    · exact ⟨fun _ => ⟨τ, .nil _ _⟩, fun _ => by rw [Gram.DetCat]; trivial⟩
    · intro σ h
      cases h
      rw [Gram.langCat, Lang.seq_nil]
      exact hP
  | g :: l, τ, P, hl, hP, hn => by
    obtain ⟨g1, g2⟩ := hl g (by simp)
    have hn' : ∀ σ : Ty, (τ.cat σ).nullable = false := fun σ => by simp [Ty.cat, hn]
    have rest := fun (σ : Ty) (h : σ.Exact g.language) (hd : ∀ c, c ∈ τ.flast → c ∉ σ.first) =>
      detCat_iff l (τ.cat σ) (P.seq g.language) (fun g hg => hl g (by simp [hg])) (hP.seq h hn hd) (hn' σ)
    constructor
    · rw [Gram.DetCat]
      constructor
      · rintro ⟨h1, h2, h3⟩
        obtain ⟨σ, hσ⟩ := (g1 0).1 h1
        have hE := g2 0 σ hσ
        have hd : ∀ c, c ∈ τ.flast → c ∉ σ.first := fun c hc hc' =>
          h2 c ⟨(hP.flast c).1 hc, (hE.first c).1 hc'⟩
        obtain ⟨υ, hυ⟩ := (rest σ hE hd).1.1 h3
        exact ⟨υ, .cons _ _ _ _ σ _ hσ hd hυ⟩
      · rintro ⟨υ, h⟩
        cases h with
        | cons _ _ _ _ σ _ hσ hd hυ =>
          have hE := g2 0 σ hσ
          exact ⟨(g1 0).2 ⟨σ, hσ⟩, fun c ⟨h1, h2⟩ => hd c ((hP.flast c).2 h1) ((hE.first c).2 h2),
            (rest σ hE hd).1.2 ⟨υ, hυ⟩⟩
    · intro υ h
      cases h with
      | cons _ _ _ _ σ _ hσ hd hυ =>
        have := (rest σ (g2 0 σ hσ) hd).2 υ hυ
        rw [Lang.seq_assoc] at this
        rw [Gram.langCat_cons]
        exact this

theorem detAlt_iff : ∀ (l : List Gram) (k : Nat) (τ : Ty) (P : Lang), (∀ g ∈ l, g.DetOk) → τ.Exact P →
    (Gram.DetAlt P l ↔ ∃ σ, HasTyAlt [] k τ l σ) ∧
      ∀ σ, HasTyAlt [] k τ l σ → σ.Exact fun w => P w ∨ Gram.langAlt l (fun _ _ => False) w
  | [], k, τ, P, _, hP => by
    constructor
    · exact ⟨fun _ => ⟨τ, .nil _ _ _⟩, fun _ => by rw [Gram.DetAlt]; trivial⟩
    · intro σ h
      cases h
      have : (fun w => P w ∨ Gram.langAlt [] (fun _ _ => False) w) = P := by
        funext w; simp [Gram.langAlt]
      rw [this]
      exact hP
  | g :: l, k, τ, P, hl, hP => by
    obtain ⟨g1, g2⟩ := hl g (by simp)
    have rest := fun (σ : Ty) (h : σ.Exact g.language) (hd : ∀ c, c ∈ τ.first → c ∉ σ.first) =>
      detAlt_iff l k (τ.alt σ) (fun w => P w ∨ g.language w) (fun g hg => hl g (by simp [hg])) (hP.union h hd)
    constructor
    · rw [Gram.DetAlt]
      constructor
      · rintro ⟨h1, h0, h2, h3⟩
        obtain ⟨σ, hσ⟩ := (g1 k).1 h1
        have hE := g2 k σ hσ
        have hd : ∀ c, c ∈ τ.first → c ∉ σ.first := fun c hc hc' =>
          h2 c ⟨(hP.first c).1 hc, (hE.first c).1 hc'⟩
        obtain ⟨υ, hυ⟩ := (rest σ hE hd).1.1 h3
        exact ⟨υ, .cons _ _ _ _ _ σ _ hσ (fun ⟨h, h'⟩ => h0 ⟨hP.nullable.1 h, hE.nullable.1 h'⟩) hd hυ⟩
      · rintro ⟨υ, h⟩
        cases h with
        | cons _ _ _ _ _ σ _ hσ h0 hd hυ =>
          have hE := g2 k σ hσ
          exact ⟨(g1 k).2 ⟨σ, hσ⟩, fun ⟨h, h'⟩ => h0 ⟨hP.nullable.2 h, hE.nullable.2 h'⟩,
            fun c ⟨h1, h2⟩ => hd c ((hP.first c).2 h1) ((hE.first c).2 h2), (rest σ hE hd).1.2 ⟨υ, hυ⟩⟩
    · intro υ h
      cases h with
      | cons _ _ _ _ _ σ _ hσ h0 hd hυ =>
        have := (rest σ (g2 k σ hσ) hd).2 υ hυ
        have e : (fun w => P w ∨ Gram.langAlt (g :: l) (fun _ _ => False) w) =
            fun w => (P w ∨ g.language w) ∨ Gram.langAlt l (fun _ _ => False) w := by
          funext w
          rw [Gram.langAlt, Gram.language, or_assoc]
        rw [e]
        exact this

theorem FixFreeL.mem : ∀ {l : List Gram}, Gram.FixFreeL l → ∀ g ∈ l, g.FixFree
  | _ :: _, h, g, hg => by
    rw [Gram.FixFreeL] at h
    rcases List.mem_cons.1 hg with rfl | hg
    · exact h.1
    · exact FixFreeL.mem h.2 g hg

theorem Gram.detOk (g : Gram) (hg : g.FixFree) : g.DetOk := by
  induction g using Gram.ind with
  | eps =>
    refine ⟨fun k => ⟨fun _ => ⟨_, .eps _ _⟩, fun _ => by rw [Gram.Det]; trivial⟩, fun k τ h => ?_⟩
    cases h
    exact .eps
  | lit s =>
    refine ⟨fun k => ⟨fun _ => ⟨_, .lit _ _ s⟩, fun _ => by rw [Gram.Det]; trivial⟩, fun k τ h => ?_⟩
    cases h
    exact .lit s
  | cat l ih =>
    cases l with
    | nil =>
      refine ⟨fun k => ⟨fun h => ?_, fun ⟨_, h⟩ => nomatch h⟩, fun k τ h => nomatch h⟩
      rw [Gram.Det] at h
      exact h.elim
    | cons g l =>
      rw [Gram.FixFree] at hg
      have hm := FixFreeL.mem hg
      obtain ⟨g1, g2⟩ := ih g (by simp) (hm g (by simp))
      have hl : ∀ x ∈ l, x.DetOk := fun x hx => ih x (by simp [hx]) (hm x (by simp [hx]))
      have hnn : ∀ {k τ}, HasTy [] k g τ → (τ.nullable = false ↔ ¬ g.language []) := by
        intro k τ h
        rw [← (g2 k τ h).nullable, Bool.not_eq_true]
      constructor
      · intro k
        rw [Gram.Det]
        constructor
        · rintro ⟨h1, h2, h3⟩
          obtain ⟨τ, hτ⟩ := (g1 k).1 h1
          have hn := (hnn hτ).2 h2
          obtain ⟨σ, hσ⟩ := (detCat_iff l τ g.language hl (g2 k τ hτ) hn).1.1 h3
          exact ⟨σ, .cat _ _ _ _ τ _ hτ hn hσ⟩
        · rintro ⟨σ, h⟩
          cases h with
          | cat _ _ _ _ τ _ hτ hn hσ =>
            exact ⟨(g1 k).2 ⟨τ, hτ⟩, (hnn hτ).1 hn, (detCat_iff l τ g.language hl (g2 k τ hτ) hn).1.2 ⟨σ, hσ⟩⟩
      · intro k σ h
        cases h with
        | cat _ _ _ _ τ _ hτ hn hσ =>
          have := (detCat_iff l τ g.language hl (g2 k τ hτ) hn).2 σ hσ
          rw [Gram.language, Gram.lang, Gram.langCat_cons]
          exact this
  | alt l ih =>
    cases l with
    | nil =>
      refine ⟨fun k => ⟨fun h => ?_, fun ⟨_, h⟩ => nomatch h⟩, fun k τ h => nomatch h⟩
      rw [Gram.Det] at h
      exact h.elim
    | cons g l =>
      rw [Gram.FixFree] at hg
      have hm := FixFreeL.mem hg
      obtain ⟨g1, g2⟩ := ih g (by simp) (hm g (by simp))
      have hl : ∀ x ∈ l, x.DetOk := fun x hx => ih x (by simp [hx]) (hm x (by simp [hx]))
      constructor
      · intro k
        rw [Gram.Det]
        constructor
        · rintro ⟨h1, h3⟩
          obtain ⟨τ, hτ⟩ := (g1 k).1 h1
          obtain ⟨σ, hσ⟩ := (detAlt_iff l k τ g.language hl (g2 k τ hτ)).1.1 h3
          exact ⟨σ, .alt _ _ _ _ τ _ hτ hσ⟩
        · rintro ⟨σ, h⟩
          cases h with
          | alt _ _ _ _ τ _ hτ hσ =>
            exact ⟨(g1 k).2 ⟨τ, hτ⟩, (detAlt_iff l k τ g.language hl (g2 k τ hτ)).1.2 ⟨σ, hσ⟩⟩
      · intro k σ h
        cases h with
        | alt _ _ _ _ τ _ hτ hσ =>
          have := (detAlt_iff l k τ g.language hl (g2 k τ hτ)).2 σ hσ
          have e : (Gram.alt (g :: l)).language = fun w => g.language w ∨ Gram.langAlt l (fun _ _ => False) w := by
            funext w
            rw [Gram.language, Gram.lang, Gram.langAlt]
            rfl
          rw [e]
          exact this
  | fix b _ => rw [Gram.FixFree] at hg; exact hg.elim
  | var i =>
    refine ⟨fun k => ⟨fun h => ?_, fun ⟨_, h⟩ => ?_⟩, fun k τ h => ?_⟩
    · rw [Gram.Det] at h; exact h.elim
    · cases h with | var _ _ _ _ h _ => simp at h
    · cases h with | var _ _ _ _ h _ => simp at h

/-- **C95.** An expression without fix points is accepted exactly if it is deterministic: no part that
begins a concatenation matches the empty string, no character can both continue what the earlier parts
of a concatenation have matched and begin the next part, at most one branch of an alternation matches
the empty string, and no two branches match strings with the same first character. -/
theorem C95_accepts_iff_deterministic (e : NE) (g : Gram) (hg : e.grammar = some g) (hf : g.FixFree) (n : Nat)
    (hn : 2 * e.erase.lits.length + 2 ≤ n) : (∃ te, (inferTop n e ⟨[], []⟩).1 = .ok te) ↔ g.Det := by
  rw [C24_accepts_iff_typable e n hn, (Gram.detOk g hf).1 0]
  constructor
  · rintro ⟨g', τ, h1, h2⟩
    rw [hg] at h1
    cases h1
    exact ⟨τ, h2⟩
  · rintro ⟨τ, h⟩
    exact ⟨g, τ, hg, h⟩

/-- **C95.** The type found for such an expression is exact: nullable iff the empty string matches,
`first` the characters matched strings start with, `flast` the characters after which a matched string
can go on where another one ends. -/
theorem C95_types_exact (e : NE) (n : Nat) (te : TE) (h : (inferTop n e ⟨[], []⟩).1 = .ok te)
    (hf : te.gram.FixFree) : (te.ty.nullable = true ↔ te.gram.language []) ∧
      (∀ c, c ∈ te.ty.first ↔ ∃ v, te.gram.language (c :: v)) ∧
      ∀ c, c ∈ te.ty.flast ↔ ∃ u v, u ≠ [] ∧ te.gram.language u ∧ te.gram.language (u ++ c :: v) := by
  have := (Gram.detOk _ hf).2 0 _ (C23_inference_sound n e te h).2
  exact ⟨this.nullable, this.first, this.flast⟩

theorem detAlt_words : ∀ (ws : List (List Char)) (P : Lang),
    Gram.DetAlt P (ws.map .lit) ↔ (∀ w ∈ ws, ¬ (P [] ∧ w = []) ∧ ∀ c, ¬ (P.Starts c ∧ w.head? = some c)) ∧
      ws.Pairwise fun a b => a.head? ≠ b.head?
  | [], P => by simp [Gram.DetAlt]
  | w :: ws, P => by
    rw [List.map_cons, Gram.DetAlt, detAlt_words ws, List.forall_mem_cons, List.pairwise_cons]
    have hs : ∀ c, Lang.Starts (Gram.language (.lit w)) c ↔ w.head? = some c := by
      intro c
      rw [← (Ty.Exact.lit w).first c, CharSet.mem_ofStr]
    have hs' : ∀ c, Lang.Starts (fun v => P v ∨ Gram.language (.lit w) v) c ↔ P.Starts c ∨ w.head? = some c := by
      intro c
      rw [← hs c]
      exact ⟨fun ⟨v, h⟩ => h.elim (fun h => .inl ⟨v, h⟩) fun h => .inr ⟨v, h⟩,
        fun h => h.elim (fun ⟨v, h⟩ => ⟨v, .inl h⟩) fun ⟨v, h⟩ => ⟨v, .inr h⟩⟩
    have h0 : Gram.language (.lit w) [] ↔ w = [] := by
      simp only [Gram.language, Gram.lang]; exact eq_comm
    have hd : (Gram.lit w).Det := by rw [Gram.Det]; trivial
    simp only [h0, hs, hs', hd, true_and]
    constructor
    · rintro ⟨h1, h2, h3, h4⟩
      refine ⟨⟨⟨h1, h2⟩, fun a ha => ⟨fun ⟨h, h'⟩ => (h3 a ha).1 ⟨.inl h, h'⟩,
        fun c ⟨h, h'⟩ => (h3 a ha).2 c ⟨.inl h, h'⟩⟩⟩, fun a ha he => ?_, h4⟩
      cases hw : w with
      | nil =>
        rw [hw] at he
        cases a with
        | nil => exact (h3 _ ha).1 ⟨.inr hw, rfl⟩
        | cons x a => simp at he
      | cons x w' =>
        rw [hw] at he
        exact (h3 _ ha).2 x ⟨.inr (by rw [hw]; rfl), by rw [← he]; rfl⟩
    · rintro ⟨⟨⟨h1, h2⟩, h3⟩, h4, h5⟩
      refine ⟨h1, h2, fun a ha => ⟨?_, ?_⟩, h5⟩
      · rintro ⟨h | h, h'⟩
        · exact (h3 a ha).1 ⟨h, h'⟩
        · exact h4 a ha (by rw [h, h'])
      · rintro c ⟨h | h, h'⟩
        · exact (h3 a ha).2 c ⟨h, h'⟩
        · exact h4 a ha (by rw [h, h'])

/-- **C95.** A list of words `"w₁" | … | "wₙ"` (two or more) is accepted exactly if no two of the words
start alike: no two have the same first character, and at most one is empty.  So keywords with a common
beginning must be factored by hand. -/
theorem C95_words_accepted_iff (i : Info) (w : List Char) (ws : List (Nat × Info × List Char)) (j : Info)
    (n : Nat) (hn : 2 * (NE.alt i (.lit j w) (ws.map fun x => (x.1, .lit x.2.1 x.2.2))).erase.lits.length + 2 ≤ n) :
    (∃ te, (inferTop n (.alt i (.lit j w) (ws.map fun x => (x.1, .lit x.2.1 x.2.2))) ⟨[], []⟩).1 = .ok te) ↔
      (w :: ws.map (·.2.2)).Pairwise fun a b => a.head? ≠ b.head? := by
  have hP : ∀ l : List (Nat × Info × List Char),
      Core.gramL (fun _ => true) (NE.eraseP (l.map fun x => (x.1, NE.lit x.2.1 x.2.2))) =
        some ((l.map (·.2.2)).map Gram.lit) := by
    intro l
    induction l with
    | nil => rfl
    | cons x l ih =>
      simp only [List.map_cons, NE.eraseP, Core.gramL, NE.erase, Core.gram, Option.bind, ih, Option.map_some]
  have hg : (NE.alt i (.lit j w) (ws.map fun x => (x.1, .lit x.2.1 x.2.2))).grammar =
      some (.alt (((w :: ws.map (·.2.2))).map Gram.lit)) := by
    simp only [NE.grammar, NE.erase, Core.gram, Core.gramL, Option.bind, hP, Option.map_some, List.map_cons]
  have hf : (Gram.alt (((w :: ws.map (·.2.2))).map Gram.lit)).FixFree := by
    rw [Gram.FixFree]
    generalize w :: ws.map (·.2.2) = l
    induction l with
    | nil => trivial
    | cons a l ih => exact ⟨trivial, ih⟩
  rw [C95_accepts_iff_deterministic _ _ hg hf n hn, List.map_cons, Gram.Det, detAlt_words, List.pairwise_cons]
  have hd : (Gram.lit w).Det := by rw [Gram.Det]; trivial
  have hs : ∀ c, Lang.Starts (Gram.language (.lit w)) c ↔ w.head? = some c := by
    intro c
    rw [← (Ty.Exact.lit w).first c, CharSet.mem_ofStr]
  have h0 : Gram.language (.lit w) [] ↔ w = [] := by
    simp only [Gram.language, Gram.lang]; exact eq_comm
  simp only [hd, true_and, hs, h0]
  refine and_congr_left' ⟨fun h a ha he => ?_, fun h a ha => ⟨fun ⟨h1, h2⟩ => h a ha (by rw [h1, h2]),
    fun c ⟨h1, h2⟩ => h a ha (by rw [h1, h2])⟩⟩
  cases w with
  | nil =>
    cases a with
    | nil => exact (h _ ha).1 ⟨rfl, rfl⟩
    | cons x a => simp at he
  | cons x w' => exact (h a ha).2 x ⟨rfl, by rw [← he]; rfl⟩

/-! Non-vacuity: `"if" | "else" | "while"` is deterministic, `"if" | "in"` is not, and neither is
`("a" | "ab") . "b"`, though `("a" | "b") . ("b" | "")` is. -/

example : (["if".toList, "else".toList, "while".toList]).Pairwise fun a b => a.head? ≠ b.head? := by decide
example : ¬ (["if".toList, "in".toList]).Pairwise fun a b => a.head? ≠ b.head? := by decide

private def ab : NE := .cat ⟨none, 0⟩ (.alt ⟨none, 0⟩ (.lit ⟨none, 0⟩ ['a']) [(0, .lit ⟨none, 0⟩ ['b'])])
  [(0, .alt ⟨none, 0⟩ (.lit ⟨none, 0⟩ ['b']) [(0, .eps ⟨none, 0⟩)])]
example : ∃ g, ab.grammar = some g ∧ g.FixFree ∧ g.Det :=
  ⟨_, rfl, by simp [Gram.FixFree, Gram.FixFreeL],
    (C95_accepts_iff_deterministic ab _ rfl (by simp [Gram.FixFree, Gram.FixFreeL]) 20 (by decide)).1 ⟨_, rfl⟩⟩

/-- `"a" . ("b" | "") . "b"` -/
private def abb : NE := .cat ⟨none, 0⟩ (.lit ⟨none, 0⟩ ['a'])
  [(0, .alt ⟨none, 0⟩ (.lit ⟨none, 0⟩ ['b']) [(0, .eps ⟨none, 0⟩)]), (0, .lit ⟨none, 0⟩ ['b'])]
example : ∃ g, abb.grammar = some g ∧ g.FixFree ∧ ¬ g.Det :=
  ⟨_, rfl, by simp [Gram.FixFree, Gram.FixFreeL], fun h => by
    obtain ⟨te, h⟩ := (C95_accepts_iff_deterministic abb _ rfl (by simp [Gram.FixFree, Gram.FixFreeL]) 20
      (by decide)).2 h
    rw [show (inferTop 20 abb ⟨[], []⟩).1 = .err _ from rfl] at h
    cases h⟩

end Chomp
