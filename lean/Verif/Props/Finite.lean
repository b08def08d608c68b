import Verif.Props.Determinism
import Verif.Props.Parser
import Verif.Props.Codegen
import Verif.Ast.Provenance

/-!
# C96: which languages can be described without recursion

Exactly the finite, non-empty ones; with a fix point also the empty one.
-/

namespace Chomp

/-! ## Grammars without fix points are finite -/

/-- The strings of a language are those of a list. -/
def Lang.Listed (P : Lang) (ws : List (List Char)) : Prop := ∀ w, P w ↔ w ∈ ws

theorem finite_cat : ∀ (l : List Gram) (ρ : Nat → Lang), (∀ g ∈ l, ∃ ws, (g.lang ρ).Listed ws) →
    ∃ ws, (Gram.langCat l ρ).Listed ws
  | [], ρ, _ => ⟨[[]], fun w => by simp [Gram.langCat]⟩
  | g :: l, ρ, h => by
    obtain ⟨us, hu⟩ := h g (by simp)
    obtain ⟨vs, hv⟩ := finite_cat l ρ fun g hg => h g (by simp [hg])
    refine ⟨us.flatMap fun u => vs.map (u ++ ·), fun w => ?_⟩
    rw [Gram.langCat]
    simp only [List.mem_flatMap, List.mem_map, ← hu _, ← hv _]
    exact ⟨fun ⟨u, v, h1, h2, h3⟩ => ⟨u, h2, v, h3, h1.symm⟩, fun ⟨u, h2, v, h3, h1⟩ => ⟨u, v, h1.symm, h2, h3⟩⟩

theorem finite_alt : ∀ (l : List Gram) (ρ : Nat → Lang), (∀ g ∈ l, ∃ ws, (g.lang ρ).Listed ws) →
    ∃ ws, (Gram.langAlt l ρ).Listed ws
  | [], ρ, _ => ⟨[], fun w => by simp [Gram.langAlt]⟩
  | g :: l, ρ, h => by
    obtain ⟨us, hu⟩ := h g (by simp)
    obtain ⟨vs, hv⟩ := finite_alt l ρ fun g hg => h g (by simp [hg])
    exact ⟨us ++ vs, fun w => by rw [Gram.langAlt, List.mem_append, ← hu, ← hv]⟩

theorem finite_gram (g : Gram) (hf : g.FixFree) : ∃ ws, (g.language).Listed ws := by
  induction g using Gram.ind with
  | eps => exact ⟨[[]], fun w => by simp [Gram.language, Gram.lang]⟩
  | lit s => exact ⟨[s], fun w => by simp [Gram.language, Gram.lang]⟩
  | cat l ih =>
    rw [Gram.FixFree] at hf
    have := finite_cat l (fun _ _ => False) fun g hg => ih g hg (FixFreeL.mem hf g hg)
    rw [Gram.language, Gram.lang]; exact this
  | alt l ih =>
    rw [Gram.FixFree] at hf
    have := finite_alt l (fun _ _ => False) fun g hg => ih g hg (FixFreeL.mem hf g hg)
    rw [Gram.language, Gram.lang]; exact this
  | fix b _ => rw [Gram.FixFree] at hf; exact hf.elim
  | var i => exact ⟨[], fun w => by simp [Gram.language, Gram.lang]⟩

/-! ## Finite sets have deterministic grammars -/

/-- The rests of the words that start with `c`. -/
def tailsOf (c : Char) : List (List Char) → List (List Char)
  | [] => []
  | [] :: ws => tailsOf c ws
  | (x :: w) :: ws => if x = c then w :: tailsOf c ws else tailsOf c ws

/-- The number of characters of the words. -/
def charCount (ws : List (List Char)) : Nat := (ws.map List.length).sum

theorem mem_tailsOf {c : Char} {v : List Char} : ∀ {ws : List (List Char)}, v ∈ tailsOf c ws ↔ (c :: v) ∈ ws
  | [] => by simp [tailsOf]
  | [] :: ws => by simp [tailsOf, mem_tailsOf (ws := ws)]
  | (x :: w) :: ws => by
    rw [tailsOf]
    split
    · rename_i h
      subst h
      simp [mem_tailsOf (ws := ws)]
    · rename_i h
      simp only [mem_tailsOf (ws := ws), List.mem_cons, List.cons.injEq]
      exact ⟨.inr, fun h' => h'.elim (fun h' => absurd h'.1.symm h) id⟩

theorem tailsOf_count {c : Char} : ∀ ws : List (List Char), charCount (tailsOf c ws) + (tailsOf c ws).length ≤ charCount ws
  | [] => by simp [tailsOf, charCount]
  | [] :: ws => by
    have := tailsOf_count (c := c) ws
    simpa [tailsOf, charCount] using this
  | (x :: w) :: ws => by
    have := tailsOf_count (c := c) ws
    rw [tailsOf]
    split
    · simp only [charCount, List.map_cons, List.sum_cons, List.length_cons] at this ⊢
      omega
    · simp only [charCount, List.map_cons, List.sum_cons, List.length_cons] at this ⊢
      omega

theorem lit_continues (c x : Char) (P : Lang) (hP : P = Gram.language (.lit [c])) : ¬ P.Continues x := by
  subst hP
  intro h
  have := ((Ty.Exact.lit [c]).flast x).2 h
  simp at this

/-- The grammar of the words `c · g`. -/
theorem prefix_gram (c : Char) (g : Gram) (hf : g.FixFree) (hd : g.Det) :
    (Gram.cat [.lit [c], g]).FixFree ∧ (Gram.cat [.lit [c], g]).Det ∧
      ∀ w, (Gram.cat [.lit [c], g]).language w ↔ ∃ v, w = c :: v ∧ g.language v := by
  refine ⟨⟨trivial, hf, trivial⟩, ?_, fun w => ?_⟩
  · rw [Gram.Det]
    refine ⟨by rw [Gram.Det]; trivial, fun h => by simp [Gram.language, Gram.lang] at h, ?_⟩
    rw [Gram.DetCat]
    exact ⟨hd, fun x ⟨h, _⟩ => lit_continues c x _ rfl h, by rw [Gram.DetCat]; trivial⟩
  · simp only [Gram.language, Gram.lang, Gram.langCat]
    constructor
    · rintro ⟨_, _, h1, rfl, u, v, rfl, h2, rfl⟩
      exact ⟨u, by simpa using h1, h2⟩
    · rintro ⟨v, rfl, h⟩
      exact ⟨[c], v, rfl, rfl, v, [], by simp, h, rfl⟩

theorem branches : ∀ (cs : List Char) (R : Char → List Char → Prop) (P : Lang), cs.Nodup →
    (∀ c ∈ cs, ∃ g : Gram, g.FixFree ∧ g.Det ∧ ∀ w, g.language w ↔ R c w) → (∀ c ∈ cs, ¬ P.Starts c) →
    ∃ l : List Gram, l.length = cs.length ∧ Gram.FixFreeL l ∧ Gram.DetAlt P l ∧
      ∀ w, Gram.langAlt l (fun _ _ => False) w ↔ ∃ c ∈ cs, ∃ v, w = c :: v ∧ R c v
  | [], R, P, _, _, _ => ⟨[], rfl, trivial, by rw [Gram.DetAlt]; trivial, fun w => by simp [Gram.langAlt]⟩
  | c :: cs, R, P, hn, hg, hP => by
    obtain ⟨g, g1, g2, g3⟩ := hg c (by simp)
    obtain ⟨p1, p2, p3⟩ := prefix_gram c g g1 g2
    rw [List.nodup_cons] at hn
    have hs : ∀ x, Lang.Starts (Gram.cat [.lit [c], g]).language x → x = c := by
      rintro x ⟨v, hv⟩
      obtain ⟨v', h, _⟩ := (p3 _).1 hv
      cases h; rfl
    obtain ⟨l, h1, h2, h3, h4⟩ := branches cs R (fun w => P w ∨ (Gram.cat [.lit [c], g]).language w) hn.2
      (fun d hd => hg d (by simp [hd])) (by
        rintro d hd ⟨v, h | h⟩
        · exact hP d (by simp [hd]) ⟨v, h⟩
        · exact hn.1 (hs d ⟨v, h⟩ ▸ hd))
    refine ⟨.cat [.lit [c], g] :: l, by simp [h1], ⟨p1, h2⟩, ?_, fun w => ?_⟩
    · rw [Gram.DetAlt]
      refine ⟨p2, fun ⟨_, h⟩ => ?_, fun x ⟨hx, hx'⟩ => hP c (by simp) (hs x hx' ▸ hx), h3⟩
      obtain ⟨v, h, _⟩ := (p3 _).1 h
      cases h
    · rw [Gram.langAlt]
      dsimp only
      rw [h4]
      have p3' := p3 w
      rw [Gram.language] at p3'
      rw [p3']
      simp only [List.mem_cons, exists_eq_or_imp, g3]

theorem dedup_exists : ∀ l : List Char, ∃ l' : List Char, l'.Nodup ∧ ∀ c, c ∈ l' ↔ c ∈ l
  | [] => ⟨[], by simp, by simp⟩
  | a :: l => by
    obtain ⟨l', h1, h2⟩ := dedup_exists l
    by_cases h : a ∈ l
    · exact ⟨l', h1, fun c => by
        rw [h2, List.mem_cons]
        exact ⟨.inr, fun hc => hc.elim (fun e => e ▸ h) id⟩⟩
    · exact ⟨a :: l', List.nodup_cons.2 ⟨fun ha => h ((h2 a).1 ha), h1⟩, fun c => by
        rw [List.mem_cons, List.mem_cons, h2]⟩

theorem gram_of_words : ∀ (m : Nat) (ws : List (List Char)), charCount ws ≤ m → ws ≠ [] →
    ∃ g : Gram, g.FixFree ∧ g.Det ∧ g.language.Listed ws := by
  intro m
  induction m using Nat.strongRecOn with
  | ind m ih =>
    intro ws hm hne
    obtain ⟨cs, hnd, hcs0⟩ := dedup_exists (ws.filterMap List.head?)
    have hg : ∀ c ∈ cs, ∃ g : Gram, g.FixFree ∧ g.Det ∧ ∀ w, g.language w ↔ w ∈ tailsOf c ws := by
      intro c hc
      rw [hcs0, List.mem_filterMap] at hc
      obtain ⟨w, hw, hwc⟩ := hc
      cases w with
      | nil => cases hwc
      | cons x w =>
        cases hwc
        have hmem : w ∈ tailsOf c ws := mem_tailsOf.2 hw
        have hlen : 0 < (tailsOf c ws).length := List.length_pos_of_mem hmem
        have := tailsOf_count (c := c) ws
        exact ih (charCount (tailsOf c ws)) (by omega) _ (Nat.le_refl _) (List.ne_nil_of_mem hmem)
    have hcs : ∀ c v, (c :: v) ∈ ws → c ∈ cs := by
      intro c v h
      rw [hcs0, List.mem_filterMap]
      exact ⟨_, h, rfl⟩
    have hw : ∀ w : List Char, (∃ c ∈ cs, ∃ v, w = c :: v ∧ v ∈ tailsOf c ws) ↔ w ≠ [] ∧ w ∈ ws := by
      intro w
      constructor
      · rintro ⟨c, _, v, rfl, h⟩
        exact ⟨by simp, mem_tailsOf.1 h⟩
      · rintro ⟨h1, h2⟩
        cases w with
        | nil => exact absurd rfl h1
        | cons c v => exact ⟨c, hcs c v h2, v, rfl, mem_tailsOf.2 h2⟩
    by_cases h0 : [] ∈ ws
    · obtain ⟨l, _, h2, h3, h4⟩ := branches cs (fun c v => v ∈ tailsOf c ws) (Gram.language .eps) hnd hg
        (fun c _ ⟨v, h⟩ => by simp [Gram.language, Gram.lang] at h)
      refine ⟨.alt (.eps :: l), ⟨trivial, h2⟩, ?_, fun w => ?_⟩
      · rw [Gram.Det]
        exact ⟨by rw [Gram.Det]; trivial, h3⟩
      · rw [Gram.language, Gram.lang, Gram.langAlt]
        dsimp only
        rw [h4, hw, Gram.lang]
        constructor
        · rintro (rfl | h)
          · exact h0
          · exact h.2
        · intro h
          by_cases hw : w = []
          · exact .inl hw
          · exact .inr ⟨hw, h⟩
    · obtain ⟨l, h1, h2, h3, h4⟩ := branches cs (fun c v => v ∈ tailsOf c ws) (fun _ => False) hnd hg
        (fun c _ ⟨v, h⟩ => h)
      cases l with
      | nil =>
        cases ws with
        | nil => exact absurd rfl hne
        | cons w ws =>
          cases w with
          | nil => exact absurd (by simp) h0
          | cons c v =>
            have := hcs c v (by simp)
            cases cs with
            | nil => cases this
            | cons _ _ => simp at h1
      | cons g l =>
        rw [Gram.DetAlt] at h3
        refine ⟨.alt (g :: l), h2, ?_, fun w => ?_⟩
        · rw [Gram.Det]
          have e : (fun w => False ∨ g.language w) = g.language := by funext w; simp
          rw [e] at h3
          exact ⟨h3.1, h3.2.2.2⟩
        · rw [Gram.language, Gram.lang, h4, hw]
          exact ⟨fun h => h.2, fun h => ⟨fun hn => h0 (hn ▸ h), h⟩⟩

/-! ## Expressions for deterministic grammars -/

theorem detCat_mem : ∀ {l : List Gram} {P : Lang}, Gram.DetCat P l → ∀ g ∈ l, g.Det
  | _ :: _, _, h, g, hg => by
    rw [Gram.DetCat] at h
    rcases List.mem_cons.1 hg with rfl | hg
    · exact h.1
    · exact detCat_mem h.2.2 g hg

theorem detAlt_mem : ∀ {l : List Gram} {P : Lang}, Gram.DetAlt P l → ∀ g ∈ l, g.Det
  | _ :: _, _, h, g, hg => by
    rw [Gram.DetAlt] at h
    rcases List.mem_cons.1 hg with rfl | hg
    · exact h.1
    · exact detAlt_mem h.2.2.2 g hg

theorem exprs_of : ∀ l : List Gram, (∀ g ∈ l, ∃ e : NE, e.grammar = some g) →
    ∃ r : List (Nat × NE), Core.gramL (fun _ => true) (NE.eraseP r) = some l
  | [], _ => ⟨[], rfl⟩
  | g :: l, h => by
    obtain ⟨e, he⟩ := h g (by simp)
    obtain ⟨r, hr⟩ := exprs_of l fun g hg => h g (by simp [hg])
    rw [NE.grammar] at he
    exact ⟨(0, e) :: r, by simp only [NE.eraseP, Core.gramL, he, hr, Option.bind, Option.map_some]⟩

theorem expr_of (g : Gram) (hd : g.Det) : ∃ e : NE, e.grammar = some g := by
  induction g using Gram.ind with
  | eps => exact ⟨.eps ⟨none, 0⟩, rfl⟩
  | lit s => exact ⟨.lit ⟨none, 0⟩ s, rfl⟩
  | cat l ih =>
    cases l with
    | nil => rw [Gram.Det] at hd; exact hd.elim
    | cons g l =>
      rw [Gram.Det] at hd
      obtain ⟨e, he⟩ := ih g (by simp) hd.1
      obtain ⟨r, hr⟩ := exprs_of l fun x hx => ih x (by simp [hx]) (detCat_mem hd.2.2 x hx)
      rw [NE.grammar] at he
      exact ⟨.cat ⟨none, 0⟩ e r, by
        simp only [NE.grammar, NE.erase, Core.gram, Core.gramL, he, hr, Option.bind, Option.map_some]⟩
  | alt l ih =>
    cases l with
    | nil => rw [Gram.Det] at hd; exact hd.elim
    | cons g l =>
      rw [Gram.Det] at hd
      obtain ⟨e, he⟩ := ih g (by simp) hd.1
      obtain ⟨r, hr⟩ := exprs_of l fun x hx => ih x (by simp [hx]) (detAlt_mem hd.2 x hx)
      rw [NE.grammar] at he
      exact ⟨.alt ⟨none, 0⟩ e r, by
        simp only [NE.grammar, NE.erase, Core.gram, Core.gramL, he, hr, Option.bind, Option.map_some]⟩
  | fix b _ => rw [Gram.Det] at hd; exact hd.elim
  | var i => rw [Gram.Det] at hd; exact hd.elim

/-! ## Code for expressions without fix points -/

theorem gen_some (n : Nat) (e : NE) (te : TE) (h : (inferTop n e ⟨[], []⟩).1 = .ok te) : ∃ id s, Compiled e te s id := by
  have hb := gen_no_bad ⟨some, some⟩ te {} fun n _ => ⟨by simp, by simp⟩
  have hi := C37_no_index_panic ⟨some, some⟩ n e te h
  cases hg : gen ⟨some, some⟩ te {} with
  | ok x => exact ⟨x.1, x.2, ⟨n, h⟩, _, hg⟩
  | error x =>
    cases x with
    | badName => exact absurd hg hb
    | index => exact absurd hg hi

theorem occ_fixFree {root : TE} (hf : root.gram.FixFree) {ρ : List TE} {t : TE} (h : Occ root ρ t) : t.gram.FixFree := by
  induction h with
  | root => exact hf
  | cat _ hm ih =>
    rw [TE.gram, Gram.FixFree, TE.gramL_map] at ih
    exact FixFreeL.mem ih _ (List.mem_map_of_mem hm)
  | alt _ hm ih =>
    rw [TE.gram, Gram.FixFree, TE.gramL_map] at ih
    exact FixFreeL.mem ih _ (List.mem_map_of_mem hm)
  | fix _ ih => rw [TE.gram, Gram.FixFree] at ih; exact ih.elim

theorem fixFree_noConflict {te : TE} (hf : te.gram.FixFree) : NoSharingConflict te := by
  intro ρ1 n1 b1 ρ2 n2 b2 h1 _ _
  have := occ_fixFree hf h1
  rw [TE.gram, Gram.FixFree] at this
  exact this.elim

/-! ## The theorems -/

/-- **C96.** Every finite set of words has a parser: for every non-empty list of words there is an
expression without fix points that is accepted and whose generated parser accepts exactly these words. -/
theorem C96_finite_sets (ws : List (List Char)) (hne : ws ≠ []) : ∃ e te s id, Compiled e te s id ∧ te.gram.FixFree ∧
    ∀ text, (∃ t, Parses s id text (.ok t)) ↔ text ∈ ws := by
  obtain ⟨g, h1, h2, h3⟩ := gram_of_words _ ws (Nat.le_refl _) hne
  obtain ⟨e, he⟩ := expr_of g h2
  obtain ⟨te, ht⟩ := (C95_accepts_iff_deterministic e g he h1 _ (Nat.le_refl _)).2 h2
  have hg : te.gram = g := C25_language_of_expression _ e te ht g he
  obtain ⟨id, s, hc⟩ := gen_some _ e te ht
  have hf : te.gram.FixFree := hg ▸ h1
  exact ⟨e, te, s, id, hc, hf, fun text => by rw [hc.accepts (fixFree_noConflict hf), hg, h3]⟩

/-- **C96.** Nothing else can be described without fix points: the parser generated for an expression
without fix points accepts exactly the words of some non-empty list. -/
theorem C96_only_finite_sets {e : NE} {te : TE} {s : BState} {id : Nat} (h : Compiled e te s id) (hf : te.gram.FixFree) :
    ∃ ws, ws ≠ [] ∧ ∀ text, (∃ t, Parses s id text (.ok t)) ↔ text ∈ ws := by
  obtain ⟨ws, hws⟩ := finite_gram _ hf
  obtain ⟨n, hn⟩ := h.typed
  obtain ⟨w, hw⟩ := ((Gram.detOk _ hf).2 0 _ (C23_inference_sound n e te hn).2).some
  exact ⟨ws, List.ne_nil_of_mem ((hws w).1 hw), fun text => by rw [h.accepts (fixFree_noConflict hf), hws]⟩

/-- `!(/x/ "a" . x)` -/
private def exNone : NE :=
  .fix ⟨none, 0⟩ (.lam ⟨none, 0⟩ [.newVariable (.spanless "x")] (.cat ⟨none, 0⟩ (.lit ⟨none, 0⟩ ['a']) [(0, .var ⟨none, 0⟩ 0)]))

/-- **C96** (the empty set). With a fix point there is also a parser that accepts nothing. -/
theorem C96_empty_set : ∃ e te s id, Compiled e te s id ∧ ∀ text, ¬ ∃ t, Parses s id text (.ok t) := by
  have ht : ∃ te, (inferTop 8 exNone ⟨[], []⟩).1 = .ok te ∧ te.shareSafe = true ∧
      te.gram = .fix (.cat [.lit ['a'], .var 0]) := ⟨_, rfl, by decide, rfl⟩
  obtain ⟨te, h1, h2, h3⟩ := ht
  obtain ⟨id, s, hc⟩ := gen_some _ _ te h1
  refine ⟨_, te, s, id, hc, fun text => ?_⟩
  rw [hc.accepts (TE.shareSafe_sound h2), h3]
  intro h
  refine h (fun _ => False) ?_
  simp only [Gram.lang, Gram.langCat, Lang.push]
  rintro v ⟨_, _, _, _, _, _, _, hf, _⟩
  exact hf

/-- Non-vacuity: keywords with common beginnings. -/
example : ∃ e te s id, Compiled e te s id ∧ te.gram.FixFree ∧
    ∀ text, (∃ t, Parses s id text (.ok t)) ↔ text ∈ ["in".toList, "int".toList, "if".toList, []] :=
  C96_finite_sets _ (by simp)

example : ¬ (["in".toList, "int".toList, "if".toList, []]).Pairwise fun a b => a.head? ≠ b.head? := by decide

end Chomp
