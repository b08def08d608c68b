import Verif.Props.Emitted

/-!
# C72: every generated type is a parser of its part of the grammar

Users do not only parse with the root type: `chewed::Parse` is implemented for every generated type, and
the values of these types are the fields that they work with.
-/

namespace Chomp

/-! ## Specification -/

/-- `g` occurs in the grammar, below fix points with the bodies `E`, the innermost first. -/
inductive Gram.PartOf (root : Gram) : List Gram → Gram → Prop
  | root : PartOf root [] root
  | cat {E : List Gram} {l : List Gram} {g : Gram} : PartOf root E (.cat l) → g ∈ l → PartOf root E g
  | alt {E : List Gram} {l : List Gram} {g : Gram} : PartOf root E (.alt l) → g ∈ l → PartOf root E g
  | fix {E : List Gram} {b : Gram} : PartOf root E (.fix b) → PartOf root (b :: E) b

/-- The languages of variables below fix points with the given bodies: each variable stands for the
language of its fix point. -/
def partEnv : List Gram → Nat → Lang
  | [] => fun _ _ => False
  | b :: E => Lang.push ((Gram.fix b).lang (partEnv E)) (partEnv E)

/-- The language of a part of a grammar. -/
def Gram.partLang (E : List Gram) (g : Gram) : Lang := g.lang (partEnv E)

/-- The generated type `j` parses the part `g`. -/
structure IsParserOf (s : BState) (j : Nat) (E : List Gram) (g : Gram) : Prop where
  /-- `parse_str` ends on every text, -/
  ends : ∀ text, ∃ r, Parses s j text r
  /-- it accepts the words of the part, -/
  accepts : ∀ text, (∃ t, Parses s j text (.ok t)) ↔ g.partLang E text
  /-- it returns their syntax trees, -/
  trees : ∀ text t, Parses s j text (.ok t) ↔ Der E g t ∧ t.text = text
  /-- and the values that can be built of the type are the syntax trees of the part. -/
  values : ∀ t, Value s.step j t ↔ Der E g t

/-! ## Proofs -/

theorem partEnv_eq : ∀ E : List Gram, partEnv E = envLang E
  | [] => by funext i w; simp [partEnv, envLang]
  | b :: E => by
    rw [partEnv, partEnv_eq E, envLang_cons]
    congr 1
    funext w
    refine propext ((lang_iff_der (.fix b) E w).trans ⟨?_, ?_⟩)
    · rintro ⟨t, h, rfl⟩
      cases h with
      | fix _ _ _ h => exact ⟨t, h, rfl⟩
    · rintro ⟨t, h, rfl⟩
      exact ⟨t, .fix _ _ _ h, rfl⟩

theorem Occ.part {root : TE} {ρ : List TE} {x : TE} (h : Occ root ρ x) : root.gram.PartOf (ρ.map TE.gram) x.gram := by
  induction h with
  | root => exact .root
  | cat _ hm ih =>
    rw [TE.gram] at ih
    exact ih.cat (by rw [TE.gramL_map]; exact List.mem_map.2 ⟨_, hm, rfl⟩)
  | alt _ hm ih =>
    rw [TE.gram] at ih
    exact ih.alt (by rw [TE.gramL_map]; exact List.mem_map.2 ⟨_, hm, rfl⟩)
  | fix _ ih => rw [TE.gram] at ih; exact ih.fix

theorem Gram.PartOf.occ {root : TE} {E : List Gram} {g : Gram} (h : root.gram.PartOf E g) :
    ∃ ρ x, Occ root ρ x ∧ ρ.map TE.gram = E ∧ x.gram = g := by
  induction h with
  | root => exact ⟨[], root, .root, rfl, rfl⟩
  | cat _ hm ih =>
    obtain ⟨ρ, x, h1, h2, h3⟩ := ih
    cases x with
    | cat nm ty ts =>
      rw [TE.gram, TE.gramL_map, Gram.cat.injEq] at h3
      rw [← h3] at hm
      obtain ⟨y, hy, rfl⟩ := List.mem_map.1 hm
      exact ⟨ρ, y, h1.cat hy, h2, rfl⟩
    | _ => simp [TE.gram] at h3
  | alt _ hm ih =>
    obtain ⟨ρ, x, h1, h2, h3⟩ := ih
    cases x with
    | alt nm ty ts =>
      rw [TE.gram, TE.gramL_map, Gram.alt.injEq] at h3
      rw [← h3] at hm
      obtain ⟨y, hy, rfl⟩ := List.mem_map.1 hm
      exact ⟨ρ, y, h1.alt hy, h2, rfl⟩
    | _ => simp [TE.gram] at h3
  | fix _ ih =>
    obtain ⟨ρ, x, h1, h2, h3⟩ := ih
    cases x with
    | fix nm b =>
      rw [TE.gram, Gram.fix.injEq] at h3
      exact ⟨b :: ρ, b, h1.fix, by simp [h2, h3], h3⟩
    | _ => simp [TE.gram] at h3

theorem AnnAlt.mem : ∀ {Γ : List Ty} {k : Nat} {τ υ : Ty} {ts : List TE}, AnnAlt Γ k τ ts υ → ∀ t ∈ ts, Ann Γ k t
  | _, _, _, _, _, .nil _ _ _, t, ht => by cases ht
  | _, _, _, _, _, .cons Γ k τ t' ts υ h1 _ _ h2, t, ht => by
    rcases List.mem_cons.1 ht with rfl | ht
    · exact h1
    · exact h2.mem t ht

theorem Occ.ann {root : TE} (hA : Ann [] 0 root) {ρ : List TE} {x : TE} (h : Occ root ρ x) :
    ∃ Γ k, AnnEnv Γ ρ ∧ Ann Γ k x ∧ Fits root.size ρ x := by
  induction h with
  | root => exact ⟨[], 0, .nil, hA, Fits.root _⟩
  | cat _ hm ih =>
    obtain ⟨Γ, k, h1, h2, h3⟩ := ih
    have hs := TE.size_mem hm
    cases h2 with
    | cat _ _ _ _ t ts h4 h5 h6 =>
      refine (List.mem_cons.1 hm).elim (fun he => ?_) (fun hm' => ?_)
      · exact ⟨Γ, k, h1, he ▸ h4, h3.mem (by simp only [TE.size]; omega)⟩
      · exact ⟨Γ, 0, h1, h6.mem _ hm', h3.mem (by simp only [TE.size]; omega)⟩
  | alt _ hm ih =>
    obtain ⟨Γ, k, h1, h2, h3⟩ := ih
    have hs := TE.size_mem hm
    cases h2 with
    | alt _ _ _ _ t ts h4 h6 =>
      refine (List.mem_cons.1 hm).elim (fun he => ?_) (fun hm' => ?_)
      · exact ⟨Γ, k, h1, he ▸ h4, h3.mem (by simp only [TE.size]; omega)⟩
      · exact ⟨Γ, k, h1, h6.mem _ hm', h3.mem (by simp only [TE.size]; omega)⟩
  | fix _ ih =>
    obtain ⟨Γ, k, h1, h2, h3⟩ := ih
    cases h2 with
    | fix _ _ _ b h4 => exact ⟨_, _, .cons _ _ h1 h4, h4, h3.fix⟩

theorem parser_of_ann {N : Nat} {s : BState} {B : Nat → List TE × TE → Prop}
    (hB : ∀ a c, B a c → NodeF.Rel B (s.step a) (stepR c)) {ρ : List TE} {x : TE} {Γ : List Ty} {k : Nat} (h1 : AnnEnv Γ ρ)
    (h2 : Ann Γ k x) (h3 : Fits N ρ x) {j : Nat} (hj : B j (ρ, x)) : IsParserOf s j (ρ.map TE.gram) x.gram := by
  have hrun : ∀ n w, s.take n j w = takeR n ρ x w := by
    intro n w
    rw [takeR_eq_run]
    exact run_bisim hB n _ _ w hj
  have hend : ∀ w : IW, ∃ n, takeR n ρ x w ≠ .oof := fun w => ⟨_, takeR_depth _ ρ Γ k x w h1 h2 h3 (Nat.le_refl _)⟩
  have htree : ∀ text t, Parses s j text (.ok t) ↔ Der (ρ.map TE.gram) x.gram t ∧ t.text = text := by
    intro text t
    constructor
    · intro hp
      obtain ⟨q, ⟨_, n, h4⟩, h5⟩ := Parses.takes.1 hp
      rw [hrun] at h4
      cases q with
      | ok t' w' =>
        obtain ⟨h6, h7⟩ := takeR_sound n ρ x _ _ _ h4
        simp only [parseWith] at h5
        rcases hpk : w'.peek with ⟨_ | c, w''⟩
        · rw [hpk] at h5
          cases h5
          have hw : w'.rem = [] := by
            rw [IW.peek_eq] at hpk
            cases hr : w'.rem with
            | nil => rfl
            | cons c r => rw [hr] at hpk; cases hpk
          refine ⟨h6, ?_⟩
          have := h7.1
          rw [hw, List.append_nil] at this
          simpa using this.symm
        · rw [hpk] at h5; cases h5
      | err e w' => cases h5
      | panic => cases h5
      | oof => cases h5
    · rintro ⟨hd, ht⟩
      obtain ⟨n, hn⟩ := hend (IW.new text)
      obtain ⟨w', h4, h5⟩ := takeR_complete n ρ Γ x k (IW.new text) t [] h1 h2 hd (by simp [ht])
        (fun c r' h => by cases h) hn
      rw [← hrun] at h4
      refine Parses.takes.2 ⟨_, ⟨by simp, _, h4⟩, ?_⟩
      have := IW.peek_ok h5
      simp only [parseWith]
      rcases hp : w'.peek with ⟨_ | _, _⟩
      · rfl
      · rw [hp] at this; cases this
  refine ⟨fun text => ?_, fun text => ?_, htree, fun t => ⟨fun h => ?_, fun h => ?_⟩⟩
  · obtain ⟨n, hn⟩ := hend (IW.new text)
    rw [← hrun] at hn
    exact ⟨_, Parses.takes.2 ⟨_, ⟨hn, n, rfl⟩, rfl⟩⟩
  · rw [Gram.partLang, partEnv_eq, lang_iff_der]
    exact exists_congr (htree text)
  · exact value_der (value_bisim hB h hj)
  · exact value_bisim (R := fun c a => B a c) (fun c a h => (hB a c h).flip) (der_value h (ρ := ρ) rfl rfl) hj

theorem Occ.parser {root : TE} (hA : Ann [] 0 root) {s : BState} {B : Nat → List TE × TE → Prop}
    (hB : ∀ a c, B a c → NodeF.Rel B (s.step a) (stepR c)) {ρ : List TE} {x : TE} (h : Occ root ρ x) {j : Nat}
    (hj : B j (ρ, x)) : IsParserOf s j (ρ.map TE.gram) x.gram := by
  obtain ⟨Γ, k, h1, h2, h3⟩ := h.ann hA
  exact parser_of_ann hB h1 h2 h3 hj

theorem All2.mem_left {α β : Type} {R : α → β → Prop} : ∀ {l : List α} {m : List β}, All2 R l m → ∀ a ∈ l, ∃ b ∈ m, R a b
  | _, _, .nil, _, h => by cases h
  | _, _, .cons (b := b) h1 h2, a, h => by
    rcases List.mem_cons.1 h with rfl | h
    · exact ⟨b, by simp, h1⟩
    · obtain ⟨b', h3, h4⟩ := h2.mem_left a h
      exact ⟨b', by simp [h3], h4⟩

/-- Every type reachable from a type of an occurrence is the type of an occurrence. -/
theorem occ_of_reach {root : TE} {s : BState} (ht : TInv s) {B : Nat → List TE × TE → Prop}
    (hB : ∀ a c, B a c → NodeF.Rel B (s.step a) (stepR c)) {id j : Nat} (h : DepReach s.data id j) (h0 : B id ([], root)) :
    ∃ ρ x, Occ root ρ x ∧ B j (ρ, x) := by
  induction h with
  | refl => exact ⟨[], root, .root, h0⟩
  | @step j d e _ he hd ih =>
    obtain ⟨ρ, x, h1, h2⟩ := ih
    have h3 := hB _ _ h2
    rw [ht.deps _ _ he] at hd
    have hst : s.step j = e.node := step_eq he
    rw [hst] at h3
    cases hn : e.node with
    | cat ids =>
      rw [hn] at h3 hd
      simp only [NodeF.subs] at hd
      cases x with
      | cat nm ty ts =>
        simp only [stepR] at h3
        cases h3 with
        | cat hl =>
          obtain ⟨c, hc, hb⟩ := hl.mem_left d hd
          obtain ⟨t, htm, rfl⟩ := List.mem_map.1 hc
          exact ⟨ρ, t, h1.cat htm, hb⟩
      | var nm i ty => simp only [stepR] at h3; split at h3 <;> cases h3
      | _ => simp only [stepR] at h3; cases h3
    | alt tys ids =>
      rw [hn] at h3 hd
      simp only [NodeF.subs] at hd
      cases x with
      | alt nm ty ts =>
        simp only [stepR] at h3
        cases h3 with
        | alt _ hl =>
          obtain ⟨c, hc, hb⟩ := hl.mem_left d hd
          obtain ⟨t, htm, rfl⟩ := List.mem_map.1 hc
          exact ⟨ρ, t, h1.alt htm, hb⟩
      | var nm i ty => simp only [stepR] at h3; split at h3 <;> cases h3
      | _ => simp only [stepR] at h3; cases h3
    | alias f =>
      rw [hn] at h3 hd
      simp only [NodeF.subs, List.mem_singleton] at hd
      subst hd
      cases x with
      | fix nm b =>
        simp only [stepR] at h3
        cases h3 with
        | alias hb => exact ⟨b :: ρ, b, h1.fix, hb⟩
      | var nm i ty => simp only [stepR] at h3; split at h3 <;> cases h3
      | _ => simp only [stepR] at h3; cases h3
    | _ => rw [hn] at hd; simp [NodeF.subs] at hd

theorem All2.mem_r {α β : Type} {R : α → β → Prop} : ∀ {l : List α} {m : List β}, All2 R l m → ∀ b ∈ m, ∃ a ∈ l, R a b
  | _, _, .nil, _, h => by cases h
  | _, _, .cons (a := a) h1 h2, b, h => by
    rcases List.mem_cons.1 h with rfl | h
    · exact ⟨a, by simp, h1⟩
    · obtain ⟨b', h3, h4⟩ := h2.mem_r b h
      exact ⟨b', by simp [h3], h4⟩

theorem reach_of_occ {root : TE} {s : BState} {B : Nat → List TE × TE → Prop}
    (hB : ∀ a c, B a c → NodeF.Rel B (s.step a) (stepR c)) {id : Nat} (h0 : B id ([], root)) {ρ : List TE} {x : TE}
    (h : Occ root ρ x) : ∃ j, B j (ρ, x) := by
  induction h with
  | root => exact ⟨id, h0⟩
  | cat _ hm ih =>
    obtain ⟨j, hj⟩ := ih
    have := hB _ _ hj
    simp only [stepR] at this
    generalize s.step j = y at this
    cases this with
    | cat hl =>
      obtain ⟨a, -, ha⟩ := hl.mem_r _ (List.mem_map.2 ⟨_, hm, rfl⟩)
      exact ⟨a, ha⟩
  | alt _ hm ih =>
    obtain ⟨j, hj⟩ := ih
    have := hB _ _ hj
    simp only [stepR] at this
    generalize s.step j = y at this
    cases this with
    | alt _ hl =>
      obtain ⟨a, -, ha⟩ := hl.mem_r _ (List.mem_map.2 ⟨_, hm, rfl⟩)
      exact ⟨a, ha⟩
  | fix _ ih =>
    obtain ⟨j, hj⟩ := ih
    have := hB _ _ hj
    simp only [stepR] at this
    generalize s.step j = y at this
    cases this with
    | alias ha => exact ⟨_, ha⟩

/-- An occurrence is not an unbound variable. -/
theorem Occ.not_bad {root : TE} (hA : Ann [] 0 root) {ρ : List TE} {x : TE} (h : Occ root ρ x) : stepR (ρ, x) ≠ .bad := by
  obtain ⟨Γ, k, h1, h2, -⟩ := h.ann hA
  cases h2 with
  | var _ _ _ i τ hi _ =>
    obtain ⟨b, ρ', _, _, hd, -⟩ := h1.get hi
    simp [stepR, hd]
  | _ => simp [stepR]

theorem Occ.parsers {root : TE} (hA : Ann [] 0 root) {s : BState} {B : Nat → List TE × TE → Prop}
    (hB : ∀ a c, B a c → NodeF.Rel B (s.step a) (stepR c)) {ρ : List TE} : ∀ {ts : List TE} {ids : List Nat},
    (∀ t ∈ ts, Occ root ρ t) → All2 B ids (ts.map fun t => (ρ, t)) →
      All2 (fun i g => IsParserOf s i (ρ.map TE.gram) g) ids (TE.gramL ts)
  | [], _, _, .nil => .nil
  | t :: ts, _ :: _, ho, .cons h1 h2 =>
    .cons ((ho t (by simp)).parser hA hB h1) (Occ.parsers hA hB (fun t' ht => ho t' (by simp [ht])) h2)

/-- How a generated type follows the form of its part: `P t E g` says that the type `t` is a parser of the
part `g` of the grammar, and the node lists the types of the fields, variants or content. -/
inductive NodeF.Mirrors {α : Type} (P : α → List Gram → Gram → Prop) : NodeF α → List Gram → Gram → Prop
  | eps (E : List Gram) : Mirrors P .eps E .eps
  | lit (s : List Char) (E : List Gram) : Mirrors P (.lit s) E (.lit s)
  /-- a struct has one field for each part of a concatenation, in order, -/
  | cat {ids : List α} {E : List Gram} {l : List Gram} : All2 (fun i g => P i E g) ids l → Mirrors P (.cat ids) E (.cat l)
  /-- an enum has one variant for each branch of an alternation, in order, -/
  | alt {tys : List Ty} {ids : List α} {E : List Gram} {l : List Gram} : All2 (fun i g => P i E g) ids l →
      Mirrors P (.alt tys ids) E (.alt l)
  /-- an alias stands for the body of a fix point, -/
  | alias {i : α} {E : List Gram} {b : Gram} : P i (b :: E) b → Mirrors P (.alias i) E (.fix b)
  /-- and a box contains the fix point of a variable. -/
  | box {f : α} {E E' : List Gram} {i : Nat} {b : Gram} : E.drop i = b :: E' → P f E' (.fix b) → Mirrors P (.box f) E (.var i)

theorem Occ.mirrors {root : TE} (hA : Ann [] 0 root) {s : BState} {B : Nat → List TE × TE → Prop}
    (hB : ∀ a c, B a c → NodeF.Rel B (s.step a) (stepR c)) {ρ : List TE} {x : TE} (h : Occ root ρ x) {j : Nat}
    (hj : B j (ρ, x)) : (s.step j).Mirrors (IsParserOf s) (ρ.map TE.gram) x.gram := by
  have h0 := hB _ _ hj
  generalize s.step j = y at h0
  cases x with
  | eps nm => simp only [stepR] at h0; cases h0; exact .eps _
  | lit nm str => simp only [stepR] at h0; cases h0; exact .lit _ _
  | cat nm ty ts =>
    simp only [stepR] at h0
    cases h0 with
    | cat hl => exact .cat (Occ.parsers hA hB (fun t ht => h.cat ht) hl)
  | alt nm ty ts =>
    simp only [stepR] at h0
    cases h0 with
    | alt _ hl => exact .alt (Occ.parsers hA hB (fun t ht => h.alt ht) hl)
  | fix nm b =>
    simp only [stepR] at h0
    cases h0 with
    | alias hb => exact .alias (h.fix.parser hA hB hb)
  | var nm i ty =>
    obtain ⟨Γ, k, h1, h2, h3⟩ := h.ann hA
    cases h2 with
    | var _ _ _ _ τ hi _ =>
      obtain ⟨b, ρ', Γ', k', hd, -, h4, h5⟩ := h1.get hi
      simp only [stepR, hd] at h0
      cases h0 with
      | box hb =>
        exact .box (E' := ρ'.map TE.gram) (b := b.gram) (by rw [← List.map_drop, hd]; rfl)
          (parser_of_ann hB h4 (.fix Γ' k' none b h5) (h3.jump hd) hb)

/-! ## Statements -/

/-- **C72.** Every generated type is a parser of a part of the grammar: its `parse_str` ends on every
text, accepts the language of the part and returns its trees, and the values of the type are the trees of
the part.  The types of its fields, variants or content are the parsers of the corresponding smaller parts. -/
theorem C72_types_are_parts {e : NE} {te : TE} {s : BState} {id : Nat} (h : Compiled e te s id)
    (hns : NoSharingConflict te) (j : Nat) (hj : j < s.data.length) :
    ∃ E g, te.gram.PartOf E g ∧ IsParserOf s j E g ∧ (s.step j).Mirrors (IsParserOf s) E g := by
  obtain ⟨cas, hc⟩ := h.code
  obtain ⟨B, h0, hB⟩ := gen_bisim h.ann hns hc
  obtain ⟨ρ, x, h1, h2⟩ := occ_of_reach (gen_tinv hc) hB ((gen_reach cas te _ _ _ hc .empty (by simp)).2 j (Nat.zero_le _) hj) h0
  exact ⟨_, _, h1.part, h1.parser h.ann hB h2, h1.mirrors h.ann hB h2⟩

/-- **C72** (conversely). For every part of the grammar there is a generated type that is its parser. -/
theorem C72_parts_have_types {e : NE} {te : TE} {s : BState} {id : Nat} (h : Compiled e te s id)
    (hns : NoSharingConflict te) (E : List Gram) (g : Gram) (hp : te.gram.PartOf E g) :
    ∃ j, j < s.data.length ∧ IsParserOf s j E g := by
  obtain ⟨cas, hc⟩ := h.code
  obtain ⟨B, h0, hB⟩ := gen_bisim h.ann hns hc
  obtain ⟨ρ, x, h1, rfl, rfl⟩ := hp.occ
  obtain ⟨j, hj⟩ := reach_of_occ hB h0 h1
  refine ⟨j, nodeAt_lt (D := s.data) (fun hb => ?_), h1.parser h.ann hB hj⟩
  have h2 := hB _ _ hj
  rw [BState.step_eq, hb] at h2
  generalize hy : stepR (ρ, x) = y at h2
  cases h2
  exact h1.not_bad h.ann hy

/-! ## The emitted program -/

/-- `parse_str` of the type `t` of the program ends with `r` on the given text. -/
def RProg.ParsesAs (p : RProg) (t : RTy) (text : List Char) (r : ParseRes RVal) : Prop :=
  r ≠ .oof ∧ ∃ n, parseStr (p.take n t) text = r

/-- The type `t` of the program `p` parses the part `g`. -/
structure RProg.IsParserOf (p : RProg) (t : RTy) (E : List Gram) (g : Gram) : Prop where
  ends : ∀ text, ∃ r, p.ParsesAs t text r
  accepts : ∀ text, (∃ v, p.ParsesAs t text (.ok v)) ↔ g.partLang E text
  /-- `Display` writes the text that was parsed. -/
  display : ∀ text v, p.ParsesAs t text (.ok v) → v.HasType p t ∧ v.fmt p = some text
  /-- Every value that can be built of the type is displayed as a word of the part that parses back to it. -/
  roundtrip : ∀ v, v.HasType p t → ∃ text, v.fmt p = some text ∧ p.ParsesAs t text (.ok v)

theorem Emits.parser_of {cas : Casing} {e : NE} {te : TE} {s : BState} {id : Nat} {p : RProg} (h : Emits cas e te s id p)
    (hc : p.Compiles) {j : Nat} (hj : j < s.data.length) {E : List Gram} {g : Gram} (hg : IsParserOf s j E g) :
    p.IsParserOf (s.rty j) E g := by
  have ht := gen_tinv h.code
  obtain ⟨hE, -⟩ := h.emitted hc.names hc.parts
  have hbx : ∀ (j : Nat) (e : Entry) (f : Nat), s.data[j]? = some e → e.node = .box f → f < s.data.length := by
    intro j en f he hnd
    obtain ⟨e', h1, -⟩ := ht.box j en f he hnd
    exact (List.getElem?_eq_some_iff.1 h1).1
  have hlt : ∀ (j : Nat) (e : Entry), s.data[j]? = some e → ∀ d ∈ e.node.subs, d < s.data.length := fun _ _ he => ht.depsLt _ _ he
  have hrel : ∀ n text, ParseRes.Rel (RVal.Stands p (s.rty j)) (parseStr (p.take n (s.rty j)) text) (parseStr (s.take n j) text) :=
    fun n text => parseStr_rel (fun w => hE.take n j w hj hlt hbx) text
  have hval : ∀ v : RVal, v.HasType p (s.rty j) → Value s.step j (v.tree p) := fun v hv => hE.to_value hlt hbx hv j hj rfl
  have hok : ∀ text v, p.ParsesAs (s.rty j) text (.ok v) ↔ v.HasType p (s.rty j) ∧ Parses s j text (.ok (v.tree p)) := by
    intro text v
    constructor
    · rintro ⟨-, n, hn⟩
      have := hrel n text
      rw [hn] at this
      generalize hx : parseStr (s.take n j) text = y at this
      cases this with
      | ok _ b hs => exact ⟨hs.1, by simp, n, by rw [hx, hs.2]⟩
    · rintro ⟨hv, -, n, hn⟩
      refine ⟨by simp, n, ?_⟩
      have := hrel n text
      rw [hn] at this
      generalize hx : parseStr (p.take n (s.rty j)) text = y at this
      cases this with
      | ok v' b hs =>
        rw [hs.1.tree_inj hv hs.2] at hx
        first | exact hx | rw [hs.1.tree_inj hv hs.2]
  refine ⟨fun text => ?_, fun text => ⟨?_, fun hl => ?_⟩, fun text v hv => ?_, fun v hv => ?_⟩
  · obtain ⟨r, hr, n, hn⟩ := hg.ends text
    have h1 := hrel n text
    refine ⟨_, fun h0 => ?_, n, rfl⟩
    rw [h0, hn] at h1
    generalize r = y at h1 hr
    cases h1
    exact hr rfl
  · rintro ⟨v, hv⟩
    exact (hg.accepts text).1 ⟨_, ((hok text v).1 hv).2⟩
  · obtain ⟨t, ht'⟩ := (hg.accepts text).2 hl
    obtain ⟨h1, h2⟩ := (hg.trees text t).1 ht'
    obtain ⟨v, hv, rfl⟩ := hE.value_of hbx ((hg.values t).2 h1)
    exact ⟨v, (hok text v).2 ⟨hv, ht'⟩⟩
  · obtain ⟨h1, h2⟩ := (hok text v).1 hv
    refine ⟨h1, ?_⟩
    rw [h1.fmt (h.shaped hc), ← ((hg.trees _ _).1 h2).2, Tree.display_eq]
  · refine ⟨_, hv.fmt (h.shaped hc), (hok _ v).2 ⟨hv, ?_⟩⟩
    rw [Tree.display_eq]
    exact (hg.trees _ _).2 ⟨(hg.values _).1 (hval v hv), rfl⟩

/-- A type alias parses what the type parses. -/
theorem RProg.IsParserOf.alias {p : RProg} {x : String} {t : RTy} {E : List Gram} {g : Gram} (h : p.IsParserOf t E g)
    (hx : p.find x = some (.alias x t)) : p.IsParserOf (.path x) E g := by
  have h0 : ∀ n text, parseStr (p.take (n + 1) (.path x)) text = parseStr (p.take n t) text := by
    intro n text
    congr 1
    funext w
    simp only [RProg.take, hx]
  have hp : ∀ text r, p.ParsesAs (.path x) text r ↔ p.ParsesAs t text r := by
    intro text r
    constructor
    · rintro ⟨hr, n, hn⟩
      cases n with
      | zero => exact absurd hn.symm hr
      | succ n => exact ⟨hr, n, (h0 n text).symm.trans hn⟩
    · rintro ⟨hr, n, hn⟩
      exact ⟨hr, n + 1, (h0 n text).trans hn⟩
  have hty : ∀ v : RVal, v.HasType p (.path x) ↔ v.HasType p t := by
    intro v
    constructor
    · intro hv
      generalize hy : x = y at hv
      cases hv with
      | epsilon hf => rw [← hy, hx] at hf; cases hf
      | alias _ t _ hf hv => rw [← hy, hx] at hf; cases hf; exact hv
      | unit _ _ _ _ hf => rw [← hy, hx] at hf; cases hf
      | struct _ _ _ _ _ _ hf => rw [← hy, hx] at hf; cases hf
      | tuple _ _ _ _ _ _ hf => rw [← hy, hx] at hf; cases hf
      | variant _ _ _ _ _ _ _ _ _ hf => rw [← hy, hx] at hf; cases hf
    · intro hv
      exact .alias _ _ _ hx hv
  refine ⟨fun text => ?_, fun text => ?_, fun text v hv => ?_, fun v hv => ?_⟩
  · obtain ⟨r, hr⟩ := h.ends text
    exact ⟨r, (hp text r).2 hr⟩
  · rw [← h.accepts text]
    exact exists_congr fun v => hp text _
  · obtain ⟨h1, h2⟩ := h.display text v ((hp text _).1 hv)
    exact ⟨(hty v).2 h1, h2⟩
  · obtain ⟨text, h1, h2⟩ := h.roundtrip v ((hty v).1 hv)
    exact ⟨text, h1, (hp text _).2 h2⟩

/-- The form of a declared type, with the types of its fields or variants in order. -/
inductive RItem.Form : RItem → NodeF RTy → Prop
  | unit (x : String) (s : List Char) (c : Option Char) : Form (.unit x s s c) (.lit s)
  | named (x : String) (fs : List (String × RTy)) (order lets : List String) (init : List (String × String)) :
      Form (.named x fs order lets init) (.cat (fs.map (·.2)))
  | tuple (x : String) (ts : List RTy) (order : List Nat) (lets init : List String) : Form (.tuple x ts order lets init) (.cat ts)
  | enum (x : String) (vs : List (String × RTy)) (names : List String) (arms : List (List Char × String)) (other : ROther)
      (ch : Option (List String)) (tys : List Ty) : Form (.enum x vs names arms other ch) (.alt tys (vs.map (·.2)))
  | alias (x : String) (t : RTy) : Form (.alias x t) (.alias t)

theorem All2.map_left {α β γ : Type} {R : α → γ → Prop} {S : β → γ → Prop} {f : α → β} : ∀ {l : List α} {m : List γ},
    All2 R l m → (∀ a ∈ l, ∀ c, R a c → S (f a) c) → All2 S (l.map f) m
  | _, _, .nil, _ => .nil
  | _, _, .cons h1 h2, h => .cons (h _ (by simp) _ h1) (h2.map_left fun a ha => h a (by simp [ha]))

/-- **C72** (emitted programs). Every type that an emitted program declares is a parser of a part of the
grammar: `parse_str` ends, accepts the language of the part, and is the inverse of `Display`; and its
fields or variants are parsers of the parts or branches, in order.  (`Ast` is an alias of the root type.) -/
theorem C72_emitted_types {cas : Casing} {e : NE} {te : TE} {s : BState} {id : Nat} {p : RProg} (h : Emits cas e te s id p)
    (hc : p.Compiles) (hns : NoSharingConflict te) (it : RItem) (hi : it ∈ p) :
    (∃ E g, te.gram.PartOf E g ∧ p.IsParserOf (.path it.name) E g ∧ ∃ form, it.Form form ∧ form.Mirrors p.IsParserOf E g) ∨
      ∃ t, it = .alias "Ast" t ∧ p.IsParserOf t [] te.gram ∧ p.IsParserOf (.path "Ast") [] te.gram := by
  obtain ⟨out, hpo, -, ho⟩ := h.program
  obtain ⟨hE, hroot⟩ := h.emitted hc.names hc.parts
  have ht := gen_tinv h.code
  rw [hpo] at hi
  rcases (mem_program ho).1 hi with ⟨i, en, he, hit⟩ | rfl
  · have hlt : i < s.data.length := (List.getElem?_eq_some_iff.1 he).1
    obtain ⟨E, g, h1, h2, h3⟩ := C72_types_are_parts h.compiled hns i hlt
    have h4 := h.parser_of hc hlt h2
    have hname : p.IsParserOf (.path it.name) E g := by
      rcases hE.kind he with ⟨hnd, -⟩ | ⟨f, hnd, -⟩ | ⟨it', hit', hf, hr⟩
      · simp [BState.item, hnd] at hit
      · simp [BState.item, hnd] at hit
      · rw [hr] at h4
        rw [hit] at hit'
        cases hit'
        rw [RProg.find_name hf]
        exact h4
    refine .inl ⟨E, g, h1, hname, ?_⟩
    have hst : s.step i = en.node := step_eq he
    rw [hst] at h3
    have hsub : ∀ {E : List Gram} {ids : List Nat} {l : List Gram}, (∀ d ∈ ids, d < s.data.length) →
        All2 (fun i g => IsParserOf s i E g) ids l → All2 (fun t g => p.IsParserOf t E g) (ids.map s.rty) l :=
      fun hids hl => hl.map_left fun a ha c hp => h.parser_of hc (hids a ha) hp
    have hlts := ht.depsLt i en he
    unfold BState.item at hit
    split at hit
    · cases hit
    · cases hit
    · cases hit
    · rename_i str hnd
      cases hit
      rw [hnd] at h3
      cases h3
      exact ⟨_, .unit _ _ _, .lit _ _⟩
    · rename_i ids hnd
      rw [hnd] at h3 hlts
      cases h3 with
      | cat hl =>
        dsimp only at hit
        split at hit
        · cases hit
          exact ⟨_, .tuple _ _ _ _ _, .cat (hsub hlts hl)⟩
        · rename_i hne
          cases hit
          have hlen := h.cat_length he hnd (by intro h0; simp [h0] at hne)
          refine ⟨_, .named _ _ _ _ _, .cat ?_⟩
          rw [zip_snd (by simp [hlen])]
          exact hsub hlts hl
    · rename_i tys ids hnd
      rw [hnd] at h3 hlts
      cases hit
      cases h3 with
      | alt hl =>
        have hlen := (h.alt_length he hnd).1
        refine ⟨_, .enum _ _ _ _ _ _ tys, .alt ?_⟩
        rw [zip_snd (by simp [hlen])]
        exact hsub hlts hl
    · rename_i f hnd
      rw [hnd] at h3 hlts
      cases hit
      cases h3 with
      | alias hp => exact ⟨_, .alias _ _, .alias (h.parser_of hc (hlts f (by simp [NodeF.subs])) hp)⟩
  · obtain ⟨B, h0, hB⟩ := gen_bisim h.compiled.ann hns h.code
    have h1 := h.parser_of hc h.id_lt (Occ.root.parser h.compiled.ann hB h0)
    exact .inr ⟨_, rfl, h1, h1.alias hroot⟩

/-- **C72** (emitted programs, conversely). For every part of the grammar the program has a type that is
its parser. -/
theorem C72_emitted_parts {cas : Casing} {e : NE} {te : TE} {s : BState} {id : Nat} {p : RProg} (h : Emits cas e te s id p)
    (hc : p.Compiles) (hns : NoSharingConflict te) (E : List Gram) (g : Gram) (hp : te.gram.PartOf E g) :
    ∃ t, p.IsParserOf t E g := by
  obtain ⟨j, h1, h2⟩ := C72_parts_have_types h.compiled hns E g hp
  exact ⟨_, h.parser_of hc h1 h2⟩

/-! ## Example -/

private def xi : Info := ⟨none, 0⟩
private def xnm (s : String) : Info := ⟨some (.newVariable (.spanless s)), 0⟩
private def xcas : Casing := ⟨fun s => some (if s = "x" then "X" else if s = "open" then "Open" else s), some⟩

/-- `!(/x/ "(" : open . x . ")" | "b" | "c")`. -/
private def exNested : NE :=
  .fix xi (.lam xi [.newVariable (.spanless "x")]
    (.alt xi (.cat xi (.lit (xnm "open") ['(']) [(0, .var xi 0), (0, .lit xi [')'])]) [(0, .lit xi ['b']), (0, .lit xi ['c'])]))

/-- The part `"(" . x . ")"`. -/
private def exPart : Gram := .cat [.lit ['('], .var 0, .lit [')']]
private def exBody : Gram := .alt [exPart, .lit ['b'], .lit ['c']]

private theorem exNested_emits : ∃ te s p, Emits xcas exNested te s 0 p ∧ NoSharingConflict te ∧ p.Compiles ∧
    te.gram = .fix exBody ∧ (∃ it ∈ p, it.name = "Cat5") ∧
    (∃ v, p.ParsesAs (.path "Cat5") ['(', 'b', ')'] (.ok v)) ∧ ∃ err, p.ParsesAs (.path "Cat5") ['b'] (.err err) := by
  refine ⟨_, _, _, ⟨⟨10, rfl⟩, rfl, 20, _, rfl, rfl⟩, TE.shareSafe_sound (by decide), ?_, rfl, by decide, ?_, ?_⟩
  · refine C63_compiles_partial ⟨⟨10, rfl⟩, rfl, 20, _, rfl, rfl⟩ (e := exNested) (cas := xcas) ?_ ?_ <;>
      (intro n hn c hc
       change n ∈ [Name.newVariable (.spanless "open")] at hn
       rw [List.mem_singleton.1 hn] at hc; cases hc; decide)
  · exact ⟨_, by simp, 20, rfl⟩
  · exact ⟨_, by simp, 20, rfl⟩

/-- The type emitted for the part `"(" . x . ")"` of the grammar parses `((c))` and not `c`. -/
example : ∃ te s p, Emits xcas exNested te s 0 p ∧ ∃ t, p.IsParserOf t [exBody] exPart ∧
    (∃ v, p.ParsesAs t "((c))".toList (.ok v)) ∧ ¬ ∃ v, p.ParsesAs t "c".toList (.ok v) := by
  obtain ⟨te, s, p, h, hn, hc, hg, -⟩ := exNested_emits
  obtain ⟨t, ht⟩ := C72_emitted_parts h hc hn [exBody] exPart (by rw [hg]; exact Gram.PartOf.root.fix.alt (by simp [exBody]))
  refine ⟨te, s, p, h, t, ht, ?_, ?_⟩
  · refine (ht.accepts _).2 ?_
    rw [Gram.partLang, partEnv_eq, lang_iff_der]
    refine ⟨.cat [.lit ['('], .box (.alt 0 (.cat [.lit ['('], .box (.alt 2 (.lit ['c'])), .lit [')']])), .lit [')']], ?_, by decide⟩
    refine .cat _ _ _ (.cons _ _ _ _ _ (.lit _ _) (.cons _ _ _ _ _ (.var _ _ _ _ _ rfl ?_) (.cons _ _ _ _ _ (.lit _ _) (.nil _))))
    refine .alt _ _ _ _ _ rfl ?_
    refine .cat _ _ _ (.cons _ _ _ _ _ (.lit _ _) (.cons _ _ _ _ _ (.var _ _ _ _ _ rfl ?_) (.cons _ _ _ _ _ (.lit _ _) (.nil _))))
    exact .alt _ _ _ _ _ rfl (.lit _ _)
  · rw [ht.accepts]
    rintro ⟨u, v, h1, h2, -⟩
    simp only [Gram.lang] at h2
    subst h2
    cases h1

end Chomp
