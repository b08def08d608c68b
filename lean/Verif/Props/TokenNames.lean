import Verif.Props.Tokens

/-! # C83: the identifiers in the emitted tokens -/

namespace Chomp

/-- The identifiers and keywords that the templates of the backend use, whatever the grammar is. -/
def templateIds : List String :=
  ["use", "chewed", "doc", "derive", "Clone", "Debug", "Eq", "Hash", "PartialEq", "pub", "struct", "enum", "type", "impl", "std", "fmt",
   "Display", "for", "fn", "self", "f", "mut", "Formatter", "_", "Result", "Parse", "take", "P", "Parser", "Sized", "input", "Self",
   "TakeError", "write", "consume_str", "map", "From", "char", "from", "alt", "match", "inner", "into", "Ok", "let", "peek", "Some", "c",
   "Err", "BadBranch", "pos", "None", "EndOfStream", "Box", "Epsilon"]

/-- The names that an item introduces: its own, those of its fields or variants, and those of its local variables. -/
def RItem.introduces : RItem → List String
  | .unit n _ _ _ => [n]
  | .named n fields _ lets _ => n :: (fields.map (·.1) ++ lets)
  | .tuple n _ _ lets _ => n :: lets
  | .enum n variants _ _ _ _ => n :: variants.map (·.1)
  | .alias n _ => [n]

/-- An identifier made from the grammar: it ends in a digit, or is `Ast`. -/
def MadeName (x : String) : Prop := endsInDigit x = true ∨ x = "Ast"

theorem templateIds_not_made {x : String} (h : x ∈ templateIds) : ¬ MadeName x := by
  have : ∀ x ∈ templateIds, endsInDigit x = false ∧ x ≠ "Ast" := by decide +kernel
  obtain ⟨h1, h2⟩ := this x h
  rintro (h3 | h3)
  · rw [h1] at h3; cases h3
  · exact h2 h3

/-- All identifiers of the tokens satisfy `P`. -/
def IdsIn (P : String → Prop) (ts : List RTok) : Prop := ∀ x, RTok.id x ∈ ts → P x

theorem IdsIn.append {P : String → Prop} {a b : List RTok} (ha : IdsIn P a) (hb : IdsIn P b) : IdsIn P (a ++ b) := by
  intro x hx
  rcases List.mem_append.1 hx with hx | hx
  · exact ha x hx
  · exact hb x hx

theorem IdsIn.many {P : String → Prop} : ∀ {l : List (List RTok)}, (∀ x ∈ l, IdsIn P x) → IdsIn P (manyToks l)
  | [], _, x, hx => by cases hx
  | a :: l, h, x, hx => by
    simp only [manyToks] at hx
    exact (h a (by simp)).append (IdsIn.many fun b hb => h b (List.mem_cons_of_mem _ hb)) x hx

theorem IdsIn.sep {P : String → Prop} {s : String} : ∀ {l : List (List RTok)}, (∀ x ∈ l, IdsIn P x) → IdsIn P (sepToks (.op s) l)
  | [], _, x, hx => by cases hx
  | [a], h, x, hx => h a (by simp) x hx
  | a :: b :: l, h, x, hx => by
    simp only [sepToks] at hx
    exact ((h a (by simp)).append (b := [.op s]) (fun y hy => by simp at hy)).append
      (IdsIn.sep fun c hc => h c (List.mem_cons_of_mem _ hc)) x hx

theorem IdsIn.map {α : Type} {P : String → Prop} {f : α → List RTok} {l : List α} (h : ∀ a ∈ l, IdsIn P (f a)) : ∀ x ∈ l.map f, IdsIn P x := by
  intro x hx
  obtain ⟨a, ha, rfl⟩ := List.mem_map.1 hx
  exact h a ha

/-- An identifier of a template, or one made from the grammar. -/
def KnownId (x : String) : Prop := x ∈ templateIds ∨ MadeName x

theorem IdsIn.one {x : String} (h : MadeName x) : IdsIn KnownId [.id x] := by
  intro y hy
  simp only [List.mem_singleton, RTok.id.injEq] at hy
  exact .inr (hy ▸ h)

/-- A piece of a template. -/
theorem IdsIn.fixed {ts : List RTok} (h : (ts.all fun t => match t with | .id x => templateIds.contains x | _ => true) = true) :
    IdsIn KnownId ts := by
  intro x hx
  have := List.all_eq_true.1 h _ hx
  exact .inl (by simpa using this)

/-- A type that is a generated type or `Epsilon`, perhaps in a `Box`. -/
def RTy.Known : RTy → Prop
  | .path x => MadeName x ∨ x = "Epsilon"
  | .boxed t => t.Known

theorem IdsIn.ty : ∀ {t : RTy}, t.Known → IdsIn KnownId t.toks
  | .path x, .inl h => IdsIn.one h
  | .path x, .inr h => by subst h; exact IdsIn.fixed (by decide +kernel)
  | .boxed t, h => ((IdsIn.fixed (by decide +kernel)).append (IdsIn.ty (t := t) h)).append (IdsIn.fixed (by decide +kernel))

theorem IdsIn.display {n : String} {b : List RTok} (h : MadeName n) (hb : IdsIn KnownId b) : IdsIn KnownId (displayToks n b) :=
  ((((IdsIn.fixed (by decide +kernel)).append (.one h)).append (.fixed (by decide +kernel))).append hb).append (.fixed (by decide +kernel))

theorem IdsIn.parse {n : String} {b : List RTok} (h : MadeName n) (hb : IdsIn KnownId b) : IdsIn KnownId (parseToks n b) :=
  ((((IdsIn.fixed (by decide +kernel)).append (.one h)).append (.fixed (by decide +kernel))).append hb).append (.fixed (by decide +kernel))

theorem IdsIn.lets {l : List String} (h : ∀ x ∈ l, MadeName x) : IdsIn KnownId (letToks l) :=
  .many (.map fun x hx => ((IdsIn.fixed (by decide +kernel)).append (.one (h x hx))).append (.fixed (by decide +kernel)))

/-- The names in an item are made from the grammar. -/
def RItem.MadeNames : RItem → Prop
  | .unit n _ _ _ => MadeName n
  | .named n fields shown lets build => MadeName n ∧ (∀ f ∈ fields, MadeName f.1 ∧ f.2.Known) ∧ (∀ x ∈ shown, MadeName x) ∧
      (∀ x ∈ lets, MadeName x) ∧ ∀ b ∈ build, MadeName b.1 ∧ MadeName b.2
  | .tuple n fields _ lets build => MadeName n ∧ (∀ f ∈ fields, f.Known) ∧ (∀ x ∈ lets, MadeName x) ∧ ∀ x ∈ build, MadeName x
  | .enum n variants shown arms other chars => MadeName n ∧ (∀ f ∈ variants, MadeName f.1 ∧ f.2.Known) ∧ (∀ x ∈ shown, MadeName x) ∧
      (∀ a ∈ arms, MadeName a.2) ∧ (∀ x, other = .take x → MadeName x) ∧ ∀ xs, chars = some xs → ∀ x ∈ xs, MadeName x
  | .alias n t => MadeName n ∧ t.Known

theorem IdsIn.noIds {ts : List RTok} (h : ∀ t ∈ ts, ∀ x, t ≠ .id x) : IdsIn KnownId ts := fun x hx => absurd rfl (h _ hx x)

theorem IdsIn.item (doc : List Char → List Char) {i : RItem} (h : i.MadeNames) : IdsIn KnownId (i.toks doc) := by
  have fx : ∀ {ts : List RTok}, (ts.all fun t => match t with | .id x => templateIds.contains x | _ => true) = true → IdsIn KnownId ts :=
    fun h => IdsIn.fixed h
  cases i with
  | unit n text consume c =>
    have hs : ∀ s : List Char, IdsIn KnownId [.str s] := fun s => .noIds (by simp)
    have h1 : IdsIn KnownId (displayToks n (Q.write ++ [.str text] ++ [.cls ')'])) :=
      .display h (((fx (by decide +kernel)).append (hs _)).append (fx rfl))
    have h2 : IdsIn KnownId (parseToks n (Q.consume ++ [.str consume] ++ Q.mapUnit ++ [.id n] ++ [.cls ')'])) :=
      .parse h (((((fx (by decide +kernel)).append (hs _)).append (fx (by decide +kernel))).append (.one h)).append (fx rfl))
    refine IdsIn.append (((((((((fx (by decide +kernel)).append (hs _)).append (fx (by decide +kernel))).append (fx (by decide +kernel))).append
      (fx (by decide +kernel))).append (.one h)).append (fx rfl)).append h1).append h2) ?_
    cases c with
    | none => exact fx rfl
    | some c =>
      exact ((((((fx (by decide +kernel)).append (.one h)).append (fx (by decide +kernel))).append (.one h)).append (fx (by decide +kernel))).append
        (.noIds (by simp))).append (fx rfl)
  | named n fields shown lets build =>
    obtain ⟨hn, hf, hs, hl, hb⟩ := h
    have h1 : IdsIn KnownId (sepToks (.op ",") ((fields.map fun f => (f.1, f.2.toks)).map fun f => [.id "pub"] ++ [.id f.1] ++ [.op ":"] ++ f.2)) := by
      rw [List.map_map]
      exact .sep (.map fun f hm => (((fx (by decide +kernel)).append (.one (hf f hm).1)).append (fx rfl)).append (.ty (hf f hm).2))
    refine ((((((fx (by decide +kernel)).append (fx (by decide +kernel))).append (.one hn)).append (fx rfl)).append h1).append (fx rfl)).append
      (.display hn ((IdsIn.many (.map fun x hx => ((fx (by decide +kernel)).append (.one (hs x hx))).append (fx (by decide +kernel)))).append
        (fx (by decide +kernel)))) |>.append ?_
    exact .parse hn (((((IdsIn.lets hl).append (fx (by decide +kernel))).append
      (.sep (.map fun b hm => ((IdsIn.one (hb b hm).1).append (fx rfl)).append (.one (hb b hm).2)))).append (fx rfl)).append (fx rfl))
  | tuple n fields shown lets build =>
    obtain ⟨hn, hf, hl, hb⟩ := h
    have h1 : IdsIn KnownId (sepToks (.op ",") ((fields.map RTy.toks).map fun f => [.id "pub"] ++ f)) := by
      rw [List.map_map]
      exact .sep (.map fun f hm => (fx (by decide +kernel)).append (.ty (hf f hm)))
    refine (((((((fx (by decide +kernel)).append (fx (by decide +kernel))).append (.one hn)).append (fx rfl)).append h1).append (fx rfl)).append
      (fx rfl)).append
      (.display hn ((IdsIn.many (.map fun x _ => ((fx (by decide +kernel)).append (.noIds (by simp))).append (fx (by decide +kernel)))).append
        (fx (by decide +kernel)))) |>.append ?_
    exact .parse hn (((((IdsIn.lets hl).append (fx (by decide +kernel))).append
      (.sep (.map fun b hm => IdsIn.one (hb b hm)))).append (fx rfl)).append (fx rfl))
  | enum n variants shown arms other chars =>
    obtain ⟨hn, hf, hs, ha, ho, hc⟩ := h
    have h1 : IdsIn KnownId (sepToks (.op ",") ((variants.map fun f => (f.1, f.2.toks)).map fun v => [.id v.1] ++ [.opn '('] ++ v.2 ++ [.cls ')'])) := by
      rw [List.map_map]
      exact .sep (.map fun f hm => (((IdsIn.one (hf f hm).1).append (fx rfl)).append (.ty (hf f hm).2)).append (fx rfl))
    have h2 : IdsIn KnownId (armToks arms) := .many (.map fun a hm => (((IdsIn.sep (.map fun c _ =>
      (((fx (by decide +kernel)).append (fx rfl)).append (.noIds (by simp))).append (fx rfl))).append (fx (by decide +kernel))).append
        (.one (ha a hm))).append (fx (by decide +kernel)))
    have h3 : IdsIn KnownId (otherToks other) := by
      cases other with
      | take x => exact (((fx (by decide +kernel)).append (fx (by decide +kernel))).append (.one (ho x rfl))).append (fx (by decide +kernel))
      | fail l => exact ((fx (by decide +kernel)).append (.sep (.map fun c _ => .noIds (by simp)))).append (fx (by decide +kernel))
    refine (((((((fx (by decide +kernel)).append (fx (by decide +kernel))).append (.one hn)).append (fx rfl)).append h1).append (fx rfl)).append
      (.display hn (((fx (by decide +kernel)).append (IdsIn.sep (.map fun x hx => ((fx (by decide +kernel)).append (.one (hs x hx))).append
        (fx (by decide +kernel))))).append (fx rfl)))).append (.parse hn ((((fx (by decide +kernel)).append h2).append h3).append (fx rfl)))
      |>.append ?_
    cases chars with
    | none => exact fx rfl
    | some xs =>
      exact ((((((((fx (by decide +kernel)).append (.one hn)).append (fx (by decide +kernel))).append (.one hn)).append (fx (by decide +kernel))).append
        (fx (by decide +kernel))).append (IdsIn.sep (.map fun x hx => (((IdsIn.one hn).append (fx rfl)).append (.one (hc xs rfl x hx))).append
          (fx (by decide +kernel))))).append (fx rfl)).append (fx rfl)
  | alias n t => exact ((((fx (by decide +kernel)).append (.one h.1)).append (fx rfl)).append (.ty h.2)).append (fx rfl)

theorem partNames_made {conv : String → Option String} {dflt : String} : ∀ {names : List (Option Name)} {i : Nat} {m : List (String × Nat)}
    {parts : List String}, partNames conv dflt i m names = .ok parts → ∀ x ∈ parts, MadeName x
  | [], _, _, _, h, x, hx => by cases h; cases hx
  | none :: l, i, m, parts, h, x, hx => by
    obtain ⟨ps, h1, h2⟩ := except_map_ok h
    subst h2
    rcases List.mem_cons.1 hx with rfl | hx
    · exact .inl (base_digits_endsInDigit _ _)
    · exact partNames_made h1 x hx
  | some n :: l, i, m, parts, h, x, hx => by
    simp only [partNames] at h
    split at h
    · cases h
    · obtain ⟨ps, h1, h2⟩ := except_map_ok h
      subst h2
      rcases List.mem_cons.1 hx with rfl | hx
      · exact .inl (base_digits_endsInDigit _ _)
      · exact partNames_made h1 x hx

theorem numberParts_made {x : String} : ∀ {n i : Nat}, x ∈ numberParts i n → MadeName x
  | 0, _, h => by cases h
  | n + 1, i, h => by
    rcases List.mem_cons.1 h with rfl | h
    · exact .inl (base_digits_endsInDigit _ _)
    · exact numberParts_made h

theorem Emits.fields_made {cas : Casing} {e : NE} {te : TE} {s : BState} {id : Nat} {p : RProg} (h : Emits cas e te s id p) {i : Nat}
    {en : Entry} (he : s.data[i]? = some en) (hd : (∃ ids, en.node = .cat ids) ∨ ∃ tys ids, en.node = .alt tys ids) :
    ∀ x ∈ en.fields, MadeName x := by
  have hf := h.fields he
  rcases hd with ⟨ids, hd⟩ | ⟨tys, ids, hd⟩ <;> simp only [Entry.FieldsOk, hd] at hf
  · obtain ⟨names, parts, -, -, h1, h2⟩ := hf
    rw [h2]
    split
    · exact partNames_made h1
    · simp
  · obtain ⟨names, -, -, -, -, h1⟩ := hf
    exact partNames_made h1

theorem Emits.entry_known {cas : Casing} {e : NE} {te : TE} {s : BState} {id : Nat} {p : RProg} (h : Emits cas e te s id p) {i : Nat}
    {en : Entry} (he : s.data[i]? = some en) (hb : ∀ f, en.node ≠ .box f) : MadeName en.name ∨ en.name = "Epsilon" := by
  have hm := List.mem_of_getElem? he
  cases hd : en.defines with
  | true => exact .inl (.inl (gen_digits h.code en hm hd))
  | false =>
    unfold Entry.defines at hd
    split at hd
    · rename_i hn
      exact .inr (gen_eps h.code en hm hn)
    · rename_i f hn
      exact absurd hn (hb f)
    · cases hd

theorem Emits.rty_known {cas : Casing} {e : NE} {te : TE} {s : BState} {id : Nat} {p : RProg} (h : Emits cas e te s id p) {i : Nat}
    (hi : i < s.data.length) : (s.rty i).Known := by
  have ht := gen_tinv h.code
  have he : s.data[i]? = some s.data[i] := List.getElem?_eq_getElem hi
  cases hn : s.data[i].node with
  | box f =>
    obtain ⟨e', h1, h2, -⟩ := ht.box i _ f he hn
    simp only [BState.rty, he, hn, h1]
    refine h.entry_known h1 fun g hg => ?_
    rcases h2 with h2 | ⟨j, h2⟩ <;> rw [h2] at hg <;> cases hg
  | _ =>
    rw [BState.rty_eq he (by rw [hn]; intro f hf; cases hf)]
    exact h.entry_known he (by rw [hn]; intro f hf; cases hf)

theorem Emits.madeNames {cas : Casing} {e : NE} {te : TE} {s : BState} {id : Nat} {p : RProg} (h : Emits cas e te s id p) :
    ∀ it ∈ p, it.MadeNames := by
  intro it hit
  have ht := gen_tinv h.code
  obtain ⟨out, rfl, -, ho⟩ := h.program
  rcases (mem_program ho).1 hit with ⟨i, en, he, hi⟩ | rfl
  · have hnm : MadeName en.name := .inl (gen_digits h.code en (List.mem_of_getElem? he) (item_defines hi))
    have hsub : ∀ d ∈ en.node.subs, (s.rty d).Known := fun d hd => h.rty_known (ht.depsLt i en he d hd)
    unfold BState.item at hi
    split at hi <;> try (cases hi; done)
    · cases hi; exact hnm
    · rename_i ids hn
      have hF := h.fields_made he (.inl ⟨ids, hn⟩)
      have hT : ∀ t ∈ ids.map s.rty, t.Known := by
        intro t htm
        obtain ⟨d, hd, rfl⟩ := List.mem_map.1 htm
        exact hsub d (by rw [hn]; exact hd)
      dsimp only at hi
      split at hi <;> cases hi
      · exact ⟨hnm, hT, fun x hx => numberParts_made hx, fun x hx => numberParts_made hx⟩
      · exact ⟨hnm, fun f hf => ⟨hF _ (List.of_mem_zip hf).1, hT _ (List.of_mem_zip hf).2⟩, hF, fun x hx => numberParts_made hx,
          fun b hb => ⟨hF _ (List.of_mem_zip hb).1, numberParts_made (List.of_mem_zip hb).2⟩⟩
    · rename_i tys ids hn
      have hF := h.fields_made he (.inr ⟨tys, ids, hn⟩)
      have hT : ∀ t ∈ ids.map s.rty, t.Known := by
        intro t htm
        obtain ⟨d, hd, rfl⟩ := List.mem_map.1 htm
        exact hsub d (by rw [hn]; exact hd)
      cases hi
      refine ⟨hnm, fun f hf => ⟨hF _ (List.of_mem_zip hf).1, hT _ (List.of_mem_zip hf).2⟩, hF, ?_, ?_, ?_⟩
      · intro a ha
        obtain ⟨x, hx, h1⟩ := List.mem_filterMap.1 ha
        split at h1
        · cases h1
        · cases h1
          exact hF _ (List.of_mem_zip hx).2
      · intro x hx
        unfold enumOther at hx
        split at hx
        · rename_i y hy
          cases hx
          exact hF _ (List.of_mem_zip (List.mem_of_find?_eq_some hy)).2
        · cases hx
      · intro xs hx
        split at hx
        · cases hx; exact hF
        · cases hx
    · rename_i j hn
      cases hi
      exact ⟨hnm, hsub j (by rw [hn]; simp [NodeF.subs])⟩
  · exact ⟨.inr rfl, h.rty_known h.id_lt⟩

/-- **C83** (names do not interfere with the templates). Every identifier in the emitted tokens is one of the fixed ones of the
templates, or it is made from the grammar: it ends in a digit, or is `Ast`.  No identifier is both, and what the items
introduce (types, fields, variants, local variables) is of the second sort; so, whatever the rules of the grammar are called, they
hide nothing that the templates refer to, no keyword is used as a name, and `self`, `input`, `f`, `inner`, `alt` and `c` are
never hidden. -/
theorem C83_hygiene {doc : List Char → List Char} {cas : Casing} {e : NE} {te : TE} {ts : List RTok}
    (ht : ∃ n, (inferTop n e ⟨[], []⟩).1 = .ok te) (h : Writes doc cas te ts) :
    (∀ x, RTok.id x ∈ ts → x ∈ templateIds ∨ endsInDigit x = true ∨ x = "Ast") ∧
    (∀ x ∈ templateIds, endsInDigit x = false ∧ x ≠ "Ast") ∧
    ∃ p, readProgram ts = some p ∧ ∀ it ∈ p, ∀ x ∈ it.introduces, (endsInDigit x = true ∨ x = "Ast") ∧ x ∉ templateIds := by
  obtain ⟨s, id, n, out, h1, h2, rfl⟩ := writes_iff.1 h
  have hE : Emits cas e te s id (s.program none id out) := ⟨ht, h1, n, out, h2, rfl⟩
  refine ⟨?_, by decide +kernel, _, readProgram_ok doc _ (program_armsOk s none id out), ?_⟩
  · have : IdsIn KnownId ((s.program none id out).toks doc) :=
      (IdsIn.fixed (by decide +kernel)).append (.many (.map fun i hi => .item doc (hE.madeNames i hi)))
    exact this
  · intro it hit x hx
    have hm := hE.madeNames it hit
    have : MadeName x := by
      cases it with
      | unit n text consume c => simp only [RItem.introduces, List.mem_singleton] at hx; exact hx ▸ hm
      | alias n t => simp only [RItem.introduces, List.mem_singleton] at hx; exact hx ▸ hm.1
      | named n fields shown lets build =>
        simp only [RItem.introduces, List.mem_cons, List.mem_append, List.mem_map] at hx
        rcases hx with rfl | ⟨f, hf, rfl⟩ | hx
        · exact hm.1
        · exact (hm.2.1 f hf).1
        · exact hm.2.2.2.1 x hx
      | tuple n fields shown lets build =>
        simp only [RItem.introduces, List.mem_cons] at hx
        rcases hx with rfl | hx
        · exact hm.1
        · exact hm.2.2.1 x hx
      | enum n variants shown arms other chars =>
        simp only [RItem.introduces, List.mem_cons, List.mem_map] at hx
        rcases hx with rfl | ⟨f, hf, rfl⟩
        · exact hm.1
        · exact (hm.2.1 f hf).1
    exact ⟨this, fun h => templateIds_not_made h this⟩

end Chomp
