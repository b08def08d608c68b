import Verif.Auto.Values
import Verif.Auto.Lex
import Verif.Props.Syntax

/-! # The conversions of autonibble and of nibble agree -/

namespace Chomp

/-! ## Specification: equality up to spans -/

/-- A name without its span. -/
def Content.unspan (c : Content) : Content := .spanless c.hashed
def Name.unspan (n : Name) : Name := ⟨n.content.unspan, n.kind⟩
def Info.unspan (i : Info) : Info := ⟨i.name.map Name.unspan, 0⟩

mutual
/-- An expression without spans: structure and names stay. -/
def NE.unspan : NE → NE
  | .eps i => .eps i.unspan
  | .lit i s => .lit i.unspan s
  | .cat i f r => .cat i.unspan f.unspan (NE.unspanP r)
  | .alt i f r => .alt i.unspan f.unspan (NE.unspanP r)
  | .fix i b => .fix i.unspan b.unspan
  | .var i n => .var i.unspan n
  | .call i o a => .call i.unspan o.unspan (NE.unspanL a)
  | .lam i a b => .lam i.unspan (a.map Name.unspan) b.unspan
  | .letE i n b c => .letE i.unspan n.unspan b.unspan c.unspan
def NE.unspanP : List (Nat × NE) → List (Nat × NE)
  | [] => []
  | (_, e) :: l => (0, e.unspan) :: NE.unspanP l
def NE.unspanL : List NE → List NE
  | [] => []
  | e :: l => e.unspan :: NE.unspanL l
end

/-- An error without spans. -/
def ConvErr.unspan : ConvErr → ConvErr
  | .undeclaredName n => .undeclaredName n.unspan
  | .emptyCat _ => .emptyCat 0
  | .emptyAlt _ => .emptyAlt 0
  | .emptyCall _ => .emptyCall 0

/-- Give the goal of a program (the body of its innermost let) the name `Ast`, unless it has a name of its own. -/
def NE.nameGoal : NE → NE
  | .letE i n b c => .letE i n b c.nameGoal
  | e => e.setInfo ⟨Name.merge e.info.name (some (.newVariable (.spanless "Ast"))), e.info.span⟩

/-! ## Identifiers and literals -/

theorem UIdent.autoContent (i : UIdent) : autoContent i.tree = i.ident.content.unspan := by
  rw [Chomp.autoContent, UIdent.tree_display]
  rfl

theorem UNames.autoNames : ∀ n : UNames, autoNames n.tree = n.idents.map fun i => i.content.unspan
  | .one i => by simp [UNames.tree, Chomp.autoNames, UNames.idents, UIdent.autoContent]
  | .trail i w ws => by simp [UNames.tree, Chomp.autoNames, UNames.idents, UIdent.autoContent]
  | .more i w ws r => by simp [UNames.tree, Chomp.autoNames, UNames.idents, UIdent.autoContent, UNames.autoNames r]

theorem Pick.toChar {cs : List Char} (k : Pick cs) : k.tree.toChar = some k.char := rfl

theorem hexDigit_pick : ∀ k : Pick hexChars, hexDigit? k.char = some (hexVal16 k) := by decide +kernel
theorem octDigit_pick : ∀ k : Pick octChars, hexDigit? k.char = some k.val := by decide +kernel
theorem hexVal_lt : ∀ k : Pick hexChars, hexVal16 k < 16 := by decide +kernel

theorem hexFold_pick : ∀ (l : List (Pick hexChars)) (a : Nat),
    hexFold (l.map Pick.char) a = some (l.foldl (fun a d => a * 16 + hexVal16 d) a)
  | [], _ => rfl
  | d :: l, a => by
    rw [List.map_cons, hexFold, hexDigit_pick, Option.bind_some, hexFold_pick l, List.foldl_cons]

theorem foldl_lt : ∀ (l : List (Pick hexChars)) (a : Nat),
    l.foldl (fun a d => a * 16 + hexVal16 d) a < (a + 1) * 16 ^ l.length
  | [], a => by simp
  | d :: l, a => by
    have h1 := foldl_lt l (a * 16 + hexVal16 d)
    have h2 := hexVal_lt d
    rw [List.foldl_cons, List.length_cons]
    refine Nat.lt_of_lt_of_le h1 ?_
    have h3 : (a + 1) * 16 ^ (l.length + 1) = ((a + 1) * 16) * 16 ^ l.length := by
      rw [Nat.pow_succ, Nat.mul_assoc, Nat.mul_comm 16]
    rw [h3]
    exact Nat.mul_le_mul_right _ (by omega)

theorem hexNum_lt {d : Pick hexChars} {ds : List (Pick hexChars)} (h : ds.length ≤ 5) : hexNum (d :: ds) < 4294967296 := by
  have h1 := foldl_lt (d :: ds) 0
  have h2 : (16 : Nat) ^ (d :: ds).length ≤ 16 ^ 6 := Nat.pow_le_pow_right (by decide) (by simp; omega)
  have h3 : (16 : Nat) ^ 6 < 4294967296 := by decide
  unfold hexNum
  rw [Nat.zero_add, Nat.one_mul] at h1
  exact Nat.lt_trans (Nat.lt_of_lt_of_le h1 h2) h3

theorem charFromU32_eq (n : Nat) : charFromU32 n = if n.isValidChar then some (Char.ofNat n) else none := by
  unfold charFromU32
  split
  · rename_i h
    simp [Char.ofNat, h]
  · rfl

theorem u32FromHex_pick (d : Pick hexChars) (ds : List (Pick hexChars)) (h : ds.length ≤ 5) :
    u32FromHex ((d :: ds).map Pick.char) = some (hexNum (d :: ds)) := by
  have h1 : hexFold ((d :: ds).map Pick.char) 0 = some (hexNum (d :: ds)) := hexFold_pick _ _
  have h2 : ((d :: ds).map Pick.char).isEmpty = false := rfl
  unfold u32FromHex
  rw [h1, h2, Option.bind_some, if_neg (by simp), if_pos (hexNum_lt h)]

theorem byte_valid : ∀ (o : Pick octChars) (k : Pick hexChars), u32FromHex [o.char, k.char] = some (o.val * 16 + hexVal16 k) ∧
    (o.val * 16 + hexVal16 k).isValidChar := by
  intro o k
  have h1 : hexFold [o.char, k.char] 0 = some (o.val * 16 + hexVal16 k) := by
    simp [hexFold, octDigit_pick, hexDigit_pick]
  have h2 := hexVal_lt k
  have h3 : o.val < 8 := o.isLt
  have h5 : o.val * 16 + hexVal16 k < 128 := by omega
  refine ⟨?_, .inl (by omega)⟩
  unfold u32FromHex
  rw [h1, Option.bind_some, if_pos (Nat.lt_trans h5 (by decide))]
  rfl

theorem autoAscii_eq : ∀ k : Pick asciiChars, autoAscii k.val = asciiVals[k.val]? := by decide +kernel

/-- Every character of a literal is decoded to what it denotes; if it denotes no character, decoding it panics. -/
theorem UChar.autoChar : ∀ c : UChar, autoChar c.tree = c.denotes
  | .plain k => by simp [UChar.tree, Chomp.autoChar, UChar.denotes, Pick.toChar]
  | .ascii k => by
    simp only [UChar.tree, Chomp.autoChar, UChar.denotes, Pick.tree, autoEscape]
    exact autoAscii_eq k
  | .byte o k => by
    obtain ⟨h1, h2⟩ := byte_valid o k
    simp only [UChar.tree, Chomp.autoChar, UChar.denotes, autoEscape, Pick.toChar, Option.bind_some, h1, charFromU32_eq, if_pos h2]
  | .unicode d ds h => by
    simp only [UChar.tree, Chomp.autoChar, UChar.denotes, autoEscape]
    rw [hexT_display, u32FromHex_pick d ds h, Option.bind_some, charFromU32_eq]

theorem autoContents_ok : ∀ (l : List UChar) (c : UChar), ((c :: l).all fun c => c.denotes.isSome) = true →
    autoContents (plusT UChar.tree c l) = some ((c :: l).map UChar.val)
  | [], c, h => by
    simp only [List.all_cons, List.all_nil, Bool.and_true] at h
    obtain ⟨v, hv⟩ := Option.isSome_iff_exists.1 h
    simp [plusT, autoContents, UChar.autoChar, UChar.val, hv]
  | c' :: l, c, h => by
    rw [List.all_cons, Bool.and_eq_true] at h
    obtain ⟨v, hv⟩ := Option.isSome_iff_exists.1 h.1
    simp [plusT, autoContents, UChar.autoChar, UChar.val, hv, autoContents_ok l c' h.2]

theorem autoContents_panic : ∀ (l : List UChar) (c : UChar), ((c :: l).all fun c => c.denotes.isSome) = false →
    autoContents (plusT UChar.tree c l) = none
  | [], c, h => by
    simp only [List.all_cons, List.all_nil, Bool.and_true] at h
    simp [plusT, autoContents, UChar.autoChar, Option.isSome_eq_false_iff.1 h |> Option.isNone_iff_eq_none.1]
  | c' :: l, c, h => by
    cases hc : c.denotes with
    | none => simp [plusT, autoContents, UChar.autoChar, hc]
    | some v =>
      rw [List.all_cons, hc, Option.isSome_some, Bool.true_and] at h
      simp [plusT, autoContents, UChar.autoChar, hc, autoContents_panic l c' h]

/-! ## Contexts -/

/-- A context as nibble builds it for a program without raw identifiers. -/
def Ctx.plain (c : Ctx) : Prop := ∀ m ∈ c, ∃ s sp, m = .spanned false s sp

theorem findIdx_map {α β : Type} {p : α → Bool} {q : β → Bool} {f : α → β} : ∀ {l : List α}, (∀ a ∈ l, q (f a) = p a) →
    findIdx q (l.map f) = findIdx p l
  | [], _ => rfl
  | a :: l, h => by
    simp only [List.map_cons, findIdx, h a (List.mem_cons_self ..)]
    rw [findIdx_map fun a ha => h a (List.mem_cons_of_mem _ ha)]

theorem lookup_unspan {c : Ctx} (h : c.plain) (i : UIdent) :
    Ctx.lookup (c.map Content.unspan) (Name.newVariable i.ident.content.unspan) = c.lookup (Name.newVariable i.ident.content) := by
  unfold Ctx.lookup
  rw [← List.map_reverse]
  refine findIdx_map fun m hm => ?_
  obtain ⟨s, sp, rfl⟩ := h m (List.mem_reverse.1 hm)
  simp [Name.newVariable, UIdent.ident, Ident.content, Content.unspan, Content.hashed, Content.eqv]

theorem Ctx.plain_append {c d : Ctx} (h : c.plain) (h' : d.plain) : Ctx.plain (c ++ d) := by
  intro m hm
  rcases List.mem_append.1 hm with hm | hm
  · exact h m hm
  · exact h' m hm

/-- Identifiers as they come from a program text. -/
def identsPlain (l : List Ident) : Prop := ∀ i ∈ l, i.raw = false

theorem UNames.idents_plain : ∀ n : UNames, identsPlain n.idents
  | .one i => by intro j hj; simp [UNames.idents] at hj; subst hj; rfl
  | .trail i w ws => by intro j hj; simp [UNames.idents] at hj; subst hj; rfl
  | .more i w ws r => by
    intro j hj
    simp only [UNames.idents, List.mem_cons] at hj
    rcases hj with rfl | hj
    · rfl
    · exact r.idents_plain j hj

theorem contents_plain {l : List Ident} (h : identsPlain l) :
    Ctx.plain ((l.map fun i => Name.newVariable i.content).map (·.content)) := by
  intro m hm
  simp only [List.map_map, List.mem_map, Function.comp] at hm
  obtain ⟨i, hi, rfl⟩ := hm
  obtain ⟨raw, s, sp⟩ := i
  cases h _ hi
  exact ⟨s, sp, rfl⟩

/-! ## Agreement of computations -/

/-- The two conversions have the same outcome, up to `f` and spans, and both leave their context as it was. -/
def Agrees {α : Type} (f : α → α) (c : Ctx) (x y : Conv α) : Prop :=
  (∃ a, x = some (.ok a, c) ∧ y = some (.ok (f a), c.map Content.unspan)) ∨
    ∃ e, x = some (.error e, c) ∧ y = some (.error e.unspan, c.map Content.unspan)

theorem Agrees.bind {α β : Type} {f : α → α} {g : β → β} {c : Ctx} {x y : Conv α} {k k' : α → Ctx → Conv β} (h : Agrees f c x y)
    (hk : ∀ a, Agrees g c (k a c) (k' (f a) (c.map Content.unspan))) : Agrees g c (x.bind k) (y.bind k') := by
  rcases h with ⟨a, rfl, rfl⟩ | ⟨e, rfl, rfl⟩
  · exact hk a
  · exact .inr ⟨e, rfl, rfl⟩

theorem Agrees.ok {α : Type} {f : α → α} {c : Ctx} (a : α) : Agrees f c (some (.ok a, c)) (some (.ok (f a), c.map Content.unspan)) :=
  .inl ⟨a, rfl, rfl⟩

theorem Agrees.ok' {α : Type} {f : α → α} {c : Ctx} {a b : α} (h : b = f a) :
    Agrees f c (some (.ok a, c)) (some (.ok b, c.map Content.unspan)) := .inl ⟨a, rfl, by rw [h]⟩

theorem Agrees.withVariables {α : Type} {f : α → α} {c : Ctx} {l l' : List Name} {F G : Ctx → Conv α}
    (hl : l'.map (·.content) = (l.map (·.content)).map Content.unspan)
    (h : Agrees f (c ++ l.map (·.content)) (F (c ++ l.map (·.content))) (G ((c ++ l.map (·.content)).map Content.unspan))) :
    Agrees f c (c.withVariables l F) (Ctx.withVariables (c.map Content.unspan) l' G) := by
  unfold Ctx.withVariables
  rw [hl, ← List.map_append]
  rcases h with ⟨a, h1, h2⟩ | ⟨e, h1, h2⟩
  · rw [h1, h2]
    refine .inl ⟨a, ?_, ?_⟩
    · simp
    · simp
  · rw [h1, h2]
    refine .inr ⟨e, ?_, ?_⟩
    · simp
    · simp

theorem NE.unspan_setInfo (i : Info) (e : NE) : (e.setInfo i).unspan = e.unspan.setInfo i.unspan := by
  cases e <;> simp [NE.setInfo, NE.unspan]
theorem NE.unspan_info (e : NE) : e.unspan.info = e.info.unspan := by cases e <;> simp [NE.info, NE.unspan]

theorem merge_unspan (a b : Option Name) : Name.merge (a.map Name.unspan) (b.map Name.unspan) = (Name.merge a b).map Name.unspan := by
  cases a <;> cases b <;> simp [Name.merge]
  rename_i a b
  rw [show a.unspan.kind = a.kind from rfl, show b.unspan.kind = b.kind from rfl]
  split <;> simp

theorem agree_var {c : Ctx} (h : c.plain) (i : UIdent) :
    Agrees NE.unspan c (convIdent i.ident c) (autoVariable i.tree (c.map Content.unspan)) := by
  unfold convIdent autoVariable
  simp only [UIdent.autoContent, lookup_unspan h]
  cases hl : c.lookup (Name.newVariable i.ident.content) with
  | none => exact .inr ⟨_, rfl, rfl⟩
  | some k => exact .inl ⟨_, rfl, rfl⟩

theorem unspanP_eq_nil {l : List (Nat × NE)} : NE.unspanP l = [] ↔ l = [] := by
  cases l with
  | nil => simp [NE.unspanP]
  | cons a l => simp [NE.unspanP]
theorem unspanL_eq_nil {l : List NE} : NE.unspanL l = [] ↔ l = [] := by
  cases l with
  | nil => simp [NE.unspanL]
  | cons a l => simp [NE.unspanL]

/-- The end of the conversions of calls, concatenations and alternations: with no further part, the first is the result. -/
theorem agree_call {c : Ctx} (e : NE) (l : List NE) :
    Agrees NE.unspan c
      (match l with | [] => some (.ok e, c) | l => some (.ok (.call ⟨none, 0⟩ e l), c))
      (match NE.unspanL l with
        | [] => some (.ok e.unspan, c.map Content.unspan)
        | l => some (.ok (.call ⟨none, 0⟩ e.unspan l), c.map Content.unspan)) := by
  cases l with
  | nil => simp only [NE.unspanL]; exact .ok _
  | cons a l => simp only [NE.unspanL]; exact .ok' (by simp [NE.unspan, NE.unspanL, Info.unspan])
theorem agree_cat {c : Ctx} (e : NE) (l : List (Nat × NE)) :
    Agrees NE.unspan c
      (match l with | [] => some (.ok e, c) | l => some (.ok (.cat ⟨none, 0⟩ e l), c))
      (match NE.unspanP l with
        | [] => some (.ok e.unspan, c.map Content.unspan)
        | l => some (.ok (.cat ⟨none, 0⟩ e.unspan l), c.map Content.unspan)) := by
  cases l with
  | nil => simp only [NE.unspanP]; exact .ok _
  | cons a l => simp only [NE.unspanP]; exact .ok' (by simp [NE.unspan, NE.unspanP, Info.unspan])
theorem agree_alt {c : Ctx} (e : NE) (l : List (Nat × NE)) :
    Agrees NE.unspan c
      (match l with | [] => some (.ok e, c) | l => some (.ok (.alt ⟨none, 0⟩ e l), c))
      (match NE.unspanP l with
        | [] => some (.ok e.unspan, c.map Content.unspan)
        | l => some (.ok (.alt ⟨none, 0⟩ e.unspan l), c.map Content.unspan)) := by
  cases l with
  | nil => simp only [NE.unspanP]; exact .ok _
  | cons a l => simp only [NE.unspanP]; exact .ok' (by simp [NE.unspan, NE.unspanP, Info.unspan])

theorem names_content (l : List Ident) :
    ((l.map fun i => i.content.unspan).map Name.newVariable).map (·.content) =
      ((l.map fun i => Name.newVariable i.content).map (·.content)).map Content.unspan := by
  simp [Name.newVariable, Function.comp_def]

theorem names_unspan (l : List Ident) :
    (l.map fun i => i.content.unspan).map Name.newVariable = (l.map fun i => Name.newVariable i.content).map Name.unspan := by
  simp [Name.newVariable, Function.comp_def, Name.unspan]

mutual
theorem agree_uterm : ∀ (x : UTerm) {c : Ctx}, x.ok = true → c.plain →
    Agrees NE.unspan c (convTerm x.term c) (autoTerm x.tree (c.map Content.unspan))
  | .eps, c, _, _ => by
    simp only [UTerm.term, UTerm.tree, convTerm, autoTerm]
    exact .ok' (by simp [NE.unspan, Info.unspan])
  | .lit a l, c, h, _ => by
    rw [UTerm.ok] at h
    simp only [UTerm.term, UTerm.tree, convTerm, autoTerm, autoContents_ok l a h]
    exact .ok' (by simp [NE.unspan, Info.unspan])
  | .parens ws e, c, h, hc => by
    rw [UTerm.ok] at h
    simp only [UTerm.term, UTerm.tree, convTerm, autoTerm]
    exact agree_uexpr e h hc
  | .fix ws t, c, h, hc => by
    rw [UTerm.ok] at h
    simp only [UTerm.term, UTerm.tree, convTerm, autoTerm]
    exact (agree_uterm t h hc).bind fun a => .ok' (by simp [NE.unspan, Info.unspan])
  | .var i, c, _, hc => by
    simp only [UTerm.term, UTerm.tree, convTerm, autoTerm]
    exact agree_var hc i
theorem agree_uargs : ∀ (x : UCall) {c : Ctx}, x.ok = true → c.plain →
    ∃ t o, x.tree = .cat [t, o] ∧
      Agrees NE.unspan c (convTerm (x.terms.headD (.eps 0)) c) (autoTerm t (c.map Content.unspan)) ∧
      Agrees NE.unspanL c (convTerms x.terms.tail c) (autoArgs o (c.map Content.unspan))
  | .one t, c, h, hc => by
    rw [UCall.ok] at h
    refine ⟨_, _, by rw [UCall.tree], by simpa [UCall.terms] using agree_uterm t h hc, ?_⟩
    simp only [UCall.terms, List.tail_cons, convTerms, autoArgs]
    exact .ok' (by simp [NE.unspanL])
  | .trail t w ws, c, h, hc => by
    rw [UCall.ok] at h
    refine ⟨_, _, by rw [UCall.tree], by simpa [UCall.terms] using agree_uterm t h hc, ?_⟩
    simp only [UCall.terms, List.tail_cons, convTerms, autoArgs]
    exact .ok' (by simp [NE.unspanL])
  | .more t w ws x, c, h, hc => by
    rw [UCall.ok, Bool.and_eq_true] at h
    refine ⟨_, _, by rw [UCall.tree], by simpa [UCall.terms] using agree_uterm t h.1 hc, ?_⟩
    obtain ⟨t', o, hx, h1, h2⟩ := agree_uargs x h.2 hc
    have hne : x.terms = x.terms.headD (.eps 0) :: x.terms.tail := by cases x <;> simp [UCall.terms]
    simp only [UCall.terms, List.tail_cons]
    rw [hne, hx, convTerms, autoArgs]
    exact h1.bind fun a => h2.bind fun b => .ok' (by simp [NE.unspanL])
theorem agree_ucall : ∀ (x : UCall) {c : Ctx}, x.ok = true → c.plain →
    Agrees NE.unspan c (convCall (.mk 0 x.terms) c) (autoCall x.tree (c.map Content.unspan))
  | x, c, h, hc => by
    obtain ⟨t, o, hx, h1, h2⟩ := agree_uargs x h hc
    have hne : x.terms = x.terms.headD (.eps 0) :: x.terms.tail := by cases x <;> simp [UCall.terms]
    rw [hne, hx, convCall, autoCall]
    exact h1.bind fun a => h2.bind fun b => agree_call a b
theorem agree_ucalls : ∀ (x : UCat) {c : Ctx}, x.ok = true → c.plain →
    ∃ t o y l, x.tree = .cat [t, o] ∧ x.calls = (y, 0) :: l ∧ Agrees NE.unspan c (convCall y c) (autoCall t (c.map Content.unspan)) ∧
      Agrees NE.unspanP c (convCalls 0 l c) (autoCalls o (c.map Content.unspan))
  | .one t, c, h, hc => by
    rw [UCat.ok] at h
    refine ⟨_, _, _, _, by rw [UCat.tree], by rw [UCat.calls], agree_ucall t h hc, ?_⟩
    simp only [convCalls, autoCalls]
    exact .ok' (by simp [NE.unspanP])
  | .more t ws x, c, h, hc => by
    rw [UCat.ok, Bool.and_eq_true] at h
    refine ⟨_, _, _, _, by rw [UCat.tree], by rw [UCat.calls], agree_ucall t h.1 hc, ?_⟩
    obtain ⟨t', o, y, l, hx, hl, h1, h2⟩ := agree_ucalls x h.2 hc
    rw [hl, hx, convCalls, autoCalls]
    exact h1.bind fun a => h2.bind fun b => .ok' (by simp [NE.unspanP])
theorem agree_ucat : ∀ (x : UCat) {c : Ctx}, x.ok = true → c.plain →
    Agrees NE.unspan c (convCat (.mk 0 x.calls) c) (autoCat x.tree (c.map Content.unspan))
  | x, c, h, hc => by
    obtain ⟨t, o, y, l, hx, hl, h1, h2⟩ := agree_ucalls x h hc
    rw [hl, hx, convCat, autoCat]
    exact h1.bind fun a => h2.bind fun b => agree_cat a b
theorem agree_ulabelled : ∀ (x : ULabelled) {c : Ctx}, x.ok = true → c.plain →
    Agrees NE.unspan c (convLabelled x.labelled c) (autoLabelled x.tree (c.map Content.unspan))
  | .plain x, c, h, hc => by
    rw [ULabelled.ok] at h
    simp only [ULabelled.labelled, ULabelled.tree, convLabelled, autoLabelled]
    refine (agree_ucat x h hc).bind fun a => .ok' ?_
    simp [NE.unspan_setInfo, NE.unspan_info, Info.unspan, Name.merge]
  | .label x ws i ws', c, h, hc => by
    rw [ULabelled.ok] at h
    simp only [ULabelled.labelled, ULabelled.tree, convLabelled, autoLabelled]
    refine (agree_ucat x h hc).bind fun a => .ok' ?_
    rw [NE.unspan_setInfo, NE.unspan_info, UIdent.autoContent]
    simp only [Info.unspan]
    rw [← merge_unspan]
    rfl
theorem agree_ulabelleds : ∀ (x : UAlt) {c : Ctx}, x.ok = true → c.plain →
    ∃ t o y l, x.tree = .cat [t, o] ∧ x.labelleds = (y, 0) :: l ∧
      Agrees NE.unspan c (convLabelled y c) (autoLabelled t (c.map Content.unspan)) ∧
      Agrees NE.unspanP c (convLabelleds 0 l c) (autoLabelleds o (c.map Content.unspan))
  | .one t, c, h, hc => by
    rw [UAlt.ok] at h
    refine ⟨_, _, _, _, by rw [UAlt.tree], by rw [UAlt.labelleds], agree_ulabelled t h hc, ?_⟩
    simp only [convLabelleds, autoLabelleds]
    exact .ok' (by simp [NE.unspanP])
  | .more t ws x, c, h, hc => by
    rw [UAlt.ok, Bool.and_eq_true] at h
    refine ⟨_, _, _, _, by rw [UAlt.tree], by rw [UAlt.labelleds], agree_ulabelled t h.1 hc, ?_⟩
    obtain ⟨t', o, y, l, hx, hl, h1, h2⟩ := agree_ulabelleds x h.2 hc
    rw [hl, hx, convLabelleds, autoLabelleds]
    exact h1.bind fun a => h2.bind fun b => .ok' (by simp [NE.unspanP])
theorem agree_ualt : ∀ (x : UAlt) {c : Ctx}, x.ok = true → c.plain →
    Agrees NE.unspan c (convAlt (.mk 0 x.labelleds) c) (autoAlt x.tree (c.map Content.unspan))
  | x, c, h, hc => by
    obtain ⟨t, o, y, l, hx, hl, h1, h2⟩ := agree_ulabelleds x h hc
    rw [hl, hx, convAlt, autoAlt]
    exact h1.bind fun a => h2.bind fun b => agree_alt a b
theorem agree_uexpr : ∀ (x : UExpr) {c : Ctx}, x.ok = true → c.plain →
    Agrees NE.unspan c (convExpr x.expr c) (autoExpr x.tree (c.map Content.unspan))
  | .alt a, c, h, hc => by
    rw [UExpr.ok] at h
    simp only [UExpr.expr, UExpr.tree, convExpr, autoExpr]
    exact agree_ualt a h hc
  | .lam ws n ws' a, c, h, hc => by
    rw [UExpr.ok] at h
    simp only [UExpr.expr, UExpr.tree, convExpr, autoExpr]
    rw [n.autoNames]
    refine (Agrees.withVariables (f := NE.unspan) (names_content _) ?_).bind fun e => .ok' ?_
    · exact agree_ualt a h (Ctx.plain_append hc (contents_plain n.idents_plain))
    · rw [names_unspan]
      simp [NE.unspan, Info.unspan]
end

/-! ## Statements -/

/-- The two conversions have the same outcome, up to spans and the name of the goal. -/
def AgreeS (x y : Conv NE) : Prop :=
  (∃ a b c, x = some (.ok a, c) ∧ y = some (.ok b, c.map Content.unspan) ∧ a.unspan = b.nameGoal ∧ b.unspan = b) ∨
    ∃ e c, x = some (.error e, c) ∧ y = some (.error e.unspan, c.map Content.unspan)

mutual
theorem NE.unspan_unspan : ∀ e : NE, e.unspan.unspan = e.unspan
  | .eps i => by simp [NE.unspan, Info.unspan_unspan]
  | .lit i s => by simp [NE.unspan, Info.unspan_unspan]
  | .cat i f r => by simp [NE.unspan, Info.unspan_unspan, NE.unspan_unspan f, NE.unspanP_unspan r]
  | .alt i f r => by simp [NE.unspan, Info.unspan_unspan, NE.unspan_unspan f, NE.unspanP_unspan r]
  | .fix i b => by simp [NE.unspan, Info.unspan_unspan, NE.unspan_unspan b]
  | .var i n => by simp [NE.unspan, Info.unspan_unspan]
  | .call i o a => by simp [NE.unspan, Info.unspan_unspan, NE.unspan_unspan o, NE.unspanL_unspan a]
  | .lam i a b => by simp [NE.unspan, Info.unspan_unspan, NE.unspan_unspan b, Function.comp_def, Name.unspan_unspan]
  | .letE i n b c => by simp [NE.unspan, Info.unspan_unspan, NE.unspan_unspan b, NE.unspan_unspan c, Name.unspan_unspan]
theorem NE.unspanP_unspan : ∀ l : List (Nat × NE), NE.unspanP (NE.unspanP l) = NE.unspanP l
  | [] => by simp [NE.unspanP]
  | (_, e) :: l => by simp [NE.unspanP, NE.unspan_unspan e, NE.unspanP_unspan l]
theorem NE.unspanL_unspan : ∀ l : List NE, NE.unspanL (NE.unspanL l) = NE.unspanL l
  | [] => by simp [NE.unspanL]
  | e :: l => by simp [NE.unspanL, NE.unspan_unspan e, NE.unspanL_unspan l]
theorem Name.unspan_unspan (n : Name) : n.unspan.unspan = n.unspan := rfl
theorem Info.unspan_unspan (i : Info) : i.unspan.unspan = i.unspan := by
  cases i with
  | mk n sp => cases n <;> rfl
end

/-- A let. -/
def NE.isLet : NE → Bool
  | .letE _ _ _ _ => true
  | _ => false

theorem NE.isLet_setInfo (i : Info) (e : NE) : (e.setInfo i).isLet = e.isLet := by cases e <;> rfl

theorem agreed_bind {α β : Type} {x : Conv α} {f : α → Ctx → Conv β} {P : β → Prop} (h : ∀ a c b c', f a c = some (.ok b, c') → P b) :
    ∀ b c', x.bind f = some (.ok b, c') → P b := by
  intro b c' hb
  cases x with
  | none => cases hb
  | some p =>
    obtain ⟨r, c⟩ := p
    cases r with
    | ok a => exact h a c b c' hb
    | error e => cases hb

mutual
theorem convTerm_noLet : ∀ (x : Term) (c : Ctx) (e : NE) (c' : Ctx), convTerm x c = some (.ok e, c') → e.isLet = false
  | .eps sp, c, e, c', h => by simp only [convTerm] at h; cases h; rfl
  | .ident i, c, e, c', h => by
    simp only [convTerm, convIdent] at h
    split at h
    · cases h
    · cases h; rfl
  | .lit sp s, c, e, c', h => by simp only [convTerm] at h; cases h; rfl
  | .fix sp t, c, e, c', h => by
    simp only [convTerm] at h
    exact agreed_bind (P := fun e => e.isLet = false) (fun a c b c' h => by cases h; rfl) e c' h
  | .parens x, c, e, c', h => by
    simp only [convTerm] at h
    exact convExpr_noLet x c e c' h
theorem convCall_noLet : ∀ (x : Call) (c : Ctx) (e : NE) (c' : Ctx), convCall x c = some (.ok e, c') → e.isLet = false
  | .mk sp [], c, e, c', h => by simp only [convCall] at h; cases h
  | .mk sp (t :: ts), c, e, c', h => by
    simp only [convCall] at h
    cases h1 : convTerm t c with
    | none => rw [h1] at h; cases h
    | some p =>
      obtain ⟨r, c1⟩ := p
      cases r with
      | error _ => rw [h1] at h; cases h
      | ok a =>
        have h2 := convTerm_noLet t c a c1 h1
        rw [h1] at h
        replace h : (convTerms ts c1).bind _ = _ := h
        refine agreed_bind (P := fun e => e.isLet = false) (fun l c b c' h => ?_) e c' h
        cases l with
        | nil => cases h; exact h2
        | cons => cases h; rfl
theorem convCat_noLet : ∀ (x : Cat) (c : Ctx) (e : NE) (c' : Ctx), convCat x c = some (.ok e, c') → e.isLet = false
  | .mk sp [], c, e, c', h => by simp only [convCat] at h; cases h
  | .mk sp ((t, q) :: ts), c, e, c', h => by
    simp only [convCat] at h
    cases h1 : convCall t c with
    | none => rw [h1] at h; cases h
    | some p =>
      obtain ⟨r, c1⟩ := p
      cases r with
      | error _ => rw [h1] at h; cases h
      | ok a =>
        have h2 := convCall_noLet t c a c1 h1
        rw [h1] at h
        replace h : (convCalls q ts c1).bind _ = _ := h
        refine agreed_bind (P := fun e => e.isLet = false) (fun l c b c' h => ?_) e c' h
        cases l with
        | nil => cases h; exact h2
        | cons => cases h; rfl
theorem convLabelled_noLet : ∀ (x : Labelled) (c : Ctx) (e : NE) (c' : Ctx), convLabelled x c = some (.ok e, c') → e.isLet = false
  | .mk sp x l, c, e, c', h => by
    simp only [convLabelled] at h
    cases h1 : convCat x c with
    | none => rw [h1] at h; cases h
    | some p =>
      obtain ⟨r, c1⟩ := p
      cases r with
      | error _ => rw [h1] at h; cases h
      | ok a =>
        have h2 := convCat_noLet x c a c1 h1
        rw [h1] at h
        cases h
        rw [NE.isLet_setInfo]
        exact h2
theorem convAlt_noLet : ∀ (x : Alt) (c : Ctx) (e : NE) (c' : Ctx), convAlt x c = some (.ok e, c') → e.isLet = false
  | .mk sp [], c, e, c', h => by simp only [convAlt] at h; cases h
  | .mk sp ((t, q) :: ts), c, e, c', h => by
    simp only [convAlt] at h
    cases h1 : convLabelled t c with
    | none => rw [h1] at h; cases h
    | some p =>
      obtain ⟨r, c1⟩ := p
      cases r with
      | error _ => rw [h1] at h; cases h
      | ok a =>
        have h2 := convLabelled_noLet t c a c1 h1
        rw [h1] at h
        replace h : (convLabelleds q ts c1).bind _ = _ := h
        refine agreed_bind (P := fun e => e.isLet = false) (fun l c b c' h => ?_) e c' h
        cases l with
        | nil => cases h; exact h2
        | cons => cases h; rfl
theorem convExpr_noLet : ∀ (x : Expr) (c : Ctx) (e : NE) (c' : Ctx), convExpr x c = some (.ok e, c') → e.isLet = false
  | .alt a, c, e, c', h => by
    simp only [convExpr] at h
    exact convAlt_noLet a c e c' h
  | .lam sp args a, c, e, c', h => by
    simp only [convExpr] at h
    exact agreed_bind (P := fun e => e.isLet = false) (fun a c b c' h => by cases h; rfl) e c' h
end

theorem nameGoal_noLet {e : NE} (h : e.isLet = false) :
    e.nameGoal = e.setInfo ⟨Name.merge e.info.name (some (.newVariable (.spanless "Ast"))), e.info.span⟩ := by
  cases e <;> first | rfl | cases h

theorem NE.isLet_unspan (e : NE) : e.unspan.isLet = e.isLet := by cases e <;> simp [NE.unspan, NE.isLet]

theorem agree_bound {names : List Ident} (hn : identsPlain names) (e : UExpr) {c : Ctx} (he : e.ok = true) (hc : c.plain) :
    Agrees NE.unspan c (convBound 0 names e.expr c) (autoBound (names.map fun i => i.content.unspan) e.tree (c.map Content.unspan)) := by
  cases names with
  | nil => exact agree_uexpr e he hc
  | cons i l =>
    show Agrees _ _ ((c.withVariables ((i :: l).map fun i => Name.newVariable i.content) (convExpr e.expr)).bind _)
      ((Ctx.withVariables (c.map Content.unspan) (((i :: l).map fun i => i.content.unspan).map Name.newVariable)
        (autoExpr e.tree)).bind _)
    refine (Agrees.withVariables (f := NE.unspan) (names_content _) ?_).bind fun a => .ok' ?_
    · exact agree_uexpr e he (Ctx.plain_append hc (contents_plain hn))
    · show NE.lam _ (((i :: l).map fun i => i.content.unspan).map Name.newVariable) _ = _
      rw [names_unspan]
      simp [NE.unspan, Info.unspan]

theorem NE.unspan_setName (n : Name) (e : NE) : (e.setName (some n)).unspan = e.unspan.setName (some n.unspan) := by
  unfold NE.setName
  rw [NE.unspan_setInfo, NE.unspan_info]
  rfl

theorem agree_ustmt : ∀ (s : UStmt) {c : Ctx}, s.ok = true → c.plain →
    AgreeS (convStmt s.abs c) (autoStmt s.tree (c.map Content.unspan))
  | .goal w ws e ws', c, h, hc => by
    rw [UStmt.ok] at h
    simp only [UStmt.abs, UStmt.tree, convStmt, autoStmt]
    rcases agree_uexpr e h hc with ⟨a, h1, h2⟩ | ⟨x, h1, h2⟩
    · rw [h1, h2]
      have hl := convExpr_noLet _ _ _ _ h1
      refine .inl ⟨_, _, c, rfl, rfl, ?_, NE.unspan_unspan a⟩
      rw [nameGoal_noLet (by rw [NE.isLet_unspan]; exact hl), NE.unspan_setInfo, NE.unspan_info]
      simp only [Info.unspan]
      rw [← merge_unspan]
      rfl
    · rw [h1, h2]
      exact .inr ⟨x, c, rfl, rfl⟩
  | .letS w ws n ws1 e ws2 s, c, h, hc => by
    rw [UStmt.ok, Bool.and_eq_true] at h
    have hn := n.autoNames
    rw [n.idents_eq, List.map_cons] at hn
    have hp : identsPlain n.idents.tail := fun i hi => n.idents_plain i (by rw [n.idents_eq]; exact List.mem_cons_of_mem _ hi)
    have hp0 : (n.idents.headD ⟨false, "", 0⟩).raw = false :=
      n.idents_plain _ (by rw [n.idents_eq]; exact List.mem_cons_self ..)
    simp only [UStmt.abs, UStmt.tree, convStmt, autoStmt]
    rw [hn]
    simp only
    generalize n.idents.headD ⟨false, "", 0⟩ = x at hp0
    obtain ⟨raw, sym, sp⟩ := x
    cases hp0
    rcases agree_bound hp e h.1 hc with ⟨a, h1, h2⟩ | ⟨x, h1, h2⟩
    · rw [h1, h2]
      have hc' : Ctx.plain (c.push (Name.newLet (Ident.content ⟨false, sym, sp⟩))) :=
        Ctx.plain_append hc (by intro m hm; simp at hm; subst hm; exact ⟨sym, sp, rfl⟩)
      have ih := agree_ustmt s h.2 hc'
      have e1 : Ctx.push (c.map Content.unspan) (Name.newLet (Content.unspan (Ident.content ⟨false, sym, sp⟩))) =
          (c.push (Name.newLet (Ident.content ⟨false, sym, sp⟩))).map Content.unspan := by
        simp [Ctx.push, Name.newLet]
      show AgreeS ((convStmt s.abs _).bind _) ((autoStmt s.tree _).bind _)
      rw [e1]
      rcases ih with ⟨b, b', c', h3, h4, h5, h6⟩ | ⟨x, c', h3, h4⟩
      · rw [h3, h4]
        refine .inl ⟨_, _, c', rfl, rfl, ?_, ?_⟩
        · simp only [NE.unspan, NE.nameGoal, NE.unspan_setName, h5]
          rfl
        · simp only [NE.unspan, NE.unspan_setName, NE.unspan_unspan, h6]
          rfl
      · rw [h3, h4]
        exact .inr ⟨x, c', rfl, rfl⟩
    · rw [h1, h2]
      exact .inr ⟨x, c, rfl, rfl⟩

theorem autoAst_skip (s : Tree) (c : Ctx) : ∀ b : Blank, autoAst (skipT s b) c = autoStmt s c
  | [] => by simp [skipT, autoAst]
  | w :: ws => by simp [skipT, autoAst, autoAst_skip s c ws]

theorem agree_uprog (p : UProg) (h : p.stmt.ok = true) : AgreeS (convStmt p.stmt.abs []) (autoAst p.tree []) := by
  rw [UProg.tree, autoAst_skip]
  exact agree_ustmt p.stmt h (c := []) (by intro m hm; cases hm)

/-! ## Literals without a value -/

/-- No result. -/
def Conv.fails {α : Type} (x : Conv α) : Prop := ∀ a c, x ≠ some (.ok a, c)

theorem Conv.fails_left {α β : Type} {x : Conv α} (h : x.fails) (f : α → Ctx → Conv β) : (x.bind f).fails := by
  cases x with
  | none => intro a c h; cases h
  | some p =>
    obtain ⟨r, c⟩ := p
    cases r with
    | ok a => exact absurd rfl (h a c)
    | error e => intro a c h; cases h
theorem Conv.fails_right {α β : Type} (x : Conv α) {f : α → Ctx → Conv β} (h : ∀ a c, (f a c).fails) : (x.bind f).fails := by
  cases x with
  | none => intro a c h; cases h
  | some p =>
    obtain ⟨r, c⟩ := p
    cases r with
    | ok a => exact h a c
    | error e => intro a c h; cases h

theorem fails_withVariables {α : Type} {c : Ctx} {l : List Name} {F : Ctx → Conv α} (h : ∀ c, (F c).fails) :
    (c.withVariables l F).fails := by
  unfold Ctx.withVariables
  have := h (c ++ l.map (·.content))
  cases hF : F (c ++ l.map (·.content)) with
  | none => intro a c h; cases h
  | some p =>
    obtain ⟨r, c'⟩ := p
    rw [hF] at this
    cases r with
    | ok a => exact absurd rfl (this a c')
    | error e =>
      intro a c h
      simp only at h
      split at h
      · cases h
      · cases h

theorem and_false' {a b : Bool} (h : (a && b) = false) : a = false ∨ b = false := by
  cases a <;> simp_all

mutual
theorem fails_uterm : ∀ (x : UTerm) (c : Ctx), x.ok = false → (autoTerm x.tree c).fails
  | .eps, c, h => by rw [UTerm.ok] at h; cases h
  | .lit a l, c, h => by
    rw [UTerm.ok] at h
    simp only [UTerm.tree, autoTerm, autoContents_panic l a h]
    intro a c h; cases h
  | .parens ws e, c, h => by
    rw [UTerm.ok] at h
    simp only [UTerm.tree, autoTerm]
    exact fails_uexpr e c h
  | .fix ws t, c, h => by
    rw [UTerm.ok] at h
    simp only [UTerm.tree, autoTerm]
    exact Conv.fails_left (fails_uterm t c h) _
  | .var i, c, h => by rw [UTerm.ok] at h; cases h
theorem fails_uargs : ∀ (x : UCall), x.ok = false → ∃ t o, x.tree = .cat [t, o] ∧
    ((∀ c, (autoTerm t c).fails) ∨ ∀ c, (autoArgs o c).fails)
  | .one t, h => by
    rw [UCall.ok] at h
    exact ⟨_, _, by rw [UCall.tree], .inl fun c => fails_uterm t c h⟩
  | .trail t w ws, h => by
    rw [UCall.ok] at h
    exact ⟨_, _, by rw [UCall.tree], .inl fun c => fails_uterm t c h⟩
  | .more t w ws x, h => by
    rw [UCall.ok] at h
    refine ⟨_, _, by rw [UCall.tree], ?_⟩
    rcases and_false' h with h | h
    · exact .inl fun c => fails_uterm t c h
    · obtain ⟨t', o, hx, h1⟩ := fails_uargs x h
      refine .inr fun c => ?_
      rw [hx, autoArgs]
      rcases h1 with h1 | h1
      · exact Conv.fails_left (h1 c) _
      · exact Conv.fails_right _ fun a c => Conv.fails_left (h1 c) _
theorem fails_ucall : ∀ (x : UCall) (c : Ctx), x.ok = false → (autoCall x.tree c).fails
  | x, c, h => by
    obtain ⟨t, o, hx, h1⟩ := fails_uargs x h
    rw [hx, autoCall]
    rcases h1 with h1 | h1
    · exact Conv.fails_left (h1 c) _
    · exact Conv.fails_right _ fun a c => Conv.fails_left (h1 c) _
theorem fails_ucalls : ∀ (x : UCat), x.ok = false → ∃ t o, x.tree = .cat [t, o] ∧
    ((∀ c, (autoCall t c).fails) ∨ ∀ c, (autoCalls o c).fails)
  | .one t, h => by
    rw [UCat.ok] at h
    exact ⟨_, _, by rw [UCat.tree], .inl fun c => fails_ucall t c h⟩
  | .more t ws x, h => by
    rw [UCat.ok] at h
    refine ⟨_, _, by rw [UCat.tree], ?_⟩
    rcases and_false' h with h | h
    · exact .inl fun c => fails_ucall t c h
    · obtain ⟨t', o, hx, h1⟩ := fails_ucalls x h
      refine .inr fun c => ?_
      rw [hx, autoCalls]
      rcases h1 with h1 | h1
      · exact Conv.fails_left (h1 c) _
      · exact Conv.fails_right _ fun a c => Conv.fails_left (h1 c) _
theorem fails_ucat : ∀ (x : UCat) (c : Ctx), x.ok = false → (autoCat x.tree c).fails
  | x, c, h => by
    obtain ⟨t, o, hx, h1⟩ := fails_ucalls x h
    rw [hx, autoCat]
    rcases h1 with h1 | h1
    · exact Conv.fails_left (h1 c) _
    · exact Conv.fails_right _ fun a c => Conv.fails_left (h1 c) _
theorem fails_ulabelled : ∀ (x : ULabelled) (c : Ctx), x.ok = false → (autoLabelled x.tree c).fails
  | .plain x, c, h => by
    rw [ULabelled.ok] at h
    rw [ULabelled.tree, autoLabelled]
    exact Conv.fails_left (fails_ucat x c h) _
  | .label x ws i ws', c, h => by
    rw [ULabelled.ok] at h
    rw [ULabelled.tree, autoLabelled]
    exact Conv.fails_left (fails_ucat x c h) _
theorem fails_ulabelleds : ∀ (x : UAlt), x.ok = false → ∃ t o, x.tree = .cat [t, o] ∧
    ((∀ c, (autoLabelled t c).fails) ∨ ∀ c, (autoLabelleds o c).fails)
  | .one t, h => by
    rw [UAlt.ok] at h
    exact ⟨_, _, by rw [UAlt.tree], .inl fun c => fails_ulabelled t c h⟩
  | .more t ws x, h => by
    rw [UAlt.ok] at h
    refine ⟨_, _, by rw [UAlt.tree], ?_⟩
    rcases and_false' h with h | h
    · exact .inl fun c => fails_ulabelled t c h
    · obtain ⟨t', o, hx, h1⟩ := fails_ulabelleds x h
      refine .inr fun c => ?_
      rw [hx, autoLabelleds]
      rcases h1 with h1 | h1
      · exact Conv.fails_left (h1 c) _
      · exact Conv.fails_right _ fun a c => Conv.fails_left (h1 c) _
theorem fails_ualt : ∀ (x : UAlt) (c : Ctx), x.ok = false → (autoAlt x.tree c).fails
  | x, c, h => by
    obtain ⟨t, o, hx, h1⟩ := fails_ulabelleds x h
    rw [hx, autoAlt]
    rcases h1 with h1 | h1
    · exact Conv.fails_left (h1 c) _
    · exact Conv.fails_right _ fun a c => Conv.fails_left (h1 c) _
theorem fails_uexpr : ∀ (x : UExpr) (c : Ctx), x.ok = false → (autoExpr x.tree c).fails
  | .alt a, c, h => by
    rw [UExpr.ok] at h
    rw [UExpr.tree, autoExpr]
    exact fails_ualt a c h
  | .lam ws n ws' a, c, h => by
    rw [UExpr.ok] at h
    rw [UExpr.tree, autoExpr]
    exact Conv.fails_left (fails_withVariables fun c => fails_ualt a c h) _
end

theorem fails_ustmt : ∀ (s : UStmt) (c : Ctx), s.ok = false → (autoStmt s.tree c).fails
  | .goal w ws e ws', c, h => by
    rw [UStmt.ok] at h
    rw [UStmt.tree, autoStmt]
    exact fails_uexpr e c h
  | .letS w ws n ws1 e ws2 s, c, h => by
    rw [UStmt.ok] at h
    have hn := n.autoNames
    rw [n.idents_eq, List.map_cons] at hn
    rw [UStmt.tree, autoStmt, hn]
    simp only
    rcases and_false' h with h | h
    · refine Conv.fails_left ?_ _
      cases hl : n.idents.tail.map fun i => i.content.unspan with
      | nil => exact fails_uexpr e c h
      | cons i l => exact Conv.fails_left (fails_withVariables fun c => fails_uexpr e c h) _
    · exact Conv.fails_right _ fun a c => Conv.fails_left (fails_ustmt s _ h) _

theorem fails_uprog (p : UProg) (h : p.stmt.ok = false) (c : Ctx) : (autoAst p.tree c).fails := by
  rw [UProg.tree, autoAst_skip]
  exact fails_ustmt p.stmt c h

/-! ## Parsing the tokens -/

theorem UIdent.ident_ne (i : UIdent) : i.ident.sym ≠ "_" := by
  intro h
  have h1 : i.text = ['_'] := by
    have e : i.ident.sym.toList = i.text := String.toList_ofList
    rw [h] at e
    exact e.symm
  rw [UIdent.text] at h1
  injection h1 with h1 _
  have h2 : ∀ c ∈ startChars, c ≠ '_' := by decide
  exact h2 _ (List.getElem_mem _) h1

/-- All the parameters of lambdas and lets. -/
def UNames.params (n : UNames) : List String := n.idents.map (·.sym)

mutual
def UTerm.params : UTerm → List String
  | .eps => []
  | .lit _ _ => []
  | .parens _ e => e.params
  | .fix _ t => t.params
  | .var _ => []
def UCall.params : UCall → List String
  | .one t => t.params
  | .trail t _ _ => t.params
  | .more t _ _ r => t.params ++ r.params
def UCat.params : UCat → List String
  | .one x => x.params
  | .more x _ r => x.params ++ r.params
def ULabelled.params : ULabelled → List String
  | .plain x => x.params
  | .label x _ _ _ => x.params
def UAlt.params : UAlt → List String
  | .one x => x.params
  | .more x _ r => x.params ++ r.params
def UExpr.params : UExpr → List String
  | .alt a => a.params
  | .lam _ n _ a => n.idents.map (·.sym) ++ a.params
end

/-- The parameters of a program: of its lambdas, and of its lets (the names after the first). -/
def UStmt.params : UStmt → List String
  | .goal _ _ e _ => e.params
  | .letS _ _ n _ e _ s => n.idents.tail.map (·.sym) ++ (e.params ++ s.params)

section
variable [R : Reserved]

theorem plain_iff {l : List Ident} (h : identsPlain l) (h0 : ∀ i ∈ l, i.span = 0) :
    (∀ i ∈ l, i.plain) ↔ ∀ x ∈ l.map (·.sym), x ∉ Reserved.words := by
  constructor
  · intro h1 x hx
    obtain ⟨i, hi, rfl⟩ := List.mem_map.1 hx
    rcases (h1 i hi).1 with h2 | h2
    · rw [h i hi] at h2; cases h2
    · exact h2
  · intro h1 i hi
    exact ⟨.inr (h1 _ (List.mem_map_of_mem hi)), h0 i hi⟩

omit R in
theorem UNames.idents_span : ∀ n : UNames, ∀ i ∈ n.idents, i.span = 0
  | .one i => by intro j hj; simp [UNames.idents] at hj; subst hj; rfl
  | .trail i w ws => by intro j hj; simp [UNames.idents] at hj; subst hj; rfl
  | .more i w ws r => by
    intro j hj
    simp only [UNames.idents, List.mem_cons] at hj
    rcases hj with rfl | hj
    · rfl
    · exact r.idents_span j hj

mutual
theorem wf_uterm : ∀ x : UTerm, x.term.wf ↔ ∀ n ∈ x.params, n ∉ Reserved.words
  | .eps => by simp [UTerm.term, UTerm.params, Term.wf]
  | .lit a l => by simp [UTerm.term, UTerm.params, Term.wf]
  | .parens ws e => by simp only [UTerm.term, UTerm.params, Term.wf]; exact wf_uexpr e
  | .fix ws t => by simp only [UTerm.term, UTerm.params, Term.wf, true_and]; exact wf_uterm t
  | .var i => by
    simp only [UTerm.term, UTerm.params, Term.wf]
    exact ⟨fun _ n h => (List.not_mem_nil h).elim, fun _ => ⟨.inr i.ident_ne, rfl⟩⟩
theorem wf_ucall : ∀ x : UCall, Term.wfL x.terms ↔ ∀ n ∈ x.params, n ∉ Reserved.words
  | .one t => by simp only [UCall.terms, UCall.params, Term.wfL, and_true]; exact wf_uterm t
  | .trail t w ws => by simp only [UCall.terms, UCall.params, Term.wfL, and_true]; exact wf_uterm t
  | .more t w ws r => by
    simp only [UCall.terms, UCall.params, Term.wfL, List.forall_mem_append]
    rw [wf_uterm t, wf_ucall r]
theorem wf_ucat : ∀ x : UCat, Call.wfL x.calls ↔ ∀ n ∈ x.params, n ∉ Reserved.words
  | .one t => by
    have : t.terms ≠ [] := by cases t <;> simp [UCall.terms]
    simp only [UCat.calls, UCat.params, Call.wfL, Call.wf, and_true, true_and, this, ne_eq, not_false_eq_true]
    exact wf_ucall t
  | .more t ws r => by
    have : t.terms ≠ [] := by cases t <;> simp [UCall.terms]
    simp only [UCat.calls, UCat.params, Call.wfL, Call.wf, true_and, List.forall_mem_append, this, ne_eq, not_false_eq_true]
    rw [wf_ucall t, wf_ucat r]
theorem wf_ulabelled : ∀ x : ULabelled, x.labelled.wf ↔ ∀ n ∈ x.params, n ∉ Reserved.words
  | .plain x => by
    have := x.calls_ne
    simp only [ULabelled.labelled, ULabelled.params, Labelled.wf, Cat.wf, true_and, this, ne_eq, not_false_eq_true]
    rw [wf_ucat x]
    simp
  | .label x ws i ws' => by
    have := x.calls_ne
    simp only [ULabelled.labelled, ULabelled.params, Labelled.wf, Cat.wf, true_and, this, ne_eq, not_false_eq_true]
    rw [wf_ucat x]
    simp [UIdent.ident]
theorem wf_ualt : ∀ x : UAlt, Labelled.wfL x.labelleds ↔ ∀ n ∈ x.params, n ∉ Reserved.words
  | .one t => by simp only [UAlt.labelleds, UAlt.params, Labelled.wfL, and_true]; exact wf_ulabelled t
  | .more t ws r => by
    simp only [UAlt.labelleds, UAlt.params, Labelled.wfL, true_and, List.forall_mem_append]
    rw [wf_ulabelled t, wf_ualt r]
theorem wf_uexpr : ∀ x : UExpr, x.expr.wf ↔ ∀ n ∈ x.params, n ∉ Reserved.words
  | .alt a => by
    have := a.labelleds_ne
    simp only [UExpr.expr, UExpr.params, Expr.wf, Alt.wf, true_and, this, ne_eq, not_false_eq_true]
    exact wf_ualt a
  | .lam ws n ws' a => by
    have := a.labelleds_ne
    have h2 : n.idents ≠ [] := by cases n <;> simp [UNames.idents]
    simp only [UExpr.expr, UExpr.params, Expr.wf, Alt.wf, true_and, this, h2, ne_eq, not_false_eq_true, List.forall_mem_append]
    rw [wf_ualt a, plain_iff n.idents_plain n.idents_span]
end

theorem wf_ustmt : ∀ s : UStmt, s.abs.wf ↔ ∀ n ∈ s.params, n ∉ Reserved.words
  | .goal w ws e ws' => by simp only [UStmt.abs, UStmt.params, Stmt.wf, true_and]; exact wf_uexpr e
  | .letS w ws n ws1 e ws2 s => by
    have h0 : (n.idents.headD ⟨false, "", 0⟩).span = 0 := n.idents_span _ (by rw [n.idents_eq]; exact List.mem_cons_self ..)
    have h1 : identsPlain n.idents.tail := fun i hi => n.idents_plain i (List.mem_of_mem_tail hi)
    have h2 : ∀ i ∈ n.idents.tail, i.span = 0 := fun i hi => n.idents_span i (List.mem_of_mem_tail hi)
    simp only [UStmt.abs, UStmt.params, Stmt.wf, true_and, h0, List.forall_mem_append]
    rw [plain_iff h1 h2, wf_uexpr e, wf_ustmt s]
end

/-! Fewer reserved names: more trees. -/

mutual
theorem Term.wf_weaken : ∀ x : Term, x.wf → @Term.wf ⟨[]⟩ x
  | .eps sp, h => h
  | .ident i, h => h
  | .lit sp s, h => h
  | .fix sp t, h => ⟨h.1, Term.wf_weaken t h.2⟩
  | .parens e, h => Expr.wf_weaken e h
theorem Term.wfL_weaken : ∀ l : List Term, Term.wfL l → @Term.wfL ⟨[]⟩ l
  | [], _ => trivial
  | t :: l, h => ⟨Term.wf_weaken t h.1, Term.wfL_weaken l h.2⟩
theorem Call.wf_weaken : ∀ x : Call, x.wf → @Call.wf ⟨[]⟩ x
  | .mk sp l, h => ⟨h.1, h.2.1, Term.wfL_weaken l h.2.2⟩
theorem Call.wfL_weaken : ∀ l : List (Call × Nat), Call.wfL l → @Call.wfL ⟨[]⟩ l
  | [], _ => trivial
  | (x, _) :: l, h => ⟨Call.wf_weaken x h.1, h.2.1, Call.wfL_weaken l h.2.2⟩
theorem Cat.wf_weaken : ∀ x : Cat, x.wf → @Cat.wf ⟨[]⟩ x
  | .mk sp l, h => ⟨h.1, h.2.1, Call.wfL_weaken l h.2.2⟩
theorem Labelled.wf_weaken : ∀ x : Labelled, x.wf → @Labelled.wf ⟨[]⟩ x
  | .mk sp c l, h => ⟨h.1, Cat.wf_weaken c h.2.1, h.2.2⟩
theorem Labelled.wfL_weaken : ∀ l : List (Labelled × Nat), Labelled.wfL l → @Labelled.wfL ⟨[]⟩ l
  | [], _ => trivial
  | (x, _) :: l, h => ⟨Labelled.wf_weaken x h.1, h.2.1, Labelled.wfL_weaken l h.2.2⟩
theorem Alt.wf_weaken : ∀ x : Alt, x.wf → @Alt.wf ⟨[]⟩ x
  | .mk sp l, h => ⟨h.1, h.2.1, Labelled.wfL_weaken l h.2.2⟩
theorem Expr.wf_weaken : ∀ x : Expr, x.wf → @Expr.wf ⟨[]⟩ x
  | .alt a, h => Alt.wf_weaken a h
  | .lam sp args a, h => ⟨h.1, h.2.1, fun i hi => ⟨.inr (by show i.sym ∉ []; simp), (h.2.2.1 i hi).2⟩, Alt.wf_weaken a h.2.2.2⟩
end
theorem Stmt.wf_weaken : ∀ s : Stmt, s.wf → @Stmt.wf ⟨[]⟩ s
  | .goal sp e, h => ⟨h.1, Expr.wf_weaken e h.2⟩
  | .letS sp x args e next, h => ⟨h.1, h.2.1, fun i hi => ⟨.inr (by show i.sym ∉ []; simp), (h.2.2.1 i hi).2⟩,
      Expr.wf_weaken e h.2.2.2.1, Stmt.wf_weaken next h.2.2.2.2⟩

/-- What nibble parses from the tokens of a program is the syntax tree of the program. -/
theorem parse_uprog {s : UStmt} {x : Stmt} (h : parseProgram s.abs.toks = .ok x) : x = s.abs := by
  obtain ⟨h1, h2⟩ := C14_print_parse _ _ h
  have h3 := @C14_parse_print ⟨[]⟩ x (Stmt.wf_weaken x h2)
  have h4 := @C14_parse_print ⟨[]⟩ s.abs ((@wf_ustmt ⟨[]⟩ s).2 (by intro n _; show n ∉ []; simp))
  rw [h1, h4] at h3
  injection h3 with h3
  exact h3.symm

/-- Nibble parses the tokens of a program if none of its parameters is a keyword. -/
theorem parses_uprog (s : UStmt) : (∃ x, parseProgram s.abs.toks = .ok x) ↔ ∀ n ∈ s.params, n ∉ keywords := by
  constructor
  · rintro ⟨x, h⟩
    have := parse_uprog h
    subst this
    exact (wf_ustmt s).1 (C14_print_parse _ _ h).2
  · intro h
    exact ⟨_, C14_parse_print _ ((wf_ustmt s).2 h)⟩

end Chomp
