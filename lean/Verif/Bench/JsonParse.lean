import Verif.Bench.JsonLemmas
import Verif.Ast.ReduceLemmas

/-! Correctness of the hand-written JSON parser. -/

namespace Chomp

/-! ### Lists of items -/

theorem collectIter_mono {α : Type} {cfg : IterCfg} {item : IW → Res α} : ∀ {n m : Nat}, n ≤ m → ∀ (w : IW),
    collectIter cfg item n w ≠ .oof → collectIter cfg item m w = collectIter cfg item n w
  | 0, _, _, w, h => absurd rfl h
  | n + 1, m + 1, hnm, w, h => by
    rw [collectIter] at h ⊢
    rw [collectIter]
    cases hi : iterNext cfg item w with
    | done w' => rfl
    | panic => rfl
    | oof => rfl
    | item r w' =>
      cases r with
      | error e => rfl
      | ok a =>
        rw [hi] at h
        simp only at h ⊢
        rw [collectIter_mono (Nat.le_of_succ_le_succ hnm) w']
        intro e
        rw [e] at h
        exact h rfl

theorem zip_witness {α P : Type} (text : P → List Char) (R : P → α → Prop) : ∀ (us : List (List Char)) (xs : List α),
    us.length = xs.length → (∀ p ∈ us.zip xs, ∃ q, text q = p.1 ∧ R q p.2) →
    ∃ ps : List P, ps.map text = us ∧ All2 R ps xs
  | [], [], _, _ => ⟨[], rfl, .nil⟩
  | u :: us, x :: xs, hl, h => by
    obtain ⟨q, h1, h2⟩ := h (u, x) (by simp)
    obtain ⟨ps, h3, h4⟩ := zip_witness text R us xs (by simpa using hl) (fun p hp => h p (by simp [hp]))
    exact ⟨q :: ps, by simp [h1, h3], .cons h2 h4⟩

theorem collect_sound {α P : Type} (text : P → List Char) (R : P → α → Prop) {cfg : IterCfg} {item : IW → Res α}
    (hitem : ∀ w a w', item w = .ok a w' → ∃ p, R p a ∧ w.rem = text p ++ w'.rem) (hstop : cfg.stop ∉ cfg.first)
    {n : Nat} {w w' : IW} {xs : List α} (h : collectIter cfg item n w = .ok xs w') :
    ∃ ps, All2 R ps xs ∧ w.rem = List.intercalate [cfg.sep] (ps.map text) ++ w'.rem := by
  obtain ⟨us, h1, h2, h3, -⟩ := C07_iter_strict_sound cfg item (fun u a => ∃ q, text q = u ∧ R q a) (by
    intro w a w' h
    obtain ⟨p, h1, h2⟩ := hitem w a w' h
    exact ⟨text p, h2, p, rfl, h1⟩) hstop n w w' xs h
  obtain ⟨ps, h4, h5⟩ := zip_witness text R us xs h1 h2
  exact ⟨ps, h5, by rw [h4]; exact h3⟩

theorem all2_items {α P : Type} (text : P → List Char) (R : P → α → Prop) {ps : List P} {xs : List α} (h : All2 R ps xs) :
    ∃ items : List (List Char × α), items.map (·.1) = ps.map text ∧ items.map (·.2) = xs ∧
      ∀ q ∈ items, ∃ p ∈ ps, q.1 = text p ∧ R p q.2 := by
  induction h with
  | nil => exact ⟨[], rfl, rfl, by simp⟩
  | @cons a b l l' h1 h2 ih =>
    obtain ⟨items, h3, h4, h5⟩ := ih
    refine ⟨(text a, b) :: items, by simp [h3], by simp [h4], ?_⟩
    intro q hq
    rcases List.mem_cons.1 hq with rfl | hq
    · exact ⟨a, by simp, rfl, h1⟩
    · obtain ⟨p, hp, h6⟩ := h5 q hq
      exact ⟨p, by simp [hp], h6⟩

theorem intercalate_length (sep : Char) : ∀ (l : List (List Char)), (∀ u ∈ l, u ≠ []) → l.length ≤ (List.intercalate [sep] l).length
  | [], _ => by simp
  | [u], h => by
    have := List.length_pos_iff.2 (h u (by simp))
    simp [List.intercalate]; omega
  | u :: v :: l, h => by
    have h1 := List.length_pos_iff.2 (h u (by simp))
    have h2 := intercalate_length sep (v :: l) (fun x hx => h x (by simp [List.mem_cons.1 hx]))
    have : List.intercalate [sep] (u :: v :: l) = u ++ sep :: List.intercalate [sep] (v :: l) := by simp [List.intercalate]
    rw [this]
    simp only [List.length_append, List.length_cons] at h2 ⊢
    omega

theorem collect_complete {α P : Type} (text : P → List Char) (R : P → α → Prop) {cfg : IterCfg} {item : IW → Res α}
    (hss : cfg.sep ≠ cfg.stop) {ps : List P} {xs : List α} (h : All2 R ps xs) (hne : ps ≠ [])
    (hparse : ∀ p ∈ ps, ∀ a, R p a → ∀ w r d, w.rem = text p ++ d :: r → d = cfg.sep ∨ d = cfg.stop →
      ∃ w', item w = .ok a w' ∧ w'.rem = d :: r)
    (hfirst : ∀ p ∈ ps, ∃ c cs, text p = c :: cs ∧ c ∈ cfg.first ∧ c ≠ cfg.stop)
    {w : IW} {r : List Char} (hw : w.rem = List.intercalate [cfg.sep] (ps.map text) ++ cfg.stop :: r) :
    ∃ w', collectIter cfg item (w.left + 1) w = .ok xs w' ∧ w'.rem = cfg.stop :: r := by
  obtain ⟨items, h1, h2, h3⟩ := all2_items text R h
  have hlen : items.length = ps.length := by
    have := congrArg List.length h1
    simpa using this
  obtain ⟨w', h4, h5⟩ := C07_iter_strict_complete cfg item hss items (by
      intro e
      rw [e] at hlen
      exact hne (List.length_eq_zero_iff.1 hlen.symm))
    (by
      intro q hq w r d hw hd
      obtain ⟨p, hp, h6, h7⟩ := h3 q hq
      exact hparse p hp q.2 h7 w r d (by rw [← h6]; exact hw) hd)
    (by
      intro q hq
      obtain ⟨p, hp, h6, -⟩ := h3 q hq
      rw [h6]
      exact hfirst p hp) w r (by rw [h1]; exact hw)
  refine ⟨w', ?_, h5⟩
  rw [← h2, ← h4]
  apply collectIter_mono
  · have := intercalate_length cfg.sep (ps.map text) (by
      intro u hu
      obtain ⟨p, hp, rfl⟩ := List.mem_map.1 hu
      obtain ⟨c, cs, h6, -⟩ := hfirst p hp
      rw [h6]; simp)
    rw [IW.left_eq, hw, List.length_append]
    rw [List.length_map] at this
    omega
  · rw [h4]; simp

/-- A member of an object: white space, key, white space, value. -/
abbrev JMember := List Char × List JChar × List Char × JPad

def JMember.text (x : JMember) : List Char := x.1 ++ '"' :: JChar.textL x.2.1 ++ '"' :: x.2.2.1 ++ ':' :: x.2.2.2.text

def JMember.Ok (R : JRules) (x : JMember) : Prop := IsWs x.1 ∧ (∀ c ∈ x.2.1, R.chr c) ∧ IsWs x.2.2.1 ∧ x.2.2.2.Ok R

def JMember.Val (F : F64) (dec : List JChar → Option (List Char)) (x : JMember) (y : List Char × JValue F) : Prop :=
  dec x.2.1 = some y.1 ∧ x.2.2.2.value F dec = some y.2

def JItems.toList : JItems → List JPad
  | .one v => [v]
  | .cons v l => v :: l.toList

def JMembers.toList : JMembers → List JMember
  | .one a k b v => [(a, k, b, v)]
  | .cons a k b v l => (a, k, b, v) :: l.toList

theorem JItems.toList_ne (l : JItems) : l.toList ≠ [] := by cases l <;> simp [JItems.toList]
theorem JMembers.toList_ne (l : JMembers) : l.toList ≠ [] := by cases l <;> simp [JMembers.toList]

theorem JItems.exists_toList : ∀ l : List JPad, l ≠ [] → ∃ it : JItems, it.toList = l
  | [], h => absurd rfl h
  | [p], _ => ⟨.one p, rfl⟩
  | p :: q :: l, _ => by
    obtain ⟨it, h⟩ := JItems.exists_toList (q :: l) (by simp)
    exact ⟨.cons p it, by rw [JItems.toList, h]⟩

theorem JMembers.exists_toList : ∀ l : List JMember, l ≠ [] → ∃ it : JMembers, it.toList = l
  | [], h => absurd rfl h
  | [(a, k, b, v)], _ => ⟨.one a k b v, rfl⟩
  | (a, k, b, v) :: q :: l, _ => by
    obtain ⟨it, h⟩ := JMembers.exists_toList (q :: l) (by simp)
    exact ⟨.cons a k b v it, by rw [JMembers.toList, h]⟩

theorem intercalate_cons {c : Char} {u : List Char} {l : List (List Char)} (h : l ≠ []) :
    List.intercalate [c] (u :: l) = u ++ c :: List.intercalate [c] l := by
  cases l with
  | nil => exact absurd rfl h
  | cons v l => simp [List.intercalate]

theorem JItems.text_eq : ∀ l : JItems, l.text = List.intercalate [','] (l.toList.map JPad.text)
  | .one v => by simp [JItems.text, JItems.toList, List.intercalate]
  | .cons v l => by
    rw [JItems.text, JItems.toList, List.map_cons, intercalate_cons (by simpa using l.toList_ne), JItems.text_eq l]

theorem JMembers.text_eq : ∀ l : JMembers, l.text = List.intercalate [','] (l.toList.map JMember.text)
  | .one a k b v => by simp [JMembers.text, JMembers.toList, List.intercalate, JMember.text]
  | .cons a k b v l => by
    rw [JMembers.text, JMembers.toList, List.map_cons, intercalate_cons (by simpa using l.toList_ne), JMembers.text_eq l]
    simp [JMember.text]

theorem JItems.ok_iff (R : JRules) : ∀ l : JItems, l.Ok R ↔ ∀ p ∈ l.toList, p.Ok R
  | .one v => by simp [JItems.Ok, JItems.toList]
  | .cons v l => by simp [JItems.Ok, JItems.toList, JItems.ok_iff R l]

theorem JMembers.ok_iff (R : JRules) : ∀ l : JMembers, l.Ok R ↔ ∀ p ∈ l.toList, JMember.Ok R p
  | .one a k b v => by simp [JMembers.Ok, JMembers.toList, JMember.Ok]
  | .cons a k b v l => by
    simp only [JMembers.Ok, JMembers.toList, JMembers.ok_iff R l, List.forall_mem_cons, JMember.Ok, and_assoc]

theorem JItems.value_iff {F : F64} {dec : List JChar → Option (List Char)} : ∀ (l : JItems) (xs : List (JValue F)),
    l.value F dec = some xs ↔ All2 (fun p x => JPad.value F dec p = some x) l.toList xs
  | .one v, xs => by
    rw [JItems.value, JItems.toList]
    constructor
    · intro h
      obtain ⟨a, h1, rfl⟩ := Option.map_eq_some_iff.1 h
      exact .cons h1 .nil
    · intro h
      cases h with
      | cons h1 h2 => cases h2; rw [h1]; rfl
  | .cons v l, xs => by
    rw [JItems.value, JItems.toList]
    constructor
    · intro h
      obtain ⟨a, h1, h2⟩ := Option.bind_eq_some_iff.1 h
      obtain ⟨b, h3, rfl⟩ := Option.map_eq_some_iff.1 h2
      exact .cons h1 ((JItems.value_iff l b).1 h3)
    · intro h
      cases h with
      | cons h1 h2 => rw [h1, Option.bind_some, (JItems.value_iff l _).2 h2]; rfl

theorem JMembers.value_iff {F : F64} {dec : List JChar → Option (List Char)} : ∀ (l : JMembers) (xs : List (List Char × JValue F)),
    l.value F dec = some xs ↔ All2 (JMember.Val F dec) l.toList xs
  | .one a k b v, xs => by
    rw [JMembers.value, JMembers.toList]
    constructor
    · intro h
      obtain ⟨x, h1, h2⟩ := Option.bind_eq_some_iff.1 h
      obtain ⟨y, h3, rfl⟩ := Option.map_eq_some_iff.1 h2
      exact .cons ⟨h1, h3⟩ .nil
    · intro h
      cases h with
      | cons h1 h2 =>
        cases h2
        have h3 : dec k = _ := h1.1
        have h4 : JPad.value F dec v = _ := h1.2
        rw [h3, h4]; rfl
  | .cons a k b v l, xs => by
    rw [JMembers.value, JMembers.toList]
    constructor
    · intro h
      obtain ⟨x, h1, h2⟩ := Option.bind_eq_some_iff.1 h
      obtain ⟨y, h3, h4⟩ := Option.bind_eq_some_iff.1 h2
      obtain ⟨z, h5, rfl⟩ := Option.map_eq_some_iff.1 h4
      exact .cons ⟨h1, h3⟩ ((JMembers.value_iff l z).1 h5)
    · intro h
      cases h with
      | cons h1 h2 =>
        have h3 : dec k = _ := h1.1
        have h4 : JPad.value F dec v = _ := h1.2
        rw [h3, h4, Option.bind_some, Option.bind_some, (JMembers.value_iff l _).2 h2]; rfl

/-! ### Soundness -/

/-- What the hand-written parser accepts. -/
def handRules : JRules := ⟨HandNumber, JChar.Ok, fun ws => ws = []⟩

/-- What the hand-written parser makes of strings. -/
def handDecode (s : List JChar) : Option (List Char) := some (decodeHand s)

/-- `value` returns values of documents. -/
def ValueSound (F : F64) (value : IW → Res (JValue F)) : Prop :=
  ∀ w v w', value w = .ok v w' → ∃ p : JPad, (p.Ok handRules ∧ p.value F handDecode = some v) ∧ w.rem = p.text ++ w'.rem

theorem takeMember_sound {F : F64} {m : Ovf} {value : IW → Res (JValue F)} (hv : ValueSound F value) (w : IW)
    (x : List Char × JValue F) (w' : IW) (h : takeMember m value w = .ok x w') :
    ∃ p : JMember, (JMember.Ok handRules p ∧ JMember.Val F handDecode p x) ∧ w.rem = JMember.text p ++ w'.rem := by
  obtain ⟨key, w1, h1, h2⟩ := Res.bind_ok h
  obtain ⟨_, w2, h3, h4⟩ := Res.bind_ok h2
  obtain ⟨v, h5, rfl⟩ := Res.map_ok h4
  obtain ⟨s, h6, h7, rfl⟩ := takeStr_sound h1
  obtain ⟨p, ⟨h8, h9⟩, h10⟩ := hv _ _ _ h5
  obtain ⟨a, ha1, ha2⟩ := jsonSkipWs_sound w
  obtain ⟨b, hb1, hb2⟩ := jsonSkipWs_sound w1
  refine ⟨(a, s, b, p), ⟨⟨ha1, h6, hb1, h8⟩, rfl, h9⟩, ?_⟩
  rw [ha2, h7, hb2, consume1_ok h3, h10]
  simp [JMember.text]

theorem all2_and {α β : Type} {P : α → Prop} {R : α → β → Prop} {l : List α} {l' : List β}
    (h : All2 (fun a b => P a ∧ R a b) l l') : (∀ a ∈ l, P a) ∧ All2 R l l' := by
  induction h with
  | nil => exact ⟨by simp, .nil⟩
  | cons h1 h2 ih =>
    refine ⟨?_, .cons h1.2 ih.2⟩
    intro a ha
    rcases List.mem_cons.1 ha with rfl | ha
    · exact h1.1
    · exact ih.1 a ha

theorem jsonBranch_sound {F : F64} {m : Ovf} {value : IW → Res (JValue F)} (hv : ValueSound F value) {c : Char} {w w' : IW}
    {v : JValue F} (hc : w.rem.head? = some c) (h : jsonBranch F m value c w = .ok v w') :
    ∃ d : JDoc, d.Ok handRules ∧ d.value F handDecode = some v ∧ w.rem = d.text ++ w'.rem := by
  unfold jsonBranch at h
  split at h
  · obtain ⟨_, h1, rfl⟩ := Res.map_ok h
    exact ⟨.null, trivial, rfl, consume_ok h1⟩
  split at h
  · obtain ⟨_, h1, rfl⟩ := Res.map_ok h
    exact ⟨.true, trivial, rfl, consume_ok h1⟩
  split at h
  · obtain ⟨_, h1, rfl⟩ := Res.map_ok h
    exact ⟨.false, trivial, rfl, consume_ok h1⟩
  split at h
  · rename_i hd
    obtain ⟨x, h1, rfl⟩ := Res.map_ok h
    obtain ⟨l, h2, h3, h4⟩ := takeNum_sound h1 (by
      intro y hy
      rw [hc] at hy
      cases hy
      simpa using hd)
    exact ⟨.num l, h2, by rw [JDoc.value, h3]; rfl, h4⟩
  split at h
  · obtain ⟨x, h1, rfl⟩ := Res.map_ok h
    obtain ⟨s, h2, h3, rfl⟩ := takeStr_sound h1
    exact ⟨.str s, h2, rfl, by rw [h3]; simp [JDoc.text]⟩
  split at h
  · obtain ⟨_, w1, h1, h2⟩ := Res.bind_ok h
    obtain ⟨l, w2, h3, h4⟩ := Res.bind_ok h2
    obtain ⟨_, h5, rfl⟩ := Res.map_ok h4
    obtain ⟨ps, h6, h7⟩ := collect_sound JPad.text _ hv (by decide) h3
    obtain ⟨h8, h9⟩ := all2_and h6
    have h10 : w.rem = '[' :: (List.intercalate [','] (ps.map JPad.text) ++ ']' :: w'.rem) := by
      rw [consume1_ok h1, h7, consume1_ok h5]; rfl
    by_cases hps : ps = []
    · subst hps
      cases h9
      exact ⟨.arr0 [], ⟨fun c hc => (List.not_mem_nil hc).elim, rfl⟩, rfl, h10⟩
    · obtain ⟨it, rfl⟩ := JItems.exists_toList ps hps
      refine ⟨.arr it, (JItems.ok_iff _ _).2 h8, by rw [JDoc.value, (JItems.value_iff it l).2 h9]; rfl, ?_⟩
      rw [h10, JDoc.text, JItems.text_eq]
      simp
  split at h
  · obtain ⟨_, w1, h1, h2⟩ := Res.bind_ok h
    obtain ⟨l, w2, h3, h4⟩ := Res.bind_ok h2
    obtain ⟨_, h5, rfl⟩ := Res.map_ok h4
    obtain ⟨ps, h6, h7⟩ := collect_sound JMember.text _ (takeMember_sound hv) (by decide) h3
    obtain ⟨h8, h9⟩ := all2_and h6
    have h10 : w.rem = '{' :: (List.intercalate [','] (ps.map JMember.text) ++ '}' :: w'.rem) := by
      rw [consume1_ok h1, h7, consume1_ok h5]; rfl
    by_cases hps : ps = []
    · subst hps
      cases h9
      exact ⟨.obj0 [], ⟨fun c hc => (List.not_mem_nil hc).elim, rfl⟩, rfl, h10⟩
    · obtain ⟨it, rfl⟩ := JMembers.exists_toList ps hps
      refine ⟨.obj it, (JMembers.ok_iff _ _).2 h8, by rw [JDoc.value, (JMembers.value_iff it l).2 h9]; rfl, ?_⟩
      rw [h10, JDoc.text, JMembers.text_eq]
      simp
  · cases h

theorem takeJson_sound (F : F64) (m : Ovf) : ∀ n, ValueSound F (takeJson F m n)
  | 0 => by intro w v w' h; cases h
  | n + 1 => by
    intro w v w' h
    rw [takeJson, IW.peek_eq] at h
    obtain ⟨res, w1, h1, h2⟩ := Res.bind_ok h
    cases h2
    obtain ⟨a, ha1, ha2⟩ := jsonSkipWs_sound w
    obtain ⟨b, hb1, hb2⟩ := jsonSkipWs_sound w1
    cases hr : (jsonSkipWs w).rem with
    | nil => rw [hr] at h1; cases h1
    | cons c cs =>
      rw [hr] at h1
      obtain ⟨d, h3, h4, h5⟩ := jsonBranch_sound (takeJson_sound F m n) (by rw [IW.peek_rem, hr]; rfl) h1
      rw [IW.peek_rem] at h5
      exact ⟨.mk a d b, ⟨⟨ha1, h3, hb1⟩, h4⟩, by rw [ha2, h5, hb2]; simp [JPad.text]⟩

/-! ### Completeness -/

mutual
/-- The nesting depth. -/
def JDoc.depth : JDoc → Nat
  | .null => 0
  | .true => 0
  | .false => 0
  | .num _ => 0
  | .str _ => 0
  | .arr0 _ => 0
  | .arr l => l.depth + 1
  | .obj0 _ => 0
  | .obj l => l.depth + 1
def JPad.depth : JPad → Nat
  | .mk _ v _ => v.depth
def JItems.depth : JItems → Nat
  | .one v => v.depth
  | .cons v l => max v.depth l.depth
def JMembers.depth : JMembers → Nat
  | .one _ _ _ v => v.depth
  | .cons _ _ _ v l => max v.depth l.depth
end

theorem JItems.depth_mem : ∀ (l : JItems) (p : JPad), p ∈ l.toList → p.depth ≤ l.depth
  | .one v, p, h => by simp [JItems.toList] at h; subst h; rw [JItems.depth]; exact Nat.le_refl _
  | .cons v l, p, h => by
    rw [JItems.toList, List.mem_cons] at h
    rw [JItems.depth]
    rcases h with rfl | h
    · exact Nat.le_max_left _ _
    · exact Nat.le_trans (JItems.depth_mem l p h) (Nat.le_max_right _ _)

theorem JMembers.depth_mem : ∀ (l : JMembers) (p : JMember), p ∈ l.toList → p.2.2.2.depth ≤ l.depth
  | .one a k b v, p, h => by simp [JMembers.toList] at h; subst h; rw [JMembers.depth]; exact Nat.le_refl _
  | .cons a k b v l, p, h => by
    rw [JMembers.toList, List.mem_cons] at h
    rw [JMembers.depth]
    rcases h with rfl | h
    · exact Nat.le_max_left _ _
    · exact Nat.le_trans (JMembers.depth_mem l p h) (Nat.le_max_right _ _)

theorem JDoc.text_cons {d : JDoc} (h : d.Ok handRules) : ∃ c cs, d.text = c :: cs ∧ c ∈ jsonFirst := by
  cases d with
  | null => exact ⟨_, _, rfl, by decide⟩
  | true => exact ⟨_, _, rfl, by decide⟩
  | false => exact ⟨_, _, rfl, by decide⟩
  | num l =>
    obtain ⟨c, r, rfl, hc, -⟩ := h
    refine ⟨c, r, rfl, ?_⟩
    rcases hc with hc | rfl
    · obtain ⟨d, rfl⟩ := isDigit_digitChar hc
      revert d; decide
    · decide
  | str s => exact ⟨_, _, rfl, by decide⟩
  | arr0 ws => exact ⟨_, _, rfl, by decide⟩
  | arr l => exact ⟨_, _, rfl, by decide⟩
  | obj0 ws => exact ⟨_, _, rfl, by decide⟩
  | obj l => exact ⟨_, _, rfl, by decide⟩

theorem jsonFirst_not_ws {c : Char} (h : c ∈ jsonFirst) : jsonWs.contains c = false := by
  revert h; revert c
  show ∀ c ∈ jsonFirst, jsonWs.contains c = false
  decide

theorem jsonFirst_sub {c : Char} (h : c ∈ jsonFirst) : c ∈ jsonFirstWs ∧ c ≠ ']' := by
  revert h; revert c
  show ∀ c ∈ jsonFirst, c ∈ jsonFirstWs ∧ c ≠ ']'
  decide

theorem JPad.text_cons {p : JPad} (h : p.Ok handRules) : ∃ c cs, p.text = c :: cs ∧ c ∈ jsonFirstWs ∧ c ≠ ']' := by
  obtain ⟨a, v, b⟩ := p
  obtain ⟨h1, h2, h3⟩ := h
  obtain ⟨c, cs, h4, h5⟩ := JDoc.text_cons h2
  cases a with
  | nil => exact ⟨c, _, by rw [JPad.text, h4]; rfl, jsonFirst_sub h5⟩
  | cons x a =>
    refine ⟨x, _, rfl, ?_⟩
    rcases h1 x (by simp) with rfl | rfl | rfl | rfl <;> decide

theorem JMember.text_cons {p : JMember} (h : JMember.Ok handRules p) :
    ∃ c cs, JMember.text p = c :: cs ∧ c ∈ objectCfg.first ∧ c ≠ '}' := by
  obtain ⟨a, k, b, v⟩ := p
  obtain ⟨h1, -⟩ := h
  cases a with
  | nil => exact ⟨'"', _, rfl, by decide⟩
  | cons x a =>
    refine ⟨x, _, rfl, ?_⟩
    rcases h1 x (by simp) with rfl | rfl | rfl | rfl <;> decide

/-- What may follow a value. -/
def JStop (r : List Char) : Prop := ∀ c ∈ r.head?, c = ',' ∨ c = ']' ∨ c = '}'

theorem JStop.ws {b r : List Char} (hb : IsWs b) (hr : JStop r) : ∀ c ∈ (b ++ r).head?, numChar c = false := by
  intro c hc
  cases b with
  | nil => rcases hr c hc with rfl | rfl | rfl <;> decide
  | cons x b =>
    cases hc
    rcases hb c (by simp) with rfl | rfl | rfl | rfl <;> decide

theorem JStop.not_ws {r : List Char} (hr : JStop r) : ∀ c ∈ r.head?, jsonWs.contains c = false := by
  intro c hc
  rcases hr c hc with rfl | rfl | rfl <;> decide

/-- `value` parses the documents of limited depth. -/
def ValueComplete (F : F64) (n : Nat) (value : IW → Res (JValue F)) : Prop :=
  ∀ (p : JPad) (v : JValue F), p.depth < n → p.Ok handRules → p.value F handDecode = some v → ∀ (w : IW) (r : List Char),
    w.rem = p.text ++ r → JStop r → ∃ w', value w = .ok v w' ∧ w'.rem = r

theorem takeMember_complete {F : F64} {m : Ovf} {n : Nat} {value : IW → Res (JValue F)} (hv : ValueComplete F n value)
    (p : JMember) (x : List Char × JValue F) (hd : p.2.2.2.depth < n) (hp : JMember.Ok handRules p)
    (hx : JMember.Val F handDecode p x) (w : IW) (r : List Char) (hw : w.rem = JMember.text p ++ r) (hr : JStop r) :
    ∃ w', takeMember m value w = .ok x w' ∧ w'.rem = r := by
  obtain ⟨a, k, b, q⟩ := p
  obtain ⟨h1, h2, h3, h4⟩ := hp
  obtain ⟨h5, h6⟩ := hx
  obtain ⟨key, v⟩ := x
  cases h5
  have hw1 := jsonSkipWs_of (ws := a) (r := '"' :: JChar.textL k ++ '"' :: (b ++ ':' :: (q.text ++ r))) (w := w) h1
    (by intro c hc; cases hc; decide) (by rw [hw]; simp [JMember.text])
  obtain ⟨w1, h7, h8⟩ := takeStr_complete m k h2 _ _ hw1
  have hw2 := jsonSkipWs_of (ws := b) (r := ':' :: (q.text ++ r)) (w := w1) h3 (by intro c hc; cases hc; decide) h8
  obtain ⟨w2, h9, h10⟩ := consume1 hw2
  obtain ⟨w3, h11, h12⟩ := hv q v hd h4 h6 w2 r h10 hr
  refine ⟨w3, ?_, h12⟩
  rw [takeMember, h7]
  simp only [Res.bind]
  rw [h9]
  simp only
  rw [h11]
  rfl

theorem collect_stop {α : Type} {cfg : IterCfg} {item : IW → Res α} {n : Nat} {w : IW} {r : List Char}
    (h : w.rem = cfg.stop :: r) : ∃ w', collectIter cfg item (n + 1) w = .ok [] w' ∧ w'.rem = cfg.stop :: r := by
  refine ⟨w.peek.2, ?_, by rw [IW.peek_rem, h]⟩
  rw [collectIter, iterNext, IW.peek_eq, h]
  simp

theorem all2_attach {α β : Type} {P : α → Prop} {R : α → β → Prop} {l : List α} {l' : List β} (h1 : ∀ a ∈ l, P a)
    (h : All2 R l l') : All2 (fun a b => P a ∧ R a b) l l' := by
  induction h with
  | nil => exact .nil
  | cons h2 h3 ih => exact .cons ⟨h1 _ (by simp), h2⟩ (ih (fun a ha => h1 a (by simp [ha])))

theorem digitChar_branch : ∀ e : Fin 10, digitChar e ≠ 'n' ∧ digitChar e ≠ 't' ∧ digitChar e ≠ 'f' ∧
    ((digitChar e).isDigit || digitChar e == '-') = true := by decide

theorem jsonBranch_complete {F : F64} {m : Ovf} {n : Nat} {value : IW → Res (JValue F)} (hv : ValueComplete F n value)
    (d : JDoc) (v : JValue F) (hd : d.depth ≤ n) (hok : d.Ok handRules) (hval : d.value F handDecode = some v)
    (w : IW) (b r : List Char) (hb : IsWs b) (hr : JStop r) (hw : w.rem = d.text ++ (b ++ r)) :
    ∃ c w', w.rem.head? = some c ∧ jsonBranch F m value c w = .ok v w' ∧ w'.rem = b ++ r := by
  cases d with
  | null =>
    cases hval
    obtain ⟨w', h1, h2⟩ := consume_of (s := "null".toList) (r := b ++ r) hw
    exact ⟨'n', w', by rw [hw]; rfl, by rw [jsonBranch, if_pos rfl, h1]; rfl, h2⟩
  | true =>
    cases hval
    obtain ⟨w', h1, h2⟩ := consume_of (s := "true".toList) (r := b ++ r) hw
    exact ⟨'t', w', by rw [hw]; rfl, by rw [jsonBranch, if_neg (by decide), if_pos rfl, h1]; rfl, h2⟩
  | false =>
    cases hval
    obtain ⟨w', h1, h2⟩ := consume_of (s := "false".toList) (r := b ++ r) hw
    exact ⟨'f', w', by rw [hw]; rfl, by rw [jsonBranch, if_neg (by decide), if_neg (by decide), if_pos rfl, h1]; rfl, h2⟩
  | num l =>
    rw [JDoc.value] at hval
    obtain ⟨x, hx, rfl⟩ := Option.map_eq_some_iff.1 hval
    obtain ⟨w', h1, h2⟩ := takeNum_complete hok (hr.ws hb) hx hw
    obtain ⟨c, l', rfl, hc, -⟩ := hok
    refine ⟨c, w', by rw [hw]; rfl, ?_, h2⟩
    have hcn : c ≠ 'n' ∧ c ≠ 't' ∧ c ≠ 'f' ∧ (c.isDigit || c == '-') = true := by
      rcases hc with hc | rfl
      · obtain ⟨e, rfl⟩ := isDigit_digitChar hc
        exact digitChar_branch e
      · decide
    rw [jsonBranch, if_neg hcn.1, if_neg hcn.2.1, if_neg hcn.2.2.1, if_pos hcn.2.2.2, h1]
    rfl
  | str s =>
    cases hval
    obtain ⟨w', h1, h2⟩ := takeStr_complete m s hok w (b ++ r) (by rw [hw]; simp [JDoc.text])
    exact ⟨'"', w', by rw [hw]; rfl, by
      rw [jsonBranch, if_neg (by decide), if_neg (by decide), if_neg (by decide), if_neg (by decide), if_pos rfl, h1]; rfl, h2⟩
  | arr0 ws =>
    cases hval
    obtain ⟨-, h0⟩ := hok
    cases h0
    obtain ⟨w1, h1, h2⟩ := consume1 (w := w) (c := '[') (cs := ']' :: (b ++ r)) hw
    obtain ⟨w2, h3, h4⟩ := collect_stop (cfg := arrayCfg) (item := value) (n := w1.left) h2
    obtain ⟨w3, h5, h6⟩ := consume1 h4
    refine ⟨'[', w3, by rw [hw]; rfl, ?_, h6⟩
    rw [jsonBranch, if_neg (by decide), if_neg (by decide), if_neg (by decide), if_neg (by decide), if_neg (by decide), if_pos rfl, h1]
    simp only [Res.bind]
    rw [h3]
    simp only
    rw [show (']' : Char) = arrayCfg.stop from rfl, h5]
    rfl
  | arr l =>
    rw [JDoc.value] at hval
    obtain ⟨xs, hx, rfl⟩ := Option.map_eq_some_iff.1 hval
    obtain ⟨w1, h1, h2⟩ := consume1 (w := w) (c := '[') (cs := l.text ++ ']' :: (b ++ r)) (by rw [hw]; simp [JDoc.text])
    rw [JItems.text_eq] at h2
    have hoks := (JItems.ok_iff _ _).1 hok
    obtain ⟨w2, h3, h4⟩ := collect_complete (cfg := arrayCfg) (item := value) JPad.text
      (fun p x => JPad.value F handDecode p = some x) (by decide) ((JItems.value_iff l xs).1 hx) l.toList_ne
      (by
        intro p hp a ha w r d hw hd'
        refine hv p a ?_ (hoks p hp) ha w (d :: r) hw ?_
        · have := l.depth_mem p hp
          rw [JDoc.depth] at hd
          omega
        · intro c hc
          cases hc
          rcases hd' with h | h
          · exact .inl h
          · exact .inr (.inl h))
      (fun p hp => JPad.text_cons (hoks p hp)) h2
    obtain ⟨w3, h5, h6⟩ := consume1 h4
    refine ⟨'[', w3, by rw [hw]; rfl, ?_, h6⟩
    rw [jsonBranch, if_neg (by decide), if_neg (by decide), if_neg (by decide), if_neg (by decide), if_neg (by decide), if_pos rfl, h1]
    simp only [Res.bind]
    rw [h3]
    simp only
    rw [show (']' : Char) = arrayCfg.stop from rfl, h5]
    rfl
  | obj0 ws =>
    cases hval
    obtain ⟨-, h0⟩ := hok
    cases h0
    obtain ⟨w1, h1, h2⟩ := consume1 (w := w) (c := '{') (cs := '}' :: (b ++ r)) hw
    obtain ⟨w2, h3, h4⟩ := collect_stop (cfg := objectCfg) (item := takeMember m value) (n := w1.left) h2
    obtain ⟨w3, h5, h6⟩ := consume1 h4
    refine ⟨'{', w3, by rw [hw]; rfl, ?_, h6⟩
    rw [jsonBranch, if_neg (by decide), if_neg (by decide), if_neg (by decide), if_neg (by decide), if_neg (by decide), if_neg (by decide),
      if_pos rfl, h1]
    simp only [Res.bind]
    rw [h3]
    simp only
    rw [show ('}' : Char) = objectCfg.stop from rfl, h5]
    rfl
  | obj l =>
    rw [JDoc.value] at hval
    obtain ⟨xs, hx, rfl⟩ := Option.map_eq_some_iff.1 hval
    obtain ⟨w1, h1, h2⟩ := consume1 (w := w) (c := '{') (cs := l.text ++ '}' :: (b ++ r)) (by rw [hw]; simp [JDoc.text])
    rw [JMembers.text_eq] at h2
    have hoks := (JMembers.ok_iff _ _).1 hok
    obtain ⟨w2, h3, h4⟩ := collect_complete (cfg := objectCfg) (item := takeMember m value) JMember.text
      (JMember.Val F handDecode) (by decide) ((JMembers.value_iff l xs).1 hx) l.toList_ne
      (by
        intro p hp a ha w r d hw hd'
        refine takeMember_complete hv p a ?_ (hoks p hp) ha w (d :: r) hw ?_
        · have := l.depth_mem p hp
          rw [JDoc.depth] at hd
          omega
        · intro c hc
          cases hc
          rcases hd' with h | h
          · exact .inl h
          · exact .inr (.inr h))
      (fun p hp => JMember.text_cons (hoks p hp)) h2
    obtain ⟨w3, h5, h6⟩ := consume1 h4
    refine ⟨'{', w3, by rw [hw]; rfl, ?_, h6⟩
    rw [jsonBranch, if_neg (by decide), if_neg (by decide), if_neg (by decide), if_neg (by decide), if_neg (by decide), if_neg (by decide),
      if_pos rfl, h1]
    simp only [Res.bind]
    rw [h3]
    simp only
    rw [show ('}' : Char) = objectCfg.stop from rfl, h5]
    rfl

theorem takeJson_complete (F : F64) (m : Ovf) : ∀ n, ValueComplete F n (takeJson F m n)
  | 0 => by intro p v h; omega
  | n + 1 => by
    intro p v hd hok hval w r hw hr
    obtain ⟨a, d, b⟩ := p
    obtain ⟨h1, h2, h3⟩ := hok
    rw [JPad.value] at hval
    rw [JPad.depth] at hd
    obtain ⟨c0, cs0, h4, h5⟩ := JDoc.text_cons h2
    have hw1 := jsonSkipWs_of (ws := a) (r := d.text ++ (b ++ r)) (w := w) h1
      (by intro c hc; rw [h4] at hc; cases hc; exact jsonFirst_not_ws h5) (by rw [hw]; simp [JPad.text])
    obtain ⟨c, w', h6, h7, h8⟩ := jsonBranch_complete (m := m) (takeJson_complete F m n) d v (Nat.le_of_lt_succ hd) h2 hval
      (jsonSkipWs w).peek.2 b r h3 hr (by rw [IW.peek_rem, hw1])
    rw [IW.peek_rem] at h6
    refine ⟨jsonSkipWs w', ?_, jsonSkipWs_of h3 hr.not_ws h8⟩
    rw [takeJson, IW.peek_eq, h6]
    simp only
    rw [h7]
    rfl

/-! ### Termination -/

theorem IW.skipWs_length (w : IW) : (jsonSkipWs w).rem.length ≤ w.rem.length := by
  obtain ⟨a, -, h⟩ := jsonSkipWs_sound w
  rw [h, List.length_append]; omega

theorem JDoc.text_pos {d : JDoc} (h : d.Ok handRules) : 0 < d.text.length := by
  obtain ⟨c, cs, h1, -⟩ := JDoc.text_cons h
  rw [h1]; simp

theorem JPad.text_pos {p : JPad} (h : p.Ok handRules) : 0 < p.text.length := by
  obtain ⟨c, cs, h1, -⟩ := JPad.text_cons h
  rw [h1]; simp

theorem JMember.text_pos {p : JMember} (h : JMember.Ok handRules p) : 0 < (JMember.text p).length := by
  obtain ⟨c, cs, h1, -⟩ := JMember.text_cons h
  rw [h1]; simp

theorem iterAfter_not_oof {α : Type} (cfg : IterCfg) (r : Except TakeError α) (w : IW) : (∀ h : iterAfter cfg r w = .oof, False) ∧
    ∀ a w', iterAfter cfg r w = .item (.ok a) w' → w'.rem.length ≤ w.rem.length := by
  rw [iterAfter, IW.peek_eq]
  cases hr : w.rem with
  | nil => exact ⟨fun h => (by cases h), fun a w' h => (by cases h)⟩
  | cons c cs =>
    simp only [List.head?_cons]
    split
    · rw [IW.peek_eq]
      have : w.peek.2.advance.2.rem = cs := by simp [hr]
      rw [this]
      cases cs with
      | nil => exact ⟨fun h => (by cases h), fun a w' h => (by cases h)⟩
      | cons d ds =>
        simp only [List.head?_cons]
        split
        · constructor
          · intro h; cases h
          · intro a w' h
            cases h
            rw [IW.peek_rem, this]; simp
        · exact ⟨fun h => (by cases h), fun a w' h => (by cases h)⟩
    · split
      · constructor
        · intro h; cases h
        · intro a w' h
          cases h
          rw [IW.peek_rem, hr]; exact Nat.le_refl _
      · exact ⟨fun h => (by cases h), fun a w' h => (by cases h)⟩

theorem iterAfter_err {α : Type} (cfg : IterCfg) (e : TakeError) (w : IW) (a : α) (w' : IW) :
    iterAfter cfg (.error e) w ≠ .item (.ok a) w' := by
  rw [iterAfter, IW.peek_eq]
  split
  · intro h; cases h
  · split
    · rw [IW.peek_eq]
      split
      · intro h; cases h
      · split <;> (intro h; cases h)
    · split <;> (intro h; cases h)

theorem collect_ends {α : Type} {cfg : IterCfg} {item : IW → Res α} (N : Nat)
    (hi : ∀ w, w.rem.length ≤ N → item w ≠ .oof)
    (hc : ∀ w a w', item w = .ok a w' → w'.rem.length < w.rem.length) :
    ∀ (n : Nat) (w : IW), w.rem.length ≤ N → w.rem.length < n → collectIter cfg item n w ≠ .oof
  | 0, w, _, h => by omega
  | n + 1, w, hN, h => by
    rw [collectIter, iterNext, IW.peek_eq]
    cases hr : w.rem with
    | nil => simp
    | cons c cs =>
      simp only [List.head?_cons]
      by_cases hs : c = cfg.stop
      · rw [if_pos hs]; simp
      · rw [if_neg hs]
        cases hit : item w.peek.2 with
        | oof => exact absurd hit (hi _ (by rw [IW.peek_rem]; exact hN))
        | panic => simp
        | err e w1 =>
          simp only
          cases hia : iterAfter cfg (Except.error e : Except TakeError α) w1 with
          | oof => exact ((iterAfter_not_oof _ _ _).1 hia).elim
          | panic => simp
          | done w2 => simp
          | item x w2 =>
            cases x with
            | error e => simp
            | ok a => exact absurd hia (iterAfter_err _ _ _ _ _)
        | ok a w1 =>
          simp only
          have h1 := hc _ _ _ hit
          rw [IW.peek_rem] at h1
          cases hia : iterAfter cfg (Except.ok a : Except TakeError α) w1 with
          | oof => exact ((iterAfter_not_oof _ _ _).1 hia).elim
          | panic => simp
          | done w2 => simp
          | item x w2 =>
            cases x with
            | error e => simp
            | ok b =>
              simp only
              have h2 := (iterAfter_not_oof _ _ _).2 _ _ hia
              have h3 := collect_ends (cfg := cfg) N hi hc n w2 (by omega) (by omega)
              intro e
              apply h3
              cases hcol : collectIter cfg item n w2 <;> rw [hcol] at e <;> simp [Res.map] at e

theorem takeMember_ends {F : F64} {m : Ovf} {value : IW → Res (JValue F)} {N : Nat} (hv : ∀ w, w.rem.length ≤ N → value w ≠ .oof)
    (w : IW) (h : w.rem.length ≤ N) : takeMember m value w ≠ .oof := by
  rw [takeMember]
  cases h1 : jsonTakeStr m (jsonSkipWs w) with
  | oof => exact absurd h1 (takeStr_ends m _)
  | panic => simp [Res.bind]
  | err e w1 => simp [Res.bind]
  | ok key w1 =>
    simp only [Res.bind]
    obtain ⟨s, -, h2, -⟩ := takeStr_sound h1
    have h3 := w.skipWs_length
    have h4 := w1.skipWs_length
    rw [h2] at h3
    simp only [List.length_append, List.length_cons] at h3
    rcases consume1_total ':' (jsonSkipWs w1) with ⟨w2, h5⟩ | ⟨e, w2, h5⟩
    · rw [h5]
      simp only
      have h6 := consume1_ok h5
      rw [h6, List.length_cons] at h4
      cases h7 : value w2 with
      | oof => exact absurd h7 (hv _ (by omega))
      | panic => simp [Res.map]
      | err e w1 => simp [Res.map]
      | ok v w1 => simp [Res.map]
    · rw [h5]; simp

theorem map_ne_oof {α β : Type} {f : α → β} {r : Res α} (h : r ≠ .oof) : r.map f ≠ .oof := by
  cases r <;> simp_all [Res.map]

theorem bind_ne_oof {α β : Type} {f : α → IW → Res β} {r : Res α} (h : r ≠ .oof) (hf : ∀ a w, r = .ok a w → f a w ≠ .oof) :
    r.bind f ≠ .oof := by
  cases r with
  | ok a w => exact hf a w rfl
  | err e w => simp [Res.bind]
  | panic => simp [Res.bind]
  | oof => exact absurd rfl h

theorem consume_not_oof {s : List Char} (hs : ∀ c ∈ s, c.utf8Size = 1) (w : IW) : consumeStr s w ≠ .oof := by
  rcases consume_ascii_total hs w with ⟨w', h⟩ | ⟨e, w', h⟩ <;> rw [h] <;> simp

theorem takeJson_ends (F : F64) (m : Ovf) : ∀ (n : Nat) (w : IW), w.rem.length < n → takeJson F m n w ≠ .oof
  | 0, _, h => by omega
  | n + 1, w, h => by
    have h0 := w.skipWs_length
    rw [takeJson, IW.peek_eq]
    refine bind_ne_oof ?_ (by intros; simp)
    cases hr : (jsonSkipWs w).rem with
    | nil => simp
    | cons c cs =>
      simp only [List.head?_cons]
      have hrp : (jsonSkipWs w).peek.2.rem = c :: cs := by rw [IW.peek_rem, hr]
      rw [hr] at h0
      generalize (jsonSkipWs w).peek.2 = w1 at hrp
      have ih := takeJson_ends F m n
      have hsnd := takeJson_sound F m n
      unfold jsonBranch
      split
      · exact map_ne_oof (consume_not_oof (by decide) _)
      split
      · exact map_ne_oof (consume_not_oof (by decide) _)
      split
      · exact map_ne_oof (consume_not_oof (by decide) _)
      split
      · exact map_ne_oof (takeNum_ends F _)
      split
      · exact map_ne_oof (takeStr_ends m _)
      split
      · refine bind_ne_oof (consume_not_oof (by decide) _) ?_
        intro _ w2 h1
        have h2 := consume1_ok h1
        rw [hrp] at h2
        have h3 : w2.rem.length = cs.length := by injection h2 with _ h2; rw [h2]
        refine bind_ne_oof ?_ (fun _ _ _ => map_ne_oof (consume_not_oof (by decide) _))
        refine collect_ends w2.rem.length ?_ ?_ _ _ (Nat.le_refl _) (by rw [IW.left_eq]; exact Nat.lt_succ_self _)
        · intro w3 h4
          refine ih w3 ?_
          rw [List.length_cons] at h0
          omega
        · intro w3 a w4 h4
          obtain ⟨p, ⟨hp, -⟩, h5⟩ := hsnd _ _ _ h4
          have := JPad.text_pos hp
          rw [h5, List.length_append]; omega
      split
      · refine bind_ne_oof (consume_not_oof (by decide) _) ?_
        intro _ w2 h1
        have h2 := consume1_ok h1
        rw [hrp] at h2
        have h3 : w2.rem.length = cs.length := by injection h2 with _ h2; rw [h2]
        refine bind_ne_oof ?_ (fun _ _ _ => map_ne_oof (consume_not_oof (by decide) _))
        refine collect_ends w2.rem.length ?_ ?_ _ _ (Nat.le_refl _) (by rw [IW.left_eq]; exact Nat.lt_succ_self _)
        · intro w3 h4
          refine takeMember_ends (N := w2.rem.length) ?_ w3 h4
          intro w5 h5
          refine ih w5 ?_
          rw [List.length_cons] at h0
          omega
        · intro w3 a w4 h4
          obtain ⟨p, ⟨hp, -⟩, h5⟩ := takeMember_sound hsnd _ _ _ h4
          have := JMember.text_pos hp
          rw [h5, List.length_append]; omega
      · simp

/-! ### Fuel -/

theorem iterNext_le {α : Type} {cfg : IterCfg} {f g : IW → Res α} (h : ∀ w, f w ≠ .oof → g w = f w) (w : IW)
    (hn : iterNext cfg f w ≠ .oof) : iterNext cfg g w = iterNext cfg f w := by
  rw [iterNext] at hn ⊢
  rw [iterNext]
  rw [IW.peek_eq] at hn ⊢
  cases hr : w.rem with
  | nil => rfl
  | cons c cs =>
    rw [hr] at hn
    simp only [List.head?_cons] at hn ⊢
    by_cases hs : c = cfg.stop
    · rw [if_pos hs, if_pos hs]
    · rw [if_neg hs] at hn ⊢
      rw [if_neg hs, h]
      intro e
      rw [e] at hn
      exact hn rfl

theorem collectIter_le {α : Type} {cfg : IterCfg} {f g : IW → Res α} (h : ∀ w, f w ≠ .oof → g w = f w) :
    ∀ (n : Nat) (w : IW), collectIter cfg f n w ≠ .oof → collectIter cfg g n w = collectIter cfg f n w
  | 0, w, hn => absurd rfl hn
  | n + 1, w, hn => by
    rw [collectIter] at hn ⊢
    rw [collectIter]
    rw [iterNext_le h w (by intro e; rw [e] at hn; exact hn rfl)]
    cases hi : iterNext cfg f w with
    | done w' => rfl
    | panic => rfl
    | oof => rfl
    | item r w' =>
      cases r with
      | error e => rfl
      | ok a =>
        rw [hi] at hn
        simp only at hn ⊢
        rw [collectIter_le h n w']
        intro e
        rw [e] at hn
        exact hn rfl

theorem Res.bind_le {α β : Type} {r r' : Res α} {f f' : α → IW → Res β} (h : r ≠ .oof → r' = r)
    (hf : ∀ a w, f a w ≠ .oof → f' a w = f a w) (hn : r.bind f ≠ .oof) : r'.bind f' = r.bind f := by
  cases r with
  | ok a w => rw [h (by simp)]; exact hf a w hn
  | err e w => rw [h (by simp)]; rfl
  | panic => rw [h (by simp)]; rfl
  | oof => exact absurd rfl hn

theorem Res.map_le {α β : Type} {r r' : Res α} {f : α → β} (h : r ≠ .oof → r' = r)
    (hn : r.map f ≠ .oof) : r'.map f = r.map f := by
  rw [h]
  intro e
  rw [e] at hn
  exact hn rfl

theorem takeMember_le {F : F64} {m : Ovf} {f g : IW → Res (JValue F)} (h : ∀ w, f w ≠ .oof → g w = f w) (w : IW)
    (hn : takeMember m f w ≠ .oof) : takeMember m g w = takeMember m f w := by
  rw [takeMember] at hn ⊢
  rw [takeMember]
  exact Res.bind_le (fun _ => rfl) (fun _ _ => Res.bind_le (fun _ => rfl) (fun _ w => Res.map_le (h w))) hn

theorem jsonBranch_le {F : F64} {m : Ovf} {f g : IW → Res (JValue F)} (h : ∀ w, f w ≠ .oof → g w = f w) (c : Char) (w : IW)
    (hn : jsonBranch F m f c w ≠ .oof) : jsonBranch F m g c w = jsonBranch F m f c w := by
  unfold jsonBranch at hn ⊢
  split
  · rfl
  split
  · rfl
  split
  · rfl
  split
  · rfl
  split
  · rfl
  split
  · rename_i h1 h2 h3 h4 h5 h6
    rw [if_neg h1, if_neg h2, if_neg h3, if_neg h4, if_neg h5, if_pos h6] at hn
    exact Res.bind_le (fun _ => rfl) (fun _ _ => Res.bind_le (collectIter_le h _ _) (fun _ _ _ => rfl)) hn
  split
  · rename_i h1 h2 h3 h4 h5 h6 h7
    rw [if_neg h1, if_neg h2, if_neg h3, if_neg h4, if_neg h5, if_neg h6, if_pos h7] at hn
    exact Res.bind_le (fun _ => rfl) (fun _ _ => Res.bind_le (collectIter_le (takeMember_le h) _ _) (fun _ _ _ => rfl)) hn
  · rfl

theorem takeJson_mono (F : F64) (m : Ovf) : ∀ {n k : Nat}, n ≤ k → ∀ w, takeJson F m n w ≠ .oof → takeJson F m k w = takeJson F m n w
  | 0, _, _, w, h => absurd rfl h
  | n + 1, k + 1, hnk, w, h => by
    rw [takeJson] at h ⊢
    rw [takeJson]
    refine Res.bind_le ?_ (fun _ _ _ => rfl) h
    intro h1
    split
    · rfl
    · rename_i hp
      rw [hp] at h1
      exact jsonBranch_le (fun w => takeJson_mono F m (Nat.le_of_succ_le_succ hnk) w) _ _ h1

end Chomp
