import Verif.Bench.JsonDocs

/-! # A text is the text of at most one document -/

namespace Chomp

/-- All that either parser allows. -/
def anyRules : JRules := ⟨HandNumber, JChar.Ok, fun _ => True⟩

/-- Two texts with the same longest prefix of some class of characters. -/
theorem span_unique {P : Char → Prop} : ∀ {a a' r r' : List Char}, (∀ c ∈ a, P c) → (∀ c ∈ a', P c) →
    (∀ c, r.head? = some c → ¬ P c) → (∀ c, r'.head? = some c → ¬ P c) → a ++ r = a' ++ r' → a = a' ∧ r = r'
  | [], [], _, _, _, _, _, _, h => ⟨rfl, h⟩
  | [], c :: a', r, r', _, h2, h3, _, h => by
    simp only [List.nil_append] at h
    subst h
    exact absurd (h2 c (by simp)) (h3 c rfl)
  | c :: a, [], r, r', h1, _, _, h4, h => by
    simp only [List.nil_append] at h
    subst h
    exact absurd (h1 c (by simp)) (h4 c rfl)
  | c :: a, c' :: a', r, r', h1, h2, h3, h4, h => by
    simp only [List.cons_append, List.cons.injEq] at h
    obtain ⟨rfl, h⟩ := h
    obtain ⟨rfl, rfl⟩ := span_unique (fun x hx => h1 x (by simp [hx])) (fun x hx => h2 x (by simp [hx])) h3 h4 h
    exact ⟨rfl, rfl⟩

def WsChar (c : Char) : Prop := c = ' ' ∨ c = '\t' ∨ c = '\n' ∨ c = '\r'

/-- What a value that starts with `c` can be: 0 to 2 a constant, 3 a number, 4 a string, 5 an array, 6 an object. -/
def headKind (c : Char) : Nat :=
  if c = 'n' then 0 else if c = 't' then 1 else if c = 'f' then 2 else if c = '"' then 4 else if c = '[' then 5 else if c = '{' then 6
  else if c.isDigit = true ∨ c = '-' then 3 else 7

def JDoc.kind : JDoc → Nat
  | .null => 0
  | .true => 1
  | .false => 2
  | .num _ => 3
  | .str _ => 4
  | .arr0 _ => 5
  | .arr _ => 5
  | .obj0 _ => 6
  | .obj _ => 6

theorem headKind_num {c : Char} (h : c.isDigit = true ∨ c = '-') : headKind c = 3 := by
  rcases h with h | rfl
  · have n : ∀ d : Char, d.isDigit = false → c ≠ d := by rintro d hd rfl; rw [h] at hd; cases hd
    unfold headKind
    rw [if_neg (n _ (by decide)), if_neg (n _ (by decide)), if_neg (n _ (by decide)), if_neg (n _ (by decide)), if_neg (n _ (by decide)),
      if_neg (n _ (by decide)), if_pos (.inl h)]
  · decide

theorem doc_start {d : JDoc} (h : d.Ok anyRules) : ∃ c r, d.text = c :: r ∧ headKind c = d.kind := by
  cases d with
  | null => exact ⟨'n', "ull".toList, by decide, by decide⟩
  | true => exact ⟨'t', "rue".toList, by decide, by decide⟩
  | false => exact ⟨'f', "alse".toList, by decide, by decide⟩
  | num l =>
    obtain ⟨c, r, rfl, h1, h2⟩ := h
    exact ⟨c, r, rfl, headKind_num h1⟩
  | str s => exact ⟨_, _, rfl, rfl⟩
  | arr0 ws => exact ⟨_, _, rfl, rfl⟩
  | arr l => exact ⟨_, _, rfl, rfl⟩
  | obj0 ws => exact ⟨_, _, rfl, rfl⟩
  | obj l => exact ⟨_, _, rfl, rfl⟩

theorem kind_le (d : JDoc) : d.kind ≤ 6 := by cases d <;> simp [JDoc.kind]

theorem doc_first {d : JDoc} (h : d.Ok anyRules) (r : List Char) : ∃ c x, d.text ++ r = c :: x ∧ ¬ WsChar c ∧ c ≠ ']' ∧ c ≠ '}' := by
  obtain ⟨c, x, h1, h2⟩ := doc_start h
  have := kind_le d
  refine ⟨c, x ++ r, by rw [h1]; rfl, ?_, ?_, ?_⟩
  · rintro (rfl | rfl | rfl | rfl) <;> (rw [← h2] at this; revert this; decide)
  · rintro rfl; rw [← h2] at this; revert this; decide
  · rintro rfl; rw [← h2] at this; revert this; decide

/-- `r` does not go on with white space or with a number. -/
def Ends (r : List Char) : Prop := ∀ c, r.head? = some c → ¬ WsChar c ∧ numChar c = false

/-- `r` does not go on with a number. -/
def NumStops (r : List Char) : Prop := ∀ c, r.head? = some c → numChar c = false

theorem ws_stops {b r : List Char} (hb : IsWs b) (hr : Ends r) : NumStops (b ++ r) := by
  intro c hc
  cases b with
  | nil => exact (hr c hc).2
  | cons x b =>
    simp at hc
    subst hc
    rcases hb x (by simp) with rfl | rfl | rfl | rfl <;> decide

theorem chars_unique : ∀ {s s' : List JChar} {r r' : List Char}, (∀ c ∈ s, c.Ok) → (∀ c ∈ s', c.Ok) →
    JChar.textL s ++ '"' :: r = JChar.textL s' ++ '"' :: r' → s = s' ∧ r = r'
  | [], [], _, _, _, _, h => ⟨rfl, by simpa [JChar.textL] using h⟩
  | [], x :: s', _, _, _, h2, h => by
    have hx := h2 x (by simp)
    cases x <;> simp [JChar.textL, JChar.text] at h
    exact absurd h.1.symm hx.2.1
  | x :: s, [], _, _, h1, _, h => by
    have hx := h1 x (by simp)
    cases x <;> simp [JChar.textL, JChar.text] at h
    exact absurd h.1 hx.2.1
  | x :: s, y :: s', r, r', h1, h2, h => by
    have hx := h1 x (by simp)
    have hy := h2 y (by simp)
    have key : ∀ {t t' : List Char}, t = JChar.textL s ++ '"' :: r → t' = JChar.textL s' ++ '"' :: r' → t = t' → s = s' ∧ r = r' := by
      rintro _ _ rfl rfl h'
      exact chars_unique (fun c hc => h1 c (by simp [hc])) (fun c hc => h2 c (by simp [hc])) h'
    simp only [JChar.textL, List.map_cons, List.flatten_cons] at h
    cases x with
    | lit c =>
      cases y with
      | lit d =>
        simp only [JChar.text, List.cons_append, List.nil_append, List.cons.injEq] at h
        obtain ⟨rfl, rfl⟩ := key rfl rfl h.2
        exact ⟨by rw [h.1], rfl⟩
      | esc e =>
        simp only [JChar.text, List.cons_append, List.nil_append, List.cons.injEq] at h
        exact absurd h.1 hx.2.2
      | uni a b c d =>
        simp only [JChar.text, List.cons_append, List.nil_append, List.cons.injEq] at h
        exact absurd h.1 hx.2.2
    | esc e =>
      cases y with
      | lit d =>
        simp only [JChar.text, List.cons_append, List.nil_append, List.cons.injEq] at h
        exact absurd h.1.symm hy.2.2
      | esc e' =>
        simp only [JChar.text, List.cons_append, List.nil_append, List.cons.injEq, true_and] at h
        obtain ⟨rfl, rfl⟩ := key rfl rfl h.2
        exact ⟨by rw [h.1], rfl⟩
      | uni a b c d =>
        simp only [JChar.text, List.cons_append, List.nil_append, List.cons.injEq, true_and] at h
        rw [h.1] at hx
        exact absurd hx (by simp [JChar.Ok])
    | uni a b c d =>
      cases y with
      | lit d =>
        simp only [JChar.text, List.cons_append, List.nil_append, List.cons.injEq] at h
        exact absurd h.1.symm hy.2.2
      | esc e =>
        simp only [JChar.text, List.cons_append, List.nil_append, List.cons.injEq, true_and] at h
        rw [← h.1] at hy
        exact absurd hy (by simp [JChar.Ok])
      | uni a' b' c' d' =>
        simp only [JChar.text, List.cons_append, List.nil_append, List.cons.injEq, true_and] at h
        obtain ⟨rfl, rfl⟩ := key rfl rfl h.2.2.2.2
        exact ⟨by rw [h.1, h.2.1, h.2.2.1, h.2.2.2.1], rfl⟩

theorem num_unique {l l' r r' : List Char} (h1 : HandNumber l) (h2 : HandNumber l') (hr : NumStops r) (hr' : NumStops r')
    (h : l ++ r = l' ++ r') : l = l' ∧ r = r' := by
  obtain ⟨c, x, rfl, _, hx⟩ := h1
  obtain ⟨c', x', rfl, _, hx'⟩ := h2
  simp only [List.cons_append, List.cons.injEq] at h
  obtain ⟨rfl, rfl⟩ := span_unique (P := fun c => numChar c = true) hx hx' (fun c hc => by rw [hr c hc]; simp)
    (fun c hc => by rw [hr' c hc]; simp) h.2
  exact ⟨by rw [h.1], rfl⟩

theorem ws_unique {a a' r r' : List Char} (h1 : IsWs a) (h2 : IsWs a') (hr : ∀ c, r.head? = some c → ¬ WsChar c)
    (hr' : ∀ c, r'.head? = some c → ¬ WsChar c) (h : a ++ r = a' ++ r') : a = a' ∧ r = r' := span_unique h1 h2 hr hr' h

theorem head_not {c : Char} {r : List Char} (h : ¬ WsChar c) : ∀ x, (c :: r).head? = some x → ¬ WsChar x := by
  intro x hx
  cases hx
  exact h

theorem not_ws_of : ∀ c ∈ [']', '}', ',', ':', '"'], ¬ WsChar c := by unfold WsChar; decide

theorem items_not_ws {ws : List Char} {l : JItems} (hw : IsWs ws) (h : l.Ok anyRules) (r r' : List Char) :
    ws ++ ']' :: r ≠ l.text ++ ']' :: r' := by
  intro ht
  have : ∃ (a : List Char) (v : JDoc) (x : List Char), IsWs a ∧ v.Ok anyRules ∧ l.text ++ ']' :: r' = a ++ (v.text ++ x) := by
    match l, h with
    | .one (.mk a v b), h => exact ⟨a, v, b ++ ']' :: r', h.1, h.2.1, by simp [JItems.text, JPad.text]⟩
    | .cons (.mk a v b) l, h => exact ⟨a, v, b ++ ',' :: (l.text ++ ']' :: r'), h.1.1, h.1.2.1, by simp [JItems.text, JPad.text]⟩
  obtain ⟨a, v, x, h1, h2, h3⟩ := this
  obtain ⟨c, y, h4, h5, h6, _⟩ := doc_first h2 x
  rw [h3, h4] at ht
  have := (ws_unique hw h1 (head_not (not_ws_of _ (by simp))) (head_not h5) ht).2
  exact h6 (List.cons.inj this).1.symm

theorem members_not_ws {ws : List Char} {l : JMembers} (hw : IsWs ws) (h : l.Ok anyRules) (r r' : List Char) :
    ws ++ '}' :: r ≠ l.text ++ '}' :: r' := by
  intro ht
  have : ∃ a x : List Char, IsWs a ∧ l.text ++ '}' :: r' = a ++ '"' :: x := by
    match l, h with
    | .one a k b v, h =>
      exact ⟨a, JChar.textL k ++ '"' :: (b ++ ':' :: (v.text ++ '}' :: r')), h.1, by simp only [JMembers.text, List.append_assoc, List.cons_append]⟩
    | .cons a k b v l, h =>
      exact ⟨a, JChar.textL k ++ '"' :: (b ++ ':' :: (v.text ++ ',' :: (l.text ++ '}' :: r'))), h.1,
        by simp only [JMembers.text, List.append_assoc, List.cons_append]⟩
  obtain ⟨a, x, h1, h3⟩ := this
  rw [h3] at ht
  have := (ws_unique hw h1 (head_not (not_ws_of _ (by simp))) (head_not (not_ws_of _ (by simp))) ht).2
  exact absurd (List.cons.inj this).1 (by decide)

theorem ends_of : ∀ c ∈ [']', '}', ','], ∀ r, Ends (c :: r) := by
  intro c hc r x hx
  cases hx
  simp at hc
  unfold WsChar
  rcases hc with rfl | rfl | rfl <;> decide

mutual
theorem doc_unique : ∀ (d d' : JDoc), d.Ok anyRules → d'.Ok anyRules → ∀ {r r' : List Char}, NumStops r → NumStops r' →
    d.text ++ r = d'.text ++ r' → d = d' ∧ r = r' := by
  intro d d' h h' r r' hr hr' ht
  have hk : d.kind = d'.kind := by
    obtain ⟨c, x, h1, h2⟩ := doc_start h
    obtain ⟨c', x', h3, h4⟩ := doc_start h'
    rw [h1, h3] at ht
    simp only [List.cons_append, List.cons.injEq] at ht
    rw [← h2, ← h4, ht.1]
  match d, d', h, h', hk with
  | .null, .null, _, _, _ => exact ⟨rfl, by simpa using ht⟩
  | .true, .true, _, _, _ => exact ⟨rfl, by simpa using ht⟩
  | .false, .false, _, _, _ => exact ⟨rfl, by simpa using ht⟩
  | .num l, .num l', h, h', _ =>
    obtain ⟨rfl, h2⟩ := num_unique h h' hr hr' ht
    exact ⟨rfl, h2⟩
  | .str s, .str s', h, h', _ =>
    simp only [JDoc.text, List.cons_append, List.append_assoc, List.nil_append, List.cons.injEq, true_and] at ht
    obtain ⟨rfl, h2⟩ := chars_unique h h' ht
    exact ⟨rfl, h2⟩
  | .arr0 ws, .arr0 ws', h, h', _ =>
    simp only [JDoc.text, List.cons_append, List.append_assoc, List.nil_append, List.cons.injEq, true_and] at ht
    obtain ⟨rfl, h2⟩ := ws_unique h.1 h'.1 (head_not (not_ws_of _ (by simp))) (head_not (not_ws_of _ (by simp))) ht
    exact ⟨rfl, (List.cons.inj h2).2⟩
  | .obj0 ws, .obj0 ws', h, h', _ =>
    simp only [JDoc.text, List.cons_append, List.append_assoc, List.nil_append, List.cons.injEq, true_and] at ht
    obtain ⟨rfl, h2⟩ := ws_unique h.1 h'.1 (head_not (not_ws_of _ (by simp))) (head_not (not_ws_of _ (by simp))) ht
    exact ⟨rfl, (List.cons.inj h2).2⟩
  | .arr l, .arr l', h, h', _ =>
    simp only [JDoc.text, List.cons_append, List.append_assoc, List.nil_append, List.cons.injEq, true_and] at ht
    obtain ⟨rfl, h2⟩ := items_unique l l' h h' ht
    exact ⟨rfl, h2⟩
  | .obj l, .obj l', h, h', _ =>
    simp only [JDoc.text, List.cons_append, List.append_assoc, List.nil_append, List.cons.injEq, true_and] at ht
    obtain ⟨rfl, h2⟩ := members_unique l l' h h' ht
    exact ⟨rfl, h2⟩
  | .arr0 ws, .arr l, h, h', _ =>
    simp only [JDoc.text, List.cons_append, List.append_assoc, List.nil_append, List.cons.injEq, true_and] at ht
    exact absurd ht (items_not_ws h.1 h' _ _)
  | .arr l, .arr0 ws, h, h', _ =>
    simp only [JDoc.text, List.cons_append, List.append_assoc, List.nil_append, List.cons.injEq, true_and] at ht
    exact absurd ht.symm (items_not_ws h'.1 h _ _)
  | .obj0 ws, .obj l, h, h', _ =>
    simp only [JDoc.text, List.cons_append, List.append_assoc, List.nil_append, List.cons.injEq, true_and] at ht
    exact absurd ht (members_not_ws h.1 h' _ _)
  | .obj l, .obj0 ws, h, h', _ =>
    simp only [JDoc.text, List.cons_append, List.append_assoc, List.nil_append, List.cons.injEq, true_and] at ht
    exact absurd ht.symm (members_not_ws h'.1 h _ _)
termination_by d => sizeOf d
theorem pad_unique : ∀ (p p' : JPad), p.Ok anyRules → p'.Ok anyRules → ∀ {r r' : List Char}, Ends r → Ends r' →
    p.text ++ r = p'.text ++ r' → p = p' ∧ r = r' := by
  intro p p' h h' r r' hr hr' ht
  match p, p', h, h' with
  | .mk a v b, .mk a' v' b', h, h' =>
    simp only [JPad.text, List.append_assoc] at ht
    obtain ⟨c, y, h1, h2, _⟩ := doc_first h.2.1 (b ++ r)
    obtain ⟨c', y', h3, h4, _⟩ := doc_first h'.2.1 (b' ++ r')
    obtain ⟨rfl, h5⟩ := ws_unique h.1 h'.1 (by rw [h1]; exact head_not h2) (by rw [h3]; exact head_not h4) ht
    obtain ⟨rfl, h6⟩ := doc_unique v v' h.2.1 h'.2.1 (ws_stops h.2.2 hr) (ws_stops h'.2.2 hr') h5
    obtain ⟨rfl, h7⟩ := ws_unique h.2.2 h'.2.2 (fun c hc => (hr c hc).1) (fun c hc => (hr' c hc).1) h6
    exact ⟨rfl, h7⟩
termination_by p => sizeOf p
theorem items_unique : ∀ (l l' : JItems), l.Ok anyRules → l'.Ok anyRules → ∀ {r r' : List Char},
    l.text ++ ']' :: r = l'.text ++ ']' :: r' → l = l' ∧ r = r' := by
  intro l l' h h' r r' ht
  match l, l', h, h' with
  | .one v, .one v', h, h' =>
    obtain ⟨rfl, h1⟩ := pad_unique v v' h h' (ends_of _ (by simp) _) (ends_of _ (by simp) _) ht
    exact ⟨rfl, (List.cons.inj h1).2⟩
  | .one v, .cons v' l', h, h' =>
    simp only [JItems.text, List.append_assoc, List.cons_append] at ht
    have := (pad_unique v v' h h'.1 (ends_of _ (by simp) _) (ends_of _ (by simp) _) ht).2
    exact absurd (List.cons.inj this).1 (by decide)
  | .cons v l, .one v', h, h' =>
    simp only [JItems.text, List.append_assoc, List.cons_append] at ht
    have := (pad_unique v v' h.1 h' (ends_of _ (by simp) _) (ends_of _ (by simp) _) ht).2
    exact absurd (List.cons.inj this).1 (by decide)
  | .cons v l, .cons v' l', h, h' =>
    simp only [JItems.text, List.append_assoc, List.cons_append] at ht
    obtain ⟨rfl, h1⟩ := pad_unique v v' h.1 h'.1 (ends_of _ (by simp) _) (ends_of _ (by simp) _) ht
    obtain ⟨rfl, h2⟩ := items_unique l l' h.2 h'.2 (List.cons.inj h1).2
    exact ⟨rfl, h2⟩
termination_by l => sizeOf l
theorem members_unique : ∀ (l l' : JMembers), l.Ok anyRules → l'.Ok anyRules → ∀ {r r' : List Char},
    l.text ++ '}' :: r = l'.text ++ '}' :: r' → l = l' ∧ r = r' := by
  intro l l' h h' r r' ht
  have key : ∀ {a a' : List Char} {k k' : List JChar} {b b' x x' : List Char}, IsWs a → IsWs a' → (∀ c ∈ k, c.Ok) → (∀ c ∈ k', c.Ok) →
      IsWs b → IsWs b' → a ++ '"' :: (JChar.textL k ++ '"' :: (b ++ ':' :: x)) = a' ++ '"' :: (JChar.textL k' ++ '"' :: (b' ++ ':' :: x')) →
      a = a' ∧ k = k' ∧ b = b' ∧ x = x' := by
    intro a a' k k' b b' x x' h1 h2 h3 h4 h5 h6 h7
    obtain ⟨rfl, h8⟩ := ws_unique h1 h2 (head_not (not_ws_of _ (by simp))) (head_not (not_ws_of _ (by simp))) h7
    obtain ⟨rfl, h9⟩ := chars_unique h3 h4 (List.cons.inj h8).2
    obtain ⟨rfl, h10⟩ := ws_unique h5 h6 (head_not (not_ws_of _ (by simp))) (head_not (not_ws_of _ (by simp))) h9
    exact ⟨rfl, rfl, rfl, (List.cons.inj h10).2⟩
  match l, l', h, h' with
  | .one a k b v, .one a' k' b' v', h, h' =>
    simp only [JMembers.text, List.append_assoc, List.cons_append] at ht
    obtain ⟨rfl, rfl, rfl, h1⟩ := key h.1 h'.1 h.2.1 h'.2.1 h.2.2.1 h'.2.2.1 ht
    obtain ⟨rfl, h3⟩ := pad_unique v v' h.2.2.2 h'.2.2.2 (ends_of _ (by simp) _) (ends_of _ (by simp) _) h1
    exact ⟨rfl, (List.cons.inj h3).2⟩
  | .one a k b v, .cons a' k' b' v' l', h, h' =>
    simp only [JMembers.text, List.append_assoc, List.cons_append] at ht
    obtain ⟨rfl, rfl, rfl, h1⟩ := key h.1 h'.1 h.2.1 h'.2.1 h.2.2.1 h'.2.2.1 ht
    have := (pad_unique v v' h.2.2.2 h'.2.2.2.1 (ends_of _ (by simp) _) (ends_of _ (by simp) _) h1).2
    exact absurd (List.cons.inj this).1 (by decide)
  | .cons a k b v l, .one a' k' b' v', h, h' =>
    simp only [JMembers.text, List.append_assoc, List.cons_append] at ht
    obtain ⟨rfl, rfl, rfl, h1⟩ := key h.1 h'.1 h.2.1 h'.2.1 h.2.2.1 h'.2.2.1 ht
    have := (pad_unique v v' h.2.2.2.1 h'.2.2.2 (ends_of _ (by simp) _) (ends_of _ (by simp) _) h1).2
    exact absurd (List.cons.inj this).1 (by decide)
  | .cons a k b v l, .cons a' k' b' v' l', h, h' =>
    simp only [JMembers.text, List.append_assoc, List.cons_append] at ht
    obtain ⟨rfl, rfl, rfl, h1⟩ := key h.1 h'.1 h.2.1 h'.2.1 h.2.2.1 h'.2.2.1 ht
    obtain ⟨rfl, h3⟩ := pad_unique v v' h.2.2.2.1 h'.2.2.2.1 (ends_of _ (by simp) _) (ends_of _ (by simp) _) h1
    obtain ⟨rfl, h2⟩ := members_unique l l' h.2.2.2.2 h'.2.2.2.2 (List.cons.inj h3).2
    exact ⟨rfl, h2⟩
termination_by l => sizeOf l
end

end Chomp
