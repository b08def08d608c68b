import Verif.Lower.RustLemmas

/-!
# Values of the emitted types: their texts, characters and trees
-/

namespace Chomp

/-! ## Texts and characters -/

/-- What every emitted item looks like. -/
def RItem.Shaped : RItem → Prop
  | .unit _ text consume c => text = consume ∧ c = (match consume with | [c] => some c | _ => none)
  | .named _ fields shown _ _ => shown = fields.map (·.1) ∧ (fields.map (·.1)).Nodup
  | .tuple _ fields shown _ _ => shown = List.range fields.length
  | .enum _ variants shown _ _ chars => shown = variants.map (·.1) ∧ (variants.map (·.1)).Nodup ∧
      ∀ xs, chars = some xs → xs = variants.map (·.1)
  | .alias _ _ => True

theorem RProg.find_mem {p : RProg} {x : String} {it : RItem} (h : p.find x = some it) : it ∈ p := List.mem_of_find?_eq_some h

theorem RProg.find_name {p : RProg} {x : String} {it : RItem} (h : p.find x = some it) : it.name = x := by
  have := List.find?_some h
  simpa using this

theorem RVal.HasTypeN.fst {p : RProg} : ∀ {l : List (String × RTy)} {vs : List (String × RVal)}, RVal.HasTypeN p l vs →
    vs.map (·.1) = l.map (·.1)
  | _, _, .nil => rfl
  | _, _, .cons _ _ _ _ _ _ h => by simp [h.fst]

/-- Displaying all fields in order. -/
theorem fmtShown_range : ∀ (l : List (List Char)) (pre : List (Option (List Char))),
    fmtShown (fun i => (pre ++ l.map some)[i]?) (List.range' pre.length l.length) = some l.flatten
  | [], pre => rfl
  | t :: l, pre => by
    have ih := fmtShown_range l (pre ++ [some t])
    simp only [List.length_append, List.length_singleton, List.append_assoc, List.singleton_append] at ih
    simp only [List.length_cons, List.range'_succ, fmtShown, List.map_cons, List.getElem?_append_right (Nat.le_refl _),
      Nat.sub_self, List.getElem?_cons_zero, Option.bind_some, ih, Option.map_some, List.flatten_cons]

theorem fmtShown_congr {α : Type} {f g : α → Option (Option (List Char))} : ∀ {l : List α}, (∀ x ∈ l, f x = g x) →
    fmtShown f l = fmtShown g l
  | [], _ => rfl
  | x :: l, h => by
    simp only [fmtShown, h x (by simp), fmtShown_congr (l := l) fun y hy => h y (by simp [hy])]

theorem fmtShown_names : ∀ {l : List (String × Option (List Char))} {ts : List (List Char)}, (l.map (·.1)).Nodup →
    l.map (·.2) = ts.map some → fmtShown (fun x => l.lookup x) (l.map (·.1)) = some ts.flatten
  | [], [], _, _ => rfl
  | (x, t) :: l, t' :: ts, hn, h => by
    simp only [List.map_cons, List.cons.injEq] at h
    obtain ⟨rfl, h⟩ := h
    simp only [List.map_cons, List.nodup_cons] at hn
    have ih := fmtShown_names hn.2 h
    simp only [List.map_cons, fmtShown, List.lookup, beq_self_eq_true, Option.bind_some, List.flatten_cons]
    rw [fmtShown_congr (g := fun y => l.lookup y), ih]
    · rfl
    · intro y hy
      have : y ≠ x := by rintro rfl; exact hn.1 hy
      rw [show (y == x) = false by simpa using this]

theorem Tree.displayL_flatten : ∀ l : List Tree, Tree.displayL l = (l.map Tree.display).flatten
  | [] => rfl
  | t :: l => by simp only [Tree.displayL, List.map_cons, List.flatten_cons, Tree.displayL_flatten l]

theorem RVal.treeT_length (p : RProg) : ∀ vs : List RVal, vs.length = (RVal.treeT p vs).length
  | [] => rfl
  | v :: vs => by simp only [RVal.treeT, List.length_cons, ← RVal.treeT_length p vs]

mutual
/-- The text of a value is that of its tree. -/
theorem RVal.HasType.fmt {p : RProg} (hp : ∀ it ∈ p, it.Shaped) : ∀ {t : RTy} {v : RVal}, v.HasType p t →
    v.fmt p = some (v.tree p).display
  | _, _, .epsilon _ => rfl
  | _, _, .unit x s s' c h => by
    have := hp _ (RProg.find_mem h)
    simp only [RVal.fmt, RVal.tree, h, Tree.display, this.1]
  | _, _, .struct x fields shown lets build vs h hv => by
    obtain ⟨rfl, hn⟩ := hp _ (RProg.find_mem h)
    obtain ⟨h1, h2⟩ := RVal.HasTypeN.fmt hp hv
    simp only [RVal.fmt, RVal.tree, h, Tree.display]
    rw [← hv.fst] at hn ⊢
    rw [← h1] at hn ⊢
    rw [fmtShown_names hn (ts := (RVal.treeN p vs).map Tree.display) (by rw [h2]; simp), Tree.displayL_flatten]
  | _, _, .tuple x fields shown lets build vs h hv => by
    have hs : shown = List.range fields.length := hp _ (RProg.find_mem h)
    subst hs
    have h2 := RVal.HasTypeT.fmt hp hv
    simp only [RVal.fmt, RVal.tree, h, Tree.display, h2]
    have := fmtShown_range ((RVal.treeT p vs).map Tree.display) []
    simp only [List.nil_append, List.length_nil, ← List.range_eq_range'] at this
    rw [Tree.displayL_flatten, ← this, hv.length]
    rw [List.map_map, List.length_map]
    congr 2
    exact RVal.treeT_length p vs
  | _, _, .variant x variants shown arms other chars y t v h hy hv => by
    obtain ⟨rfl, -, -⟩ := hp _ (RProg.find_mem h)
    have hm : y ∈ variants.map (·.1) := List.mem_map.2 ⟨(y, t), lookup_mem hy, rfl⟩
    simp only [RVal.fmt, RVal.tree, h, Tree.display, if_pos hm]
    exact hv.fmt hp
  | _, _, .alias x t v h hv => hv.fmt hp
  | _, _, .boxed t v hv => by
    simp only [RVal.fmt, RVal.tree, Tree.display]
    exact hv.fmt hp
theorem RVal.HasTypeN.fmt {p : RProg} (hp : ∀ it ∈ p, it.Shaped) : ∀ {l : List (String × RTy)} {vs : List (String × RVal)},
    RVal.HasTypeN p l vs → (RVal.fmtN p vs).map (·.1) = vs.map (·.1) ∧
      (RVal.fmtN p vs).map (·.2) = (RVal.treeN p vs).map fun t => some t.display
  | _, _, .nil => ⟨rfl, rfl⟩
  | _, _, .cons f t v l vs h hl => by
    have h1 := h.fmt hp
    obtain ⟨h2, h3⟩ := RVal.HasTypeN.fmt hp hl
    simp only [RVal.fmtN, RVal.treeN, List.map_cons, h1, h2, h3, and_self]
theorem RVal.HasTypeT.fmt {p : RProg} (hp : ∀ it ∈ p, it.Shaped) : ∀ {l : List RTy} {vs : List RVal},
    RVal.HasTypeT p l vs → RVal.fmtT p vs = (RVal.treeT p vs).map fun t => some t.display
  | _, _, .nil => rfl
  | _, _, .cons t v l vs h hl => by
    have h1 := h.fmt hp
    have h3 := RVal.HasTypeT.fmt hp hl
    simp only [RVal.fmtT, RVal.treeT, List.map_cons, h1, h3]
end

/-- Where there is a conversion to `char`, a value converts to the one character of its text. -/
theorem RVal.HasType.toChar {p : RProg} (hp : ∀ it ∈ p, it.Shaped) (hb : ∀ it ∈ p, it.BodyOk p) : ∀ {t : RTy} {v : RVal},
    v.HasType p t → t.HasChar p → ∃ c, v.toChar p = some c ∧ v.fmt p = some [c]
  | _, _, .epsilon h, hc => by
    cases hc with
    | unit x s s' c h' => rw [h] at h'; cases h'
    | enum x vs sh ar ot ch h' => rw [h] at h'; cases h'
    | alias x t h' => rw [h] at h'; cases h'
  | _, _, .unit x s s' c h, hc => by
    cases hc with
    | unit _ s2 s3 c2 h' =>
      rw [h] at h'
      cases h'
      obtain ⟨rfl, h2⟩ := hp _ (RProg.find_mem h)
      refine ⟨c2, by simp only [RVal.toChar, h], ?_⟩
      simp only [RVal.fmt, h]
      split at h2 <;> cases h2
      rfl
    | enum _ vs sh ar ot ch h' => rw [h] at h'; cases h'
    | alias _ t h' => rw [h] at h'; cases h'
  | _, _, .struct x fields shown lets build vs h hv, hc => by
    cases hc with
    | unit _ _ _ _ h' => rw [h] at h'; cases h'
    | enum _ _ _ _ _ _ h' => rw [h] at h'; cases h'
    | alias _ _ h' => rw [h] at h'; cases h'
  | _, _, .tuple x fields shown lets build vs h hv, hc => by
    cases hc with
    | unit _ _ _ _ h' => rw [h] at h'; cases h'
    | enum _ _ _ _ _ _ h' => rw [h] at h'; cases h'
    | alias _ _ h' => rw [h] at h'; cases h'
  | _, _, .variant x variants shown arms other chars y t v h hy hv, hc => by
    have ih := hv.toChar hp hb
    cases hc with
    | unit _ _ _ _ h' => rw [h] at h'; cases h'
    | alias _ _ h' => rw [h] at h'; cases h'
    | enum _ _ _ _ _ xs h' =>
      rw [h] at h'
      cases h'
      have hm : y ∈ variants.map (·.1) := List.mem_map.2 ⟨(y, t), lookup_mem hy, rfl⟩
      have hm2 : t ∈ variants.map (·.2) := List.mem_map.2 ⟨(y, t), lookup_mem hy, rfl⟩
      obtain ⟨rfl, -, hx⟩ := hp _ (RProg.find_mem h)
      obtain ⟨c, h1, h2⟩ := ih (((hb _ (RProg.find_mem h)).2.2.2.2 xs rfl).2 t hm2)
      have hx' := hx xs rfl
      subst hx'
      exact ⟨c, by simp only [RVal.toChar, h, if_pos hm, h1], by simp only [RVal.fmt, h, if_pos hm, h2]⟩
  | _, _, .alias x t v h hv, hc => by
    cases hc with
    | unit _ _ _ _ h' => rw [h] at h'; cases h'
    | enum _ _ _ _ _ _ h' => rw [h] at h'; cases h'
    | alias _ _ h' hc' => rw [h] at h'; cases h'; exact hv.toChar hp hb hc'
  | _, _, .boxed t v hv, hc => by cases hc

/-! ## Trees -/

theorem findIdx_eq_some {α : Type} {q : α → Bool} : ∀ {l : List α} {k : Nat}, findIdx q l = some k → ∃ a, l[k]? = some a ∧ q a = true
  | x :: l, k, h => by
    simp only [findIdx] at h
    split at h
    · cases h; exact ⟨x, rfl, by assumption⟩
    · rw [Option.map_eq_some_iff] at h
      obtain ⟨j, hj, rfl⟩ := h
      obtain ⟨a, h1, h2⟩ := findIdx_eq_some hj
      exact ⟨a, by simpa using h1, h2⟩

theorem lookup_findIdx {β : Type} : ∀ {l : List (String × β)} {y : String} {t : β}, l.lookup y = some t →
    ∃ k, findIdx (fun b : String × β => b.1 == y) l = some k ∧ l[k]? = some (y, t)
  | (x, u) :: l, y, t, h => by
    simp only [List.lookup] at h
    by_cases hxy : y = x
    · subst hxy
      rw [beq_self_eq_true] at h
      cases h
      exact ⟨0, by simp [findIdx], rfl⟩
    · rw [show (y == x) = false by simpa using hxy] at h
      obtain ⟨k, h1, h2⟩ := lookup_findIdx h
      refine ⟨k + 1, ?_, by simpa using h2⟩
      have hx : (x == y) = false := by simpa using fun h : x = y => hxy h.symm
      simp [findIdx, hx, h1]

mutual
/-- A value of a type is determined by its tree. -/
theorem RVal.HasType.tree_inj {p : RProg} : ∀ {t : RTy} {v : RVal}, v.HasType p t → ∀ {v' : RVal}, v'.HasType p t → v.tree p = v'.tree p → v = v'
  | _, _, .epsilon h, v', h2, ht => by
    cases h2 with
    | epsilon => rfl
    | unit _ _ _ _ h' => rw [h] at h'; cases h'
    | struct _ _ _ _ _ _ h' => rw [h] at h'; cases h'
    | tuple _ _ _ _ _ _ h' => rw [h] at h'; cases h'
    | variant _ _ _ _ _ _ _ _ _ h' => rw [h] at h'; cases h'
    | alias _ _ _ h' => rw [h] at h'; cases h'
  | _, _, .unit x s s' c h, v', h2, ht => by
    cases h2 with
    | epsilon h' => rw [h] at h'; cases h'
    | unit _ _ _ _ h' => rfl
    | struct _ _ _ _ _ _ h' => rw [h] at h'; cases h'
    | tuple _ _ _ _ _ _ h' => rw [h] at h'; cases h'
    | variant _ _ _ _ _ _ _ _ _ h' => rw [h] at h'; cases h'
    | alias _ _ _ h' => rw [h] at h'; cases h'
  | _, _, .struct x fields shown lets build vs h hv, v', h2, ht => by
    have ih := @RVal.HasTypeN.tree_inj p fields vs hv
    cases h2 with
    | epsilon h' => rw [h] at h'; cases h'
    | unit _ _ _ _ h' => rw [h] at h'; cases h'
    | struct _ _ _ _ _ vs' h' hv' =>
      rw [h] at h'
      cases h'
      simp only [RVal.tree, Tree.cat.injEq] at ht
      rw [ih hv' ht]
    | tuple _ _ _ _ _ _ h' => rw [h] at h'; cases h'
    | variant _ _ _ _ _ _ _ _ _ h' => rw [h] at h'; cases h'
    | alias _ _ _ h' => rw [h] at h'; cases h'
  | _, _, .tuple x fields shown lets build vs h hv, v', h2, ht => by
    have ih := @RVal.HasTypeT.tree_inj p fields vs hv
    cases h2 with
    | epsilon h' => rw [h] at h'; cases h'
    | unit _ _ _ _ h' => rw [h] at h'; cases h'
    | struct _ _ _ _ _ _ h' => rw [h] at h'; cases h'
    | tuple _ _ _ _ _ vs' h' hv' =>
      rw [h] at h'
      cases h'
      simp only [RVal.tree, Tree.cat.injEq] at ht
      rw [ih hv' ht]
    | variant _ _ _ _ _ _ _ _ _ h' => rw [h] at h'; cases h'
    | alias _ _ _ h' => rw [h] at h'; cases h'
  | _, _, .variant x variants shown arms other chars y t v h hy hv, v', h2, ht => by
    have ih := @RVal.HasType.tree_inj p t v hv
    cases h2 with
    | epsilon h' => rw [h] at h'; cases h'
    | unit _ _ _ _ h' => rw [h] at h'; cases h'
    | struct _ _ _ _ _ _ h' => rw [h] at h'; cases h'
    | tuple _ _ _ _ _ _ h' => rw [h] at h'; cases h'
    | variant _ _ _ _ _ _ y' t' v' h' hy' hv' =>
      rw [h] at h'
      cases h'
      obtain ⟨k, h3, h4⟩ := lookup_findIdx hy
      obtain ⟨k', h5, h6⟩ := lookup_findIdx hy'
      simp only [RVal.tree, h, h3, h5, Option.getD_some, Tree.alt.injEq] at ht
      obtain ⟨rfl, ht⟩ := ht
      rw [h4] at h6
      cases h6
      rw [ih hv' ht]
    | alias _ _ _ h' => rw [h] at h'; cases h'
  | _, _, .alias x t v h hv, v', h2, ht => by
    have ih := @RVal.HasType.tree_inj p t v hv
    cases h2 with
    | epsilon h' => rw [h] at h'; cases h'
    | unit _ _ _ _ h' => rw [h] at h'; cases h'
    | struct _ _ _ _ _ _ h' => rw [h] at h'; cases h'
    | tuple _ _ _ _ _ _ h' => rw [h] at h'; cases h'
    | variant _ _ _ _ _ _ _ _ _ h' => rw [h] at h'; cases h'
    | alias _ _ _ h' hv' => rw [h] at h'; cases h'; exact ih hv' ht
  | _, _, .boxed t v hv, v', h2, ht => by
    have ih := @RVal.HasType.tree_inj p t v hv
    cases h2 with
    | boxed _ v' hv' =>
      simp only [RVal.tree, Tree.box.injEq] at ht
      rw [ih hv' ht]
theorem RVal.HasTypeN.tree_inj {p : RProg} : ∀ {l : List (String × RTy)} {vs : List (String × RVal)}, RVal.HasTypeN p l vs →
    ∀ {vs' : List (String × RVal)}, RVal.HasTypeN p l vs' → RVal.treeN p vs = RVal.treeN p vs' → vs = vs'
  | _, _, .nil, _, .nil, _ => rfl
  | _, _, .cons f t v l vs h hl, _, .cons _ _ v' _ vs' h' hl', ht => by
    simp only [RVal.treeN, List.cons.injEq] at ht
    rw [h.tree_inj h' ht.1, hl.tree_inj hl' ht.2]
theorem RVal.HasTypeT.tree_inj {p : RProg} : ∀ {l : List RTy} {vs : List RVal}, RVal.HasTypeT p l vs →
    ∀ {vs' : List RVal}, RVal.HasTypeT p l vs' → RVal.treeT p vs = RVal.treeT p vs' → vs = vs'
  | _, _, .nil, _, .nil, _ => rfl
  | _, _, .cons t v l vs h hl, _, .cons _ v' _ vs' h' hl', ht => by
    simp only [RVal.treeT, List.cons.injEq] at ht
    rw [h.tree_inj h' ht.1, hl.tree_inj hl' ht.2]
end

/-! ## Values of the table -/

theorem step_entry {s : BState} {i : Nat} {nd : NodeF Nat} (hs : s.step i = nd) (hb : nd ≠ .bad) :
    ∃ e : Entry, s.data[i]? = some e ∧ e.node = nd := by
  cases he : s.data[i]? with
  | none => simp only [BState.step, he] at hs; exact absurd hs.symm hb
  | some e => exact ⟨e, rfl, by rw [← step_eq he]; exact hs⟩

/-- An entry is `Epsilon`, a `Box`, or has an item. -/
theorem Emitted.kind {s : BState} {p : RProg} (h : Emitted s p) {i : Nat} {e : Entry} (he : s.data[i]? = some e) :
    (e.node = .eps ∧ s.rty i = .path "Epsilon") ∨ (∃ f, e.node = .box f ∧ s.rty i = .boxed (s.rty f)) ∨
      ∃ it, s.item e = some it ∧ p.find e.name = some it ∧ s.rty i = .path e.name := by
  cases hnd : e.node with
  | bad => exact absurd hnd (h.bad i e he)
  | eps =>
    have hr := BState.rty_eq he (by simp [hnd])
    rw [h.epsName i e he hnd] at hr
    exact .inl ⟨rfl, hr⟩
  | box f => exact .inr (.inl ⟨f, rfl, h.box i e f he hnd⟩)
  | lit str => exact .inr (.inr ⟨_, by rw [BState.item, hnd], h.item i e _ he (by rw [BState.item, hnd]), BState.rty_eq he (by simp [hnd])⟩)
  | alt tys ids => exact .inr (.inr ⟨_, by rw [BState.item, hnd], h.item i e _ he (by rw [BState.item, hnd]), BState.rty_eq he (by simp [hnd])⟩)
  | alias j => exact .inr (.inr ⟨_, by rw [BState.item, hnd], h.item i e _ he (by rw [BState.item, hnd]), BState.rty_eq he (by simp [hnd])⟩)
  | cat ids =>
    obtain ⟨it, hit⟩ : ∃ it, s.item e = some it := by
      simp only [BState.item, hnd]
      split <;> exact ⟨_, rfl⟩
    exact .inr (.inr ⟨it, hit, h.item i e _ he hit, BState.rty_eq he (by simp [hnd])⟩)

mutual
/-- Every value of the table is the tree of a value of the emitted type. -/
theorem Emitted.value_of {s : BState} {p : RProg} (h : Emitted s p)
    (hbx : ∀ (j : Nat) (e : Entry) (f : Nat), s.data[j]? = some e → e.node = .box f → f < s.data.length) : ∀ {i : Nat} {t : Tree},
    Value s.step i t → ∃ v, RVal.Stands p (s.rty i) v t
  | i, _, .eps _ hs => by
    obtain ⟨e, he, hnd⟩ := step_entry hs (by simp)
    have hr := BState.rty_eq he (by simp [hnd])
    rw [h.epsName i e he hnd] at hr
    exact ⟨.epsilon, by rw [hr]; exact .epsilon h.noEps, rfl⟩
  | i, _, .lit _ str hs => by
    obtain ⟨e, he, hnd⟩ := step_entry hs (by simp)
    have hr := BState.rty_eq he (by simp [hnd])
    have hf := h.item i e _ he (by rw [BState.item, hnd])
    exact ⟨.unit e.name, by rw [hr]; exact .unit _ _ _ _ hf, by simp only [RVal.tree, hf]⟩
  | i, _, .alias _ j t hs hv => by
    obtain ⟨e, he, hnd⟩ := step_entry hs (by simp)
    have hr := BState.rty_eq he (by simp [hnd])
    have hf := h.item i e _ he (by rw [BState.item, hnd])
    obtain ⟨v, h1, h2⟩ := h.value_of hbx hv
    exact ⟨v, by rw [hr]; exact .alias _ _ _ hf h1, h2⟩
  | i, _, .box _ f t hs hv => by
    obtain ⟨e, he, hnd⟩ := step_entry hs (by simp)
    obtain ⟨v, h1, h2⟩ := h.value_of hbx hv
    exact ⟨.boxed v, by rw [h.box i e f he hnd]; exact .boxed _ _ h1, by simp only [RVal.tree, h2]⟩
  | i, _, .cat _ ids ts hs hv => by
    obtain ⟨e, he, hnd⟩ := step_entry hs (by simp)
    have hr := BState.rty_eq he (by simp [hnd])
    obtain ⟨vs, h1, h2⟩ := h.valueL_of hbx hv
    have hlen := h1.length
    rw [List.length_map] at hlen
    cases hemp : e.fields.isEmpty with
    | true =>
      have hf := h.item i e _ he (by simp only [BState.item, hnd, hemp, if_true]; rfl)
      exact ⟨.tuple e.name vs, by rw [hr]; exact .tuple _ _ _ _ _ _ hf h1, by simp only [RVal.tree, h2]⟩
    | false =>
      have hf := h.item i e _ he (by simp only [BState.item, hnd, hemp, Bool.false_eq_true, if_false]; rfl)
      obtain ⟨hfl, hfn⟩ := h.cat i e ids he hnd (by rintro h0; rw [h0] at hemp; cases hemp)
      refine ⟨.struct e.name (e.fields.zip vs), by rw [hr]; exact .struct _ _ _ _ _ _ hf (h1.zip (by simp; omega)), ?_⟩
      simp only [RVal.tree]
      rw [RVal.treeN_zip p (by omega), h2]
  | i, _, .alt _ tys ids k a t hs ha hv => by
    obtain ⟨e, he, hnd⟩ := step_entry hs (by simp)
    have hr := BState.rty_eq he (by simp [hnd])
    have hf := h.item i e _ he (by rw [BState.item, hnd])
    obtain ⟨hfl, htl, hfn⟩ := h.alt i e tys ids he hnd
    obtain ⟨v, h1, h2⟩ := h.value_of hbx hv
    obtain ⟨x, hx⟩ := get_of_length (m := e.fields) hfl.symm ha
    have hlk : (e.fields.zip (ids.map s.rty)).lookup x = some (s.rty a) := zip_lookup hfn hx (ids_rty_get ha)
    have hidx : findIdx (fun y : String × RTy => y.1 == x) (e.fields.zip (ids.map s.rty)) = some k :=
      findIdx_unique (a := (x, s.rty a)) (List.getElem?_zip_eq_some.2 ⟨hx, ids_rty_get (s := s) ha⟩) (by simp) fun j b hj hb => by
        have hb' : b.1 = x := by simpa using hb
        rw [List.getElem?_zip_eq_some, hb'] at hj
        exact nodup_get_inj hfn hj.1 hx
    exact ⟨.variant e.name x v, by rw [hr]; exact .variant _ _ _ _ _ _ _ _ _ hf hlk h1,
      by simp only [RVal.tree, hf, hidx, h2, Option.getD_some]⟩
theorem Emitted.valueL_of {s : BState} {p : RProg} (h : Emitted s p)
    (hbx : ∀ (j : Nat) (e : Entry) (f : Nat), s.data[j]? = some e → e.node = .box f → f < s.data.length) : ∀ {ids : List Nat}
    {ts : List Tree}, ValueL s.step ids ts → ∃ vs, RVal.HasTypeT p (ids.map s.rty) vs ∧ RVal.treeT p vs = ts
  | _, _, .nil => ⟨[], .nil, rfl⟩
  | _, _, .cons a l t ts h1 h2 => by
    obtain ⟨v, h3, h4⟩ := h.value_of hbx h1
    obtain ⟨vs, h5, h6⟩ := h.valueL_of hbx h2
    exact ⟨v :: vs, .cons _ _ _ _ h3 h5, by simp only [RVal.treeT, h4, h6]⟩
end

mutual
/-- The tree of every value of an emitted type is a value of the table. -/
theorem Emitted.to_value {s : BState} {p : RProg} (h : Emitted s p)
    (hlt : ∀ (j : Nat) (e : Entry), s.data[j]? = some e → ∀ d ∈ e.node.subs, d < s.data.length)
    (hbx : ∀ (j : Nat) (e : Entry) (f : Nat), s.data[j]? = some e → e.node = .box f → f < s.data.length) : ∀ {ty : RTy} {v : RVal},
    v.HasType p ty → ∀ i, i < s.data.length → ty = s.rty i → Value s.step i (v.tree p)
  | _, _, .epsilon hE, i, hi, hty => by
    obtain ⟨e, he⟩ : ∃ e, s.data[i]? = some e := ⟨_, List.getElem?_eq_getElem hi⟩
    rcases h.kind he with ⟨hnd, hr⟩ | ⟨f, hnd, hr⟩ | ⟨it, hit, hf, hr⟩
    · exact .eps _ (by rw [step_eq he, hnd])
    · rw [hr] at hty; cases hty
    · rw [hr] at hty; simp only [RTy.path.injEq] at hty; rw [← hty, hE] at hf; cases hf
  | _, _, .unit x s1 s2 c hx, i, hi, hty => by
    obtain ⟨e, he⟩ : ∃ e, s.data[i]? = some e := ⟨_, List.getElem?_eq_getElem hi⟩
    rcases h.kind he with ⟨hnd, hr⟩ | ⟨f, hnd, hr⟩ | ⟨it, hit, hf, hr⟩
    · rw [hr] at hty; cases hty; rw [h.noEps] at hx; cases hx
    · rw [hr] at hty; cases hty
    · rw [hr] at hty; cases hty; rw [hx] at hf; cases hf
      have hnd : e.node = .lit s2 := by
        unfold BState.item at hit
        split at hit <;> try cases hit
        · assumption
        · dsimp only at hit; split at hit <;> cases hit
      simp only [RVal.tree, hx]
      exact .lit _ _ (by rw [step_eq he, hnd])
  | _, _, .struct x fields shown lets build vs hx hv, i, hi, hty => by
    have ih := @Emitted.to_valueN s p h hlt hbx fields vs hv
    obtain ⟨e, he⟩ : ∃ e, s.data[i]? = some e := ⟨_, List.getElem?_eq_getElem hi⟩
    rcases h.kind he with ⟨hnd, hr⟩ | ⟨f, hnd, hr⟩ | ⟨it, hit, hf, hr⟩
    · rw [hr] at hty; cases hty; rw [h.noEps] at hx; cases hx
    · rw [hr] at hty; cases hty
    · rw [hr] at hty; cases hty; rw [hx] at hf; cases hf
      have hnd : ∃ ids, e.node = .cat ids ∧ e.fields ≠ [] ∧ fields = e.fields.zip (ids.map s.rty) := by
        unfold BState.item at hit
        split at hit <;> try cases hit
        dsimp only at hit
        split at hit
        · cases hit
        · rename_i ids hnd hne
          cases hit
          exact ⟨ids, hnd, by rintro h0; exact hne (by simp [h0]), rfl⟩
      obtain ⟨ids, hnd, hne, rfl⟩ := hnd
      obtain ⟨hfl, hfn⟩ := h.cat i e ids he hnd hne
      simp only [RVal.tree]
      refine .cat _ _ _ (by rw [step_eq he, hnd]) (ih ids ?_ ?_)
      · intro d hd
        exact hlt i e he d (by simpa [hnd, NodeF.subs] using hd)
      · rw [show (fun x : String × RTy => x.2) = Prod.snd from rfl, List.map_snd_zip (by simp; omega)]
  | _, _, .tuple x fields shown lets build vs hx hv, i, hi, hty => by
    have ih := @Emitted.to_valueT s p h hlt hbx fields vs hv
    obtain ⟨e, he⟩ : ∃ e, s.data[i]? = some e := ⟨_, List.getElem?_eq_getElem hi⟩
    rcases h.kind he with ⟨hnd, hr⟩ | ⟨f, hnd, hr⟩ | ⟨it, hit, hf, hr⟩
    · rw [hr] at hty; cases hty; rw [h.noEps] at hx; cases hx
    · rw [hr] at hty; cases hty
    · rw [hr] at hty; cases hty; rw [hx] at hf; cases hf
      have hnd : ∃ ids, e.node = .cat ids ∧ fields = ids.map s.rty := by
        unfold BState.item at hit
        split at hit <;> try cases hit
        dsimp only at hit
        split at hit
        · rename_i ids hnd hne
          cases hit
          exact ⟨ids, hnd, rfl⟩
        · cases hit
      obtain ⟨ids, hnd, rfl⟩ := hnd
      simp only [RVal.tree]
      refine .cat _ _ _ (by rw [step_eq he, hnd]) (ih ids ?_ rfl)
      intro d hd
      exact hlt i e he d (by simpa [hnd, NodeF.subs] using hd)
  | _, _, .variant x variants shown arms other chars y t v hx hy hv, i, hi, hty => by
    have ih := @Emitted.to_value s p h hlt hbx t v hv
    obtain ⟨e, he⟩ : ∃ e, s.data[i]? = some e := ⟨_, List.getElem?_eq_getElem hi⟩
    rcases h.kind he with ⟨hnd, hr⟩ | ⟨f, hnd, hr⟩ | ⟨it, hit, hf, hr⟩
    · rw [hr] at hty; cases hty; rw [h.noEps] at hx; cases hx
    · rw [hr] at hty; cases hty
    · rw [hr] at hty; cases hty; rw [hx] at hf; cases hf
      have hnd : ∃ tys ids, e.node = .alt tys ids ∧ variants = e.fields.zip (ids.map s.rty) := by
        unfold BState.item at hit
        split at hit <;> try cases hit
        · dsimp only at hit; split at hit <;> cases hit
        · rename_i tys ids hnd
          exact ⟨tys, ids, hnd, rfl⟩
      obtain ⟨tys, ids, hnd, rfl⟩ := hnd
      obtain ⟨k, h1, h2⟩ := lookup_findIdx hy
      simp only [RVal.tree, hx, h1, Option.getD_some]
      rw [List.getElem?_zip_eq_some, List.getElem?_map, Option.map_eq_some_iff] at h2
      obtain ⟨-, a, ha, hta⟩ := h2
      exact .alt _ tys ids k a _ (by rw [step_eq he, hnd]) ha
        (ih a (hlt i e he a (by rw [hnd]; exact List.mem_of_getElem? ha)) hta.symm)
  | _, _, .alias x t v hx hv, i, hi, hty => by
    have ih := @Emitted.to_value s p h hlt hbx t v hv
    obtain ⟨e, he⟩ : ∃ e, s.data[i]? = some e := ⟨_, List.getElem?_eq_getElem hi⟩
    rcases h.kind he with ⟨hnd, hr⟩ | ⟨f, hnd, hr⟩ | ⟨it, hit, hf, hr⟩
    · rw [hr] at hty; cases hty; rw [h.noEps] at hx; cases hx
    · rw [hr] at hty; cases hty
    · rw [hr] at hty; cases hty; rw [hx] at hf; cases hf
      have hnd : ∃ j, e.node = .alias j ∧ t = s.rty j := by
        unfold BState.item at hit
        split at hit <;> try cases hit
        · dsimp only at hit; split at hit <;> cases hit
        · exact ⟨_, by assumption, rfl⟩
      obtain ⟨j, hnd, rfl⟩ := hnd
      exact .alias _ j _ (by rw [step_eq he, hnd]) (ih j (hlt i e he j (by simp [hnd, NodeF.subs])) rfl)
  | _, _, .boxed t v hv, i, hi, hty => by
    have ih := @Emitted.to_value s p h hlt hbx t v hv
    obtain ⟨e, he⟩ : ∃ e, s.data[i]? = some e := ⟨_, List.getElem?_eq_getElem hi⟩
    rcases h.kind he with ⟨hnd, hr⟩ | ⟨f, hnd, hr⟩ | ⟨it, hit, hf, hr⟩
    · rw [hr] at hty; cases hty
    · rw [hr] at hty
      cases hty
      simp only [RVal.tree]
      exact .box _ f _ (by rw [step_eq he, hnd]) (ih f (hbx i e f he hnd) rfl)
    · rw [hr] at hty; cases hty
theorem Emitted.to_valueN {s : BState} {p : RProg} (h : Emitted s p)
    (hlt : ∀ (j : Nat) (e : Entry), s.data[j]? = some e → ∀ d ∈ e.node.subs, d < s.data.length)
    (hbx : ∀ (j : Nat) (e : Entry) (f : Nat), s.data[j]? = some e → e.node = .box f → f < s.data.length) :
    ∀ {l : List (String × RTy)} {vs : List (String × RVal)}, RVal.HasTypeN p l vs → ∀ ids : List Nat, (∀ i ∈ ids, i < s.data.length) →
    l.map (·.2) = ids.map s.rty → ValueL s.step ids (RVal.treeN p vs)
  | _, _, .nil, [], _, _ => .nil
  | _, _, .cons f t v l vs h1 h2, i :: ids, hi, hl => by
    simp only [List.map_cons, List.cons.injEq] at hl
    exact .cons _ _ _ _ (h.to_value hlt hbx h1 i (hi i (by simp)) hl.1)
      (h.to_valueN hlt hbx h2 ids (fun j hj => hi j (by simp [hj])) hl.2)
theorem Emitted.to_valueT {s : BState} {p : RProg} (h : Emitted s p)
    (hlt : ∀ (j : Nat) (e : Entry), s.data[j]? = some e → ∀ d ∈ e.node.subs, d < s.data.length)
    (hbx : ∀ (j : Nat) (e : Entry) (f : Nat), s.data[j]? = some e → e.node = .box f → f < s.data.length) :
    ∀ {l : List RTy} {vs : List RVal}, RVal.HasTypeT p l vs → ∀ ids : List Nat, (∀ i ∈ ids, i < s.data.length) →
    l = ids.map s.rty → ValueL s.step ids (RVal.treeT p vs)
  | _, _, .nil, [], _, _ => .nil
  | _, _, .cons t v l vs h1 h2, i :: ids, hi, hl => by
    simp only [List.map_cons, List.cons.injEq] at hl
    exact .cons _ _ _ _ (h.to_value hlt hbx h1 i (hi i (by simp)) hl.1)
      (h.to_valueT hlt hbx h2 ids (fun j hj => hi j (by simp [hj])) hl.2)
end

end Chomp
