import Verif.Bench.JsonTrees

/-! # The trees of the generated JSON parser are the documents of its language -/

namespace Chomp

/-- The documents of the grammar in `chomp-bench/src/json/nibble.rs`: RFC 8259, but with ASCII characters in strings only. -/
def asciiRules : JRules := ⟨IsJsonNumber, JChar.Ascii, fun _ => True⟩

theorem ws_tree {ws : List Char} (h : IsWs ws) : ∃ t, JV 154 t ∧ t.text = ws := (jw_ws ws).2 h
theorem tree_ws {t : Tree} (h : JV 154 t) : IsWs t.text := (jw_ws _).1 ⟨t, h, rfl⟩

theorem jval {n b : Nat} {t : Tree} (hn : ([9, 10, 11, 61, 153, 169, 179] : List Nat)[n]? = some b) (h : JV b t) : JV 8 (.alt n t) :=
  val_alias (a := 180) rfl (val_alt (tys := []) (l := [9, 10, 11, 61, 153, 169, 179]) rfl hn h)

mutual
/-- Every document has a tree. -/
theorem doc_tree : ∀ d : JDoc, d.Ok asciiRules →
    ∃ t, JV 8 t ∧ t.text = d.text ∧ ∀ F, njValue F t = d.value F (decodeJson true)
  | .null, _ => ⟨.alt 2 (.lit "null".toList), jval (n := 2) rfl (val_lit rfl), rfl, fun _ => rfl⟩
  | .true, _ => ⟨.alt 0 (.lit "true".toList), jval (n := 0) rfl (val_lit rfl), rfl, fun _ => rfl⟩
  | .false, _ => ⟨.alt 1 (.lit "false".toList), jval (n := 1) rfl (val_lit rfl), rfl, fun _ => rfl⟩
  | .num l, h => by
    obtain ⟨t, h1, h2⟩ := (jw_number l).2 h
    refine ⟨.alt 3 t, jval (n := 3) rfl h1, h2, fun F => ?_⟩
    simp only [njValue, JDoc.value, Tree.display_eq, h2]
  | .str s, h => by
    obtain ⟨t, h1, h2, h3⟩ := string_exists h
    refine ⟨.alt 4 t, jval (n := 4) rfl h1, h2, fun F => ?_⟩
    simp only [njValue, JDoc.value, h3]
  | .arr0 ws, h => by
    obtain ⟨w, h1, h2⟩ := ws_tree h.1
    refine ⟨.alt 6 (.cat [.lit ['['], w, .alt 0 .eps, .lit [']']]), jval (n := 6) rfl (val_cat4 (a := 108) (b := 154) (c := 178) (d := 109) rfl
      (val_lit rfl) h1 (val_alt (tys := []) (l := [170, 171]) (n := 0) rfl rfl (val_eps rfl)) (val_lit rfl)), ?_, fun F => ?_⟩
    · simp [Tree.text, Tree.textL, h2, JDoc.text]
    · simp only [njValue, JDoc.value]
  | .obj0 ws, h => by
    obtain ⟨w, h1, h2⟩ := ws_tree h.1
    refine ⟨.alt 5 (.cat [.lit ['{'], w, .alt 0 .eps, .lit ['}']]), jval (n := 5) rfl (val_cat4 (a := 138) (b := 154) (c := 168) (d := 140) rfl
      (val_lit rfl) h1 (val_alt (tys := []) (l := [159, 160]) (n := 0) rfl rfl (val_eps rfl)) (val_lit rfl)), ?_, fun F => ?_⟩
    · simp [Tree.text, Tree.textL, h2, JDoc.text]
    · simp only [njValue, JDoc.value]
  | .arr l, h => by
    obtain ⟨ws, t, hw, ht, h3, h4⟩ := items_tree l h
    obtain ⟨w, h1, h2⟩ := ws_tree hw
    refine ⟨.alt 6 (.cat [.lit ['['], w, .alt 1 t, .lit [']']]), jval (n := 6) rfl (val_cat4 (a := 108) (b := 154) (c := 178) (d := 109) rfl
      (val_lit rfl) h1 (val_alt (tys := []) (l := [170, 171]) (n := 1) rfl rfl ht) (val_lit rfl)), ?_, fun F => ?_⟩
    · simp [Tree.text, Tree.textL, h2, JDoc.text, h3]
    · simp only [njValue, JDoc.value, h4]
  | .obj l, h => by
    obtain ⟨ws, t, hw, ht, h3, h4⟩ := members_tree l h
    obtain ⟨w, h1, h2⟩ := ws_tree hw
    refine ⟨.alt 5 (.cat [.lit ['{'], w, .alt 1 t, .lit ['}']]), jval (n := 5) rfl (val_cat4 (a := 138) (b := 154) (c := 168) (d := 140) rfl
      (val_lit rfl) h1 (val_alt (tys := []) (l := [159, 160]) (n := 1) rfl rfl ht) (val_lit rfl)), ?_, fun F => ?_⟩
    · simp [Tree.text, Tree.textL, h2, JDoc.text, h3]
    · simp only [njValue, JDoc.value, h4]
theorem pad_tree : ∀ p : JPad, p.Ok asciiRules →
    ∃ ws t ws', IsWs ws ∧ JV 8 t ∧ IsWs ws' ∧ p.text = ws ++ t.text ++ ws' ∧ ∀ F, njValue F t = p.value F (decodeJson true)
  | .mk a v b, h => by
    obtain ⟨t, h1, h2, h3⟩ := doc_tree v h.2.1
    exact ⟨a, t, b, h.1, h1, h.2.2, by rw [JPad.text, h2], fun F => by rw [JPad.value, h3]⟩
theorem items_tree : ∀ l : JItems, l.Ok asciiRules →
    ∃ ws t, IsWs ws ∧ JV 171 t ∧ l.text = ws ++ t.text ∧ ∀ F, njItems F t = l.value F (decodeJson true)
  | .one v, h => by
    obtain ⟨ws, t, ws', h1, h2, h3, h4, h5⟩ := pad_tree v h
    obtain ⟨w, h6, h7⟩ := ws_tree h3
    refine ⟨ws, .cat [.cat [.box t, w], .alt 0 .eps], h1, val_alias (a := 177) rfl (val_cat2 (a := 172) (b := 176) rfl
      (val_cat2 (a := 161) (b := 154) rfl (val_box (a := 8) rfl h2) h6)
      (val_alt (tys := []) (l := [173, 175]) (n := 0) rfl rfl (val_eps rfl))), ?_, fun F => ?_⟩
    · simp [Tree.text, Tree.textL, h7, h4, JItems.text]
    · simp only [njItems, JItems.value, h5]
  | .cons v l, h => by
    obtain ⟨ws, t, ws', h1, h2, h3, h4, h5⟩ := pad_tree v h.1
    obtain ⟨ws2, u, g1, g2, g3, g4⟩ := items_tree l h.2
    obtain ⟨w, h6, h7⟩ := ws_tree h3
    obtain ⟨w2, g6, g7⟩ := ws_tree g1
    refine ⟨ws, .cat [.cat [.box t, w], .alt 1 (.cat [.lit [','], w2, .box u])], h1, val_alias (a := 177) rfl (val_cat2 (a := 172) (b := 176) rfl
      (val_cat2 (a := 161) (b := 154) rfl (val_box (a := 8) rfl h2) h6)
      (val_alt (tys := []) (l := [173, 175]) (n := 1) rfl rfl (val_cat3 (a := 74) (b := 154) (c := 174) rfl (val_lit rfl) g6
        (val_box (a := 171) rfl g2)))), ?_, fun F => ?_⟩
    · simp [Tree.text, Tree.textL, h7, h4, g7, g3, JItems.text]
    · simp only [njItems, JItems.value, h5, g4]
theorem members_tree : ∀ l : JMembers, l.Ok asciiRules →
    ∃ ws t, IsWs ws ∧ JV 160 t ∧ l.text = ws ++ t.text ∧ ∀ F, njMembers F t = l.value F (decodeJson true)
  | .one ws1 k ws2 v, h => by
    obtain ⟨hw1, hk, hw2, hv⟩ := h
    obtain ⟨ws3, t, ws4, h1, h2, h3, h4, h5⟩ := pad_tree v hv
    obtain ⟨kt, k1, k2, k3⟩ := string_exists hk
    obtain ⟨w2, a1, a2⟩ := ws_tree hw2
    obtain ⟨w3, a3, a4⟩ := ws_tree h1
    obtain ⟨w4, a5, a6⟩ := ws_tree h3
    refine ⟨ws1, .cat [.cat [kt, w2, .lit [':'], w3, .box t, w4], .alt 0 .eps], hw1, val_alias (a := 167) rfl (val_cat2 (a := 162) (b := 166) rfl
      (val_cat6 (a := 153) (b := 154) (c := 76) (d := 154) (e := 161) (f := 154) rfl k1 a1 (val_lit rfl) a3 (val_box (a := 8) rfl h2) a5)
      (val_alt (tys := []) (l := [163, 165]) (n := 0) rfl rfl (val_eps rfl))), ?_, fun F => ?_⟩
    · simp [Tree.text, Tree.textL, h4, a2, a4, a6, k2, JMembers.text]
    · simp only [njMembers, JMembers.value, h5, k3]
  | .cons ws1 k ws2 v l, h => by
    obtain ⟨hw1, hk, hw2, hv, hl⟩ := h
    obtain ⟨ws3, t, ws4, h1, h2, h3, h4, h5⟩ := pad_tree v hv
    obtain ⟨ws5, u, g1, g2, g3, g4⟩ := members_tree l hl
    obtain ⟨kt, k1, k2, k3⟩ := string_exists hk
    obtain ⟨w2, a1, a2⟩ := ws_tree hw2
    obtain ⟨w3, a3, a4⟩ := ws_tree h1
    obtain ⟨w4, a5, a6⟩ := ws_tree h3
    obtain ⟨w5, a7, a8⟩ := ws_tree g1
    refine ⟨ws1, .cat [.cat [kt, w2, .lit [':'], w3, .box t, w4], .alt 1 (.cat [.lit [','], w5, .box u])], hw1,
      val_alias (a := 167) rfl (val_cat2 (a := 162) (b := 166) rfl
      (val_cat6 (a := 153) (b := 154) (c := 76) (d := 154) (e := 161) (f := 154) rfl k1 a1 (val_lit rfl) a3 (val_box (a := 8) rfl h2) a5)
      (val_alt (tys := []) (l := [163, 165]) (n := 1) rfl rfl (val_cat3 (a := 74) (b := 154) (c := 164) rfl (val_lit rfl) a7
        (val_box (a := 160) rfl g2)))), ?_, fun F => ?_⟩
    · simp [Tree.text, Tree.textL, h4, a2, a4, a6, a8, g3, k2, JMembers.text]
    · simp only [njMembers, JMembers.value, h5, k3, g4]
end

theorem inv_jval {t : Tree} (h : JV 8 t) : (t = .alt 0 (.lit "true".toList)) ∨ (t = .alt 1 (.lit "false".toList)) ∨
    (t = .alt 2 (.lit "null".toList)) ∨ (∃ x, t = .alt 3 x ∧ JV 61 x) ∨ (∃ x, t = .alt 4 x ∧ JV 153 x) ∨
    (∃ x, t = .alt 5 x ∧ JV 169 x) ∨ ∃ x, t = .alt 6 x ∧ JV 179 x := by
  obtain ⟨k, b, x, rfl, h1, h2⟩ := inv_alt (tys := []) (l := [9, 10, 11, 61, 153, 169, 179]) rfl (inv_alias (a := 180) rfl h)
  match k, h1 with
  | 0, h1 => cases h1; cases inv_lit rfl h2; exact .inl rfl
  | 1, h1 => cases h1; cases inv_lit rfl h2; exact .inr (.inl rfl)
  | 2, h1 => cases h1; cases inv_lit rfl h2; exact .inr (.inr (.inl rfl))
  | 3, h1 => cases h1; exact .inr (.inr (.inr (.inl ⟨x, rfl, h2⟩)))
  | 4, h1 => cases h1; exact .inr (.inr (.inr (.inr (.inl ⟨x, rfl, h2⟩))))
  | 5, h1 => cases h1; exact .inr (.inr (.inr (.inr (.inr (.inl ⟨x, rfl, h2⟩)))))
  | 6, h1 => cases h1; exact .inr (.inr (.inr (.inr (.inr (.inr ⟨x, rfl, h2⟩)))))

mutual
/-- Every tree is the tree of a document. -/
theorem tree_doc (t : Tree) (h : JV 8 t) :
    ∃ d : JDoc, d.Ok asciiRules ∧ d.text = t.text ∧ ∀ F, njValue F t = d.value F (decodeJson true) := by
  rcases inv_jval h with rfl | rfl | rfl | ⟨x, rfl, hx⟩ | ⟨x, rfl, hx⟩ | ⟨x, ht, hx⟩ | ⟨x, ht, hx⟩
  · exact ⟨.true, trivial, rfl, fun _ => rfl⟩
  · exact ⟨.false, trivial, rfl, fun _ => rfl⟩
  · exact ⟨.null, trivial, rfl, fun _ => rfl⟩
  · refine ⟨.num x.text, (jw_number _).1 ⟨x, hx, rfl⟩, rfl, fun F => ?_⟩
    simp only [njValue, JDoc.value, Tree.display_eq]
  · obtain ⟨s, h1, h2, h3⟩ := string_surj hx
    refine ⟨.str s, h1, h2.symm, fun F => ?_⟩
    simp only [njValue, JDoc.value, h3]
  · obtain ⟨a, w, o, b, rfl, ha, hw, ho, hb⟩ := inv_cat4 (a := 138) (b := 154) (c := 168) (d := 140) rfl hx
    cases inv_lit rfl ha
    cases inv_lit rfl hb
    rcases inv_alt2 (tys := []) (a := 159) (b := 160) rfl ho with ⟨y, rfl, hy⟩ | ⟨y, rfl, hy⟩
    · cases inv_eps rfl hy
      refine ⟨.obj0 w.text, ⟨tree_ws hw, trivial⟩, ?_, fun F => ?_⟩
      · subst ht; simp [Tree.text, Tree.textL, JDoc.text]
      · subst ht; simp only [njValue, JDoc.value]
    · obtain ⟨l, h1, h2, h3⟩ := tree_members y hy w.text (tree_ws hw)
      refine ⟨.obj l, h1, ?_, fun F => ?_⟩
      · subst ht; simp [Tree.text, Tree.textL, JDoc.text, h2]
      · subst ht; simp only [njValue, JDoc.value, h3]
  · obtain ⟨a, w, o, b, rfl, ha, hw, ho, hb⟩ := inv_cat4 (a := 108) (b := 154) (c := 178) (d := 109) rfl hx
    cases inv_lit rfl ha
    cases inv_lit rfl hb
    rcases inv_alt2 (tys := []) (a := 170) (b := 171) rfl ho with ⟨y, rfl, hy⟩ | ⟨y, rfl, hy⟩
    · cases inv_eps rfl hy
      refine ⟨.arr0 w.text, ⟨tree_ws hw, trivial⟩, ?_, fun F => ?_⟩
      · subst ht; simp [Tree.text, Tree.textL, JDoc.text]
      · subst ht; simp only [njValue, JDoc.value]
    · obtain ⟨l, h1, h2, h3⟩ := tree_items y hy w.text (tree_ws hw)
      refine ⟨.arr l, h1, ?_, fun F => ?_⟩
      · subst ht; simp [Tree.text, Tree.textL, JDoc.text, h2]
      · subst ht; simp only [njValue, JDoc.value, h3]
termination_by sizeOf t
decreasing_by all_goals (subst_vars; simp; omega)
theorem tree_items (t : Tree) (h : JV 171 t) (ws : List Char) (hws : IsWs ws) :
    ∃ l : JItems, l.Ok asciiRules ∧ l.text = ws ++ t.text ∧ ∀ F, njItems F t = l.value F (decodeJson true) := by
  obtain ⟨x, y, ht, hx, hy⟩ := inv_cat2 (a := 172) (b := 176) rfl (inv_alias (a := 177) rfl h)
  obtain ⟨b, w, rfl, hb, hw⟩ := inv_cat2 (a := 161) (b := 154) rfl hx
  obtain ⟨v, rfl, hv⟩ := inv_box (a := 8) rfl hb
  obtain ⟨d, d1, d2, d3⟩ := tree_doc v hv
  rcases inv_alt2 (tys := []) (a := 173) (b := 175) rfl hy with ⟨z, rfl, hz⟩ | ⟨z, rfl, hz⟩
  · cases inv_eps rfl hz
    refine ⟨.one (.mk ws d w.text), ⟨hws, d1, tree_ws hw⟩, ?_, fun F => ?_⟩
    · subst ht; simp [Tree.text, Tree.textL, JItems.text, JPad.text, d2]
    · subst ht; simp only [njItems, JItems.value, JPad.value, d3]
  · obtain ⟨c, w2, b2, rfl, hc, hw2, hb2⟩ := inv_cat3 (a := 74) (b := 154) (c := 174) rfl hz
    cases inv_lit rfl hc
    obtain ⟨u, rfl, hu⟩ := inv_box (a := 171) rfl hb2
    obtain ⟨l, l1, l2, l3⟩ := tree_items u hu w2.text (tree_ws hw2)
    refine ⟨.cons (.mk ws d w.text) l, ⟨⟨hws, d1, tree_ws hw⟩, l1⟩, ?_, fun F => ?_⟩
    · subst ht; simp [Tree.text, Tree.textL, JItems.text, JPad.text, d2, l2]
    · subst ht; simp only [njItems, JItems.value, JPad.value, d3, l3]
termination_by sizeOf t
decreasing_by all_goals (subst_vars; simp; omega)
theorem tree_members (t : Tree) (h : JV 160 t) (ws : List Char) (hws : IsWs ws) :
    ∃ l : JMembers, l.Ok asciiRules ∧ l.text = ws ++ t.text ∧ ∀ F, njMembers F t = l.value F (decodeJson true) := by
  obtain ⟨x, y, ht, hx, hy⟩ := inv_cat2 (a := 162) (b := 166) rfl (inv_alias (a := 167) rfl h)
  obtain ⟨k, w1, c, w2, b, w3, rfl, hk, hw1, hc, hw2, hb, hw3⟩ :=
    inv_cat6 (a := 153) (b := 154) (c := 76) (d := 154) (e := 161) (f := 154) rfl hx
  cases inv_lit rfl hc
  obtain ⟨s, s1, s2, s3⟩ := string_surj hk
  obtain ⟨v, rfl, hv⟩ := inv_box (a := 8) rfl hb
  obtain ⟨d, d1, d2, d3⟩ := tree_doc v hv
  rcases inv_alt2 (tys := []) (a := 163) (b := 165) rfl hy with ⟨z, rfl, hz⟩ | ⟨z, rfl, hz⟩
  · cases inv_eps rfl hz
    refine ⟨.one ws s w1.text (.mk w2.text d w3.text), ⟨hws, s1, tree_ws hw1, tree_ws hw2, d1, tree_ws hw3⟩, ?_, fun F => ?_⟩
    · subst ht; simp [Tree.text, Tree.textL, JMembers.text, JPad.text, d2, s2]
    · subst ht; simp only [njMembers, JMembers.value, JPad.value, d3, s3]
  · obtain ⟨c, w4, b2, rfl, hc, hw4, hb2⟩ := inv_cat3 (a := 74) (b := 154) (c := 164) rfl hz
    cases inv_lit rfl hc
    obtain ⟨u, rfl, hu⟩ := inv_box (a := 160) rfl hb2
    obtain ⟨l, l1, l2, l3⟩ := tree_members u hu w4.text (tree_ws hw4)
    refine ⟨.cons ws s w1.text (.mk w2.text d w3.text) l, ⟨hws, s1, tree_ws hw1, ⟨tree_ws hw2, d1, tree_ws hw3⟩, l1⟩, ?_, fun F => ?_⟩
    · subst ht; simp [Tree.text, Tree.textL, JMembers.text, JPad.text, d2, s2, l2]
    · subst ht; simp only [njMembers, JMembers.value, JPad.value, d3, s3, l3]
termination_by sizeOf t
decreasing_by all_goals (subst_vars; simp; omega)
end

/-- The tree of a padded document. -/
theorem ast_val {v w : Tree} (hv : JV 8 v) (hw : JV 154 w) : ∀ ws : List Char, IsWs ws →
    ∃ t, JV 0 t ∧ t.text = ws ++ v.text ++ w.text ∧ ∀ F, njAst F t = njValue F v
  | [], _ => ⟨.alt 1 (.cat [v, w]), val_alias (a := 182) rfl (val_alt (tys := []) (l := [7, 181]) (n := 1) rfl rfl
      (val_cat2 (a := 8) (b := 154) rfl hv hw)), by simp [Tree.text, Tree.textL], fun F => by simp only [njAst]⟩
  | c :: ws, h => by
    obtain ⟨t, h1, h2, h3⟩ := ast_val hv hw ws fun x hx => h x (by simp [hx])
    obtain ⟨ct, c1, c2⟩ := (jw_wsChar [c]).2 ⟨c, rfl, h c (by simp)⟩
    refine ⟨.alt 0 (.cat [ct, .box t]), val_alias (a := 182) rfl (val_alt (tys := []) (l := [7, 181]) (n := 0) rfl rfl
      (val_cat2 (a := 5) (b := 6) rfl c1 (val_box (a := 0) rfl h1))), ?_, fun F => ?_⟩
    · simp [Tree.text, Tree.textL, c2, h2]
    · simp only [njAst, h3]

theorem pad_ast (p : JPad) (h : p.Ok asciiRules) :
    ∃ t, JV 0 t ∧ t.text = p.text ∧ ∀ F, njAst F t = p.value F (decodeJson true) := by
  obtain ⟨ws, t, ws', h1, h2, h3, h4, h5⟩ := pad_tree p h
  obtain ⟨w, h6, rfl⟩ := ws_tree h3
  obtain ⟨u, h7, h8, h9⟩ := ast_val h2 h6 ws h1
  exact ⟨u, h7, by rw [h8, h4], fun F => by rw [h9, h5]⟩

theorem ast_pad (t : Tree) (h : JV 0 t) :
    ∃ p : JPad, p.Ok asciiRules ∧ p.text = t.text ∧ ∀ F, njAst F t = p.value F (decodeJson true) := by
  rcases inv_alt2 (tys := []) (a := 7) (b := 181) rfl (inv_alias (a := 182) rfl h) with ⟨x, ht, hx⟩ | ⟨x, rfl, hx⟩
  · obtain ⟨c, b, rfl, hc, hb⟩ := inv_cat2 (a := 5) (b := 6) rfl hx
    obtain ⟨u, rfl, hu⟩ := inv_box (a := 0) rfl hb
    obtain ⟨⟨a, v, b⟩, h1, h2, h3⟩ := ast_pad u hu
    obtain ⟨c', hc1, hc2⟩ := (jw_wsChar _).1 ⟨c, hc, rfl⟩
    refine ⟨.mk (c' :: a) v b, ⟨?_, h1.2⟩, ?_, fun F => ?_⟩
    · intro x hx
      rcases List.mem_cons.1 hx with rfl | hx
      · exact hc2
      · exact h1.1 x hx
    · subst ht
      simp only [JPad.text] at h2
      simp [Tree.text, Tree.textL, JPad.text, hc1, ← h2]
    · subst ht
      simp only [njAst, h3, JPad.value]
  · obtain ⟨v, w, rfl, hv, hw⟩ := inv_cat2 (a := 8) (b := 154) rfl hx
    obtain ⟨d, h1, h2, h3⟩ := tree_doc v hv
    refine ⟨.mk [] d w.text, ⟨by simp [IsWs], h1, tree_ws hw⟩, ?_, fun F => ?_⟩
    · simp [Tree.text, Tree.textL, JPad.text, h2]
    · simp only [njAst, JPad.value, h3]
termination_by sizeOf t
decreasing_by subst_vars; simp; omega

end Chomp
