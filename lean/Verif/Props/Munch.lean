import Verif.Props.Parts
import Verif.Props.Viable

/-!
# C76: what `take` takes
-/

namespace Chomp

/-- No tree of the grammar has a text that starts with `u` and the first character of `r`. -/
def NoCont (D : Tree → Prop) (u r : List Char) : Prop := ∀ c r', r = c :: r' → ∀ t, D t → ∀ v, t.text ≠ u ++ c :: v

theorem der_follow {ρ : List Gram} {g : Gram} {Γ : List Ty} {k : Nat} {τ : Ty} (hE : EnvTy Γ ρ) (hT : HasTy Γ k g τ) {u u' : Tree}
    (h : Der ρ g u) (h' : Der ρ g u') {c : Char} {v : List Char} (ht : u'.text = u.text ++ c :: v) {r r' : List Char} (hr : r = c :: r')
    (hf : Follow τ u.text r) : False := by
  have hf := hf c r' hr
  by_cases hu : u.text = []
  · exact hf.2 hu ((der_desc h' hE hT).2 c v (by rw [ht, hu]; rfl))
  · exact hf.1 hu ((der_uniq h hE hT u' h').left c ⟨hu, v, ht⟩)

/-- Either the part behind is not empty, and then typing separates it, or what follows is what follows the whole. -/
theorem front_noCont {ρ : List Gram} {g : Gram} {Γ : List Ty} {k : Nat} {σ : Ty} {l : List Gram} (hE : EnvTy Γ ρ) (hT : HasTy Γ k g σ)
    {u : Tree} {us : List Tree} {r : List Char} (hd : Der ρ g u) (hds : DerL ρ l us) (hf : Follow σ u.text (Tree.textL us))
    (hr : NoCont (fun t => ∃ ts, t = .cat ts ∧ DerL ρ (g :: l) ts) (Tree.textL (u :: us)) r) :
    NoCont (Der ρ g) u.text (Tree.textL us ++ r) := by
  intro c r' h u' hu' v ht
  cases hx : Tree.textL us with
  | cons d x =>
    rw [hx] at h hf
    simp only [List.cons_append, List.cons.injEq] at h
    obtain ⟨rfl, -⟩ := h
    exact der_follow hE hT hd hu' ht rfl hf
  | nil =>
    rw [hx, List.nil_append] at h
    refine hr c r' h (.cat (u' :: us)) ⟨_, rfl, .cons _ _ _ _ _ hu' hds⟩ v ?_
    simp [Tree.text, Tree.textL, hx, ht]

theorem back_noCont {ρ : List Gram} {g : Gram} {l : List Gram} {u : Tree} {us : List Tree} {r : List Char} (hd : Der ρ g u)
    (hr : NoCont (fun t => ∃ ts, t = .cat ts ∧ DerL ρ (g :: l) ts) (Tree.textL (u :: us)) r) :
    NoCont (fun t => ∃ ts, t = .cat ts ∧ DerL ρ l ts) (Tree.textL us) r := by
  rintro c r' h _ ⟨ts, rfl, hts⟩ v ht
  refine hr c r' h (.cat (u :: ts)) ⟨_, rfl, .cons _ _ _ _ _ hd hts⟩ v ?_
  simp only [Tree.text, Tree.textL] at ht ⊢
  rw [ht, List.append_assoc]

theorem seqTake_munch : ∀ {Γ : List Ty} {ρ : List TE} {f : TE → IW → Res Tree} (_ : EnvTy Γ (ρ.map TE.gram))
    {ts : List TE} {us : List Tree} {τ υ : Ty},
    (∀ t ∈ ts, ∀ k w u r, Ann Γ k t → Der (ρ.map TE.gram) t.gram u → w.rem = u.text ++ r →
      NoCont (Der (ρ.map TE.gram) t.gram) u.text r → f t w ≠ .oof → ∃ w', f t w = .ok u w' ∧ w'.rem = r) →
    AnnCat Γ τ ts υ → DerL (ρ.map TE.gram) (TE.gramL ts) us → ∀ {w : IW} {r : List Char},
    w.rem = Tree.textL us ++ r →
    NoCont (fun t => ∃ us, t = .cat us ∧ DerL (ρ.map TE.gram) (TE.gramL ts) us) (Tree.textL us) r → seqTake f ts w ≠ .oof →
    ∃ w', seqTake f ts w = .ok us w' ∧ w'.rem = r
  | _, _, _, hE, [], us, τ, υ, hf, hA, hd, w, r, hw, hr, ho => by
    cases hd
    exact ⟨w, rfl, by simpa [Tree.textL] using hw⟩
  | _, _, f, hE, t :: ts, us, τ, υ, hf, hA, hd, w, r, hw, hr, ho => by
    cases hA with
    | cons _ _ _ _ _ h1 h2 h3 =>
      cases hd with
      | cons _ _ _ u us hd1 hd2 =>
        have hdesc := der_desc hd1 hE h1.hasTy
        have hfol := flast_cat_of hdesc (r := Tree.textL us) (by
          have := cat_rest_follow hE h3 hd2 (r := []) (fun c r' h => by cases h)
          simpa using this)
        have hw' : w.rem = u.text ++ (Tree.textL us ++ r) := by rw [hw]; simp [Tree.textL]
        have ho1 : f t w ≠ .oof := by
          intro h; apply ho; simp [seqTake, h, Res.bind]
        obtain ⟨w1, e1, e2⟩ := hf t (by simp) 0 w u _ h1 hd1 hw' (front_noCont hE h1.hasTy hd1 hd2 hfol hr) ho1
        have ho2 : seqTake f ts w1 ≠ .oof := by
          intro h; apply ho; simp [seqTake, e1, h, Res.bind]
        obtain ⟨w2, e3, e4⟩ := seqTake_munch hE (fun t ht => hf t (by simp [ht])) h3 hd2 e2 (back_noCont hd1 hr) ho2
        exact ⟨w2, by simp [seqTake, e1, e3, Res.bind], e4⟩

theorem takeR_munch : ∀ (n : Nat) (ρ : List TE) (Γ : List Ty) (te : TE) (k : Nat) (w : IW) (u : Tree) (r : List Char),
    AnnEnv Γ ρ → Ann Γ k te → EnvNE (ρ.map TE.gram) → te.gram.NoEmpty (envLang (ρ.map TE.gram)) →
    Der (ρ.map TE.gram) te.gram u → w.rem = u.text ++ r → NoCont (Der (ρ.map TE.gram) te.gram) u.text r →
    takeR n ρ te w ≠ .oof → ∃ w', takeR n ρ te w = .ok u w' ∧ w'.rem = r
  | 0, _, _, _, _, _, _, _, _, _, _, _, _, _, _, ho => absurd rfl ho
  | n + 1, ρ, Γ, te, k, w, u, r, hE, hA, hN, hg, hd, hw, hfol, ho => by
    have ih := takeR_munch n
    cases te with
    | eps nm =>
      cases hd
      exact ⟨w, rfl, by simpa [Tree.text] using hw⟩
    | lit nm s =>
      cases hd
      obtain ⟨w', h1⟩ := consumeStr_complete (s := s) (w := w) ⟨r, hw.symm⟩
      refine ⟨w', by simp [takeR, h1, Res.map], ?_⟩
      have := (consumeStr_ok h1).1
      rw [hw] at this
      simpa [Tree.text] using this.symm
    | cat nm ty ts =>
      cases hd with
      | cat _ _ us hd =>
        cases hA with
        | cat _ _ _ _ t ts h1 h2 h3 =>
          cases hd with
          | cons _ _ _ u us hd1 hd2 =>
            have hg' := noEmptyL_mem (l := t :: ts) hg
            have hdesc := der_desc hd1 hE.envTy h1.hasTy
            have hne : u.text ≠ [] := fun h => by have := hdesc.1 h; simp [h2] at this
            have hr : NoCont (fun t' => ∃ us, t' = .cat us ∧ DerL (ρ.map TE.gram) (t.gram :: TE.gramL ts) us)
                (Tree.textL (u :: us)) r := by
              rintro c r' h _ ⟨us', rfl, hus⟩ v hv
              exact hfol c r' h (.cat us') (.cat _ _ us' hus) v (by simpa [Tree.text] using hv)
            have hcr := cat_rest_follow hE.envTy h3 hd2 (r := []) (fun c r' h => by cases h)
            rw [List.append_nil] at hcr
            have hw' : w.rem = u.text ++ (Tree.textL us ++ r) := by rw [hw]; simp [Tree.text, Tree.textL]
            have ho1 : takeR n ρ t w ≠ .oof := by
              intro h; apply ho; simp [takeR, seqTake, h, Res.bind, Res.map]
            obtain ⟨w1, e1, e2⟩ := ih ρ Γ t k w u _ hE h1 hN (hg' t (by simp)) hd1 hw'
              (front_noCont hE.envTy h1.hasTy hd1 hd2 (fun c r' h => ⟨fun _ => hcr c r' h, fun h => absurd h hne⟩) hr) ho1
            have ho2 : seqTake (takeR n ρ) ts w1 ≠ .oof := by
              intro h; apply ho; simp [takeR, seqTake, e1, h, Res.bind, Res.map]
            obtain ⟨w2, e3, e4⟩ := seqTake_munch hE.envTy
              (fun t ht k w u r hA hd hw hfol ho => ih ρ Γ t k w u r hE hA hN (hg' t (by simp [ht])) hd hw hfol ho) h3 hd2 e2
              (back_noCont hd1 hr) ho2
            exact ⟨w2, by simp [takeR, seqTake, e1, e3, Res.bind, Res.map], e4⟩
    | alt nm ty ts =>
      obtain ⟨i1, i2, i3, i4, i5⟩ := hA.alt_inv
      have hg' := noEmptyL_mem (l := ts) hg
      cases hd with
      | alt _ _ j g u hj hd =>
        simp only [TE.gramL_map, List.getElem?_map, Option.map_eq_some_iff] at hj
        obtain ⟨t, hj, rfl⟩ := hj
        have ht := List.mem_of_getElem? hj
        have hdesc := der_desc hd hE.envTy (i1 t ht).hasTy
        have hch : altChoose w.rem.head? (ts.map TE.ty) = some j := by
          rw [hw]
          refine altChoose_complete i2 (σ := t.ty) (by simp [hj]) hdesc ?_
          intro hu c r' hr τ hτ
          obtain ⟨t', ht', rfl⟩ := List.mem_map.1 hτ
          intro hc
          obtain ⟨m, hm⟩ := List.getElem?_of_mem ht'
          obtain ⟨x, v, h1, h2⟩ := first_exact _ t'.gram (i1 t' ht').hasTy hE.envTy hN (hg' t' ht') (Nat.le_refl _) hc
          refine hfol c r' hr (.alt m x) (.alt _ _ m t'.gram x (by simp [TE.gramL_map, hm]) h1) v ?_
          have hu' : (Tree.alt j u).text = [] := by simpa [Tree.text] using hu
          rw [hu']
          simpa [Tree.text] using h2
        have heq : takeR (n + 1) ρ (.alt nm ty ts) w = (takeR n ρ t w.peek.2).map (.alt j) := by
          simp only [takeR, altTake]
          rw [IW.peek_eq]
          simp only [hch, hj]
        rw [heq] at ho ⊢
        have ho1 : takeR n ρ t w.peek.2 ≠ .oof := by
          intro h; apply ho; simp [h, Res.map]
        obtain ⟨w1, e1, e2⟩ := ih ρ Γ t k w.peek.2 u r hE (i1 t ht) hN (hg' t ht) hd (by simpa [Tree.text] using hw)
          (fun c r' h x hx v hv => hfol c r' h (.alt j x) (.alt _ _ j t.gram x (by simp [TE.gramL_map, hj]) hx) v
            (by simpa [Tree.text] using hv)) ho1
        exact ⟨w1, by simp [e1, Res.map], e2⟩
    | fix nm b =>
      cases hd with
      | fix _ _ _ hd =>
        cases hA with
        | fix _ _ _ _ hb =>
          exact ih (b :: ρ) (b.ty :: Γ) b (k + 1) w u r (.cons b k hE hb) hb (hN.cons hg)
            (by rw [List.map_cons, ← fix_lang_env]; exact hg.2) hd hw
            (fun c r' h x hx v hv => hfol c r' h x (.fix _ _ _ hx) v hv) ho
    | var nm i ty =>
      cases hA with
      | var _ _ _ _ _ h1 h2 =>
        obtain ⟨b, ρ', Γ', k', h3, rfl, h4, h5⟩ := hE.get h1
        cases hd with
        | var _ _ b' ρ'' u hi hd =>
          have hdr := hi
          rw [← List.map_drop, h3] at hi
          simp only [List.map_cons, List.cons.injEq] at hi
          obtain ⟨rfl, rfl⟩ := hi
          have hN1 := hN i _ _ hdr
          have hN2 : EnvNE (ρ'.map TE.gram) := by
            have := (hN.drop (i + 1))
            rwa [show (ρ.map TE.gram).drop (i + 1) = ρ'.map TE.gram by rw [← List.drop_drop, hdr]; rfl] at this
          have hN3 : (TE.fix none b).gram.NoEmpty (envLang (ρ'.map TE.gram)) := by
            obtain ⟨⟨t, ht⟩, hb⟩ := hN1
            refine ⟨⟨t.text, (lang_iff_der _ _ _).2 ⟨t, .fix _ _ t ht, rfl⟩⟩, ?_⟩
            rw [fix_lang_env]
            exact hb
          have heq : takeR (n + 1) ρ (.var nm i b.ty) w = (takeR n ρ' (.fix none b) w).map .box := by
            simp only [takeR, h3]
          rw [heq] at ho ⊢
          have ho1 : takeR n ρ' (.fix none b) w ≠ .oof := by
            intro h; apply ho; simp [h, Res.map]
          obtain ⟨w1, e1, e2⟩ := ih ρ' Γ' (.fix none b) k' w u r h4 (.fix _ _ none b h5) hN2 hN3 (.fix _ _ _ hd)
            (by simpa [Tree.text] using hw) (fun c r' h x hx v hv => by
              cases hx with
              | fix _ _ _ hx =>
                exact hfol c r' h (.box x) (.var _ i b.gram _ x hdr hx) v (by simpa [Tree.text] using hv)) ho1
          exact ⟨w1, by simp [e1, Res.map], e2⟩

/-! ## Fix points that match something, below -/

theorem Occ.noEmpty {root : TE} (hg : root.gram.NoEmptyParts) {ρ : List TE} {x : TE} (h : Occ root ρ x) :
    EnvNE (ρ.map TE.gram) ∧ x.gram.NoEmpty (envLang (ρ.map TE.gram)) := by
  induction h with
  | root => exact ⟨EnvNE.nil, by rw [List.map_nil, envLang_nil]; exact hg⟩
  | cat _ hm ih => exact ⟨ih.1, noEmptyL_mem ih.2 _ hm⟩
  | alt _ hm ih => exact ⟨ih.1, noEmptyL_mem ih.2 _ hm⟩
  | fix _ ih => exact ⟨ih.1.cons ih.2, by rw [List.map_cons, ← fix_lang_env]; exact ih.2.2⟩

/-! ## Statements -/

/-- `take` of the type `j`, in any state of the input, takes `u` and leaves `rest`. -/
def TakesOff (s : BState) (j : Nat) (w : IW) (u rest : List Char) : Prop :=
  ∃ t w', Takes s j w (.ok t w') ∧ t.display = u ∧ w'.rem = rest

/-- **C76** (one character of lookahead). Whatever `take` of a generated type does — returning a tree or an error — it does after
having looked at the text `p` it has consumed and at most one more character `c`: on every other input that begins with `p` and `c`
(and is at the same position) it does the same and leaves `c` and what follows.  This holds for any table of types. -/
theorem C76_lookahead (s : BState) (j : Nat) (w w2 : IW) (p : List Char) (c : Char) (r r2 : List Char) (hw : w.rem = p ++ c :: r)
    (hw2 : w2.rem = p ++ c :: r2) (hpos : w.pos = w2.pos) :
    (∀ t w', Takes s j w (.ok t w') → w'.rem = c :: r → ∃ w2', Takes s j w2 (.ok t w2') ∧ w2'.rem = c :: r2 ∧ w2'.pos = w'.pos) ∧
    (∀ e w', Takes s j w (.err e w') → w'.rem = c :: r → ∃ w2', Takes s j w2 (.err e w2') ∧ w2'.rem = c :: r2 ∧ w2'.pos = w'.pos) := by
  have key : ∀ q w', (∃ e, q = .err e w') ∨ (∃ t, q = .ok t w') → Takes s j w q → w'.rem = c :: r →
      ∃ q2, Takes s j w2 q2 ∧ AgreeRes c r r2 q q2 := by
    rintro q w' hq ⟨h1, n, h2⟩ hr
    have hl := run_local (f := s.step) n j w w2 ⟨p, hw, hw2, hpos⟩ (by
      have h3 : run s.step n j w = q := h2
      rw [h3]
      rcases hq with ⟨_, rfl⟩ | ⟨_, rfl⟩ <;> simp [Res.Ends, hr])
    have h3 : run s.step n j w = q := h2
    rw [h3] at hl
    refine ⟨_, ⟨?_, n, rfl⟩, hl⟩
    intro ho
    have h4 : run s.step n j w2 = .oof := ho
    rw [h4] at hl
    cases hl
  have len : ∀ w' w2' : IW, w'.rem = c :: r → Agree c r r2 w' w2' → w2'.rem = c :: r2 ∧ w2'.pos = w'.pos := by
    rintro w' w2' h1 ⟨q, h2, h3, h4⟩
    have : q = [] := by
      have h5 := congrArg List.length (h1.symm.trans h2)
      simp only [List.length_cons, List.length_append] at h5
      exact List.length_eq_zero_iff.1 (by omega)
    subst this
    exact ⟨h3, h4.symm⟩
  refine ⟨fun t w' ht hr => ?_, fun e w' ht hr => ?_⟩
  · obtain ⟨q2, h1, h2⟩ := key _ w' (.inr ⟨t, rfl⟩) ht hr
    cases h2 with
    | ok _ _ w2' ha => exact ⟨w2', h1, len _ _ hr ha⟩
  · obtain ⟨q2, h1, h2⟩ := key _ w' (.inl ⟨e, rfl⟩) ht hr
    cases h2 with
    | err _ _ w2' ha => exact ⟨w2', h1, len _ _ hr ha⟩

/-- **C76** (`parse_str`). An error at a character is reported for every input with the same beginning. -/
theorem C76_error_at_once (s : BState) (j : Nat) (p : List Char) (c : Char) (r r2 : List Char) (e : TakeError) (w' : IW)
    (h : Takes s j (IW.new (p ++ c :: r)) (.err e w')) (hr : w'.rem = c :: r) : Parses s j (p ++ c :: r2) (.err (.take e)) := by
  obtain ⟨w2', h1, -⟩ := (C76_lookahead s j (IW.new (p ++ c :: r)) (IW.new (p ++ c :: r2)) p c r r2 (by simp) (by simp) rfl).2 e w' h hr
  exact Parses.takes.2 ⟨_, h1, rfl⟩

theorem takesOff_forward {s : BState} {B : Nat → List TE × TE → Prop}
    (hB : ∀ a c, B a c → NodeF.Rel B (s.step a) (stepR c)) {N : Nat} {ρ : List TE} {x : TE} {Γ : List Ty} {k : Nat} (h1 : AnnEnv Γ ρ)
    (h2 : Ann Γ k x) (h3 : Fits N ρ x) {j : Nat} (hj : B j (ρ, x)) (w : IW) (u rest : List Char)
    (h : TakesOff s j w u rest) : w.rem = u ++ rest ∧ (∃ t, Der (ρ.map TE.gram) x.gram t ∧ t.text = u) ∧
      NoCont (Der (ρ.map TE.gram) x.gram) u rest := by
  have hrun : ∀ n w, s.take n j w = takeR n ρ x w := by
    intro n w
    rw [takeR_eq_run]
    exact run_bisim hB n _ _ w hj
  obtain ⟨t, w', ht, rfl, rfl⟩ := h
  have ht' := ht
  obtain ⟨h4, n, h5⟩ := ht
  rw [hrun] at h5
  obtain ⟨h6, h7⟩ := takeR_sound n ρ x w w' t h5
  rw [← Tree.display_eq] at h7
  refine ⟨h7.1, ⟨t, h6, (Tree.display_eq t).symm⟩, ?_⟩
  intro c r' hr t2 ht2 v hv
  have h8 : ∃ n, takeR n ρ x (⟨w.pos, none, t2.text⟩ : IW) ≠ .oof := ⟨_, takeR_depth _ ρ Γ k x _ h1 h2 h3 (Nat.le_refl _)⟩
  obtain ⟨m, hm⟩ := h8
  obtain ⟨w2, h9, h10⟩ := takeR_complete m ρ Γ x k ⟨w.pos, none, t2.text⟩ t2 [] h1 h2 ht2 (by simp [IW.rem]) (fun c r' h => by cases h) hm
  obtain ⟨w3, h11, h12, -⟩ := (C76_lookahead s j w ⟨w.pos, none, t2.text⟩ t.display c r' v (by rw [h7.1, hr]) (by simp [IW.rem, hv]) rfl).1 t w' ht' hr
  have h13 : Takes s j ⟨w.pos, none, t2.text⟩ (.ok t2 w2) := ⟨by simp, m, by rw [hrun]; exact h9⟩
  have h14 := h11.unique h13
  cases h14
  rw [h10] at h12
  cases h12

theorem takesOff_backward {s : BState} {B : Nat → List TE × TE → Prop}
    (hB : ∀ a c, B a c → NodeF.Rel B (s.step a) (stepR c)) {N : Nat} {ρ : List TE} {x : TE} {Γ : List Ty} {k : Nat} (h1 : AnnEnv Γ ρ)
    (h2 : Ann Γ k x) (h3 : Fits N ρ x) {j : Nat} (hj : B j (ρ, x)) (hN : EnvNE (ρ.map TE.gram))
    (hg : x.gram.NoEmpty (envLang (ρ.map TE.gram))) (w : IW) (u rest : List Char) (hw : w.rem = u ++ rest)
    (hu : ∃ t, Der (ρ.map TE.gram) x.gram t ∧ t.text = u) (hc : NoCont (Der (ρ.map TE.gram) x.gram) u rest) : TakesOff s j w u rest := by
  obtain ⟨t, ht, rfl⟩ := hu
  have h8 : ∃ n, takeR n ρ x w ≠ .oof := ⟨_, takeR_depth _ ρ Γ k x _ h1 h2 h3 (Nat.le_refl _)⟩
  obtain ⟨m, hm⟩ := h8
  obtain ⟨w', h9, h10⟩ := takeR_munch m ρ Γ x k w t rest h1 h2 hN hg ht hw hc hm
  refine ⟨t, w', ⟨by simp, m, ?_⟩, Tree.display_eq t, h10⟩
  rw [← h9, takeR_eq_run]
  exact run_bisim hB m _ _ w hj

theorem noCont_iff {E : List Gram} {g : Gram} {u r : List Char} :
    NoCont (Der E g) u r ↔ ∀ c r' v, r = c :: r' → ¬ g.partLang E (u ++ c :: v) := by
  simp only [Gram.partLang, partEnv_eq, lang_iff_der]
  constructor
  · rintro h c r' v hr ⟨t, ht, hv⟩
    exact h c r' hr t ht v hv
  · intro h c r' hr t ht v hv
    exact h c r' v hr ⟨t, ht, hv⟩

/-- **C76** (longest match). Every generated type `j` is the parser of a part `g` of the grammar; whenever its `take` succeeds, on any
input and from any state, it has taken a word of the part, and no word of the part begins with that word and the next character: in
particular no longer beginning of the input is a word. -/
theorem C76_take_longest {e : NE} {te : TE} {s : BState} {id : Nat} (h : Compiled e te s id) (hns : NoSharingConflict te) (j : Nat)
    (hj : j < s.data.length) : ∃ E g, te.gram.PartOf E g ∧ IsParserOf s j E g ∧ ∀ w u rest, TakesOff s j w u rest →
      w.rem = u ++ rest ∧ g.partLang E u ∧ ∀ c r v, rest = c :: r → ¬ g.partLang E (u ++ c :: v) := by
  obtain ⟨cas, hc⟩ := h.code
  obtain ⟨B, h0, hB⟩ := gen_bisim h.ann hns hc
  obtain ⟨ρ, x, h1, h2⟩ := occ_of_reach (gen_tinv hc) hB ((gen_reach cas te _ _ _ hc .empty (by simp)).2 j (Nat.zero_le _) hj) h0
  refine ⟨_, _, h1.part, h1.parser h.ann hB h2, fun w u rest ht => ?_⟩
  obtain ⟨Γ, k, h3, h4, h5⟩ := h1.ann h.ann
  obtain ⟨h6, h7, h8⟩ := takesOff_forward hB h3 h4 h5 h2 w u rest ht
  refine ⟨h6, ?_, noCont_iff.1 h8⟩
  rw [Gram.partLang, partEnv_eq, lang_iff_der]
  exact h7

/-- **C76** (exactly). If every fix point of the grammar matches something, `take` of every generated type takes `u` from an input
exactly if `u` is a word of its part and with the next character it is no longer the beginning of one. -/
theorem C76_take_exact {e : NE} {te : TE} {s : BState} {id : Nat} (h : Compiled e te s id) (hns : NoSharingConflict te)
    (hne : te.gram.NoEmptyParts) (j : Nat) (hj : j < s.data.length) : ∃ E g, te.gram.PartOf E g ∧ IsParserOf s j E g ∧
      ∀ w u rest, TakesOff s j w u rest ↔
        w.rem = u ++ rest ∧ g.partLang E u ∧ ∀ c r v, rest = c :: r → ¬ g.partLang E (u ++ c :: v) := by
  obtain ⟨cas, hc⟩ := h.code
  obtain ⟨B, h0, hB⟩ := gen_bisim h.ann hns hc
  obtain ⟨ρ, x, h1, h2⟩ := occ_of_reach (gen_tinv hc) hB ((gen_reach cas te _ _ _ hc .empty (by simp)).2 j (Nat.zero_le _) hj) h0
  refine ⟨_, _, h1.part, h1.parser h.ann hB h2, fun w u rest => ?_⟩
  obtain ⟨Γ, k, h3, h4, h5⟩ := h1.ann h.ann
  obtain ⟨n1, n2⟩ := h1.noEmpty hne
  have hl : ∀ u, x.gram.partLang (ρ.map TE.gram) u ↔ ∃ t, Der (ρ.map TE.gram) x.gram t ∧ t.text = u := fun u => by
    rw [Gram.partLang, partEnv_eq, lang_iff_der]
  constructor
  · intro ht
    obtain ⟨h6, h7, h8⟩ := takesOff_forward hB h3 h4 h5 h2 w u rest ht
    exact ⟨h6, (hl u).2 h7, noCont_iff.1 h8⟩
  · rintro ⟨h6, h7, h8⟩
    exact takesOff_backward hB h3 h4 h5 h2 n1 n2 w u rest h6 ((hl u).1 h7) (noCont_iff.2 h8)

/-- **C76** (the root). For the root, in terms of the language of the grammar. -/
theorem C76_take_root {e : NE} {te : TE} {s : BState} {id : Nat} (h : Compiled e te s id) (hns : NoSharingConflict te)
    (hne : te.gram.NoEmptyParts) (w : IW) (u rest : List Char) : TakesOff s id w u rest ↔
      w.rem = u ++ rest ∧ te.gram.language u ∧ ∀ c r v, rest = c :: r → ¬ te.gram.language (u ++ c :: v) := by
  obtain ⟨cas, hc⟩ := h.code
  obtain ⟨B, h0, hB⟩ := gen_bisim h.ann hns hc
  have hl : ∀ u, te.gram.language u ↔ ∃ t, Der (([] : List TE).map TE.gram) te.gram t ∧ t.text = u := fun u => language_iff_der _ _
  have hl' : ∀ u, te.gram.language u ↔ te.gram.partLang [] u := fun u => by
    rw [hl, Gram.partLang, partEnv_eq, lang_iff_der]; rfl
  constructor
  · intro ht
    obtain ⟨h6, h7, h8⟩ := takesOff_forward hB .nil h.ann (Fits.root te) h0 w u rest ht
    exact ⟨h6, (hl u).2 h7, fun c r v hr hv => noCont_iff.1 h8 c r v hr ((hl' _).1 hv)⟩
  · rintro ⟨h6, h7, h8⟩
    exact takesOff_backward hB .nil h.ann (Fits.root te) h0 EnvNE.nil (by rw [List.map_nil, envLang_nil]; exact hne) w u rest h6 ((hl u).1 h7)
      (noCont_iff.2 fun c r v hr hv => h8 c r v hr ((hl' _).2 hv))

private def mi : Info := ⟨none, 0⟩
private def ml (s : List Char) : NE := .lit mi s

/-- `"a" | "b" . ("c" | _)` -/
private def exMunch : NE := .alt mi (ml ['a']) [(0, .cat mi (ml ['b']) [(0, .alt mi (ml ['c']) [(0, .eps mi)])])]

/-- The theorems apply: on `ac`, `take` takes `a` although `c` is in the flast set (so that C34 does not apply); on `bc` it takes everything. -/
example : ∃ te s id, Compiled exMunch te s id ∧ NoSharingConflict te ∧ te.gram.NoEmptyParts ∧ 'c' ∈ te.ty.flast ∧
    TakesOff s id (IW.new ['a', 'c']) ['a'] ['c'] ∧ TakesOff s id (IW.new ['b', 'c', 'a']) ['b', 'c'] ['a'] := by
  refine ⟨_, _, _, ⟨⟨8, rfl⟩, ⟨some, some⟩, rfl⟩, TE.shareSafe_sound (by decide), ?_, by decide, ?_, ?_⟩
  · simp [Gram.NoEmptyParts, TE.gram, TE.gramL, Gram.NoEmpty, Gram.NoEmptyL]
  · exact ⟨_, _, ⟨by simp, 9, rfl⟩, rfl, rfl⟩
  · exact ⟨_, _, ⟨by simp, 9, rfl⟩, rfl, rfl⟩

/-- **C76** (why fix points must match something). The language of `"a" . (_ | !(/x/ "b" . x))` is `a`, but from `ab` nothing is taken:
`take` goes for the second branch, which never ends. -/
theorem C76_needs_matching_parts : ∃ e te s id, Compiled e te s id ∧ NoSharingConflict te ∧ te.gram.language ['a'] ∧
    (∀ v, ¬ te.gram.language ('a' :: 'b' :: v)) ∧ ¬ TakesOff s id (IW.new ['a', 'b']) ['a'] ['b'] := by
  refine ⟨.cat mi (ml ['a']) [(0, .alt mi (.eps mi) [(0, .fix mi (.lam mi [.newVariable (.spanless "x")] (.cat mi (ml ['b']) [(0, .var mi 0)])))])],
    _, _, _, ⟨⟨8, rfl⟩, ⟨some, some⟩, rfl⟩, TE.shareSafe_sound (by decide), ⟨['a'], [], rfl, rfl, [], [], rfl, .inl rfl, rfl⟩, ?_, ?_⟩
  · rintro v ⟨x, y, h1, h2, z, q, h3, h4, h5⟩
    cases h2
    cases h5
    rw [List.append_nil] at h3
    subst h3
    rcases h4 with h4 | h4 | h4
    · cases h4
      cases h1
    · exact h4 (fun _ => False) (by
        rintro w ⟨_, _, _, _, _, _, _, h, _⟩
        exact h)
    · exact h4
  · rintro ⟨t, w', h1, -⟩
    have := h1.unique (r' := .err (.endOfStream ⟨1, 2⟩) ⟨⟨1, 2⟩, none, []⟩) ⟨by simp, 12, rfl⟩
    cases this

end Chomp
