import Verif.Lower.SysRun
import Verif.Props.Munch

/-!
# Systems of generated types in which every type has a value

What C55 and C76 say, for any system of definitions whose types fit together: no grammar is involved.
-/

namespace Chomp

section
variable {α : Type} {step : α → NodeF α} {S : α → Prop} {ty : α → Ty}

theorem valueL_all : ∀ {l : List α}, (∀ a ∈ l, ∃ t, Value step a t) → ∃ ts, ValueL step l ts
  | [], _ => ⟨[], .nil⟩
  | a :: l, h => by
    obtain ⟨t, ht⟩ := h a (.head _)
    obtain ⟨ts, hts⟩ := valueL_all (l := l) fun b hb => h b (.tail _ hb)
    exact ⟨t :: ts, .cons _ _ _ _ ht hts⟩

theorem sysCat_first {τ υ : Ty} {l : List Ty} (h : CatTys τ l υ) (hn : τ.nullable = false) (c : Char) : c ∈ υ.first ↔ c ∈ τ.first := by
  induction h with
  | nil τ => exact Iff.rfl
  | cons τ σ l υ _ _ ih =>
    rw [ih (by simp [Ty.cat, hn])]
    simp [Ty.cat, hn]

/-- Every character of the first set begins the text of a value. -/
theorem TySys.first_exact (h : TySys step S ty) (hin : ∀ a, S a → ∃ t, Value step a t) {N P L : Nat} {rk : α → Nat}
    (hR : Ranked step S N P L rk) : ∀ (m : Nat) (a : α), rk a ≤ m → S a → ∀ c, c ∈ (ty a).first → ∃ t v, Value step a t ∧ t.text = c :: v := by
  intro m
  induction m with
  | zero =>
    intro a hm hS c hc
    cases ha : step a with
    | eps => rw [h.eps a hS ha] at hc; simp [Ty.eps] at hc
    | lit s =>
      rw [h.lit a s hS ha] at hc
      simp only [Ty.ofStr] at hc
      rw [CharSet.mem_ofStr] at hc
      cases s with
      | nil => cases hc
      | cons d s => cases hc; exact ⟨_, s, .lit a _ ha, rfl⟩
    | cat l =>
      obtain ⟨b, l', rfl, h1, _⟩ := h.cat a l hS ha
      have := hR.left a b hS (h1 b (.head _)) (.inl ⟨l', ha⟩)
      omega
    | alt tys l =>
      obtain ⟨_, h1, _, _, h4, _⟩ := h.alt a tys l hS ha
      obtain ⟨x, hx, _⟩ := (h4 c).1 hc
      have := hR.left a x hS (h1 x hx) (.inr (.inl ⟨tys, l, ha, hx⟩))
      omega
    | alias b =>
      have := hR.left a b hS (h.alias a b hS ha).1 (.inr (.inr (.inl ha)))
      omega
    | box b =>
      have := hR.left a b hS (h.box a b hS ha).1 (.inr (.inr (.inr ha)))
      omega
    | bad => exact absurd ha (h.bad a hS)
  | succ m ih =>
    intro a hm hS c hc
    cases ha : step a with
    | eps => rw [h.eps a hS ha] at hc; simp [Ty.eps] at hc
    | lit s =>
      rw [h.lit a s hS ha] at hc
      simp only [Ty.ofStr] at hc
      rw [CharSet.mem_ofStr] at hc
      cases s with
      | nil => cases hc
      | cons d s => cases hc; exact ⟨_, s, .lit a _ ha, rfl⟩
    | cat l =>
      obtain ⟨b, l', rfl, h1, h2, h3⟩ := h.cat a l hS ha
      have := hR.left a b hS (h1 b (.head _)) (.inl ⟨l', ha⟩)
      obtain ⟨t, v, h4, h5⟩ := ih b (by omega) (h1 b (.head _)) c ((sysCat_first h3 h2 c).1 hc)
      obtain ⟨ts, hts⟩ := valueL_all (step := step) (l := l') fun x hx => hin x (h1 x (.tail _ hx))
      exact ⟨.cat (t :: ts), v ++ Tree.textL ts, .cat a _ _ ha (.cons _ _ _ _ h4 hts), by simp [Tree.text, Tree.textL, h5]⟩
    | alt tys l =>
      obtain ⟨_, h1, _, _, h4, _⟩ := h.alt a tys l hS ha
      obtain ⟨x, hx, hcx⟩ := (h4 c).1 hc
      have := hR.left a x hS (h1 x hx) (.inr (.inl ⟨tys, l, ha, hx⟩))
      obtain ⟨t, v, h5, h6⟩ := ih x (by omega) (h1 x hx) c hcx
      obtain ⟨k, hk⟩ := List.getElem?_of_mem hx
      exact ⟨.alt k t, v, .alt a tys l k x t ha hk h5, by simpa [Tree.text] using h6⟩
    | alias b =>
      obtain ⟨h1, h2⟩ := h.alias a b hS ha
      have := hR.left a b hS h1 (.inr (.inr (.inl ha)))
      rw [h2] at hc
      obtain ⟨t, v, h5, h6⟩ := ih b (by omega) h1 c hc
      exact ⟨t, v, .alias a b t ha h5, h6⟩
    | box b =>
      obtain ⟨h1, h2⟩ := h.box a b hS ha
      have := hR.left a b hS h1 (.inr (.inr (.inr ha)))
      rw [h2] at hc
      obtain ⟨t, v, h5, h6⟩ := ih b (by omega) h1 c hc
      exact ⟨.box t, v, .box a b t ha h5, by simpa [Tree.text] using h6⟩
    | bad => exact absurd ha (h.bad a hS)

/-! ## Errors -/

theorem seqTake_sysViable {f : α → IW → Res Tree} : ∀ {l : List α} {w w' : IW} {e : TakeError},
    (∀ x ∈ l, ∀ w w' t, f x w = .ok t w' → Value step x t ∧ Reach w t.text w') →
    (∀ x ∈ l, ∀ w w' e, f x w = .err e w' → ∃ p, Reach w p w' ∧ Viable (Value step x) p e) →
    (∀ x ∈ l, ∃ t, Value step x t) →
    seqTake f l w = .err e w' → ∃ p, Reach w p w' ∧ Viable (fun t => ∃ ts, t = .cat ts ∧ ValueL step l ts) p e
  | [], w, w', e, _, _, _, h => by simp only [seqTake] at h; cases h
  | x :: l, w, w', e, hf, he, hi, h => by
    simp only [seqTake] at h
    cases hx : f x w with
    | ok t w1 =>
      rw [hx] at h
      simp only [Res.bind] at h
      obtain ⟨hd, hr⟩ := hf x (by simp) w w1 t hx
      cases hl : seqTake f l w1 with
      | err e' w2 =>
        rw [hl] at h
        simp only at h
        cases h
        obtain ⟨p, h1, h2⟩ := seqTake_sysViable (fun a ha => hf a (by simp [ha])) (fun a ha => he a (by simp [ha]))
          (fun a ha => hi a (by simp [ha])) hl
        refine ⟨_, hr.trans h1, h2.map (fun u => match u with | .cat us => .cat (t :: us) | u => u) t.text [] ?_⟩
        rintro u ⟨us, rfl, hus⟩
        exact ⟨⟨_, rfl, .cons _ _ _ _ hd hus⟩, by simp [Tree.text, Tree.textL]⟩
      | ok _ _ => rw [hl] at h; cases h
      | panic => rw [hl] at h; cases h
      | oof => rw [hl] at h; cases h
    | err e' w1 =>
      rw [hx] at h
      cases h
      obtain ⟨p, h1, h2⟩ := he x (by simp) w w' e hx
      obtain ⟨ts, hts⟩ := valueL_all (step := step) (l := l) fun y hy => hi y (by simp [hy])
      refine ⟨p, h1, h2.map (fun u => .cat (u :: ts)) [] (Tree.textL ts) ?_⟩
      intro u hu
      exact ⟨⟨_, rfl, .cons _ _ _ _ hu hts⟩, by simp [Tree.text, Tree.textL]⟩
    | panic => rw [hx] at h; cases h
    | oof => rw [hx] at h; cases h

/-- A failing run has consumed the beginning of the text of a value, and what it says it expected is right. -/
theorem TySys.viable (h : TySys step S ty) (hin : ∀ a, S a → ∃ t, Value step a t) {N P L : Nat} {rk : α → Nat} (hR : Ranked step S N P L rk) :
    ∀ (n : Nat) (a : α) (w w' : IW) (e : TakeError), S a → run step n a w = .err e w' → ∃ p, Reach w p w' ∧ Viable (Value step a) p e
  | 0, _, _, _, _, _, hr => by cases hr
  | n + 1, a, w, w', e, hS, hr => by
    have ih := h.viable hin hR n
    simp only [run] at hr
    cases ha : step a with
    | eps => rw [ha] at hr; cases hr
    | lit s =>
      rw [ha] at hr
      obtain ⟨p, h1, h2⟩ := consumeStr_viable (Res.map_err hr)
      refine ⟨p, h1, h2.map id [] [] ?_⟩
      rintro t rfl
      exact ⟨.lit a s ha, by simp⟩
    | cat l =>
      rw [ha] at hr
      obtain ⟨b, l', rfl, h1, h2, h3⟩ := h.cat a l hS ha
      obtain ⟨p, h4, h5⟩ := seqTake_sysViable (step := step) (fun x _ w w' t hx => ⟨run_value n x w w' t hx, run_text n x w w' t hx⟩)
        (fun x hx w w' e he => ih x w w' e (h1 x hx) he) (fun x hx => hin x (h1 x hx)) (Res.map_err hr)
      refine ⟨p, h4, h5.map id [] [] ?_⟩
      rintro t ⟨us, rfl, hus⟩
      exact ⟨.cat a _ us ha hus, by simp⟩
    | alt tys l =>
      rw [ha] at hr
      obtain ⟨h0, h1, h2, h3, h4, h5⟩ := h.alt a tys l hS ha
      simp only [altTake] at hr
      rw [IW.peek_eq] at hr
      dsimp only at hr
      split at hr
      · rename_i j hj
        split at hr
        · rename_i x hx
          have hm := List.mem_of_getElem? hx
          obtain ⟨p, e1, e2⟩ := ih x _ w' e (h1 x hm) (Res.map_err hr)
          refine ⟨[] ++ p, (Reach.peek w).trans e1, e2.map (.alt j) [] [] ?_⟩
          intro t ht
          exact ⟨.alt a tys l j x t ha hx ht, by simp [Tree.text]⟩
        · cases hr
      · cases hr
        refine ⟨[], Reach.peek w, ?_, ?_, ?_⟩
        · obtain ⟨t, ht⟩ := hin a hS
          exact ⟨t, ht, List.nil_prefix⟩
        · intro pos c exp he d hd
          unfold altFail at he
          split at he
          · cases he
            rw [List.mem_flatMap] at hd
            obtain ⟨τ, hτ, hd⟩ := hd
            rw [h0] at hτ
            obtain ⟨x, hx, rfl⟩ := List.mem_map.1 hτ
            obtain ⟨j, hj⟩ := List.getElem?_of_mem hx
            obtain ⟨t, v, e1, e2⟩ := h.first_exact hin hR _ x (Nat.le_refl _) (h1 x hx) d hd
            exact ⟨.alt j t, .alt a tys l j x t ha hj e1, v, by simp [Tree.text, e2]⟩
          · cases he
        · intro pos got s he
          unfold altFail at he
          split at he <;> cases he
    | alias b =>
      rw [ha] at hr
      obtain ⟨p, e1, e2⟩ := ih b w w' e (h.alias a b hS ha).1 hr
      refine ⟨p, e1, e2.map id [] [] ?_⟩
      intro t ht
      exact ⟨.alias a b t ha ht, by simp⟩
    | box b =>
      rw [ha] at hr
      obtain ⟨p, e1, e2⟩ := ih b w w' e (h.box a b hS ha).1 (Res.map_err hr)
      refine ⟨p, e1, e2.map .box [] [] ?_⟩
      intro t ht
      exact ⟨.box a b t ha ht, by simp [Tree.text]⟩
    | bad => exact absurd ha (h.bad a hS)

/-! ## What is taken -/

theorem TySys.value_follow (h : TySys step S ty) {a : α} (hS : S a) {u u' : Tree} (hu : Value step a u) (hu' : Value step a u') {c : Char}
    {v : List Char} (ht : u'.text = u.text ++ c :: v) {r r' : List Char} (hr : r = c :: r') (hf : Follow (ty a) u.text r) : False := by
  have hf := hf c r' hr
  by_cases he : u.text = []
  · exact hf.2 he ((h.desc hu' hS).2 c v (by rw [ht, he]; rfl))
  · exact hf.1 he ((h.uniq hu hS u' hu').left c ⟨he, v, ht⟩)

theorem TySys.frontCont (h : TySys step S ty) {a : α} {l : List α} (hS : S a) {u : Tree} {us : List Tree} {r : List Char} (hd : Value step a u)
    (hds : ValueL step l us) (hf : Follow (ty a) u.text (Tree.textL us))
    (hr : NoCont (fun t => ∃ ts, t = .cat ts ∧ ValueL step (a :: l) ts) (Tree.textL (u :: us)) r) :
    NoCont (Value step a) u.text (Tree.textL us ++ r) := by
  intro c r' hh u' hu' v ht
  cases hx : Tree.textL us with
  | cons d x =>
    rw [hx] at hh hf
    simp only [List.cons_append, List.cons.injEq] at hh
    obtain ⟨rfl, -⟩ := hh
    exact h.value_follow hS hd hu' ht rfl hf
  | nil =>
    rw [hx, List.nil_append] at hh
    refine hr c r' hh (.cat (u' :: us)) ⟨_, rfl, .cons _ _ _ _ hu' hds⟩ v ?_
    simp [Tree.text, Tree.textL, hx, ht]

theorem backCont {a : α} {l : List α} {u : Tree} {us : List Tree} {r : List Char} (hd : Value step a u)
    (hr : NoCont (fun t => ∃ ts, t = .cat ts ∧ ValueL step (a :: l) ts) (Tree.textL (u :: us)) r) :
    NoCont (fun t => ∃ ts, t = .cat ts ∧ ValueL step l ts) (Tree.textL us) r := by
  rintro c r' h _ ⟨ts, rfl, hts⟩ v ht
  refine hr c r' h (.cat (u :: ts)) ⟨_, rfl, .cons _ _ _ _ hd hts⟩ v ?_
  simp only [Tree.text, Tree.textL] at ht ⊢
  rw [ht, List.append_assoc]

theorem TySys.munchL (h : TySys step S ty) {f : α → IW → Res Tree} : ∀ {l : List α} {us : List Tree} {τ υ : Ty}, (∀ x ∈ l, S x) →
    (∀ x ∈ l, ∀ w u r, Value step x u → w.rem = u.text ++ r → NoCont (Value step x) u.text r → f x w ≠ .oof → ∃ w', f x w = .ok u w' ∧ w'.rem = r) →
    CatTys τ (l.map ty) υ → ValueL step l us → ∀ {w : IW} {r : List Char}, w.rem = Tree.textL us ++ r →
    NoCont (fun t => ∃ us, t = .cat us ∧ ValueL step l us) (Tree.textL us) r → seqTake f l w ≠ .oof →
    ∃ w', seqTake f l w = .ok us w' ∧ w'.rem = r
  | [], us, τ, υ, hS, hf, hA, hd, w, r, hw, hr, ho => by
    cases hd
    exact ⟨w, rfl, by simpa [Tree.textL] using hw⟩
  | a :: l, us, τ, υ, hS, hf, hA, hd, w, r, hw, hr, ho => by
    cases hA with
    | cons _ _ _ _ h2 h3 =>
      cases hd with
      | cons _ _ u us hd1 hd2 =>
        have ha := hS a (.head _)
        have hl := fun x hx => hS x (.tail _ hx)
        have hdesc := h.desc hd1 ha
        have hfol := flast_cat_of hdesc (r := Tree.textL us) (by
          have := h.rest_follow hd2 hl h3 (r := []) (fun c r' h => by cases h)
          simpa using this)
        have hw' : w.rem = u.text ++ (Tree.textL us ++ r) := by rw [hw]; simp [Tree.textL]
        have ho1 : f a w ≠ .oof := by
          intro h; apply ho; simp [seqTake, h, Res.bind]
        obtain ⟨w1, e1, e2⟩ := hf a (by simp) w u _ hd1 hw' (h.frontCont ha hd1 hd2 hfol hr) ho1
        have ho2 : seqTake f l w1 ≠ .oof := by
          intro h; apply ho; simp [seqTake, e1, h, Res.bind]
        obtain ⟨w2, e3, e4⟩ := h.munchL hl (fun t ht => hf t (by simp [ht])) h3 hd2 e2 (backCont hd1 hr) ho2
        exact ⟨w2, by simp [seqTake, e1, e3, Res.bind], e4⟩

/-- A value that the next character cannot continue is taken. -/
theorem TySys.munch (h : TySys step S ty) (hin : ∀ a, S a → ∃ t, Value step a t) {N P L : Nat} {rk : α → Nat} (hR : Ranked step S N P L rk) :
    ∀ (n : Nat) (a : α) (w : IW) (u : Tree) (r : List Char), S a → Value step a u → w.rem = u.text ++ r → NoCont (Value step a) u.text r →
    run step n a w ≠ .oof → ∃ w', run step n a w = .ok u w' ∧ w'.rem = r
  | 0, _, _, _, _, _, _, _, _, ho => absurd rfl ho
  | n + 1, a, w, u, r, hS, hd, hw, hfol, ho => by
    have ih := h.munch hin hR n
    cases ha : step a with
    | eps =>
      cases hd.inv_eps ha
      exact ⟨w, by simp [run, ha], by simpa [Tree.text] using hw⟩
    | lit s =>
      cases hd.inv_lit ha
      obtain ⟨w', h1⟩ := consumeStr_complete (s := s) (w := w) ⟨r, hw.symm⟩
      refine ⟨w', by simp [run, ha, h1, Res.map], ?_⟩
      have := (consumeStr_ok h1).1
      rw [hw] at this
      simpa [Tree.text] using this.symm
    | cat l =>
      obtain ⟨b, l', rfl, h1, h2, h3⟩ := h.cat a l hS ha
      obtain ⟨us, rfl, hus⟩ := hd.inv_cat ha
      cases hus with
      | cons _ _ u us hd1 hd2 =>
        have hb := h1 b (.head _)
        have hl := fun x hx => h1 x (.tail _ hx)
        have hdesc := h.desc hd1 hb
        have hne : u.text ≠ [] := fun h => by have := hdesc.1 h; simp [h2] at this
        have hr : NoCont (fun t' => ∃ us, t' = .cat us ∧ ValueL step (b :: l') us) (Tree.textL (u :: us)) r := by
          rintro c r' h _ ⟨us', rfl, hus⟩ v hv
          exact hfol c r' h (.cat us') (.cat _ _ us' ha hus) v (by simpa [Tree.text] using hv)
        have hcr := h.rest_follow hd2 hl h3 (r := []) (fun c r' h => by cases h)
        rw [List.append_nil] at hcr
        have hw' : w.rem = u.text ++ (Tree.textL us ++ r) := by rw [hw]; simp [Tree.text, Tree.textL]
        have ho1 : run step n b w ≠ .oof := by
          intro h; apply ho; simp [run, ha, seqTake, h, Res.bind, Res.map]
        obtain ⟨w1, e1, e2⟩ := ih b w u _ hb hd1 hw'
          (h.frontCont hb hd1 hd2 (fun c r' h => ⟨fun _ => hcr c r' h, fun h => absurd h hne⟩) hr) ho1
        have ho2 : seqTake (run step n) l' w1 ≠ .oof := by
          intro h; apply ho; simp [run, ha, seqTake, e1, h, Res.bind, Res.map]
        obtain ⟨w2, e3, e4⟩ := h.munchL hl (fun x hx w u r hd hw hfol ho => ih x w u r (hl x hx) hd hw hfol ho) h3 hd2 e2
          (backCont hd1 hr) ho2
        exact ⟨w2, by simp [run, ha, seqTake, e1, e3, Res.bind, Res.map], e4⟩
    | alt tys l =>
      obtain ⟨h0, h1, h2, h3, h4, h5⟩ := h.alt a tys l hS ha
      obtain ⟨k, b, u, rfl, hk, hv⟩ := hd.inv_alt ha
      have hb := List.mem_of_getElem? hk
      have hdesc := h.desc hv (h1 b hb)
      have hch : altChoose w.rem.head? tys = some k := by
        rw [hw]
        refine altChoose_complete h2 (σ := ty b) (by rw [h0, List.getElem?_map, hk]; rfl) hdesc ?_
        intro hu c r' hr τ hτ
        rw [h0] at hτ
        obtain ⟨t', ht', rfl⟩ := List.mem_map.1 hτ
        intro hc
        obtain ⟨m, hm⟩ := List.getElem?_of_mem ht'
        obtain ⟨x, v, e1, e2⟩ := h.first_exact hin hR _ t' (Nat.le_refl _) (h1 t' ht') c hc
        refine hfol c r' hr (.alt m x) (.alt a tys l m t' x ha hm e1) v ?_
        have hu' : (Tree.alt k u).text = [] := by simpa [Tree.text] using hu
        rw [hu']
        simpa [Tree.text] using e2
      have heq : run step (n + 1) a w = (run step n b w.peek.2).map (.alt k) := by
        simp only [run, ha, altTake]
        rw [IW.peek_eq]
        simp only [hch, hk]
      rw [heq] at ho ⊢
      have ho1 : run step n b w.peek.2 ≠ .oof := by
        intro h; apply ho; simp [h, Res.map]
      obtain ⟨w1, e1, e2⟩ := ih b w.peek.2 u r (h1 b hb) hv (by simpa [Tree.text] using hw)
        (fun c r' h x hx v hv => hfol c r' h (.alt k x) (.alt a tys l k b x ha hk hx) v (by simpa [Tree.text] using hv)) ho1
      exact ⟨w1, by simp [e1, Res.map], e2⟩
    | alias b =>
      have heq : run step (n + 1) a w = run step n b w := by simp only [run, ha]
      rw [heq] at ho ⊢
      exact ih b w u r (h.alias a b hS ha).1 (hd.inv_alias ha) hw
        (fun c r' h x hx v hv => hfol c r' h x (.alias a b x ha hx) v hv) ho
    | box b =>
      obtain ⟨u, rfl, hv⟩ := hd.inv_box ha
      have heq : run step (n + 1) a w = (run step n b w).map .box := by simp only [run, ha]
      rw [heq] at ho ⊢
      have ho1 : run step n b w ≠ .oof := by
        intro h; apply ho; simp [h, Res.map]
      obtain ⟨w1, e1, e2⟩ := ih b w u r (h.box a b hS ha).1 hv (by simpa [Tree.text] using hw)
        (fun c r' h x hx v hv => hfol c r' h (.box x) (.box a b x ha hx) v (by simpa [Tree.text] using hv)) ho1
      exact ⟨w1, by simp [e1, Res.map], e2⟩
    | bad => exact absurd ha (h.bad a hS)

end

end Chomp
