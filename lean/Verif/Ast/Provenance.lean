import Verif.Ast.ReduceLemmas
import Verif.Props.NodeNames
import Verif.Lower.TableProps

/-!
# Where names come from

No stage invents a name: names of a converted program are those of its source, and reduction and type inference only
move names around.
-/

namespace Chomp

mutual
/-- All names in an expression satisfy `P`. -/
def NE.AllNames (P : Name → Prop) : NE → Prop
  | .eps i => ∀ n ∈ i.name, P n
  | .lit i _ => ∀ n ∈ i.name, P n
  | .cat i f r => (∀ n ∈ i.name, P n) ∧ f.AllNames P ∧ NE.AllNamesP P r
  | .alt i f r => (∀ n ∈ i.name, P n) ∧ f.AllNames P ∧ NE.AllNamesP P r
  | .fix i b => (∀ n ∈ i.name, P n) ∧ b.AllNames P
  | .var i _ => ∀ n ∈ i.name, P n
  | .call i o a => (∀ n ∈ i.name, P n) ∧ o.AllNames P ∧ NE.AllNamesL P a
  | .lam i a b => (∀ n ∈ i.name, P n) ∧ (∀ n ∈ a, P n) ∧ b.AllNames P
  | .letE i x b c => (∀ n ∈ i.name, P n) ∧ P x ∧ b.AllNames P ∧ c.AllNames P
def NE.AllNamesP (P : Name → Prop) : List (Nat × NE) → Prop
  | [] => True
  | (_, e) :: l => e.AllNames P ∧ NE.AllNamesP P l
def NE.AllNamesL (P : Name → Prop) : List NE → Prop
  | [] => True
  | e :: l => e.AllNames P ∧ NE.AllNamesL P l
end

variable {P : Name → Prop}

theorem merge_mem {a b : Option Name} (ha : ∀ n ∈ a, P n) (hb : ∀ n ∈ b, P n) : ∀ n ∈ Name.merge a b, P n := by
  cases a with
  | none => exact hb
  | some a =>
    cases b with
    | none => exact ha
    | some b =>
      simp only [Name.merge]
      split
      · exact ha
      · exact hb

theorem mergeAll_mem {l : List (Option Name)} (h : ∀ a ∈ l, ∀ n ∈ a, P n) : ∀ n ∈ Name.mergeAll l, P n := by
  have key : ∀ (l : List (Option Name)) (b : Option Name), (∀ a ∈ l, ∀ n ∈ a, P n) → (∀ n ∈ b, P n) →
      ∀ n ∈ l.foldl Name.merge b, P n := by
    intro l
    induction l with
    | nil => exact fun b _ hb => hb
    | cons a l ih =>
      exact fun b h hb => ih _ (fun x hx => h x (List.mem_cons_of_mem _ hx)) (merge_mem hb (h a List.mem_cons_self))
  exact key l none h (by simp)

theorem NE.AllNames.info {e : NE} (h : e.AllNames P) : ∀ n ∈ e.info.name, P n := by
  cases e <;> simp only [NE.AllNames] at h <;> simp only [NE.info] <;> first | exact h | exact h.1

theorem NE.AllNames.setInfo {e : NE} (h : e.AllNames P) {i : Info} (hi : ∀ n ∈ i.name, P n) : (e.setInfo i).AllNames P := by
  cases e <;> simp only [NE.AllNames, NE.setInfo] at h ⊢ <;> first | exact hi | exact ⟨hi, h.2⟩

theorem NE.AllNames.setName {e : NE} (h : e.AllNames P) {nm : Option Name} (hi : ∀ n ∈ nm, P n) : (e.setName nm).AllNames P :=
  h.setInfo hi

/-! ## Renaming and substitution -/

mutual
theorem NE.AllNames.rename {d : Direction} : ∀ {e e' : NE} {n k : Nat}, e.AllNames P → e.rename d n k = some e' → e'.AllNames P
  | .eps i, e', n, k, h, he => by simp only [NE.rename] at he; cases he; exact h
  | .lit i s, e', n, k, h, he => by simp only [NE.rename] at he; cases he; exact h
  | .cat i f r, e', n, k, h, he => by
    simp only [NE.rename, Option.bind_eq_bind, Option.bind_eq_some_iff] at he
    obtain ⟨f', hf, r', hr, he⟩ := he
    cases he
    exact ⟨h.1, h.2.1.rename hf, NE.AllNamesP.rename h.2.2 hr⟩
  | .alt i f r, e', n, k, h, he => by
    simp only [NE.rename, Option.bind_eq_bind, Option.bind_eq_some_iff] at he
    obtain ⟨f', hf, r', hr, he⟩ := he
    cases he
    exact ⟨h.1, h.2.1.rename hf, NE.AllNamesP.rename h.2.2 hr⟩
  | .fix i b, e', n, k, h, he => by
    simp only [NE.rename, Option.bind_eq_bind, Option.bind_eq_some_iff] at he
    obtain ⟨b', hb, he⟩ := he
    cases he
    exact ⟨h.1, h.2.rename hb⟩
  | .var i x, e', n, k, h, he => by
    simp only [NE.rename] at he
    split at he
    · cases d with
      | deepen => cases he; exact h
      | shallow =>
        simp only at he
        split at he
        · cases he
        · cases he; exact h
    · cases he; exact h
  | .call i o a, e', n, k, h, he => by
    simp only [NE.rename, Option.bind_eq_bind, Option.bind_eq_some_iff] at he
    obtain ⟨f', hf, r', hr, he⟩ := he
    cases he
    exact ⟨h.1, h.2.1.rename hf, NE.AllNamesL.rename h.2.2 hr⟩
  | .lam i a b, e', n, k, h, he => by
    simp only [NE.rename, Option.bind_eq_bind, Option.bind_eq_some_iff] at he
    obtain ⟨b', hb, he⟩ := he
    cases he
    exact ⟨h.1, h.2.1, h.2.2.rename hb⟩
  | .letE i x b c, e', n, k, h, he => by
    simp only [NE.rename, Option.bind_eq_bind, Option.bind_eq_some_iff] at he
    obtain ⟨b', hb, c', hc, he⟩ := he
    cases he
    exact ⟨h.1, h.2.1, h.2.2.1.rename hb, h.2.2.2.rename hc⟩
theorem NE.AllNamesP.rename {d : Direction} : ∀ {l l' : List (Nat × NE)} {n k : Nat}, NE.AllNamesP P l → NE.renameP d n k l = some l' →
    NE.AllNamesP P l'
  | [], l', n, k, h, he => by simp only [NE.renameP] at he; cases he; exact h
  | (s, e) :: l, l', n, k, h, he => by
    simp only [NE.renameP, Option.bind_eq_bind, Option.bind_eq_some_iff] at he
    obtain ⟨f', hf, r', hr, he⟩ := he
    cases he
    exact ⟨h.1.rename hf, NE.AllNamesP.rename h.2 hr⟩
theorem NE.AllNamesL.rename {d : Direction} : ∀ {l l' : List NE} {n k : Nat}, NE.AllNamesL P l → NE.renameL d n k l = some l' →
    NE.AllNamesL P l'
  | [], l', n, k, h, he => by simp only [NE.renameL] at he; cases he; exact h
  | e :: l, l', n, k, h, he => by
    simp only [NE.renameL, Option.bind_eq_bind, Option.bind_eq_some_iff] at he
    obtain ⟨f', hf, r', hr, he⟩ := he
    cases he
    exact ⟨h.1.rename hf, NE.AllNamesL.rename h.2 hr⟩
end

theorem Sub.enter_names {n : Nat} {st st' : Sub} (h : st.expr.AllNames P) (he : st.enter n = some st') : st'.expr.AllNames P := by
  simp only [Sub.enter, Option.bind_eq_bind, Option.bind_eq_some_iff] at he
  obtain ⟨e, h1, he⟩ := he
  cases he
  exact h.rename h1

theorem Sub.leave_names {n : Nat} {st st' : Sub} (h : st.expr.AllNames P) (he : st.leave n = some st') : st'.expr.AllNames P := by
  simp only [Sub.leave, Option.bind_eq_bind, Option.bind_eq_some_iff] at he
  obtain ⟨e, h1, he⟩ := he
  split at he
  · cases he
  · cases he
    exact h.rename h1

mutual
theorem NE.AllNames.substS : ∀ {e e' : NE} {st st' : Sub}, e.AllNames P → st.expr.AllNames P → e.substS st = some (e', st') →
    e'.AllNames P ∧ st'.expr.AllNames P
  | .eps i, e', st, st', h, hs, he => by simp only [NE.substS] at he; cases he; exact ⟨h, hs⟩
  | .lit i s, e', st, st', h, hs, he => by simp only [NE.substS] at he; cases he; exact ⟨h, hs⟩
  | .cat i f r, e', st, st', h, hs, he => by
    simp only [NE.substS, Option.bind_eq_bind, Option.bind_eq_some_iff] at he
    obtain ⟨⟨f', st1⟩, hf, ⟨r', st2⟩, hr, he⟩ := he
    cases he
    have h1 := h.2.1.substS hs hf
    have h2 := NE.AllNamesP.substP h.2.2 h1.2 hr
    exact ⟨⟨h.1, h1.1, h2.1⟩, h2.2⟩
  | .alt i f r, e', st, st', h, hs, he => by
    simp only [NE.substS, Option.bind_eq_bind, Option.bind_eq_some_iff] at he
    obtain ⟨⟨f', st1⟩, hf, ⟨r', st2⟩, hr, he⟩ := he
    cases he
    have h1 := h.2.1.substS hs hf
    have h2 := NE.AllNamesP.substP h.2.2 h1.2 hr
    exact ⟨⟨h.1, h1.1, h2.1⟩, h2.2⟩
  | .fix i b, e', st, st', h, hs, he => by
    simp only [NE.substS, Option.bind_eq_bind, Option.bind_eq_some_iff] at he
    obtain ⟨⟨f', st1⟩, hf, he⟩ := he
    cases he
    have h1 := h.2.substS hs hf
    exact ⟨⟨h.1, h1.1⟩, h1.2⟩
  | .var i k, e', st, st', h, hs, he => by
    simp only [NE.substS] at he
    split at he
    · cases he
      exact ⟨hs.setName (merge_mem hs.info h), hs⟩
    · cases he
      exact ⟨h, hs⟩
  | .call i o a, e', st, st', h, hs, he => by
    simp only [NE.substS, Option.bind_eq_bind, Option.bind_eq_some_iff] at he
    obtain ⟨⟨f', st1⟩, hf, ⟨r', st2⟩, hr, he⟩ := he
    cases he
    have h1 := h.2.1.substS hs hf
    have h2 := NE.AllNamesL.substL h.2.2 h1.2 hr
    exact ⟨⟨h.1, h1.1, h2.1⟩, h2.2⟩
  | .lam i a b, e', st, st', h, hs, he => by
    simp only [NE.substS, Option.bind_eq_bind, Option.bind_eq_some_iff] at he
    obtain ⟨st1, h1, ⟨f', st2⟩, hf, st3, h3, he⟩ := he
    cases he
    have h2 := h.2.2.substS (Sub.enter_names hs h1) hf
    exact ⟨⟨h.1, h.2.1, h2.1⟩, Sub.leave_names h2.2 h3⟩
  | .letE i x b c, e', st, st', h, hs, he => by
    simp only [NE.substS, Option.bind_eq_bind, Option.bind_eq_some_iff] at he
    obtain ⟨⟨b', st0⟩, hb, st1, h1, ⟨f', st2⟩, hf, st3, h3, he⟩ := he
    cases he
    have h0 := h.2.2.1.substS hs hb
    have h2 := h.2.2.2.substS (Sub.enter_names h0.2 h1) hf
    exact ⟨⟨h.1, h.2.1, h0.1, h2.1⟩, Sub.leave_names h2.2 h3⟩
theorem NE.AllNamesP.substP : ∀ {l l' : List (Nat × NE)} {st st' : Sub}, NE.AllNamesP P l → st.expr.AllNames P →
    NE.substP st l = some (l', st') → NE.AllNamesP P l' ∧ st'.expr.AllNames P
  | [], l', st, st', h, hs, he => by simp only [NE.substP] at he; cases he; exact ⟨h, hs⟩
  | (s, e) :: l, l', st, st', h, hs, he => by
    simp only [NE.substP, Option.bind_eq_bind, Option.bind_eq_some_iff] at he
    obtain ⟨⟨f', st1⟩, hf, ⟨r', st2⟩, hr, he⟩ := he
    cases he
    have h1 := h.1.substS hs hf
    have h2 := NE.AllNamesP.substP h.2 h1.2 hr
    exact ⟨⟨h1.1, h2.1⟩, h2.2⟩
theorem NE.AllNamesL.substL : ∀ {l l' : List NE} {st st' : Sub}, NE.AllNamesL P l → st.expr.AllNames P →
    NE.substL st l = some (l', st') → NE.AllNamesL P l' ∧ st'.expr.AllNames P
  | [], l', st, st', h, hs, he => by simp only [NE.substL] at he; cases he; exact ⟨h, hs⟩
  | e :: l, l', st, st', h, hs, he => by
    simp only [NE.substL, Option.bind_eq_bind, Option.bind_eq_some_iff] at he
    obtain ⟨⟨f', st1⟩, hf, ⟨r', st2⟩, hr, he⟩ := he
    cases he
    have h1 := h.1.substS hs hf
    have h2 := NE.AllNamesL.substL h.2 h1.2 hr
    exact ⟨⟨h1.1, h2.1⟩, h2.2⟩
end

theorem NE.AllNames.substitute {e e' x : NE} {k : Nat} (h : e.AllNames P) (hx : x.AllNames P) (he : e.substitute k x = some e') :
    e'.AllNames P := by
  simp only [NE.substitute, Option.map_eq_some_iff] at he
  obtain ⟨⟨y, st⟩, hy, rfl⟩ := he
  exact (h.substS hx hy).1

/-! ## Reduction -/

theorem NE.AllNamesL.mem : ∀ {l : List NE}, NE.AllNamesL P l → ∀ e ∈ l, e.AllNames P
  | _ :: _, h, _, .head _ => h.1
  | _ :: _, h, _, .tail _ he => NE.AllNamesL.mem h.2 _ he

theorem applyArgs_names {body out : NE} {params : List Name} {args : List NE} (hb : body.AllNames P) (hp : ∀ n ∈ params, P n)
    (ha : NE.AllNamesL P args) (h : applyArgs body params args = some out) : out.AllNames P := by
  have key : ∀ (l : List ((NE × Nat) × Name)) (b out : NE), b.AllNames P → (∀ p ∈ l, p.1.1.AllNames P ∧ P p.2) →
      foldOpt applyArg b l = some out → out.AllNames P := by
    intro l
    induction l with
    | nil => intro b out hb _ h; cases h; exact hb
    | cons p l ih =>
      intro b out hb hl h
      simp only [foldOpt, Option.bind_eq_some_iff] at h
      obtain ⟨b', h1, h2⟩ := h
      refine ih b' out ?_ (fun q hq => hl q (List.mem_cons_of_mem _ hq)) h2
      simp only [applyArg, Option.bind_eq_bind, Option.bind_eq_some_iff] at h1
      obtain ⟨a, h3, h4⟩ := h1
      obtain ⟨hp1, hp2⟩ := hl p List.mem_cons_self
      refine hb.substitute (NE.AllNames.rename (hp1.setName (merge_mem hp1.info ?_)) h3) h4
      simpa using hp2
  refine key _ body out hb ?_ h
  intro p hp'
  rw [List.mem_reverse] at hp'
  have h1 := List.of_mem_zip hp'
  refine ⟨ha.mem _ ?_, hp _ h1.2⟩
  exact (List.mem_zipIdx h1.1).2.2 ▸ List.getElem_mem _

theorem mapP_names {f : NE → Out RErr NE} (hf : ∀ e e', e.AllNames P → f e = .ok e' → e'.AllNames P) :
    ∀ {l l' : List (Nat × NE)}, NE.AllNamesP P l → mapP f l = .ok l' → NE.AllNamesP P l'
  | [], l', h, he => by simp only [mapP] at he; cases he; exact h
  | (s, e) :: l, l', h, he => by
    simp only [mapP] at he
    obtain ⟨e', h1, he⟩ := Out.bind_ok he
    obtain ⟨l'', h2, he⟩ := Out.bind_ok he
    cases he
    exact ⟨hf e e' h.1 h1, mapP_names hf h.2 h2⟩

/-- Reduction invents no names. -/
theorem NE.AllNames.reduce : ∀ (n : Nat) (e e' : NE), e.AllNames P → reduce n e = .ok e' → e'.AllNames P := by
  intro n
  induction n with
  | zero => intro e e' _ he; cases he
  | succ n ih =>
    intro e e' h he
    cases e <;> rw [Chomp.reduce] at he
    case eps i => cases he; exact h
    case lit i s => cases he; exact h
    case var i k => cases he; exact h
    case lam i a b => cases he; exact h
    case cat i f r =>
      obtain ⟨f', h1, he⟩ := Out.bind_ok he
      obtain ⟨r', h2, he⟩ := Out.bind_ok he
      cases he
      exact ⟨h.1, ih _ _ h.2.1 h1, mapP_names ih h.2.2 h2⟩
    case alt i f r =>
      obtain ⟨f', h1, he⟩ := Out.bind_ok he
      obtain ⟨r', h2, he⟩ := Out.bind_ok he
      cases he
      exact ⟨h.1, ih _ _ h.2.1 h1, mapP_names ih h.2.2 h2⟩
    case fix i b =>
      obtain ⟨b', h1, he⟩ := Out.bind_ok he
      have hb' := ih _ _ h.2 h1
      cases b' with
      | lam j a c =>
        obtain ⟨c', h2, he⟩ := Out.bind_ok he
        cases he
        exact ⟨h.1, hb'.1, hb'.2.1, ih _ _ hb'.2.2 h2⟩
      | _ => cases he; exact ⟨h.1, hb'⟩
    case call i o a =>
      obtain ⟨o', h1, he⟩ := Out.bind_ok he
      have ho := ih _ _ h.2.1 h1
      cases o' with
      | lam j ps b =>
        simp only at he
        split at he
        · cases he
        · obtain ⟨x, hx, he⟩ := Out.bind_ok he
          obtain ⟨y, hy, he⟩ := Out.bind_ok he
          cases he
          have hx' : x.AllNames P := by
            unfold Out.ofOption at hx
            split at hx
            · rename_i z hz
              cases hx
              exact applyArgs_names ho.2.2 ho.2.1 h.2.2 hz
            · cases hx
          have hy' := ih _ _ hx' hy
          refine hy'.setInfo (mergeAll_mem ?_)
          intro a ha
          simp only [List.mem_cons, List.not_mem_nil, or_false] at ha
          rcases ha with rfl | rfl | rfl
          · exact h.1
          · exact ho.1
          · exact hy'.info
      | _ => cases he
    case letE i x b c =>
      obtain ⟨z, hz, he⟩ := Out.bind_ok he
      obtain ⟨y, hy, he⟩ := Out.bind_ok he
      cases he
      have hz' : z.AllNames P := by
        unfold Out.ofOption at hz
        split at hz
        · rename_i w hw
          cases hz
          exact h.2.2.2.substitute h.2.2.1 hw
        · cases hz
      have hy' := ih _ _ hz' hy
      exact hy'.setInfo (merge_mem hy'.info h.1)

/-! ## Type inference -/

theorem Inf.bind_okE {α β : Type} {x : Inf α} {f : α → TCtx → Inf β} {b : β} (h : (x.bind f).1 = .ok b) :
    ∃ a, x.1 = .ok a ∧ (f a x.2).1 = .ok b := by
  obtain ⟨x, c⟩ := x
  cases x with
  | ok a => exact ⟨a, rfl, h⟩
  | _ => cases h

theorem fixLoop_post {f : Ty → TCtx → Inf TE} {Q : TE → Prop} (hf : ∀ t c te, (f t c).1 = .ok te → Q te) :
    ∀ (n : Nat) (t : Ty) (c : TCtx) (te : TE), (fixLoop f n t c).1 = .ok te → Q te
  | 0, _, _, _, h => by cases h
  | n + 1, t, c, te, h => by
    rw [fixLoop] at h
    obtain ⟨a, h1, h2⟩ := Inf.bind_okE h
    split at h2
    · cases h2; exact hf _ _ _ h1
    · exact fixLoop_post hf n _ _ _ h2

mutual
/-- Type inference invents no names. -/
theorem infer_src (n : Nat) : ∀ (e : NE) (nm : Option Name) (c : TCtx) (te : TE), e.AllNames P → (∀ n ∈ nm, P n) →
    (infer n nm e c).1 = .ok te → ∀ x ∈ te.names, P x
  | .eps i, nm, c, te, h, hn, he => by
    simp only [infer] at he; cases he
    simpa [TE.names] using hn
  | .lit i s, nm, c, te, h, hn, he => by
    simp only [infer] at he; cases he
    simpa [TE.names] using hn
  | .cat i f r, nm, c, te, h, hn, he => by
    simp only [infer] at he
    obtain ⟨f', h1, he⟩ := Inf.bind_okE he
    split at he
    · cases he
    · obtain ⟨⟨l, t⟩, h2, he⟩ := Inf.bind_okE he
      cases he
      have hf := infer_src n f _ _ _ h.2.1 h.2.1.info h1
      have hr := inferCat_src n r _ _ l t h.2.2 h2
      intro x hx
      simp only [TE.names, TE.namesL, List.mem_append, Option.mem_toList] at hx
      rcases hx with hx | hx | hx
      · exact hn x hx
      · exact hf x hx
      · exact hr x hx
  | .alt i f r, nm, c, te, h, hn, he => by
    simp only [infer] at he
    obtain ⟨f', h1, he⟩ := Inf.bind_okE he
    obtain ⟨⟨l, t⟩, h2, he⟩ := Inf.bind_okE he
    cases he
    have hf := infer_src n f _ _ _ h.2.1 h.2.1.info h1
    have hr := inferAlt_src n r _ _ l t h.2.2 h2
    intro x hx
    simp only [TE.names, TE.namesL, List.mem_append, Option.mem_toList] at hx
    rcases hx with hx | hx | hx
    · exact hn x hx
    · exact hf x hx
    · exact hr x hx
  | .fix i b, nm, c, te, h, hn, he => by
    cases b with
    | lam j a b =>
      simp only [infer] at he
      obtain ⟨b', h1, he⟩ := Inf.bind_okE he
      cases he
      have hb : ∀ x ∈ b'.names, P x := by
        refine fixLoop_post (Q := fun te => ∀ x ∈ te.names, P x) (fun t c te hte => ?_) n _ _ _ h1
        refine infer_src n b _ _ te h.2.2.2 (mergeAll_mem ?_) hte
        intro a ha
        simp only [List.mem_cons, List.not_mem_nil, or_false] at ha
        rcases ha with rfl | rfl | rfl
        · exact h.2.1
        · exact h.2.2.2.info
        · exact hn
      intro x hx
      simp only [TE.names, List.mem_append, Option.mem_toList] at hx
      rcases hx with hx | hx
      · exact hn x hx
      · exact hb x hx
    | _ => simp only [infer] at he; cases he
  | .var i k, nm, c, te, h, hn, he => by
    simp only [infer] at he
    split at he
    · cases he
      simpa [TE.names] using hn
    · cases he
  | .call i o a, nm, c, te, h, hn, he => by simp only [infer] at he; cases he
  | .lam i a b, nm, c, te, h, hn, he => by simp only [infer] at he; cases he
  | .letE i x b d, nm, c, te, h, hn, he => by simp only [infer] at he; cases he
theorem inferCat_src (n : Nat) : ∀ (r : List (Nat × NE)) (ty : Ty) (c : TCtx) (l : List TE) (t : Ty), NE.AllNamesP P r →
    (inferCat n ty r c).1 = .ok (l, t) → ∀ x ∈ TE.namesL l, P x
  | [], ty, c, l, t, h, he => by simp only [inferCat] at he; cases he; simp [TE.namesL]
  | (p, e) :: r, ty, c, l, t, h, he => by
    simp only [inferCat] at he
    obtain ⟨e', h1, he⟩ := Inf.bind_okE he
    split at he
    · obtain ⟨⟨l', t'⟩, h2, he⟩ := Inf.bind_okE he
      cases he
      have he := infer_src n e _ _ _ h.1 h.1.info h1
      have hr := inferCat_src n r _ _ l' _ h.2 h2
      intro x hx
      simp only [TE.namesL, List.mem_append] at hx
      exact hx.elim (he x) (hr x)
    · cases he
theorem inferAlt_src (n : Nat) : ∀ (r : List (Nat × NE)) (ty : Ty) (c : TCtx) (l : List TE) (t : Ty), NE.AllNamesP P r →
    (inferAlt n ty r c).1 = .ok (l, t) → ∀ x ∈ TE.namesL l, P x
  | [], ty, c, l, t, h, he => by simp only [inferAlt] at he; cases he; simp [TE.namesL]
  | (p, e) :: r, ty, c, l, t, h, he => by
    simp only [inferAlt] at he
    obtain ⟨e', h1, he⟩ := Inf.bind_okE he
    split at he
    · cases he
    · split at he
      · obtain ⟨⟨l', t'⟩, h2, he⟩ := Inf.bind_okE he
        cases he
        have he := infer_src n e _ _ _ h.1 h.1.info h1
        have hr := inferAlt_src n r _ _ l' _ h.2 h2
        intro x hx
        simp only [TE.namesL, List.mem_append] at hx
        exact hx.elim (he x) (hr x)
      · cases he
end

/-! ## No panics -/

theorem Inf.bind_no_panic {α β : Type} {x : Inf α} {f : α → TCtx → Inf β} (hx : x.1 ≠ .panic) (hf : ∀ a c, (f a c).1 ≠ .panic) :
    (x.bind f).1 ≠ .panic := by
  obtain ⟨x, c⟩ := x
  cases x with
  | ok a => exact hf a c
  | panic => exact absurd rfl hx
  | _ => exact fun h => nomatch h

theorem fixLoop_no_panic {f : Ty → TCtx → Inf TE} (hf : ∀ t c, (f t c).1 ≠ .panic) : ∀ n t c, (fixLoop f n t c).1 ≠ .panic
  | 0, _, _ => fun h => nomatch h
  | n + 1, t, c => by
    rw [fixLoop]
    refine Inf.bind_no_panic (hf t c) fun a c => ?_
    split
    · exact fun h => nomatch h
    · exact fixLoop_no_panic hf n _ _

mutual
theorem infer_no_panic (n : Nat) : ∀ (e : NE) (nm : Option Name) (c : TCtx), (infer n nm e c).1 ≠ .panic
  | .eps i, nm, c => by simp [infer]
  | .lit i s, nm, c => by simp [infer]
  | .cat i f r, nm, c => by
    simp only [infer]
    refine Inf.bind_no_panic (infer_no_panic n f _ _) fun a c => ?_
    split
    · exact fun h => nomatch h
    · exact Inf.bind_no_panic (inferCat_no_panic n r _ _) fun _ _ h => nomatch h
  | .alt i f r, nm, c => by
    simp only [infer]
    exact Inf.bind_no_panic (infer_no_panic n f _ _) fun a c =>
      Inf.bind_no_panic (inferAlt_no_panic n r _ _) fun _ _ h => nomatch h
  | .fix i b, nm, c => by
    cases b with
    | lam j a b =>
      simp only [infer]
      exact Inf.bind_no_panic (fixLoop_no_panic (fun t c => by
        simp only [TCtx.withVar]
        exact infer_no_panic n b _ _) _ _ _) fun _ _ h => nomatch h
    | _ => simp [infer]
  | .var i k, nm, c => by simp only [infer]; split <;> exact fun h => nomatch h
  | .call i o a, nm, c => by simp [infer]
  | .lam i a b, nm, c => by simp [infer]
  | .letE i x b d, nm, c => by simp [infer]
theorem inferCat_no_panic (n : Nat) : ∀ (r : List (Nat × NE)) (ty : Ty) (c : TCtx), (inferCat n ty r c).1 ≠ .panic
  | [], ty, c => by simp [inferCat]
  | (p, e) :: r, ty, c => by
    simp only [inferCat]
    refine Inf.bind_no_panic (infer_no_panic n e _ _) fun a c => ?_
    split
    · exact Inf.bind_no_panic (inferCat_no_panic n r _ _) fun _ _ h => nomatch h
    · exact fun h => nomatch h
theorem inferAlt_no_panic (n : Nat) : ∀ (r : List (Nat × NE)) (ty : Ty) (c : TCtx), (inferAlt n ty r c).1 ≠ .panic
  | [], ty, c => by simp [inferAlt]
  | (p, e) :: r, ty, c => by
    simp only [inferAlt]
    refine Inf.bind_no_panic (infer_no_panic n e _ _) fun a c => ?_
    split
    · exact fun h => nomatch h
    · split
      · exact Inf.bind_no_panic (inferAlt_no_panic n r _ _) fun _ _ h => nomatch h
      · exact fun h => nomatch h
end

/-! ## Code generation -/

/-- The case conversions are defined. -/
def Casing.Ok (cas : Casing) (n : Name) : Prop := cas.camel n.content.hashed ≠ none ∧ cas.snake n.content.hashed ≠ none

theorem bind_no_bad {α β : Type} {x : Except GenPanic α} {f : α → Except GenPanic β} (hx : x ≠ .error .badName)
    (hf : ∀ a, f a ≠ .error .badName) : x.bind f ≠ .error .badName := by
  cases x with
  | ok a => exact hf a
  | error e => cases e <;> simp_all [Except.bind]

theorem map_no_bad {α β : Type} {x : Except GenPanic α} {f : α → β} (hx : x ≠ .error .badName) : x.map f ≠ .error .badName := by
  cases x with
  | ok a => simp [Except.map]
  | error e => cases e <;> simp_all [Except.map]

theorem newTypeName_no_bad {cas : Casing} {pre : String} {nm : Option Name} {s : BState} (h : ∀ n ∈ nm, cas.Ok n) :
    s.newTypeName cas pre nm ≠ .error .badName := by
  unfold BState.newTypeName
  cases nm with
  | none => simp
  | some n =>
    have := (h n rfl).1
    cases hc : cas.camel n.content.hashed with
    | none => exact absurd hc this
    | some c => simp [hc]

theorem tyNames_no_bad (s : BState) : ∀ ids, s.tyNames ids ≠ .error .badName
  | [] => by simp [BState.tyNames]
  | i :: l => by
    unfold BState.tyNames
    split
    · simp
    · exact map_no_bad (tyNames_no_bad s l)

theorem partNames_no_bad {conv : String → Option String} {d : String} :
    ∀ (l : List (Option Name)) (i : Nat) (m : List (String × Nat)), (∀ a ∈ l, ∀ n ∈ a, conv n.content.hashed ≠ none) →
      partNames conv d i m l ≠ .error .badName
  | [], _, _, _ => by simp [partNames]
  | none :: l, i, m, h => by
    simp only [partNames]
    exact map_no_bad (partNames_no_bad l _ _ fun a ha => h a (List.mem_cons_of_mem _ ha))
  | some n :: l, i, m, h => by
    simp only [partNames]
    have := h (some n) List.mem_cons_self n rfl
    split
    · contradiction
    · exact map_no_bad (partNames_no_bad l _ _ fun a ha => h a (List.mem_cons_of_mem _ ha))

theorem TE.name_mem_names (te : TE) : ∀ n ∈ te.name, n ∈ te.names := by
  cases te <;> simp only [TE.name, TE.names] <;> intro n hn <;> simp [Option.mem_def.1 hn]

theorem TE.map_name_mem {l : List TE} {a : Option Name} (ha : a ∈ l.map TE.name) : ∀ n ∈ a, n ∈ TE.namesL l := by
  induction l with
  | nil => cases ha
  | cons e l ih =>
    rw [List.map_cons, List.mem_cons] at ha
    intro n hn
    rw [TE.namesL, List.mem_append]
    rcases ha with rfl | ha
    · exact .inl (e.name_mem_names n hn)
    · exact .inr (ih ha n hn)

mutual
theorem gen_no_bad (cas : Casing) : ∀ (te : TE) (s : BState), (∀ n ∈ te.names, cas.Ok n) → gen cas te s ≠ .error .badName
  | .eps _, s, _ => by simp [gen]
  | .lit nm str, s, h => by
    simp only [gen, genLit]
    split
    · simp
    · exact map_no_bad (newTypeName_no_bad fun n hn => h n (by simpa [TE.names] using hn))
  | .cat nm ty l, s, h => by
    simp only [gen]
    refine bind_no_bad (genL_no_bad cas l s fun n hn => h n (by simp [TE.names, hn])) fun ⟨ids, s⟩ => ?_
    simp only [genCat]
    split
    · simp
    · refine bind_no_bad (newTypeName_no_bad fun n hn => h n (by simp [TE.names, Option.mem_def.1 hn])) fun ⟨name, s⟩ => ?_
      refine bind_no_bad (tyNames_no_bad _ _) fun _ => map_no_bad (partNames_no_bad _ _ _ fun a ha n hn => ?_)
      exact (h n (by simp [TE.names, TE.map_name_mem ha n hn])).2
  | .alt nm ty l, s, h => by
    simp only [gen]
    refine bind_no_bad (genL_no_bad cas l s fun n hn => h n (by simp [TE.names, hn])) fun ⟨ids, s⟩ => ?_
    simp only [genAlt]
    split
    · simp
    · refine bind_no_bad (newTypeName_no_bad fun n hn => h n (by simp [TE.names, Option.mem_def.1 hn])) fun ⟨name, s⟩ => ?_
      refine bind_no_bad (tyNames_no_bad _ _) fun _ => map_no_bad (partNames_no_bad _ _ _ fun a ha n hn => ?_)
      exact (h n (by simp [TE.names, TE.map_name_mem ha n hn])).1
  | .fix nm b, s, h => by
    simp only [gen]
    split
    · simp
    · refine bind_no_bad (newTypeName_no_bad fun n hn => h n (by simp [TE.names, Option.mem_def.1 hn])) fun ⟨name, s⟩ => ?_
      refine bind_no_bad (gen_no_bad cas b _ fun n hn => h n (by simp [TE.names, hn])) fun ⟨inner, s⟩ => ?_
      dsimp only
      split <;> simp
  | .var nm i ty, s, _ => by
    simp only [gen, genVar]
    split
    · split
      · simp
      · split
        · simp
        · split <;> simp
    · simp
theorem genL_no_bad (cas : Casing) : ∀ (l : List TE) (s : BState), (∀ n ∈ TE.namesL l, cas.Ok n) → genL cas l s ≠ .error .badName
  | [], s, _ => by simp [genL]
  | e :: l, s, h => by
    simp only [genL]
    exact bind_no_bad (gen_no_bad cas e s fun n hn => h n (by simp [TE.namesL, hn])) fun ⟨id, s⟩ =>
      map_no_bad (genL_no_bad cas l s fun n hn => h n (by simp [TE.namesL, hn]))
end

theorem emitRound_no_bad (data : List Entry) (completed : List Nat) : ∀ next todo, emitRound data completed next todo ≠ .error .badName
  | [], _ => by simp [emitRound]
  | id :: next, todo => by
    unfold emitRound
    split
    · simp
    · exact emitRound_no_bad data completed next _

theorem emitLoop_no_bad (data : List Entry) : ∀ n todo completed out, emitLoop data n todo completed out ≠ some (.error .badName)
  | n, [], _, _ => by simp [emitLoop]
  | 0, _ :: _, _, _ => by simp [emitLoop]
  | n + 1, a :: t, c, o => by
    rw [emitLoop]
    have := emitRound_no_bad data (extendNat c (a :: t)) (a :: t) []
    split
    · rename_i e he
      intro h
      cases h
      exact this he
    · exact emitLoop_no_bad data n _ _ _

end Chomp
