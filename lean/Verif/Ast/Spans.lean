import Verif.Ast.ReduceLemmas

/-!
# Where the spans of errors come from
-/

namespace Chomp

/-- What is claimed of the spans of expressions, of calls among them, and of the operators `.` and `|`. -/
structure SpanP where
  node : Nat → Prop
  call : Nat → Prop
  dot : Nat → Prop
  bar : Nat → Prop

mutual
/-- All spans of an expression are as claimed, and concatenations and alternations have two elements at least. -/
def NE.Spans (P : SpanP) : NE → Prop
  | .eps i => P.node i.span
  | .lit i _ => P.node i.span
  | .cat i f r => (P.node i.span ∧ r ≠ []) ∧ f.Spans P ∧ NE.SpansP P P.dot r
  | .alt i f r => (P.node i.span ∧ r ≠ []) ∧ f.Spans P ∧ NE.SpansP P P.bar r
  | .fix i b => P.node i.span ∧ b.Spans P
  | .var i _ => P.node i.span
  | .call i o a => (P.call i.span ∧ P.node i.span) ∧ o.Spans P ∧ NE.SpansL P a
  | .lam i _ b => P.node i.span ∧ b.Spans P
  | .letE i _ b c => P.node i.span ∧ b.Spans P ∧ c.Spans P
def NE.SpansP (P : SpanP) (O : Nat → Prop) : List (Nat × NE) → Prop
  | [] => True
  | (s, e) :: l => O s ∧ e.Spans P ∧ NE.SpansP P O l
def NE.SpansL (P : SpanP) : List NE → Prop
  | [] => True
  | e :: l => e.Spans P ∧ NE.SpansL P l
end

variable {P : SpanP}

theorem NE.Spans.setName {e : NE} (h : e.Spans P) (nm : Option Name) : (e.setName nm).Spans P := by
  cases e <;> exact h

theorem NE.Spans.info {e : NE} (h : e.Spans P) : P.node e.info.span := by
  cases e <;> simp only [NE.Spans] at h <;> simp only [NE.info] <;>
    first | exact h | exact h.1 | exact h.1.1 | exact h.1.2

theorem NE.Spans.setInfo {e : NE} (h : e.Spans P) {i : Info} (hi : P.node i.span) (hc : ∀ j o a, e ≠ .call j o a) :
    (e.setInfo i).Spans P := by
  cases e <;> simp only [NE.Spans, NE.setInfo] at h ⊢ <;>
    first | exact hi | exact ⟨hi, h.2⟩ | exact ⟨⟨hi, h.1.2⟩, h.2⟩ | exact absurd rfl (hc _ _ _)

theorem renameP_ne {d : Direction} {l l' : List (Nat × NE)} {n k : Nat} (h : l ≠ []) (he : NE.renameP d n k l = some l') : l' ≠ [] := by
  cases l with
  | nil => exact absurd rfl h
  | cons p l =>
    obtain ⟨s, e⟩ := p
    simp only [NE.renameP, Option.bind_eq_bind, Option.bind_eq_some_iff] at he
    obtain ⟨_, _, _, _, he⟩ := he
    cases he
    simp

theorem substP_ne {l l' : List (Nat × NE)} {st st' : Sub} (h : l ≠ []) (he : NE.substP st l = some (l', st')) : l' ≠ [] := by
  cases l with
  | nil => exact absurd rfl h
  | cons p l =>
    obtain ⟨s, e⟩ := p
    simp only [NE.substP, Option.bind_eq_bind, Option.bind_eq_some_iff] at he
    obtain ⟨_, _, _, _, he⟩ := he
    cases he
    simp

theorem mapP_ne {f : NE → Out RErr NE} {l l' : List (Nat × NE)} (h : l ≠ []) (he : mapP f l = .ok l') : l' ≠ [] := by
  cases l with
  | nil => exact absurd rfl h
  | cons p l =>
    obtain ⟨s, e⟩ := p
    simp only [mapP] at he
    obtain ⟨_, _, he⟩ := Out.bind_ok he
    obtain ⟨_, _, he⟩ := Out.bind_ok he
    cases he
    simp

theorem reduce_not_call {n : Nat} {e e' : NE} (h : reduce n e = .ok e') : ∀ j o a, e' ≠ .call j o a := by
  intro j o a hc
  subst hc
  have := reduceC_settled n _ _ (reduce_ok_erase h)
  simp [NE.erase, Core.settled] at this

/-! ## Renaming and substitution -/

mutual
theorem NE.Spans.rename {d : Direction} : ∀ {e e' : NE} {n k : Nat}, e.Spans P → e.rename d n k = some e' → e'.Spans P
  | .eps i, e', n, k, h, he => by simp only [NE.rename] at he; cases he; exact h
  | .lit i s, e', n, k, h, he => by simp only [NE.rename] at he; cases he; exact h
  | .cat i f r, e', n, k, h, he => by
    simp only [NE.rename, Option.bind_eq_bind, Option.bind_eq_some_iff] at he
    obtain ⟨f', hf, r', hr, he⟩ := he
    cases he
    exact ⟨⟨h.1.1, renameP_ne h.1.2 hr⟩, h.2.1.rename hf, NE.SpansP.rename h.2.2 hr⟩
  | .alt i f r, e', n, k, h, he => by
    simp only [NE.rename, Option.bind_eq_bind, Option.bind_eq_some_iff] at he
    obtain ⟨f', hf, r', hr, he⟩ := he
    cases he
    exact ⟨⟨h.1.1, renameP_ne h.1.2 hr⟩, h.2.1.rename hf, NE.SpansP.rename h.2.2 hr⟩
  | .fix i b, e', n, k, h, he => by
    simp only [NE.rename, Option.bind_eq_bind, Option.bind_eq_some_iff] at he
    obtain ⟨b', hb, he⟩ := he
    cases he
    exact ⟨h.1, h.2.rename hb⟩
  | .var i x, e', n, k, h, he => by
    simp only [NE.rename] at he
    split at he
    · cases d with
      | deepen => cases he; exact h
      | shallow =>
        simp only at he
        split at he
        · cases he
        · cases he; exact h
    · cases he; exact h
  | .call i o a, e', n, k, h, he => by
    simp only [NE.rename, Option.bind_eq_bind, Option.bind_eq_some_iff] at he
    obtain ⟨f', hf, r', hr, he⟩ := he
    cases he
    exact ⟨h.1, h.2.1.rename hf, NE.SpansL.rename h.2.2 hr⟩
  | .lam i a b, e', n, k, h, he => by
    simp only [NE.rename, Option.bind_eq_bind, Option.bind_eq_some_iff] at he
    obtain ⟨b', hb, he⟩ := he
    cases he
    exact ⟨h.1, h.2.rename hb⟩
  | .letE i x b c, e', n, k, h, he => by
    simp only [NE.rename, Option.bind_eq_bind, Option.bind_eq_some_iff] at he
    obtain ⟨b', hb, c', hc, he⟩ := he
    cases he
    exact ⟨h.1, h.2.1.rename hb, h.2.2.rename hc⟩
theorem NE.SpansP.rename {d : Direction} {O : Nat → Prop} : ∀ {l l' : List (Nat × NE)} {n k : Nat}, NE.SpansP P O l → NE.renameP d n k l = some l' →
    NE.SpansP P O l'
  | [], l', n, k, h, he => by simp only [NE.renameP] at he; cases he; exact h
  | (s, e) :: l, l', n, k, h, he => by
    simp only [NE.renameP, Option.bind_eq_bind, Option.bind_eq_some_iff] at he
    obtain ⟨f', hf, r', hr, he⟩ := he
    cases he
    exact ⟨h.1, h.2.1.rename hf, NE.SpansP.rename h.2.2 hr⟩
theorem NE.SpansL.rename {d : Direction} : ∀ {l l' : List NE} {n k : Nat}, NE.SpansL P l → NE.renameL d n k l = some l' →
    NE.SpansL P l'
  | [], l', n, k, h, he => by simp only [NE.renameL] at he; cases he; exact h
  | e :: l, l', n, k, h, he => by
    simp only [NE.renameL, Option.bind_eq_bind, Option.bind_eq_some_iff] at he
    obtain ⟨f', hf, r', hr, he⟩ := he
    cases he
    exact ⟨h.1.rename hf, NE.SpansL.rename h.2 hr⟩
end

theorem Sub.enter_spans {n : Nat} {st st' : Sub} (h : st.expr.Spans P) (he : st.enter n = some st') : st'.expr.Spans P := by
  simp only [Sub.enter, Option.bind_eq_bind, Option.bind_eq_some_iff] at he
  obtain ⟨e, h1, he⟩ := he
  cases he
  exact h.rename h1

theorem Sub.leave_spans {n : Nat} {st st' : Sub} (h : st.expr.Spans P) (he : st.leave n = some st') : st'.expr.Spans P := by
  simp only [Sub.leave, Option.bind_eq_bind, Option.bind_eq_some_iff] at he
  obtain ⟨e, h1, he⟩ := he
  split at he
  · cases he
  · cases he
    exact h.rename h1

mutual
theorem NE.Spans.substS : ∀ {e e' : NE} {st st' : Sub}, e.Spans P → st.expr.Spans P → e.substS st = some (e', st') →
    e'.Spans P ∧ st'.expr.Spans P
  | .eps i, e', st, st', h, hs, he => by simp only [NE.substS] at he; cases he; exact ⟨h, hs⟩
  | .lit i s, e', st, st', h, hs, he => by simp only [NE.substS] at he; cases he; exact ⟨h, hs⟩
  | .cat i f r, e', st, st', h, hs, he => by
    simp only [NE.substS, Option.bind_eq_bind, Option.bind_eq_some_iff] at he
    obtain ⟨⟨f', st1⟩, hf, ⟨r', st2⟩, hr, he⟩ := he
    cases he
    have h1 := h.2.1.substS hs hf
    have h2 := NE.SpansP.substP h.2.2 h1.2 hr
    exact ⟨⟨⟨h.1.1, substP_ne h.1.2 hr⟩, h1.1, h2.1⟩, h2.2⟩
  | .alt i f r, e', st, st', h, hs, he => by
    simp only [NE.substS, Option.bind_eq_bind, Option.bind_eq_some_iff] at he
    obtain ⟨⟨f', st1⟩, hf, ⟨r', st2⟩, hr, he⟩ := he
    cases he
    have h1 := h.2.1.substS hs hf
    have h2 := NE.SpansP.substP h.2.2 h1.2 hr
    exact ⟨⟨⟨h.1.1, substP_ne h.1.2 hr⟩, h1.1, h2.1⟩, h2.2⟩
  | .fix i b, e', st, st', h, hs, he => by
    simp only [NE.substS, Option.bind_eq_bind, Option.bind_eq_some_iff] at he
    obtain ⟨⟨f', st1⟩, hf, he⟩ := he
    cases he
    have h1 := h.2.substS hs hf
    exact ⟨⟨h.1, h1.1⟩, h1.2⟩
  | .var i k, e', st, st', h, hs, he => by
    simp only [NE.substS] at he
    split at he
    · cases he
      exact ⟨hs.setName _, hs⟩
    · cases he
      exact ⟨h, hs⟩
  | .call i o a, e', st, st', h, hs, he => by
    simp only [NE.substS, Option.bind_eq_bind, Option.bind_eq_some_iff] at he
    obtain ⟨⟨f', st1⟩, hf, ⟨r', st2⟩, hr, he⟩ := he
    cases he
    have h1 := h.2.1.substS hs hf
    have h2 := NE.SpansL.substL h.2.2 h1.2 hr
    exact ⟨⟨h.1, h1.1, h2.1⟩, h2.2⟩
  | .lam i a b, e', st, st', h, hs, he => by
    simp only [NE.substS, Option.bind_eq_bind, Option.bind_eq_some_iff] at he
    obtain ⟨st1, h1, ⟨f', st2⟩, hf, st3, h3, he⟩ := he
    cases he
    have h2 := h.2.substS (Sub.enter_spans hs h1) hf
    exact ⟨⟨h.1, h2.1⟩, Sub.leave_spans h2.2 h3⟩
  | .letE i x b c, e', st, st', h, hs, he => by
    simp only [NE.substS, Option.bind_eq_bind, Option.bind_eq_some_iff] at he
    obtain ⟨⟨b', st0⟩, hb, st1, h1, ⟨f', st2⟩, hf, st3, h3, he⟩ := he
    cases he
    have h0 := h.2.1.substS hs hb
    have h2 := h.2.2.substS (Sub.enter_spans h0.2 h1) hf
    exact ⟨⟨h.1, h0.1, h2.1⟩, Sub.leave_spans h2.2 h3⟩
theorem NE.SpansP.substP {O : Nat → Prop} : ∀ {l l' : List (Nat × NE)} {st st' : Sub}, NE.SpansP P O l → st.expr.Spans P →
    NE.substP st l = some (l', st') → NE.SpansP P O l' ∧ st'.expr.Spans P
  | [], l', st, st', h, hs, he => by simp only [NE.substP] at he; cases he; exact ⟨h, hs⟩
  | (s, e) :: l, l', st, st', h, hs, he => by
    simp only [NE.substP, Option.bind_eq_bind, Option.bind_eq_some_iff] at he
    obtain ⟨⟨f', st1⟩, hf, ⟨r', st2⟩, hr, he⟩ := he
    cases he
    have h1 := h.2.1.substS hs hf
    have h2 := NE.SpansP.substP h.2.2 h1.2 hr
    exact ⟨⟨h.1, h1.1, h2.1⟩, h2.2⟩
theorem NE.SpansL.substL : ∀ {l l' : List NE} {st st' : Sub}, NE.SpansL P l → st.expr.Spans P →
    NE.substL st l = some (l', st') → NE.SpansL P l' ∧ st'.expr.Spans P
  | [], l', st, st', h, hs, he => by simp only [NE.substL] at he; cases he; exact ⟨h, hs⟩
  | e :: l, l', st, st', h, hs, he => by
    simp only [NE.substL, Option.bind_eq_bind, Option.bind_eq_some_iff] at he
    obtain ⟨⟨f', st1⟩, hf, ⟨r', st2⟩, hr, he⟩ := he
    cases he
    have h1 := h.1.substS hs hf
    have h2 := NE.SpansL.substL h.2 h1.2 hr
    exact ⟨⟨h1.1, h2.1⟩, h2.2⟩
end

theorem NE.Spans.substitute {e e' x : NE} {k : Nat} (h : e.Spans P) (hx : x.Spans P) (he : e.substitute k x = some e') :
    e'.Spans P := by
  simp only [NE.substitute, Option.map_eq_some_iff] at he
  obtain ⟨⟨y, st⟩, hy, rfl⟩ := he
  exact (h.substS hx hy).1

/-! ## Reduction -/

theorem NE.SpansL.mem : ∀ {l : List NE}, NE.SpansL P l → ∀ e ∈ l, e.Spans P
  | _ :: _, h, _, .head _ => h.1
  | _ :: _, h, _, .tail _ he => NE.SpansL.mem h.2 _ he

theorem applyArgs_spans {body out : NE} {params : List Name} {args : List NE} (hb : body.Spans P) (ha : NE.SpansL P args) (h : applyArgs body params args = some out) : out.Spans P := by
  have key : ∀ (l : List ((NE × Nat) × Name)) (b out : NE), b.Spans P → (∀ p ∈ l, p.1.1.Spans P) →
      foldOpt applyArg b l = some out → out.Spans P := by
    intro l
    induction l with
    | nil => intro b out hb _ h; cases h; exact hb
    | cons p l ih =>
      intro b out hb hl h
      simp only [foldOpt, Option.bind_eq_some_iff] at h
      obtain ⟨b', h1, h2⟩ := h
      refine ih b' out ?_ (fun q hq => hl q (List.mem_cons_of_mem _ hq)) h2
      simp only [applyArg, Option.bind_eq_bind, Option.bind_eq_some_iff] at h1
      obtain ⟨a, h3, h4⟩ := h1
      exact hb.substitute (NE.Spans.rename ((hl p List.mem_cons_self).setName _) h3) h4
  refine key _ body out hb ?_ h
  intro p hp'
  rw [List.mem_reverse] at hp'
  have h1 := List.of_mem_zip hp'
  refine ha.mem _ ?_
  exact (List.mem_zipIdx h1.1).2.2 ▸ List.getElem_mem _

theorem mapP_spans {O : Nat → Prop} {f : NE → Out RErr NE} (hf : ∀ e e', e.Spans P → f e = .ok e' → e'.Spans P) :
    ∀ {l l' : List (Nat × NE)}, NE.SpansP P O l → mapP f l = .ok l' → NE.SpansP P O l'
  | [], l', h, he => by simp only [mapP] at he; cases he; exact h
  | (s, e) :: l, l', h, he => by
    simp only [mapP] at he
    obtain ⟨e', h1, he⟩ := Out.bind_ok he
    obtain ⟨l'', h2, he⟩ := Out.bind_ok he
    cases he
    exact ⟨h.1, hf e e' h.2.1 h1, mapP_spans hf h.2.2 h2⟩

/-- Reduction moves spans around, but a call keeps its span until it is contracted. -/
theorem NE.Spans.reduce : ∀ (n : Nat) (e e' : NE), e.Spans P → reduce n e = .ok e' → e'.Spans P := by
  intro n
  induction n with
  | zero => intro e e' _ he; cases he
  | succ n ih =>
    intro e e' h he
    cases e <;> rw [Chomp.reduce] at he
    case eps i => cases he; exact h
    case lit i s => cases he; exact h
    case var i k => cases he; exact h
    case lam i a b => cases he; exact h
    case cat i f r =>
      obtain ⟨f', h1, he⟩ := Out.bind_ok he
      obtain ⟨r', h2, he⟩ := Out.bind_ok he
      cases he
      exact ⟨⟨h.1.1, mapP_ne h.1.2 h2⟩, ih _ _ h.2.1 h1, mapP_spans ih h.2.2 h2⟩
    case alt i f r =>
      obtain ⟨f', h1, he⟩ := Out.bind_ok he
      obtain ⟨r', h2, he⟩ := Out.bind_ok he
      cases he
      exact ⟨⟨h.1.1, mapP_ne h.1.2 h2⟩, ih _ _ h.2.1 h1, mapP_spans ih h.2.2 h2⟩
    case fix i b =>
      obtain ⟨b', h1, he⟩ := Out.bind_ok he
      have hb' := ih _ _ h.2 h1
      cases b' with
      | lam j a c =>
        obtain ⟨c', h2, he⟩ := Out.bind_ok he
        cases he
        exact ⟨h.1, hb'.1, ih _ _ hb'.2 h2⟩
      | _ => cases he; exact ⟨h.1, hb'⟩
    case call i o a =>
      obtain ⟨o', h1, he⟩ := Out.bind_ok he
      have ho := ih _ _ h.2.1 h1
      cases o' with
      | lam j ps b =>
        simp only at he
        split at he
        · cases he
        · obtain ⟨x, hx, he⟩ := Out.bind_ok he
          obtain ⟨y, hy, he⟩ := Out.bind_ok he
          cases he
          have hx' : x.Spans P := by
            unfold Out.ofOption at hx
            split at hx
            · rename_i z hz
              cases hx
              exact applyArgs_spans ho.2 h.2.2 hz
            · cases hx
          have hy' := ih _ _ hx' hy
          exact hy'.setInfo h.1.2 (reduce_not_call hy)
      | _ => cases he
    case letE i x b c =>
      obtain ⟨z, hz, he⟩ := Out.bind_ok he
      obtain ⟨y, hy, he⟩ := Out.bind_ok he
      cases he
      have hz' : z.Spans P := by
        unfold Out.ofOption at hz
        split at hz
        · rename_i w hw
          cases hz
          exact h.2.2.substitute h.2.1 hw
        · cases hz
      have hy' := ih _ _ hz' hy
      exact hy'.setInfo h.1 (reduce_not_call hy)

theorem mapP_err_spans {O : Nat → Prop} {f : NE → Out RErr NE} {Q : RErr → Prop} (hf : ∀ e x, e.Spans P → f e = .err x → Q x) :
    ∀ {l : List (Nat × NE)} {x : RErr}, NE.SpansP P O l → mapP f l = .err x → Q x
  | [], x, h, he => by simp only [mapP] at he; cases he
  | (s, e) :: l, x, h, he => by
    simp only [mapP] at he
    cases h1 : f e with
    | ok e' =>
      rw [h1] at he
      simp only [Out.bind] at he
      cases h2 : mapP f l with
      | err y => rw [h2] at he; cases he; exact mapP_err_spans hf h.2.2 h2
      | _ => rw [h2] at he; cases he
    | err y => rw [h1] at he; cases he; exact hf e _ h.2.1 h1
    | panic => rw [h1] at he; cases he
    | oof => rw [h1] at he; cases he

/-- The span of a reduction error, `src/chomp/ast/error.rs:24-27`. -/
def RErr.span : RErr → Nat
  | .callNotAFunction _ s => s
  | .wrongArgCount _ _ s => s

theorem Out.bind_errE {ε α β : Type} {x : Out ε α} {f : α → Out ε β} {e : ε} (h : x.bind f = .err e) :
    x = .err e ∨ ∃ a, x = .ok a ∧ f a = .err e := by
  cases x with
  | ok a => exact .inr ⟨a, rfl, h⟩
  | err y => cases h; exact .inl rfl
  | _ => cases h

/-- Reduction errors carry the span of a call. -/
theorem NE.Spans.reduce_err : ∀ (n : Nat) (e : NE) (x : RErr), e.Spans P → Chomp.reduce n e = .err x → P.call x.span := by
  intro n
  induction n with
  | zero => intro e x _ he; cases he
  | succ n ih =>
    intro e x h he
    cases e <;> rw [Chomp.reduce] at he
    case eps i => cases he
    case lit i s => cases he
    case var i k => cases he
    case lam i a b => cases he
    case cat i f r =>
      rcases Out.bind_errE he with he | ⟨_, _, he⟩
      · exact ih _ _ h.2.1 he
      · rcases Out.bind_errE he with he | ⟨_, _, he⟩
        · exact mapP_err_spans (Q := fun x => P.call x.span) ih h.2.2 he
        · cases he
    case alt i f r =>
      rcases Out.bind_errE he with he | ⟨_, _, he⟩
      · exact ih _ _ h.2.1 he
      · rcases Out.bind_errE he with he | ⟨_, _, he⟩
        · exact mapP_err_spans (Q := fun x => P.call x.span) ih h.2.2 he
        · cases he
    case fix i b =>
      rcases Out.bind_errE he with he | ⟨b', h1, he⟩
      · exact ih _ _ h.2 he
      · have hb' := NE.Spans.reduce n _ _ h.2 h1
        cases b' with
        | lam j a c =>
          rcases Out.bind_errE he with he | ⟨_, _, he⟩
          · exact ih _ _ hb'.2 he
          · cases he
        | _ => cases he
    case call i o a =>
      rcases Out.bind_errE he with he | ⟨o', h1, he⟩
      · exact ih _ _ h.2.1 he
      · have ho := NE.Spans.reduce n _ _ h.2.1 h1
        cases o' with
        | lam j ps b =>
          simp only at he
          split at he
          · cases he; exact h.1.1
          · rcases Out.bind_errE he with he | ⟨y, hx, he⟩
            · unfold Out.ofOption at he
              split at he <;> cases he
            · have hy : y.Spans P := by
                unfold Out.ofOption at hx
                split at hx
                · rename_i z hz
                  cases hx
                  exact applyArgs_spans ho.2 h.2.2 hz
                · cases hx
              rcases Out.bind_errE he with he | ⟨_, _, he⟩
              · exact ih _ _ hy he
              · cases he
        | _ => cases he; exact h.1.1
    case letE i x b c =>
      rcases Out.bind_errE he with he | ⟨y, hx, he⟩
      · unfold Out.ofOption at he
        split at he <;> cases he
      · have hy : y.Spans P := by
          unfold Out.ofOption at hx
          split at hx
          · rename_i z hz
            cases hx
            exact h.2.2.substitute h.2.1 hz
          · cases hx
        rcases Out.bind_errE he with he | ⟨_, _, he⟩
        · exact ih _ _ hy he
        · cases he

end Chomp
