import Verif.Lower.Reach
import Verif.Lower.Bound

/-!
# More about the table of generated types: no index out of range, finite types
-/

namespace Chomp

/-! ## No index out of range -/

mutual
/-- All variables are bound, the free ones by `n` enclosing fix points. -/
def TE.scoped : Nat → TE → Prop
  | _, .eps _ => True
  | _, .lit _ _ => True
  | n, .cat _ _ l => TE.scopedL n l
  | n, .alt _ _ l => TE.scopedL n l
  | n, .fix _ b => TE.scoped (n + 1) b
  | n, .var _ i _ => i < n
def TE.scopedL : Nat → List TE → Prop
  | _, [] => True
  | n, e :: l => TE.scoped n e ∧ TE.scopedL n l
end

mutual
theorem Ann.scoped : ∀ {Γ : List Ty} {k : Nat} {te : TE}, Ann Γ k te → te.scoped Γ.length
  | _, _, _, .eps .. => trivial
  | _, _, _, .lit .. => trivial
  | _, _, _, .cat Γ k _ ty t ts h1 h2 h3 => ⟨h1.scoped, h3.scoped⟩
  | _, _, _, .alt Γ k _ ty t ts h1 h2 => ⟨h1.scoped, h2.scoped⟩
  | _, _, _, .fix Γ k _ b h => by have := h.scoped; simpa [TE.scoped] using this
  | _, _, _, .var Γ k _ i τ h1 h2 => (List.getElem?_eq_some_iff.1 h1).1
theorem AnnCat.scoped : ∀ {Γ : List Ty} {τ : Ty} {ts : List TE} {υ : Ty}, AnnCat Γ τ ts υ → TE.scopedL Γ.length ts
  | _, _, _, _, .nil .. => trivial
  | _, _, _, _, .cons Γ τ t ts υ h1 h2 h3 => ⟨h1.scoped, h3.scoped⟩
theorem AnnAlt.scoped : ∀ {Γ : List Ty} {k : Nat} {τ : Ty} {ts : List TE} {υ : Ty}, AnnAlt Γ k τ ts υ → TE.scopedL Γ.length ts
  | _, _, _, _, _, .nil .. => trivial
  | _, _, _, _, _, .cons Γ k τ t ts υ h1 h2 h3 h4 => ⟨h1.scoped, h4.scoped⟩
end

theorem newTypeName_no_index {cas : Casing} {pre : String} {nm : Option Name} {s : BState} :
    s.newTypeName cas pre nm ≠ .error .index := by
  cases nm with
  | none => simp [BState.newTypeName]
  | some n => simp only [BState.newTypeName]; split <;> simp

theorem partNames_no_index {conv : String → Option String} {dflt : String} : ∀ {l : List (Option Name)} {i : Nat}
    {m : List (String × Nat)}, partNames conv dflt i m l ≠ .error .index
  | [], _, _ => by simp [partNames]
  | none :: l, i, m => by
    simp only [partNames]
    have := partNames_no_index (conv := conv) (dflt := dflt) (l := l) (i := i + 1) (m := m)
    cases hp : partNames conv dflt (i + 1) m l with
    | error e => rw [hp] at this; simpa [Except.map] using this
    | ok a => simp [Except.map]
  | some n :: l, i, m => by
    simp only [partNames]
    cases conv n.content.hashed with
    | none => simp
    | some c =>
      have := partNames_no_index (conv := conv) (dflt := dflt) (l := l) (i := i + 1) (m := (c, (m.lookup c).getD 0 + 1) :: m)
      dsimp only
      cases hp : partNames conv dflt (i + 1) ((c, (m.lookup c).getD 0 + 1) :: m) l with
      | error e => rw [hp] at this; simpa [Except.map] using this
      | ok a => simp [Except.map]

theorem tyNames_ok' {s : BState} : ∀ {ids : List Nat}, (∀ i ∈ ids, i < s.data.length) → ∃ r, s.tyNames ids = .ok r
  | [], _ => ⟨[], rfl⟩
  | i :: ids, h => by
    obtain ⟨r, hr⟩ := tyNames_ok' (ids := ids) fun j hj => h j (.tail _ hj)
    refine ⟨(s.data[i]'(h i (.head _))).name :: r, ?_⟩
    simp only [BState.tyNames, List.getElem?_eq_getElem (h i (.head _)), hr, Except.map]

theorem map_no_index {α β : Type} {r : Except GenPanic α} {f : α → β} (h : r ≠ .error .index) : r.map f ≠ .error .index := by
  cases r with
  | error e => simpa [Except.map] using h
  | ok a => simp [Except.map]

theorem bind_no_index {α β : Type} {r : Except GenPanic α} {f : α → Except GenPanic β} (h : r ≠ .error .index)
    (hf : ∀ a, r = .ok a → f a ≠ .error .index) : r.bind f ≠ .error .index := by
  cases r with
  | error e => simpa [Except.bind] using h
  | ok a => simpa [Except.bind] using hf a rfl

theorem genCat_no_index {cas : Casing} {nm : Option Name} {names : List (Option Name)} {ids : List Nat} {s : BState}
    (h : ∀ i ∈ ids, i < s.data.length) : genCat cas nm names ids s ≠ .error .index := by
  simp only [genCat]
  split
  · simp
  · refine bind_no_index newTypeName_no_index ?_
    rintro ⟨name, s1⟩ h1
    obtain ⟨m, rfl⟩ := newTypeName_state h1
    dsimp only
    obtain ⟨r, hr⟩ := tyNames_ok' (s := { s with nameMap := m }) h
    rw [hr]
    exact map_no_index partNames_no_index

theorem genAlt_no_index {cas : Casing} {nm : Option Name} {tys : List Ty} {names : List (Option Name)} {ids : List Nat} {s : BState}
    (h : ∀ i ∈ ids, i < s.data.length) : genAlt cas nm tys names ids s ≠ .error .index := by
  simp only [genAlt]
  split
  · simp
  · refine bind_no_index newTypeName_no_index ?_
    rintro ⟨name, s1⟩ h1
    obtain ⟨m, rfl⟩ := newTypeName_state h1
    dsimp only
    obtain ⟨r, hr⟩ := tyNames_ok' (s := { s with nameMap := m }) h
    rw [hr]
    exact map_no_index partNames_no_index

mutual
theorem gen_no_index (cas : Casing) : ∀ (te : TE) (s : BState), TInv s → s.context.Nodup → te.scoped s.context.length →
    gen cas te s ≠ .error .index
  | .eps _, s, _, _, _ => by simp [gen]
  | .lit nm str, s, _, _, _ => by
    simp only [gen, genLit]
    split
    · simp
    · exact map_no_index newTypeName_no_index
  | .cat nm ty l, s, ht, hn, hs => by
    simp only [gen]
    refine bind_no_index (genL_no_index cas l s ht hn hs) ?_
    rintro ⟨ids, s1⟩ h1
    exact genCat_no_index (genL_reach cas l s s1 ids h1 ht hn).1
  | .alt nm ty l, s, ht, hn, hs => by
    simp only [gen]
    refine bind_no_index (genL_no_index cas l s ht hn hs) ?_
    rintro ⟨ids, s1⟩ h1
    exact genAlt_no_index (genL_reach cas l s s1 ids h1 ht hn).1
  | .fix nm b, s, ht, hn, hs => by
    simp only [gen]
    cases hf : s.findFix b with
    | some id => simp
    | none =>
      refine bind_no_index newTypeName_no_index ?_
      rintro ⟨name, s1⟩ h1
      obtain ⟨m, rfl⟩ := newTypeName_state h1
      have hop := BStep.fixOpen (N := fun _ => True) s nm b name m (fun _ _ => trivial) hf h1
      have ht1 := ht.step hop hn
      have hn1 := ctx_nodup ht hop hn
      refine bind_no_index (gen_no_index cas b _ ht1 hn1 (by simpa [TE.scoped] using hs)) ?_
      rintro ⟨inner, s2⟩ h2
      obtain ⟨h3, _⟩ := gen_reach cas b _ _ _ h2 ht1 hn1
      dsimp only
      rw [List.getElem?_eq_getElem h3]
      simp
  | .var nm i ty, s, ht, hn, hs => by
    simp only [TE.scoped] at hs
    simp only [gen, genVar, if_pos hs]
    rw [List.getElem?_eq_getElem (by omega)]
    dsimp only
    split
    · simp
    · rw [List.getElem?_eq_getElem (ht.ctx _ (List.getElem_mem _))]
      simp
theorem genL_no_index (cas : Casing) : ∀ (l : List TE) (s : BState), TInv s → s.context.Nodup → TE.scopedL s.context.length l →
    genL cas l s ≠ .error .index
  | [], s, _, _, _ => by simp [genL]
  | e :: l, s, ht, hn, hs => by
    simp only [genL]
    refine bind_no_index (gen_no_index cas e s ht hn hs.1) ?_
    rintro ⟨id, s1⟩ h1
    have hg := gen_gen1 cas (fun _ => True) e s s1 id h1 fun _ _ => trivial
    refine map_no_index (genL_no_index cas l s1 (hg.tinv ht hn) (by rw [hg.ctx]; exact hn) ?_)
    rw [hg.ctx]
    exact hs.2
end

/-! ## Finite types -/

mutual
theorem TE.eqv_size : ∀ {a b : TE}, a.eqv b = true → a.size = b.size
  | .eps _, b, h => by cases b <;> simp_all [TE.eqv, TE.size]
  | .lit _ _, b, h => by cases b <;> simp_all [TE.eqv, TE.size]
  | .var _ _ _, b, h => by cases b <;> simp_all [TE.eqv, TE.size]
  | .cat _ _ l, b, h => by
    cases b <;> simp only [TE.eqv, Bool.and_eq_true, Bool.false_eq_true] at h
    simp only [TE.size, TE.eqvL_size h.1.1]
  | .alt _ _ l, b, h => by
    cases b <;> simp only [TE.eqv, Bool.and_eq_true, Bool.false_eq_true] at h
    simp only [TE.size, TE.eqvL_size h.1.1]
  | .fix _ e, b, h => by
    cases b <;> simp only [TE.eqv, Bool.and_eq_true, Bool.false_eq_true] at h
    simp only [TE.size, TE.eqv_size h.1]
theorem TE.eqvL_size : ∀ {a b : List TE}, TE.eqvL a b = true → TE.sizeL a = TE.sizeL b
  | [], b, h => by cases b <;> simp_all [TE.eqvL, TE.sizeL]
  | e :: l, b, h => by
    cases b <;> simp only [TE.eqvL, Bool.and_eq_true, Bool.false_eq_true] at h
    simp only [TE.sizeL, TE.eqv_size h.1, TE.eqvL_size h.2]
end

/-- The definition of `i` and of everything it contains (not through `Box`) is complete, with a finite
derivation. -/
inductive Built (data : List Entry) : Nat → Prop
  | mk {i : Nat} {e : Entry} : data[i]? = some e → e.node ≠ .bad → (∀ d ∈ e.node.subs, Built data d) → Built data i

theorem Built.mono {data data' : List Entry} (h : ∀ (i : Nat) (e : Entry), data[i]? = some e → e.node ≠ .bad →
    data'[i]? = some e) {i : Nat} (hb : Built data i) : Built data' i := by
  induction hb with
  | mk he hn _ ih => exact .mk (h _ _ he hn) hn ih

/-- Everything but the open fix points is built. -/
def AllBuilt (s : BState) : Prop := ∀ i < s.data.length, i ∉ s.context → Built s.data i

theorem Built.push {s s' : BState} {e : Entry} (h : AllBuilt s) (hd : s'.data = s.data ++ [e])
    (hc : s'.context = s.context) (hn : e.node ≠ .bad) (hs : ∀ d ∈ e.node.subs, d < s.data.length ∧ d ∉ s.context) :
    AllBuilt s' := by
  have hm : ∀ i, Built s.data i → Built s'.data i := fun i hb => hb.mono fun i e he _ => by
    rw [hd, List.getElem?_append_left (List.getElem?_eq_some_iff.1 he).1, he]
  intro i hi hic
  rw [hd] at hi
  simp at hi
  rw [hc] at hic
  by_cases h' : i < s.data.length
  · exact hm i (h i h' hic)
  · have : i = s.data.length := by omega
    subst this
    refine .mk (e := e) (by rw [hd]; simp) hn fun d hd' => hm d ?_
    obtain ⟨h1, h2⟩ := hs d hd'
    exact h d h1 h2

/-- Fix points under construction have bodies at least as large as what is generated next. -/
def OpenLarge (s : BState) (n : Nat) : Prop := ∀ b k, (b, k) ∈ s.fixMap → k ∈ s.context → n ≤ b.size

/-- New fix points get new ids. -/
theorem fixMap_new {cas : Casing} {N : Name → Prop} {s s' : BState} (h : BSteps cas N s s') :
    s.data.length ≤ s'.data.length ∧ ∀ b k, (b, k) ∈ s'.fixMap → (b, k) ∈ s.fixMap ∨ s.data.length ≤ k := by
  induction h with
  | refl => exact ⟨Nat.le_refl _, fun _ _ h => .inl h⟩
  | tail _ hs ih =>
    cases hs with
    | fixOpen nm b name m =>
      refine ⟨by simp; omega, fun b' k h => ?_⟩
      rcases List.mem_cons.1 h with h | h
      · cases h; exact .inr ih.1
      · exact ih.2 _ _ h
    | fixClose => exact ⟨by simpa using ih.1, ih.2⟩
    | eps => exact ⟨by simp; omega, ih.2⟩
    | lit => exact ⟨by simp; omega, ih.2⟩
    | cat => exact ⟨by simp; omega, ih.2⟩
    | alt => exact ⟨by simp; omega, ih.2⟩
    | var => exact ⟨by simp; omega, ih.2⟩

theorem OpenLarge.gen1 {cas : Casing} {N : Name → Prop} {s s' : BState} {n : Nat} (h : OpenLarge s n) (hg : Gen1 cas N s s')
    (ht : TInv s) : OpenLarge s' n := by
  intro b k hb hk
  rw [hg.ctx] at hk
  rcases (fixMap_new hg.steps).2 b k hb with hb | hk'
  · exact h b k hb hk
  · have := ht.ctx k hk; omega

theorem OpenLarge.le {s : BState} {n m : Nat} (h : OpenLarge s n) (hm : m ≤ n) : OpenLarge s m :=
  fun b k h1 h2 => Nat.le_trans hm (h b k h1 h2)

mutual
theorem gen_built (cas : Casing) : ∀ (te : TE) (s s' : BState) (id : Nat), gen cas te s = .ok (id, s') → TInv s → s.context.Nodup →
    AllBuilt s → OpenLarge s te.size → AllBuilt s' ∧ id ∉ s.context
  | .eps _, s, s', id, h, ht, hn, hb, ho => by
    simp only [gen, genEps, ht.eps] at h
    cases h
    exact ⟨Built.push (e := ⟨"Epsilon", .eps, [], [], false⟩) hb rfl rfl (by simp) (by simp [NodeF.subs]), fun hm => absurd (ht.ctx _ hm) (Nat.lt_irrefl _)⟩
  | .lit nm str, s, s', id, h, ht, hn, hb, ho => by
    simp only [gen] at h
    rcases genLit_gen1 (N := fun _ => True) h (fun _ _ => trivial) with ⟨hl, rfl⟩ | ⟨rfl, _, hc, e, h3, hnd, _⟩
    · obtain ⟨e, he, hnd⟩ := (ht.litOf _ _).1 (lookup_mem hl)
      refine ⟨hb, fun hm => ?_⟩
      have := (ht.bad _ _ he).2 hm
      rw [hnd] at this; cases this
    · exact ⟨Built.push hb h3 hc (by simp [hnd]) (by simp [hnd, NodeF.subs]), fun hm => absurd (ht.ctx _ hm) (Nat.lt_irrefl _)⟩
  | .cat nm ty l, s, s', id, h, ht, hn, hb, ho => by
    simp only [gen] at h
    obtain ⟨⟨ids, s1⟩, h1, h2⟩ := except_bind_ok h
    have hg := genL_gen1 cas (fun _ => True) l s s1 ids h1 fun _ _ => trivial
    have ht1 := hg.tinv ht hn
    obtain ⟨hb1, hi⟩ := genL_built cas l s s1 ids h1 ht hn hb (ho.le (by simp [TE.size]))
    have hlt := (genL_reach cas l s s1 ids h1 ht hn).1
    rcases genCat_gen1 (N := fun _ => True) h2 (fun _ _ => trivial) with ⟨hl, rfl⟩ | ⟨rfl, _, hc, e, h3, hnd, _⟩
    · obtain ⟨e, he, hnd⟩ := (ht1.catOf _ _).1 (lookup_mem hl)
      refine ⟨hb1, fun hm => ?_⟩
      rw [← hg.ctx] at hm
      have := (ht1.bad _ _ he).2 hm
      rw [hnd] at this; cases this
    · refine ⟨Built.push hb1 h3 hc (by simp [hnd]) ?_, fun hm => ?_⟩
      · intro d hd
        rw [hnd] at hd
        exact ⟨hlt d hd, by rw [hg.ctx]; exact hi d hd⟩
      · exact absurd (Nat.lt_of_lt_of_le (ht.ctx _ hm) hg.len) (Nat.lt_irrefl _)
  | .alt nm ty l, s, s', id, h, ht, hn, hb, ho => by
    simp only [gen] at h
    obtain ⟨⟨ids, s1⟩, h1, h2⟩ := except_bind_ok h
    have hg := genL_gen1 cas (fun _ => True) l s s1 ids h1 fun _ _ => trivial
    have ht1 := hg.tinv ht hn
    obtain ⟨hb1, hi⟩ := genL_built cas l s s1 ids h1 ht hn hb (ho.le (by simp [TE.size]))
    have hlt := (genL_reach cas l s s1 ids h1 ht hn).1
    rcases genAlt_gen1 (N := fun _ => True) h2 (fun _ _ => trivial) with ⟨hl, rfl⟩ | ⟨rfl, _, hc, e, h3, hnd, _⟩
    · obtain ⟨e, tys, he, hnd⟩ := (ht1.altOf _ _).1 (lookup_mem hl)
      refine ⟨hb1, fun hm => ?_⟩
      rw [← hg.ctx] at hm
      have := (ht1.bad _ _ he).2 hm
      rw [hnd] at this; cases this
    · refine ⟨Built.push hb1 h3 hc (by simp [hnd]) ?_, fun hm => ?_⟩
      · intro d hd
        rw [hnd] at hd
        exact ⟨hlt d hd, by rw [hg.ctx]; exact hi d hd⟩
      · exact absurd (Nat.lt_of_lt_of_le (ht.ctx _ hm) hg.len) (Nat.lt_irrefl _)
  | .fix nm b, s, s', id, h, ht, hn, hb, ho => by
    rcases genFix_inv h with ⟨hf, rfl⟩ | ⟨name, m, inner, s2, e, h1, h2, rfl, h3, h4, rfl⟩
    · refine ⟨hb, fun hm => ?_⟩
      obtain ⟨b', hb', hq⟩ := findFix_mem' hf
      have h1 := ho _ _ hb' hm
      have h2 := TE.eqv_size hq
      simp only [TE.size] at h1
      omega
    · have hop := BStep.fixOpen (N := fun _ => True) s nm b name m (fun _ _ => trivial) h1 h2
      have ht1 := ht.step hop hn
      have hn1 := ctx_nodup ht hop hn
      have hg := gen_gen1 cas (fun _ => True) b _ _ _ h3 fun _ _ => trivial
      have hnew : s.data.length ∉ s.context := fun hm => absurd (ht.ctx _ hm) (Nat.lt_irrefl _)
      refine ⟨?_, hnew⟩
      have hA : AllBuilt
          { s with
            nameMap := m
            fixMap := (b, s.data.length) :: s.fixMap
            data := s.data ++ [⟨name, .bad, [], [], false⟩]
            context := s.context ++ [s.data.length] } := by
        intro i hi hic
        simp at hi hic
        refine (hb i (by omega) hic.1).mono fun i e he _ => ?_
        rw [List.getElem?_append_left (List.getElem?_eq_some_iff.1 he).1, he]
      have hB : OpenLarge
          { s with
            nameMap := m
            fixMap := (b, s.data.length) :: s.fixMap
            data := s.data ++ [⟨name, .bad, [], [], false⟩]
            context := s.context ++ [s.data.length] } b.size := by
        intro b' k hb' hk
        rcases List.mem_cons.1 hb' with hb' | hb'
        · cases hb'; exact Nat.le_refl _
        · have : k ∈ s.context := by
            rcases List.mem_append.1 hk with hk | hk
            · exact hk
            · simp at hk
              subst hk
              obtain ⟨e, he, _⟩ := ht.fix _ _ hb'
              exact absurd (List.getElem?_eq_some_iff.1 he).1 (Nat.lt_irrefl _)
          have := ho b' k hb' this
          simp only [TE.size] at this
          omega
      obtain ⟨hb2, hi⟩ := gen_built cas b _ _ _ h3 ht1 hn1 hA hB
      have hc2 : s2.context = s.context ++ [s.data.length] := hg.ctx
      have hlen : s.data.length + 1 ≤ s2.data.length := by simpa using hg.len
      have hk : s2.data[s.data.length]? = some ⟨name, .bad, [], [], false⟩ := by
        rw [hg.keep _ (by simp)]; simp
      have hm : ∀ i, Built s2.data i →
          Built (s2.data.set s.data.length ⟨name, .alias inner, [], [inner], false⟩) i := fun i hbi => hbi.mono fun i e he hne => by
        by_cases hi : i = s.data.length
        · subst hi; rw [hk] at he; cases he; exact absurd rfl hne
        · rw [List.getElem?_set_ne (fun hh => hi hh.symm)]; exact he
      have hinner := hm inner (hb2 inner (List.getElem?_eq_some_iff.1 h4).1 (by rw [hg.ctx]; exact hi))
      intro i hi hic
      simp only [hc2, List.dropLast_concat] at hic
      by_cases hid : i = s.data.length
      · subst hid
        exact .mk (List.getElem?_set_self (by omega)) (by simp) (by simpa [NodeF.subs] using hinner)
      · exact hm i (hb2 i (by simpa using hi) (by rw [hc2]; simp [hic, hid]))
  | .var nm i ty, s, s', id, h, ht, hn, hb, ho => by
    simp only [gen] at h
    obtain ⟨f, hf, _, ⟨hl, rfl⟩ | ⟨rfl, _, hc, e, h3, hnd, _⟩⟩ := genVar_gen1 (cas := cas) (N := fun _ => True) h
    · obtain ⟨e, he, hnd⟩ := (ht.varOf _ _).1 (lookup_mem hl)
      refine ⟨hb, fun hm => ?_⟩
      have := (ht.bad _ _ he).2 hm
      rw [hnd] at this; cases this
    · exact ⟨Built.push hb h3 hc (by simp [hnd]) (by simp [hnd, NodeF.subs]), fun hm => absurd (ht.ctx _ hm) (Nat.lt_irrefl _)⟩
theorem genL_built (cas : Casing) : ∀ (l : List TE) (s s' : BState) (ids : List Nat), genL cas l s = .ok (ids, s') → TInv s →
    s.context.Nodup → AllBuilt s → OpenLarge s (TE.sizeL l) → AllBuilt s' ∧ ∀ i ∈ ids, i ∉ s.context
  | [], s, s', ids, h, ht, hn, hb, ho => by
    simp only [genL] at h; cases h
    constructor
    · exact hb
    · intro i hi; cases hi
  | e :: l, s, s', ids, h, ht, hn, hb, ho => by
    simp only [genL] at h
    obtain ⟨⟨id, s1⟩, h1, h2⟩ := except_bind_ok h
    obtain ⟨⟨ids', s2⟩, h3, h4⟩ := except_map_ok h2
    have hg := gen_gen1 cas (fun _ => True) e s s1 id h1 fun _ _ => trivial
    obtain ⟨ha, hb1⟩ := gen_built cas e s s1 id h1 ht hn hb (ho.le (by simp [TE.sizeL]))
    obtain ⟨hc, hd⟩ := genL_built cas l s1 s2 ids' h3 (hg.tinv ht hn) (by rw [hg.ctx]; exact hn) ha
      ((ho.gen1 hg ht).le (by simp [TE.sizeL]))
    cases h4
    constructor
    · exact hc
    · intro i hi
      rcases List.mem_cons.1 hi with rfl | hi
      · exact hb1
      · rw [← hg.ctx]; exact hd i hi
end

/-! ## Type aliases end -/

/-- Structs, enums and `Epsilon`. -/
def NodeF.IsStruct : NodeF Nat → Prop
  | .eps => True
  | .lit _ => True
  | .cat _ => True
  | .alt _ _ => True
  | _ => False

/-- Following type aliases from an id, one gets to a struct, to an alias with an id below `len`, or to a
`Box` of some id in `P`. -/
inductive Head (data : List Entry) (P : Nat → Prop) (len : Nat) : Nat → Prop
  | struct {i : Nat} {e : Entry} : data[i]? = some e → e.node.IsStruct → Head data P len i
  | old {i j : Nat} {e : Entry} : data[i]? = some e → e.node = .alias j → i < len → Head data P len i
  | box {i f : Nat} {e : Entry} : data[i]? = some e → e.node = .box f → P f → Head data P len i
  | alias {i j : Nat} {e : Entry} : data[i]? = some e → e.node = .alias j → Head data P len j → Head data P len i

theorem Head.mono {data data' : List Entry} {P P' : Nat → Prop} {len len' : Nat}
    (h : ∀ (i : Nat) (e : Entry), data[i]? = some e → e.node ≠ .bad → data'[i]? = some e) (hP : ∀ i, P i → P' i)
    (hl : ∀ (i : Nat) (j : Nat) (e : Entry), i < len → data[i]? = some e → e.node = .alias j → i < len') {i : Nat}
    (hh : Head data P len i) : Head data' P' len' i := by
  induction hh with
  | struct he hs => exact .struct (h _ _ he (by intro hb; rw [hb] at hs; exact hs)) hs
  | old he hn hi => exact .old (h _ _ he (by simp [hn])) hn (hl _ _ _ hi he hn)
  | box he hn hp => exact .box (h _ _ he (by simp [hn])) hn (hP _ hp)
  | alias he hn _ ih => exact .alias (h _ _ he (by simp [hn])) hn ih

/-- What is known about the finished aliases. -/
def AllHead (s : BState) : Prop := ∀ (f : Nat) (e : Entry) (j : Nat), s.data[f]? = some e → e.node = .alias j →
  Head s.data (· < f) f j

theorem AllHead.push {s s' : BState} {e : Entry} (h : AllHead s) (hd : s'.data = s.data ++ [e]) (hn : ∀ j, e.node ≠ .alias j) :
    AllHead s' := by
  intro f x j hx hj
  rw [hd] at hx
  rcases push_get.1 hx with ⟨_, hx⟩ | ⟨_, rfl⟩
  · refine (h f x j hx hj).mono (fun i e he _ => ?_) (fun _ h => h) fun i j e hi _ _ => hi
    rw [hd, List.getElem?_append_left (List.getElem?_eq_some_iff.1 he).1, he]
  · exact absurd hj (hn j)

mutual
theorem gen_head (cas : Casing) : ∀ (te : TE) (s s' : BState) (id : Nat) (Γ : List Ty) (k : Nat), gen cas te s = .ok (id, s') →
    TInv s → s.context.Nodup → Ann Γ k te → AllHead s → s.context.length = Γ.length → AllBuilt s → OpenLarge s te.size →
    AllHead s' ∧ Head s'.data (· ∈ s.context.take (s.context.length - k)) s.data.length id
  | .eps _, s, s', id, Γ, k, h, ht, hn, hA, hh, hc, hb, ho => by
    simp only [gen, genEps, ht.eps] at h
    cases h
    exact ⟨AllHead.push (e := ⟨"Epsilon", .eps, [], [], false⟩) hh rfl (by simp), .struct (e := ⟨"Epsilon", .eps, [], [], false⟩)
      (by simp) trivial⟩
  | .lit nm str, s, s', id, Γ, k, h, ht, hn, hA, hh, hc, hb, ho => by
    simp only [gen] at h
    rcases genLit_gen1 (N := fun _ => True) h (fun _ _ => trivial) with ⟨hl, rfl⟩ | ⟨rfl, _, _, e, h3, hnd, _⟩
    · obtain ⟨e, he, hnd⟩ := (ht.litOf _ _).1 (lookup_mem hl)
      exact ⟨hh, .struct he (by rw [hnd]; trivial)⟩
    · exact ⟨hh.push h3 (by simp [hnd]), .struct (e := e) (by rw [h3]; simp) (by rw [hnd]; trivial)⟩
  | .cat nm ty l, s, s', id, Γ, k, h, ht, hn, hA, hh, hc, hb, ho => by
    simp only [gen] at h
    obtain ⟨⟨ids, s1⟩, h1, h2⟩ := except_bind_ok h
    have hg := genL_gen1 cas (fun _ => True) l s s1 ids h1 fun _ _ => trivial
    have ht1 := hg.tinv ht hn
    have hh1 := genL_head cas l s s1 ids Γ h1 ht hn hA.cat_mem hh hc hb (ho.le (by simp [TE.size]))
    rcases genCat_gen1 (N := fun _ => True) h2 (fun _ _ => trivial) with ⟨hl, rfl⟩ | ⟨rfl, _, _, e, h3, hnd, _⟩
    · obtain ⟨e, he, hnd⟩ := (ht1.catOf _ _).1 (lookup_mem hl)
      exact ⟨hh1, .struct he (by rw [hnd]; trivial)⟩
    · exact ⟨hh1.push h3 (by simp [hnd]), .struct (e := e) (by rw [h3]; simp) (by rw [hnd]; trivial)⟩
  | .alt nm ty l, s, s', id, Γ, k, h, ht, hn, hA, hh, hc, hb, ho => by
    simp only [gen] at h
    obtain ⟨⟨ids, s1⟩, h1, h2⟩ := except_bind_ok h
    have hg := genL_gen1 cas (fun _ => True) l s s1 ids h1 fun _ _ => trivial
    have ht1 := hg.tinv ht hn
    have hh1 := genL_head cas l s s1 ids Γ h1 ht hn (fun t ht => ⟨k, hA.alt_inv.1 t ht⟩) hh hc hb (ho.le (by simp [TE.size]))
    rcases genAlt_gen1 (N := fun _ => True) h2 (fun _ _ => trivial) with ⟨hl, rfl⟩ | ⟨rfl, _, _, e, h3, hnd, _⟩
    · obtain ⟨e, tys, he, hnd⟩ := (ht1.altOf _ _).1 (lookup_mem hl)
      exact ⟨hh1, .struct he (by rw [hnd]; trivial)⟩
    · exact ⟨hh1.push h3 (by simp [hnd]), .struct (e := e) (by rw [h3]; simp) (by rw [hnd]; trivial)⟩
  | .fix nm b, s, s', id, Γ, k, h, ht, hn, hA, hh, hc, hb, ho => by
    rcases genFix_inv h with ⟨hf, rfl⟩ | ⟨name, m, inner, s2, e, h1, h2, rfl, h3, h4, rfl⟩
    · refine ⟨hh, ?_⟩
      have hnot := (gen_built cas (.fix nm b) s' s' id h ht hn hb ho).2
      obtain ⟨b', hb', _⟩ := findFix_mem' hf
      obtain ⟨e, he, hfx | ⟨j, hj⟩⟩ := ht.fix _ _ hb'
      · exact absurd ((ht.bad _ _ he).1 hfx) hnot
      · exact .old he hj (List.getElem?_eq_some_iff.1 he).1
    · have hop := BStep.fixOpen (N := fun _ => True) s nm b name m (fun _ _ => trivial) h1 h2
      have ht1 := ht.step hop hn
      have hn1 := ctx_nodup ht hop hn
      have hg := gen_gen1 cas (fun _ => True) b _ _ _ h3 fun _ _ => trivial
      have hpers : ∀ (i : Nat) (x : Entry), s.data[i]? = some x → x.node ≠ .bad →
          (s.data ++ [(⟨name, .bad, [], [], false⟩ : Entry)])[i]? = some x := fun i x hx _ => by
        rw [List.getElem?_append_left (List.getElem?_eq_some_iff.1 hx).1, hx]
      have hA1 : AllHead
          { s with
            nameMap := m
            fixMap := (b, s.data.length) :: s.fixMap
            data := s.data ++ [⟨name, .bad, [], [], false⟩]
            context := s.context ++ [s.data.length] } := AllHead.push hh rfl (by simp)
      have hB1 : AllBuilt
          { s with
            nameMap := m
            fixMap := (b, s.data.length) :: s.fixMap
            data := s.data ++ [⟨name, .bad, [], [], false⟩]
            context := s.context ++ [s.data.length] } := by
        intro i hi hic
        simp at hi hic
        exact (hb i (by omega) hic.1).mono hpers
      have hO1 : OpenLarge
          { s with
            nameMap := m
            fixMap := (b, s.data.length) :: s.fixMap
            data := s.data ++ [⟨name, .bad, [], [], false⟩]
            context := s.context ++ [s.data.length] } b.size := by
        intro b' k hb' hk
        rcases List.mem_cons.1 hb' with hb' | hb'
        · cases hb'; exact Nat.le_refl _
        · have : k ∈ s.context := by
            rcases List.mem_append.1 hk with hk | hk
            · exact hk
            · simp at hk
              subst hk
              obtain ⟨e, he, _⟩ := ht.fix _ _ hb'
              exact absurd (List.getElem?_eq_some_iff.1 he).1 (Nat.lt_irrefl _)
          have := ho b' k hb' this
          simp only [TE.size] at this
          omega
      cases hA with
      | fix _ _ _ _ hA =>
        obtain ⟨hh2, hi⟩ := gen_head cas b _ _ _ (b.ty :: Γ) (k + 1) h3 ht1 hn1 hA hA1 (by simp [hc]) hB1 hO1
        have hlen : s.data.length + 1 ≤ s2.data.length := by simpa using hg.len
        have hk : s2.data[s.data.length]? = some ⟨name, .bad, [], [], false⟩ := by
          rw [hg.keep _ (by simp)]; simp
        have hm : ∀ (i : Nat) (x : Entry), s2.data[i]? = some x → x.node ≠ .bad →
            (s2.data.set s.data.length ⟨name, .alias inner, [], [inner], false⟩)[i]? = some x := by
          intro i x hx hne
          by_cases hi : i = s.data.length
          · subst hi; rw [hk] at hx; cases hx; exact absurd rfl hne
          · rw [List.getElem?_set_ne (fun hh => hi hh.symm)]; exact hx
        have hh3 : Head (s2.data.set s.data.length ⟨name, .alias inner, [], [inner], false⟩)
            (· ∈ s.context.take (s.context.length - k)) s.data.length inner := by
          refine hi.mono hm (fun i hi => ?_) fun i j x hi hx hj => ?_
          · have : (s.context ++ [s.data.length]).length - (k + 1) = s.context.length - k := by simp
            rw [this, List.take_append_of_le_length (by omega)] at hi
            exact hi
          · simp at hi
            have : i ≠ s.data.length := by
              rintro rfl
              rw [hk] at hx; cases hx; cases hj
            omega
        refine ⟨?_, .alias (List.getElem?_set_self (by omega)) rfl hh3⟩
        intro f x j hx hj
        by_cases hf : f = s.data.length
        · subst hf
          dsimp only at hx
          rw [List.getElem?_set_self (by omega)] at hx
          cases hx; cases hj
          exact hh3.mono (fun _ _ h _ => h) (fun i hi => ht.ctx i (List.mem_of_mem_take hi)) fun _ _ _ h _ _ => h
        · dsimp only at hx
          rw [List.getElem?_set_ne (fun hh => hf hh.symm)] at hx
          exact (hh2 f x j hx hj).mono hm (fun _ h => h) fun _ _ _ h _ _ => h
  | .var nm i ty, s, s', id, Γ, k, h, ht, hn, hA, hh, hc, hb, ho => by
    simp only [gen] at h
    have hP : ∀ f, s.context[s.context.length - i - 1]? = some f → f ∈ s.context.take (s.context.length - k) := by
      intro f hf
      cases hA with
      | var _ _ _ _ _ h1 h2 =>
        have h3 := (List.getElem?_eq_some_iff.1 h1).1
        refine List.mem_of_getElem? (i := s.context.length - i - 1) ?_
        rw [List.getElem?_take_of_lt (by omega)]
        exact hf
    obtain ⟨f, hf, hf', ⟨hl, rfl⟩ | ⟨rfl, _, _, e, h3, hnd, _⟩⟩ := genVar_gen1 (cas := cas) (N := fun _ => True) h
    · obtain ⟨e, he, hnd⟩ := (ht.varOf _ _).1 (lookup_mem hl)
      exact ⟨hh, .box he hnd (hP f hf')⟩
    · exact ⟨hh.push h3 (by simp [hnd]), .box (e := e) (by rw [h3]; simp) hnd (hP f hf')⟩
theorem genL_head (cas : Casing) : ∀ (l : List TE) (s s' : BState) (ids : List Nat) (Γ : List Ty), genL cas l s = .ok (ids, s') →
    TInv s → s.context.Nodup → (∀ t ∈ l, ∃ k, Ann Γ k t) → AllHead s → s.context.length = Γ.length → AllBuilt s →
    OpenLarge s (TE.sizeL l) → AllHead s'
  | [], s, s', ids, Γ, h, ht, hn, hA, hh, hc, hb, ho => by
    simp only [genL] at h; cases h; exact hh
  | e :: l, s, s', ids, Γ, h, ht, hn, hA, hh, hc, hb, ho => by
    simp only [genL] at h
    obtain ⟨⟨id, s1⟩, h1, h2⟩ := except_bind_ok h
    obtain ⟨⟨ids', s2⟩, h3, h4⟩ := except_map_ok h2
    have hg := gen_gen1 cas (fun _ => True) e s s1 id h1 fun _ _ => trivial
    obtain ⟨k, hk⟩ := hA e (.head _)
    have ho1 : OpenLarge s e.size := ho.le (by simp [TE.sizeL])
    have hh1 := (gen_head cas e s s1 id Γ k h1 ht hn hk hh hc hb ho1).1
    have hb1 := (gen_built cas e s s1 id h1 ht hn hb ho1).1
    have := genL_head cas l s1 s2 ids' Γ h3 (hg.tinv ht hn) (by rw [hg.ctx]; exact hn) (fun t ht => hA t (.tail _ ht)) hh1
      (by rw [hg.ctx]; exact hc) hb1 ((ho.gen1 hg ht).le (by simp [TE.sizeL]))
    cases h4
    exact this
end

/-- `d` is the definition of the alias `i`, or the content of the `Box` `i`. -/
def BState.Expands (s : BState) (d i : Nat) : Prop := s.step i = .alias d ∨ s.step i = .box d

theorem step_eq {s : BState} {i : Nat} {e : Entry} (h : s.data[i]? = some e) : s.step i = e.node := by
  simp only [BState.step, h]

theorem Head.acc {s : BState} (ht : TInv s) {f : Nat}
    (hf : ∀ (g : Nat) (e : Entry), g < f → s.data[g]? = some e → e.node.IsFix → Acc s.Expands g) {i : Nat}
    (h : Head s.data (· < f) f i) : Acc s.Expands i := by
  induction h with
  | struct he hs =>
    refine ⟨_, fun d hd => ?_⟩
    rcases hd with hd | hd <;> (rw [step_eq he] at hd; rw [hd] at hs; exact hs.elim)
  | old he hn hi => exact hf _ _ hi he (.inr ⟨_, hn⟩)
  | box he hn hp =>
    refine ⟨_, fun d hd => ?_⟩
    rcases hd with hd | hd <;> (rw [step_eq he, hn] at hd; cases hd)
    obtain ⟨e', h1, h2, _⟩ := ht.box _ _ _ he hn
    exact hf _ _ hp h1 h2
  | alias he hn _ ih =>
    refine ⟨_, fun d hd => ?_⟩
    rcases hd with hd | hd <;> (rw [step_eq he, hn] at hd; cases hd)
    exact ih

/-- Expanding aliases ends. -/
theorem AllHead.acc {s : BState} (h : AllHead s) (ht : TInv s) : ∀ i, Acc s.Expands i := by
  have key : ∀ (f : Nat) (e : Entry), s.data[f]? = some e → e.node.IsFix → Acc s.Expands f := by
    intro f
    induction f using Nat.strongRecOn with
    | ind f ih =>
      intro e he hx
      refine ⟨_, fun d hd => ?_⟩
      rcases hx with hx | ⟨j, hj⟩
      · rcases hd with hd | hd <;> (rw [step_eq he, hx] at hd; cases hd)
      · rcases hd with hd | hd <;> (rw [step_eq he, hj] at hd; cases hd)
        exact (h f e _ he hj).acc ht fun g e hg he hx => ih g hg e he hx
  intro i
  refine ⟨_, fun d hd => ?_⟩
  cases he : s.data[i]? with
  | none => rcases hd with hd | hd <;> (simp only [BState.step, he] at hd; cases hd)
  | some e =>
    rcases hd with hd | hd <;> rw [step_eq he] at hd
    · exact (key i e he (.inr ⟨d, hd⟩)).inv (.inl (by rw [step_eq he, hd]))
    · obtain ⟨e', h1, h2, _⟩ := ht.box _ _ _ he hd
      exact key d e' h1 h2

theorem Built.acc {s : BState} {i : Nat} (h : Built s.data i) : Acc (fun d i => d ∈ (s.step i).subs) i := by
  induction h with
  | mk he _ _ ih =>
    refine ⟨_, fun d hd => ih d ?_⟩
    rw [step_eq he] at hd
    exact hd

end Chomp
