import Verif.Props.Codegen
import Verif.Props.Hash

/-!
# C41: exactly which expressions get one type

An expression that occurs several times gets one type exactly if it has no epsilon outside its fix points.
-/

namespace Chomp

mutual
/-- No epsilon outside fix points. -/
def TE.noEps : TE → Prop
  | .eps _ => False
  | .lit _ _ => True
  | .cat _ _ l => TE.noEpsL l
  | .alt _ _ l => TE.noEpsL l
  | .fix _ _ => True
  | .var _ _ _ => True
def TE.noEpsL : List TE → Prop
  | [] => True
  | e :: l => e.noEps ∧ TE.noEpsL l
end

/-! ## The map of fix points -/

theorem fixMap_mono {cas : Casing} {N : Name → Prop} {s s' : BState} (h : BSteps cas N s s') : ∀ p ∈ s.fixMap, p ∈ s'.fixMap := by
  refine h.inv (P := fun s' => ∀ p ∈ s.fixMap, p ∈ s'.fixMap) (fun a b ha hb p hp => ?_) fun _ h => h
  cases hb with
  | fixOpen nm b name m => exact .tail _ (ha p hp)
  | fixClose => exact ha p hp
  | eps => exact ha p hp
  | lit => exact ha p hp
  | cat => exact ha p hp
  | alt => exact ha p hp
  | var => exact ha p hp

/-- The fix points in the map are different from each other. -/
def FixUniq (s : BState) : Prop := ∀ p ∈ s.fixMap, ∀ q ∈ s.fixMap, p.1.eqv q.1 = true → p = q

theorem FixUniq.steps {cas : Casing} {N : Name → Prop} {s s' : BState} (h : BSteps cas N s s') (hu : FixUniq s) : FixUniq s' := by
  refine h.inv (P := FixUniq) (fun a b ha hb => ?_) hu
  cases hb with
  | fixOpen nm b name m _ hf =>
    simp only [BState.findFix, Option.map_eq_none_iff, List.find?_eq_none] at hf
    intro p hp q hq he
    rcases List.mem_cons.1 hp with rfl | hp <;> rcases List.mem_cons.1 hq with rfl | hq
    · rfl
    · rw [TE.eqv_comm] at he; exact absurd he (hf q hq)
    · exact absurd he (hf p hp)
    · exact ha p hp q hq he
  | fixClose => exact ha
  | eps => exact ha
  | lit => exact ha
  | cat => exact ha
  | alt => exact ha
  | var => exact ha

/-- All names in the map are in `P`. -/
def FixNames (P : Name → Prop) (s : BState) : Prop := ∀ p ∈ s.fixMap, ∀ n ∈ p.1.names, P n

theorem genVar_fixMap' {i : Nat} {s s' : BState} {id : Nat} (h : genVar i s = .ok (id, s')) : s'.fixMap = s.fixMap := by
  unfold genVar at h
  split at h
  · split at h
    · cases h
    · split at h
      · cases h; rfl
      · split at h
        · cases h
        · cases h; rfl
  · cases h

mutual
theorem gen_fixNames (cas : Casing) {P : Name → Prop} : ∀ (te : TE) (s s' : BState) (id : Nat), gen cas te s = .ok (id, s') →
    (∀ n ∈ te.names, P n) → FixNames P s → FixNames P s'
  | .eps _, s, s', id, h, hN, hs => by
    simp only [gen, genEps] at h
    split at h <;> (cases h; exact hs)
  | .lit nm str, s, s', id, h, hN, hs => by
    simp only [gen] at h
    unfold FixNames; rw [genLit_fixMap h]; exact hs
  | .cat nm ty l, s, s', id, h, hN, hs => by
    simp only [gen] at h
    obtain ⟨⟨ids, s1⟩, h1, h2⟩ := except_bind_ok h
    unfold FixNames; rw [genCat_fixMap h2]
    exact genL_fixNames cas l s s1 ids h1 (fun n hn => hN n (by simp [TE.names, hn])) hs
  | .alt nm ty l, s, s', id, h, hN, hs => by
    simp only [gen] at h
    obtain ⟨⟨ids, s1⟩, h1, h2⟩ := except_bind_ok h
    unfold FixNames; rw [genAlt_fixMap h2]
    exact genL_fixNames cas l s s1 ids h1 (fun n hn => hN n (by simp [TE.names, hn])) hs
  | .fix nm b, s, s', id, h, hN, hs => by
    simp only [gen] at h
    cases hf : s.findFix b with
    | some k => rw [hf] at h; cases h; exact hs
    | none =>
      rw [hf] at h
      obtain ⟨⟨name, s1⟩, h1, h2⟩ := except_bind_ok h
      obtain ⟨⟨inner, s2⟩, h3, h4⟩ := except_bind_ok h2
      have hb : ∀ n ∈ b.names, P n := fun n hn => hN n (by simp [TE.names, hn])
      have := gen_fixNames cas b _ s2 inner h3 hb (fun p hp => by
        rcases List.mem_cons.1 hp with rfl | hp
        · exact hb
        · exact hs p (newTypeName_fixMap h1 ▸ hp))
      dsimp only at h4
      split at h4
      · cases h4
      · cases h4; exact this
  | .var nm i ty, s, s', id, h, hN, hs => by
    simp only [gen] at h
    unfold FixNames; rw [genVar_fixMap' h]; exact hs
theorem genL_fixNames (cas : Casing) {P : Name → Prop} : ∀ (l : List TE) (s s' : BState) (ids : List Nat), genL cas l s = .ok (ids, s') →
    (∀ n ∈ TE.namesL l, P n) → FixNames P s → FixNames P s'
  | [], s, s', ids, h, hN, hs => by simp only [genL] at h; cases h; exact hs
  | e :: l, s, s', ids, h, hN, hs => by
    simp only [genL] at h
    obtain ⟨⟨id, s1⟩, h1, h2⟩ := except_bind_ok h
    obtain ⟨⟨ids', s2⟩, h3, h4⟩ := except_map_ok h2
    cases h4
    exact genL_fixNames cas l s1 _ ids' h3 (fun n hn => hN n (by simp [TE.namesL, hn]))
      (gen_fixNames cas e s s1 id h1 (fun n hn => hN n (by simp [TE.namesL, hn])) hs)
end

/-! ## Generating again -/

private theorem lookup_unique {α : Type} [BEq α] [LawfulBEq α] {l : List (α × Nat)} {a : α} {k : Nat} (hm : (a, k) ∈ l)
    (hu : ∀ k k', (a, k) ∈ l → (a, k') ∈ l → k = k') : l.lookup a = some k := by
  cases hl : l.lookup a with
  | none => exact absurd hm (lookup_none_mem hl k)
  | some k' => rw [hu k k' hm (lookup_mem hl)]

/-- Later in the same generation. -/
structure Later (P : Name → Prop) (s' s'' : BState) : Prop where
  tinv : TInv s''
  keep : ∀ k < s'.data.length, s''.data[k]? = s'.data[k]?
  fixes : ∀ p ∈ s'.fixMap, p ∈ s''.fixMap
  uniq : FixUniq s''
  names : FixNames P s''

theorem Later.before {P : Name → Prop} {cas : Casing} {N : Name → Prop} {s s' s'' : BState} (h : Later P s' s'') (hg : Gen1 cas N s s') :
    Later P s s'' :=
  ⟨h.tinv, fun k hk => (h.keep k (Nat.lt_of_lt_of_le hk hg.len)).trans (hg.keep k hk), fun p hp => h.fixes p (fixMap_mono hg.steps p hp),
    h.uniq, h.names⟩

theorem gen_fix_key {cas : Casing} {nm : Option Name} {b : TE} {s s' : BState} {id : Nat} (h : gen cas (.fix nm b) s = .ok (id, s')) :
    ∃ b1, (b1, id) ∈ s'.fixMap ∧ b1.eqv b = true := by
  simp only [gen] at h
  cases hf : s.findFix b with
  | some k =>
    rw [hf] at h
    cases h
    simp only [BState.findFix, Option.map_eq_some_iff] at hf
    obtain ⟨⟨b1, k1⟩, h1, h2⟩ := hf
    cases h2
    exact ⟨b1, List.mem_of_find?_eq_some h1, by simpa using List.find?_some h1⟩
  | none =>
    rw [hf] at h
    obtain ⟨⟨name, s1⟩, h1, h2⟩ := except_bind_ok h
    obtain ⟨⟨inner, s2⟩, h3, h4⟩ := except_bind_ok h2
    have hm := fixMap_mono (gen_gen1 cas (fun _ => True) b _ s2 inner h3 fun _ _ => trivial).steps (b, s1.data.length) (List.mem_cons_self ..)
    dsimp only at h4
    split at h4
    · cases h4
    · cases h4; exact ⟨b, hm, TE.eqv_refl b⟩

theorem findFix_unique {P : Name → Prop} (hP : Uniform P) {s : BState} (hu : FixUniq s) (hn : FixNames P s) {b b1 : TE} {id : Nat}
    (hb : ∀ n ∈ b.names, P n) (hm : (b1, id) ∈ s.fixMap) (he : b1.eqv b = true) : s.findFix b = some id := by
  unfold BState.findFix
  cases hf : s.fixMap.find? (fun p => p.1.eqv b) with
  | none => rw [List.find?_eq_none] at hf; exact absurd he (hf _ hm)
  | some q =>
    have hq := List.mem_of_find?_eq_some hf
    have hqe : q.1.eqv b = true := List.find?_some (p := fun p : TE × Nat => p.1.eqv b) hf
    have := hu q hq (b1, id) hm (TE.eqv_trans hP q.1 b b1 (hn q hq) hb (hn _ hm) hqe (by rw [TE.eqv_comm]; exact he))
    rw [this]; rfl

mutual
theorem gen_same (cas : Casing) {P : Name → Prop} (hP : Uniform P) : ∀ (te : TE) (s s' : BState) (id : Nat), gen cas te s = .ok (id, s') →
    te.noEps → (∀ n ∈ te.names, P n) → TInv s → s.context.Nodup → ∀ s'' : BState, Later P s' s'' → s''.context = s.context →
    gen cas te s'' = .ok (id, s'')
  | .eps _, s, s', id, h, hp, hN, ht, hn, s'', hl', hc => hp.elim
  | .lit nm str, s, s', id, h, hp, hN, ht, hn, s'', hl', hc => by
    have hid := (gen_reach cas _ s s' id h ht hn).1
    have hs : ∃ e : Entry, s'.data[id]? = some e ∧ e.node = .lit str := by
      simp only [gen] at h
      rcases genLit_gen1 (N := fun _ => True) h (fun _ _ => trivial) with ⟨hl, rfl⟩ | ⟨rfl, _, _, e, h3, hnd, _⟩
      · exact (ht.litOf _ _).1 (lookup_mem hl)
      · exact ⟨e, by rw [h3]; simp, hnd⟩
    rw [← hl'.keep id hid] at hs
    simp only [gen, genLit, lookup_unique ((hl'.tinv.litOf _ _).2 hs) (hl'.tinv.litU str)]
  | .cat nm ty l, s, s', id, h, hp, hN, ht, hn, s'', hl', hc => by
    have hid := (gen_reach cas _ s s' id h ht hn).1
    simp only [gen] at h
    obtain ⟨⟨ids, s1⟩, h1, h2⟩ := except_bind_ok h
    have hg1 := genL_gen1 cas (fun _ => True) l s s1 ids h1 fun _ _ => trivial
    have ht1 := hg1.tinv ht hn
    have hs : (∃ e : Entry, s'.data[id]? = some e ∧ e.node = .cat ids) ∧ Gen1 cas (fun _ => True) s1 s' := by
      rcases genCat_gen1 (N := fun _ => True) h2 (fun _ _ => trivial) with ⟨hl, rfl⟩ | ⟨rfl, hb, hctx, e, h3, hnd, _⟩
      · exact ⟨(ht1.catOf _ _).1 (lookup_mem hl), .refl _ _ _⟩
      · exact ⟨⟨e, by rw [h3]; simp, hnd⟩, .push hb hctx e h3⟩
    obtain ⟨hs, hg2⟩ := hs
    have ih := genL_same cas hP l s s1 ids h1 hp (fun n hn => hN n (by simp [TE.names, hn])) ht hn s'' (hl'.before hg2) hc
    rw [← hl'.keep id hid] at hs
    simp only [gen, ih, Except.bind, genCat, lookup_unique ((hl'.tinv.catOf _ _).2 hs) (hl'.tinv.catU ids)]
  | .alt nm ty l, s, s', id, h, hp, hN, ht, hn, s'', hl', hc => by
    have hid := (gen_reach cas _ s s' id h ht hn).1
    simp only [gen] at h
    obtain ⟨⟨ids, s1⟩, h1, h2⟩ := except_bind_ok h
    have hg1 := genL_gen1 cas (fun _ => True) l s s1 ids h1 fun _ _ => trivial
    have ht1 := hg1.tinv ht hn
    have hs : (∃ (e : Entry) (tys : List Ty), s'.data[id]? = some e ∧ e.node = .alt tys ids) ∧ Gen1 cas (fun _ => True) s1 s' := by
      rcases genAlt_gen1 (N := fun _ => True) h2 (fun _ _ => trivial) with ⟨hl, rfl⟩ | ⟨rfl, hb, hctx, e, h3, hnd, _⟩
      · exact ⟨(ht1.altOf _ _).1 (lookup_mem hl), .refl _ _ _⟩
      · exact ⟨⟨e, _, by rw [h3]; simp, hnd⟩, .push hb hctx e h3⟩
    obtain ⟨hs, hg2⟩ := hs
    have ih := genL_same cas hP l s s1 ids h1 hp (fun n hn => hN n (by simp [TE.names, hn])) ht hn s'' (hl'.before hg2) hc
    rw [← hl'.keep id hid] at hs
    simp only [gen, ih, Except.bind, genAlt, lookup_unique ((hl'.tinv.altOf _ _).2 hs) (hl'.tinv.altU ids)]
  | .fix nm b, s, s', id, h, hp, hN, ht, hn, s'', hl', hc => by
    obtain ⟨b1, h1, h2⟩ := gen_fix_key h
    have := findFix_unique hP hl'.uniq hl'.names (fun n hn => hN n (by simp [TE.names, hn])) (hl'.fixes _ h1) h2
    simp only [gen, this]
  | .var nm i ty, s, s', id, h, hp, hN, ht, hn, s'', hl', hc => by
    have hid := (gen_reach cas _ s s' id h ht hn).1
    simp only [gen] at h
    have hi : i < s.context.length := by
      simp only [genVar] at h
      split at h
      · assumption
      · cases h
    obtain ⟨f, hf, hf', h'⟩ := genVar_gen1 (cas := cas) (N := fun _ => True) h
    have hs : ∃ e : Entry, s'.data[id]? = some e ∧ e.node = .box f := by
      rcases h' with ⟨hl, rfl⟩ | ⟨rfl, _, _, e, h3, hnd, _⟩
      · exact (ht.varOf _ _).1 (lookup_mem hl)
      · exact ⟨e, by rw [h3]; simp, hnd⟩
    rw [← hl'.keep id hid] at hs
    rw [← hc] at hf' hi
    simp only [gen, genVar, if_pos hi, hf', lookup_unique ((hl'.tinv.varOf _ _).2 hs) (hl'.tinv.varU f)]
theorem genL_same (cas : Casing) {P : Name → Prop} (hP : Uniform P) : ∀ (l : List TE) (s s' : BState) (ids : List Nat),
    genL cas l s = .ok (ids, s') → TE.noEpsL l → (∀ n ∈ TE.namesL l, P n) → TInv s → s.context.Nodup → ∀ s'' : BState, Later P s' s'' →
    s''.context = s.context → genL cas l s'' = .ok (ids, s'')
  | [], s, s', ids, h, hp, hN, ht, hn, s'', hl', hc => by
    simp only [genL] at h ⊢; cases h; rfl
  | e :: l, s, s', ids, h, hp, hN, ht, hn, s'', hl', hc => by
    simp only [genL] at h
    obtain ⟨⟨id, s1⟩, h1, h2⟩ := except_bind_ok h
    obtain ⟨⟨ids', s2⟩, h3, h4⟩ := except_map_ok h2
    have hg := gen_gen1 cas (fun _ => True) e s s1 id h1 fun _ _ => trivial
    have hg2 := genL_gen1 cas (fun _ => True) l s1 s2 ids' h3 fun _ _ => trivial
    have ih2 := genL_same cas hP l s1 s2 ids' h3 hp.2 (fun n hn => hN n (by simp [TE.namesL, hn])) (hg.tinv ht hn) (by rw [hg.ctx]; exact hn) s''
    have ih1 := gen_same cas hP e s s1 id h1 hp.1 (fun n hn => hN n (by simp [TE.namesL, hn])) ht hn s''
    cases h4
    rw [genL, ih1 (hl'.before hg2) hc]
    simp only [Except.bind]
    rw [ih2 hl' (hc.trans hg.ctx.symm)]
    rfl
end

mutual
/-- An expression with an epsilon outside fix points always gets a new type. -/
theorem gen_new (cas : Casing) : ∀ (te : TE) (s s' : BState) (id : Nat), gen cas te s = .ok (id, s') → ¬ te.noEps → TInv s →
    s.context.Nodup → s.data.length ≤ id
  | .eps _, s, s', id, h, hp, ht, hn => by
    simp only [gen, genEps, ht.eps] at h; cases h; exact Nat.le_refl _
  | .lit nm str, s, s', id, h, hp, ht, hn => (hp trivial).elim
  | .cat nm ty l, s, s', id, h, hp, ht, hn => by
    simp only [gen] at h
    obtain ⟨⟨ids, s1⟩, h1, h2⟩ := except_bind_ok h
    have hg1 := genL_gen1 cas (fun _ => True) l s s1 ids h1 fun _ _ => trivial
    obtain ⟨d, hd, hlt⟩ := genL_new cas l s s1 ids h1 hp ht hn
    rcases genCat_gen1 (N := fun _ => True) h2 (fun _ _ => trivial) with ⟨hl, -⟩ | ⟨hid, -⟩
    · obtain ⟨e, h3, h4⟩ := ((hg1.tinv ht hn).catOf _ _).1 (lookup_mem hl)
      have := (hg1.tinv ht hn).lower id e h3 (by rw [h4]; simp [NodeF.IsFix]) d (by rw [h4]; exact hd)
      omega
    · have h9 := hg1.len
      dsimp only at hid
      omega
  | .alt nm ty l, s, s', id, h, hp, ht, hn => by
    simp only [gen] at h
    obtain ⟨⟨ids, s1⟩, h1, h2⟩ := except_bind_ok h
    have hg1 := genL_gen1 cas (fun _ => True) l s s1 ids h1 fun _ _ => trivial
    obtain ⟨d, hd, hlt⟩ := genL_new cas l s s1 ids h1 hp ht hn
    rcases genAlt_gen1 (N := fun _ => True) h2 (fun _ _ => trivial) with ⟨hl, -⟩ | ⟨hid, -⟩
    · obtain ⟨e, tys, h3, h4⟩ := ((hg1.tinv ht hn).altOf _ _).1 (lookup_mem hl)
      have := (hg1.tinv ht hn).lower id e h3 (by rw [h4]; simp [NodeF.IsFix]) d (by rw [h4]; exact hd)
      omega
    · have h9 := hg1.len
      dsimp only at hid
      omega
  | .fix _ _, s, s', id, h, hp, ht, hn => (hp trivial).elim
  | .var _ _ _, s, s', id, h, hp, ht, hn => (hp trivial).elim
theorem genL_new (cas : Casing) : ∀ (l : List TE) (s s' : BState) (ids : List Nat), genL cas l s = .ok (ids, s') → ¬ TE.noEpsL l → TInv s →
    s.context.Nodup → ∃ d ∈ ids, s.data.length ≤ d
  | [], s, s', ids, h, hp, ht, hn => (hp trivial).elim
  | e :: l, s, s', ids, h, hp, ht, hn => by
    simp only [genL] at h
    obtain ⟨⟨id, s1⟩, h1, h2⟩ := except_bind_ok h
    obtain ⟨⟨ids', s2⟩, h3, h4⟩ := except_map_ok h2
    cases h4
    have hg := gen_gen1 cas (fun _ => True) e s s1 id h1 fun _ _ => trivial
    by_cases he : e.noEps
    · obtain ⟨d, hd, hlt⟩ := genL_new cas l s1 _ ids' h3 (fun hl => hp ⟨he, hl⟩) (hg.tinv ht hn) (by rw [hg.ctx]; exact hn)
      exact ⟨d, .tail _ hd, Nat.le_trans hg.len hlt⟩
    · exact ⟨id, .head _, gen_new cas e s s1 id h1 he ht hn⟩
end

/-- A state in the course of the generation of an expression the names of which are in `P`: what is generated, or its parts, from scratch and below
fix points. -/
inductive Underway (cas : Casing) (P : Name → Prop) : BState → Prop
  | start : Underway cas P {}
  | gen {te : TE} {s s' : BState} {id : Nat} : Underway cas P s → (∀ n ∈ te.names, P n) → gen cas te s = .ok (id, s') → Underway cas P s'
  | enter {nm : Option Name} {b : TE} {s s1 : BState} {name : String} : Underway cas P s → (∀ n ∈ b.names, P n) → s.findFix b = none →
      s.newTypeName cas "Fix" nm = .ok (name, s1) →
      Underway cas P { s1 with
        fixMap := (b, s1.data.length) :: s1.fixMap
        data := s1.data ++ [⟨name, .bad, [], [], false⟩]
        context := s1.context ++ [s1.data.length] }

theorem Underway.steps {cas : Casing} {P : Name → Prop} {s : BState} (h : Underway cas P s) :
    BSteps cas (fun _ => True) {} s ∧ FixNames P s := by
  induction h with
  | start => exact ⟨.refl _, fun p hp => by cases hp⟩
  | gen _ hN hg ih => exact ⟨ih.1.trans (gen_gen1 cas (fun _ => True) _ _ _ _ hg fun _ _ => trivial).steps, gen_fixNames cas _ _ _ _ hg hN ih.2⟩
  | enter _ hN hf h1 ih =>
    obtain ⟨m, rfl⟩ := newTypeName_state h1
    refine ⟨.tail ih.1 (.fixOpen _ _ _ _ m (fun _ _ => trivial) hf h1), fun p hp => ?_⟩
    rcases List.mem_cons.1 hp with rfl | hp
    · exact hN
    · exact ih.2 p hp

theorem Underway.inv {cas : Casing} {P : Name → Prop} {s : BState} (h : Underway cas P s) : TInv s ∧ s.context.Nodup ∧ FixUniq s := by
  have h1 := h.steps.1
  have := h1.inv (P := fun s => TInv s ∧ s.context.Nodup) (fun _ _ ha hb => ⟨ha.1.step hb ha.2, ctx_nodup ha.1 hb ha.2⟩) ⟨.empty, by simp⟩
  exact ⟨this.1, this.2, FixUniq.steps h1 fun p hp => by cases hp⟩

/-- **C41, exactly.** At any time in the generation of a grammar, if an expression is generated, then anything else, and then this expression again,
the second one gets the type of the first exactly if the expression has no epsilon outside its fix points; and then nothing changes.  (Names are
from one front end, so that equality of names is transitive: C09.) -/
theorem C41_again_iff {cas : Casing} {P : Name → Prop} (hP : Uniform P) {te b : TE} {s s1 s2 s3 : BState} {id idb id' : Nat}
    (hs : Underway cas P s) (hte : ∀ n ∈ te.names, P n) (hbn : ∀ n ∈ b.names, P n) (h1 : gen cas te s = .ok (id, s1))
    (h2 : gen cas b s1 = .ok (idb, s2)) (h3 : gen cas te s2 = .ok (id', s3)) :
    (id' = id ↔ te.noEps) ∧ (te.noEps → s3 = s2) := by
  obtain ⟨ht, hn, -⟩ := hs.inv
  have hu1 := Underway.gen hs hte h1
  have hu2 := Underway.gen hu1 hbn h2
  have hg1 := gen_gen1 cas (fun _ => True) te s s1 id h1 fun _ _ => trivial
  have hg2 := gen_gen1 cas (fun _ => True) b s1 s2 idb h2 fun _ _ => trivial
  obtain ⟨ht2, hn2, hq2⟩ := hu2.inv
  have key : te.noEps → id' = id ∧ s3 = s2 := by
    intro hp
    have := gen_same cas hP te s s1 id h1 hp hte ht hn s2 ⟨ht2, hg2.keep, fixMap_mono hg2.steps, hq2, hu2.steps.2⟩ (hg2.ctx.trans hg1.ctx)
    rw [this] at h3
    cases h3
    exact ⟨rfl, rfl⟩
  refine ⟨⟨fun he => Classical.byContradiction fun hp => ?_, fun hp => (key hp).1⟩, fun hp => (key hp).2⟩
  have h4 := gen_new cas te s2 s3 id' h3 hp ht2 hn2
  have h5 := (gen_reach cas te s s1 id h1 ht hn).1
  have := hg2.len
  omega

/-! ## How many epsilons -/

/-- The number of generated types that are epsilon. -/
def BState.epsilons (s : BState) : Nat := s.data.countP fun e => match e.node with | .eps => true | _ => false

mutual
/-- The number of epsilons of an expression. -/
def TE.epsilons : TE → Nat
  | .eps _ => 1
  | .lit _ _ => 0
  | .cat _ _ l => TE.epsilonsL l
  | .alt _ _ l => TE.epsilonsL l
  | .fix _ b => b.epsilons
  | .var _ _ _ => 0
def TE.epsilonsL : List TE → Nat
  | [] => 0
  | e :: l => e.epsilons + TE.epsilonsL l
end

mutual
/-- No fix point. -/
def TE.noFix : TE → Prop
  | .cat _ _ l => TE.noFixL l
  | .alt _ _ l => TE.noFixL l
  | .fix _ _ => False
  | _ => True
def TE.noFixL : List TE → Prop
  | [] => True
  | e :: l => e.noFix ∧ TE.noFixL l
end

private theorem epsilons_push {s s' : BState} {e : Entry} (h : s'.data = s.data ++ [e]) (he : e.node ≠ .eps) : s'.epsilons = s.epsilons := by
  unfold BState.epsilons
  rw [h, List.countP_append]
  have : List.countP (fun e : Entry => match e.node with | .eps => true | _ => false) [e] = 0 := by
    cases hn : e.node <;> simp_all
  omega

mutual
theorem gen_epsilons (cas : Casing) : ∀ (te : TE) (s s' : BState) (id : Nat), gen cas te s = .ok (id, s') → TInv s → s.context.Nodup →
    s'.epsilons ≤ s.epsilons + te.epsilons ∧ (te.noFix → s'.epsilons = s.epsilons + te.epsilons)
  | .eps _, s, s', id, h, ht, hn => by
    simp only [gen, genEps, ht.eps] at h
    have hs' : s'.data = s.data ++ [⟨"Epsilon", .eps, [], [], false⟩] := by cases h; rfl
    have : s'.epsilons = s.epsilons + 1 := by
      simp [BState.epsilons, hs', List.countP_append]
    rw [TE.epsilons, this]
    exact ⟨Nat.le_refl _, fun _ => rfl⟩
  | .lit nm str, s, s', id, h, ht, hn => by
    simp only [gen] at h
    have : s'.epsilons = s.epsilons := by
      rcases genLit_gen1 (N := fun _ => True) h (fun _ _ => trivial) with ⟨-, rfl⟩ | ⟨-, -, -, e, h3, hnd, -⟩
      · rfl
      · exact epsilons_push h3 (by rw [hnd]; simp)
    rw [this, TE.epsilons]
    exact ⟨Nat.le_refl _, fun _ => rfl⟩
  | .cat nm ty l, s, s', id, h, ht, hn => by
    simp only [gen] at h
    obtain ⟨⟨ids, s1⟩, h1, h2⟩ := except_bind_ok h
    have ih := genL_epsilons cas l s s1 ids h1 ht hn
    have : s'.epsilons = s1.epsilons := by
      rcases genCat_gen1 (N := fun _ => True) h2 (fun _ _ => trivial) with ⟨-, rfl⟩ | ⟨-, -, -, e, h3, hnd, -⟩
      · rfl
      · exact epsilons_push h3 (by rw [hnd]; simp)
    rw [this, TE.epsilons]
    exact ih
  | .alt nm ty l, s, s', id, h, ht, hn => by
    simp only [gen] at h
    obtain ⟨⟨ids, s1⟩, h1, h2⟩ := except_bind_ok h
    have ih := genL_epsilons cas l s s1 ids h1 ht hn
    have : s'.epsilons = s1.epsilons := by
      rcases genAlt_gen1 (N := fun _ => True) h2 (fun _ _ => trivial) with ⟨-, rfl⟩ | ⟨-, -, -, e, h3, hnd, -⟩
      · rfl
      · exact epsilons_push h3 (by rw [hnd]; simp)
    rw [this, TE.epsilons]
    exact ih
  | .fix nm b, s, s', id, h, ht, hn => by
    refine ⟨?_, fun hp => hp.elim⟩
    simp only [gen] at h
    cases hf : s.findFix b with
    | some k => rw [hf] at h; cases h; omega
    | none =>
      rw [hf] at h
      obtain ⟨⟨name, s1⟩, h1, h2⟩ := except_bind_ok h
      obtain ⟨⟨inner, s2⟩, h3, h4⟩ := except_bind_ok h2
      obtain ⟨m, rfl⟩ := newTypeName_state h1
      have hstep : BStep cas (fun _ => True) s _ := .fixOpen s nm b name m (fun _ _ => trivial) hf h1
      have ih := (gen_epsilons cas b _ s2 inner h3 (ht.step hstep hn) (ctx_nodup ht hstep hn)).1
      have hg := gen_gen1 cas (fun _ => True) b _ s2 inner h3 fun _ _ => trivial
      have h7 := epsilons_push (s := s)
        (s' := { s with
          nameMap := m
          fixMap := (b, s.data.length) :: s.fixMap
          data := s.data ++ [⟨name, .bad, [], [], false⟩]
          context := s.context ++ [s.data.length] })
        (e := ⟨name, .bad, [], [], false⟩) rfl (by simp)
      dsimp only at ih
      rw [h7] at ih
      dsimp only at h4
      split at h4
      · cases h4
      · cases h4
        rw [TE.epsilons]
        refine Nat.le_trans (Nat.le_of_eq ?_) ih
        unfold BState.epsilons
        dsimp only
        have hid : s.data.length < s2.data.length := by
          have := hg.len
          simp at this
          omega
        have hk : s2.data[s.data.length]? = some ⟨name, .bad, [], [], false⟩ := by
          have h8 := hg.keep s.data.length (by simp)
          simp at h8
          exact h8
        obtain ⟨_, hk⟩ := List.getElem?_eq_some_iff.1 hk
        rw [List.countP_set hid, hk]
        simp
  | .var nm i ty, s, s', id, h, ht, hn => by
    simp only [gen] at h
    have : s'.epsilons = s.epsilons := by
      obtain ⟨f, -, -, h'⟩ := genVar_gen1 (cas := cas) (N := fun _ => True) h
      rcases h' with ⟨-, rfl⟩ | ⟨-, -, -, e, h3, hnd, -⟩
      · rfl
      · exact epsilons_push h3 (by rw [hnd]; simp)
    rw [this, TE.epsilons]
    exact ⟨Nat.le_refl _, fun _ => rfl⟩
theorem genL_epsilons (cas : Casing) : ∀ (l : List TE) (s s' : BState) (ids : List Nat), genL cas l s = .ok (ids, s') → TInv s →
    s.context.Nodup → s'.epsilons ≤ s.epsilons + TE.epsilonsL l ∧ (TE.noFixL l → s'.epsilons = s.epsilons + TE.epsilonsL l)
  | [], s, s', ids, h, ht, hn => by
    simp only [genL] at h; cases h; exact ⟨Nat.le_refl _, fun _ => rfl⟩
  | e :: l, s, s', ids, h, ht, hn => by
    simp only [genL] at h
    obtain ⟨⟨id, s1⟩, h1, h2⟩ := except_bind_ok h
    obtain ⟨⟨ids', s2⟩, h3, h4⟩ := except_map_ok h2
    cases h4
    have hg := gen_gen1 cas (fun _ => True) e s s1 id h1 fun _ _ => trivial
    have ih1 := gen_epsilons cas e s s1 id h1 ht hn
    have ih2 := genL_epsilons cas l s1 _ ids' h3 (hg.tinv ht hn) (by rw [hg.ctx]; exact hn)
    rw [TE.epsilonsL]
    dsimp only
    refine ⟨by omega, fun hp => ?_⟩
    have := ih1.2 hp.1
    have := ih2.2 hp.2
    omega
end

/-- **C41** (epsilon). There are at most as many epsilon types as the grammar has epsilons, and without fix points, which may be shared, exactly as
many: no two epsilons share a type. -/
theorem C41_epsilons {cas : Casing} {te : TE} {s : BState} {id : Nat} (h : gen cas te {} = .ok (id, s)) :
    s.epsilons ≤ te.epsilons ∧ (te.noFix → s.epsilons = te.epsilons) := by
  have := gen_epsilons cas te _ _ _ h .empty (by simp)
  have h0 : BState.epsilons {} = 0 := rfl
  rw [h0, Nat.zero_add] at this
  exact this

/-! ## Examples -/

private def xn : Option Name := some (.newVariable (.spanless "x"))
private def xe : TE := .alt xn .eps [.eps none, .lit none ['a']]
private def xf : TE := .fix xn (.alt none .eps [.eps none, .cat none .eps [.lit none ['a'], .var none 0 .eps]])
private def xcas : Casing := ⟨some, some⟩

/-- Non-vacuity: an alternative with an epsilon gets two types, a fix point around one gets one. -/
example : ∃ s1 s2 s3 id id', gen xcas xe {} = .ok (id, s1) ∧ gen xcas xf s1 = .ok (3, s2) ∧ gen xcas xe s2 = .ok (id', s3) ∧ id ≠ id' ∧
    s3.epsilons = 3 := ⟨_, _, _, _, _, rfl, rfl, rfl, by decide, by decide⟩

example : ∃ s1 s2, gen xcas xf {} = .ok (0, s1) ∧ gen xcas xe s1 = .ok (7, s2) ∧ gen xcas xf s2 = .ok (0, s2) ∧ xf.noEps ∧ ¬ xe.noEps :=
  ⟨_, _, rfl, rfl, rfl, trivial, fun h => h.1⟩

end Chomp
