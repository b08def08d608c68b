import Verif.Lower.Table

/-!
# Every generated type is reachable from the root, and emission lists the reachable types
-/

namespace Chomp

/-- `j` can be reached from `i` through the recorded dependencies. -/
inductive DepReach (data : List Entry) (i : Nat) : Nat → Prop
  | refl : DepReach data i i
  | step {j d : Nat} {e : Entry} : DepReach data i j → data[j]? = some e → d ∈ e.deps → DepReach data i d

theorem DepReach.trans {data : List Entry} {i j k : Nat} (h1 : DepReach data i j) (h2 : DepReach data j k) : DepReach data i k := by
  induction h2 with
  | refl => exact h1
  | step _ he hd ih => exact .step ih he hd

theorem DepReach.mono {data data' : List Entry}
    (h : ∀ (k : Nat) (e : Entry) (d : Nat), data[k]? = some e → d ∈ e.deps → ∃ e' : Entry, data'[k]? = some e' ∧ d ∈ e'.deps)
    {i j : Nat} (hr : DepReach data i j) : DepReach data' i j := by
  induction hr with
  | refl => exact .refl
  | step _ he hd ih =>
    obtain ⟨e', h1, h2⟩ := h _ _ _ he hd
    exact .step ih h1 h2

theorem DepReach.keep {cas : Casing} {N : Name → Prop} {s s' : BState} (h : Gen1 cas N s s') {i j : Nat} (hr : DepReach s.data i j) :
    DepReach s'.data i j :=
  hr.mono fun k e d he hd => ⟨e, (h.keep k (List.getElem?_eq_some_iff.1 he).1).trans he, hd⟩

theorem lookup_mem {α β : Type} [BEq α] [LawfulBEq α] : ∀ {l : List (α × β)} {a : α} {b : β}, l.lookup a = some b → (a, b) ∈ l
  | [], _, _, h => by cases h
  | (x, y) :: l, a, b, h => by
    simp only [List.lookup] at h
    split at h
    · rename_i he
      cases h
      rw [eq_of_beq he]
      exact .head _
    · exact .tail _ (lookup_mem h)

theorem findFix_mem' {s : BState} {b : TE} {k : Nat} (h : s.findFix b = some k) : ∃ b', (b', k) ∈ s.fixMap ∧ b'.eqv b = true := by
  unfold BState.findFix at h
  cases hf : s.fixMap.find? fun p => p.1.eqv b with
  | none => rw [hf] at h; cases h
  | some p =>
    rw [hf] at h
    cases h
    exact ⟨p.1, List.mem_of_find?_eq_some hf, by simpa using List.find?_some hf⟩

theorem Gen1.tinv {cas : Casing} {N : Name → Prop} {s s' : BState} (h : Gen1 cas N s s') (ht : TInv s) (hn : s.context.Nodup) : TInv s' :=
  h.steps.tinv ht hn

theorem reach_of_node {s : BState} (ht : TInv s) {k : Nat} {e : Entry} (he : s.data[k]? = some e) {ids : List Nat}
    (hs : e.node.subs = ids) {i : Nat} (hi : i ∈ ids) : DepReach s.data k i :=
  .step .refl he (by rw [ht.deps k e he, hs]; exact hi)

mutual
theorem gen_reach (cas : Casing) : ∀ (te : TE) (s s' : BState) (id : Nat), gen cas te s = .ok (id, s') → TInv s → s.context.Nodup →
    id < s'.data.length ∧ ∀ j, s.data.length ≤ j → j < s'.data.length → DepReach s'.data id j
  | .eps _, s, s', id, h, ht, hn => by
    simp only [gen, genEps, ht.eps] at h
    cases h
    refine ⟨by simp, fun j h1 h2 => ?_⟩
    simp at h2
    have : j = s.data.length := by omega
    subst this; exact .refl
  | .lit nm str, s, s', id, h, ht, hn => by
    simp only [gen] at h
    rcases genLit_gen1 (N := fun _ => True) h (fun _ _ => trivial) with ⟨hl, rfl⟩ | ⟨rfl, _, _, e, h3, _⟩
    · obtain ⟨e, he, _⟩ := (ht.litOf _ _).1 (lookup_mem hl)
      exact ⟨(List.getElem?_eq_some_iff.1 he).1, fun j h1 h2 => by omega⟩
    · rw [h3]
      refine ⟨by simp, fun j h1 h2 => ?_⟩
      simp at h2
      have : j = s.data.length := by omega
      subst this; exact .refl
  | .cat nm ty l, s, s', id, h, ht, hn => by
    simp only [gen] at h
    obtain ⟨⟨ids, s1⟩, h1, h2⟩ := except_bind_ok h
    have hg := genL_gen1 cas (fun _ => True) l s s1 ids h1 fun _ _ => trivial
    have ht1 := hg.tinv ht hn
    obtain ⟨hi, hr⟩ := genL_reach cas l s s1 ids h1 ht hn
    have hg' := gen_gen1 cas (fun _ => True) (.cat nm ty l) s s' id h fun _ _ => trivial
    have ht' := hg'.tinv ht hn
    have hn1 : s1.context.Nodup := by rw [hg.ctx]; exact hn
    rcases genCat_gen1 (N := fun _ => True) h2 (fun _ _ => trivial) with ⟨hl, rfl⟩ | ⟨rfl, hb, hc, e, h3, hnd, _⟩
    · obtain ⟨e, he, hnd⟩ := (ht1.catOf _ _).1 (lookup_mem hl)
      refine ⟨(List.getElem?_eq_some_iff.1 he).1, fun j h1 h2 => ?_⟩
      obtain ⟨i, hi1, hi2⟩ := hr j h1 h2
      exact (reach_of_node ht1 he (by rw [hnd]; rfl) hi1).trans hi2
    · have hg2 : Gen1 cas (fun _ => True) s1 s' := .push hb hc e h3
      have he : s'.data[s1.data.length]? = some e := by rw [h3]; simp
      refine ⟨by rw [h3]; simp, fun j h1 h2 => ?_⟩
      rw [h3] at h2
      simp at h2
      by_cases hj : j = s1.data.length
      · subst hj; exact .refl
      · obtain ⟨i, hi1, hi2⟩ := hr j h1 (by omega)
        exact (reach_of_node ht' he (by rw [hnd]; rfl) hi1).trans (hi2.keep hg2)
  | .alt nm ty l, s, s', id, h, ht, hn => by
    simp only [gen] at h
    obtain ⟨⟨ids, s1⟩, h1, h2⟩ := except_bind_ok h
    have hg := genL_gen1 cas (fun _ => True) l s s1 ids h1 fun _ _ => trivial
    have ht1 := hg.tinv ht hn
    obtain ⟨hi, hr⟩ := genL_reach cas l s s1 ids h1 ht hn
    have hg' := gen_gen1 cas (fun _ => True) (.alt nm ty l) s s' id h fun _ _ => trivial
    have ht' := hg'.tinv ht hn
    rcases genAlt_gen1 (N := fun _ => True) h2 (fun _ _ => trivial) with ⟨hl, rfl⟩ | ⟨rfl, hb, hc, e, h3, hnd, _⟩
    · obtain ⟨e, tys, he, hnd⟩ := (ht1.altOf _ _).1 (lookup_mem hl)
      refine ⟨(List.getElem?_eq_some_iff.1 he).1, fun j h1 h2 => ?_⟩
      obtain ⟨i, hi1, hi2⟩ := hr j h1 h2
      exact (reach_of_node ht1 he (by rw [hnd]; rfl) hi1).trans hi2
    · have hg2 : Gen1 cas (fun _ => True) s1 s' := .push hb hc e h3
      have he : s'.data[s1.data.length]? = some e := by rw [h3]; simp
      refine ⟨by rw [h3]; simp, fun j h1 h2 => ?_⟩
      rw [h3] at h2
      simp at h2
      by_cases hj : j = s1.data.length
      · subst hj; exact .refl
      · obtain ⟨i, hi1, hi2⟩ := hr j h1 (by omega)
        exact (reach_of_node ht' he (by rw [hnd]; rfl) hi1).trans (hi2.keep hg2)
  | .fix nm b, s, s', id, h, ht, hn => by
    rcases genFix_inv h with ⟨hf, rfl⟩ | ⟨name, m, inner, s2, e, h1, h2, rfl, h3, h4, rfl⟩
    · obtain ⟨b', hb, _⟩ := findFix_mem' hf
      obtain ⟨e, he, _⟩ := ht.fix _ _ hb
      exact ⟨(List.getElem?_eq_some_iff.1 he).1, fun j h1 h2 => by omega⟩
    · have hop := BStep.fixOpen (N := fun _ => True) s nm b name m (fun _ _ => trivial) h1 h2
      have hg := gen_gen1 cas (fun _ => True) b _ _ _ h3 fun _ _ => trivial
      obtain ⟨hin, hr⟩ := gen_reach cas b _ _ _ h3 (ht.step hop hn) (ctx_nodup ht hop hn)
      have hlen : s.data.length + 1 ≤ s2.data.length := by simpa using hg.len
      have hk : s2.data[s.data.length]? = some ⟨name, .bad, [], [], false⟩ := by
        rw [hg.keep _ (by simp)]; simp
      refine ⟨by simp; omega, fun j hj1 hj2 => ?_⟩
      by_cases hj : j = s.data.length
      · subst hj; exact .refl
      · have h5 := hr j (by simp; omega) (by simpa using hj2)
        have h6 : DepReach (s2.data.set s.data.length ⟨name, .alias inner, [], [inner], false⟩) inner j := by
          refine h5.mono fun k e d he hd => ?_
          by_cases hk' : k = s.data.length
          · subst hk'; rw [hk] at he; cases he; cases hd
          · exact ⟨e, by rw [List.getElem?_set_ne (fun hh => hk' hh.symm)]; exact he, hd⟩
        refine DepReach.trans (j := inner) (.step .refl (List.getElem?_set_self (by omega)) ?_) h6
        simp
  | .var nm i ty, s, s', id, h, ht, hn => by
    simp only [gen] at h
    obtain ⟨f, hf, _, ⟨hl, rfl⟩ | ⟨rfl, h1, h2, e, h3, _⟩⟩ := genVar_gen1 (cas := cas) (N := fun _ => True) h
    · obtain ⟨e, he, _⟩ := (ht.varOf _ _).1 (lookup_mem hl)
      exact ⟨(List.getElem?_eq_some_iff.1 he).1, fun j h1 h2 => by omega⟩
    · rw [h3]
      refine ⟨by simp, fun j h1 h2 => ?_⟩
      simp at h2
      have : j = s.data.length := by omega
      subst this; exact .refl
theorem genL_reach (cas : Casing) : ∀ (l : List TE) (s s' : BState) (ids : List Nat), genL cas l s = .ok (ids, s') → TInv s →
    s.context.Nodup → (∀ i ∈ ids, i < s'.data.length) ∧
      ∀ j, s.data.length ≤ j → j < s'.data.length → ∃ i ∈ ids, DepReach s'.data i j
  | [], s, s', ids, h, _, _ => by
    simp only [genL] at h; cases h
    constructor
    · intro i hi; cases hi
    · intro j h1 h2; omega
  | e :: l, s, s', ids, h, ht, hn => by
    simp only [genL] at h
    obtain ⟨⟨id, s1⟩, h1, h2⟩ := except_bind_ok h
    obtain ⟨⟨ids', s2⟩, h3, h4⟩ := except_map_ok h2
    have hg := gen_gen1 cas (fun _ => True) e s s1 id h1 fun _ _ => trivial
    obtain ⟨ha, hb⟩ := gen_reach cas e s s1 id h1 ht hn
    have hg2 := genL_gen1 cas (fun _ => True) l s1 s2 ids' h3 fun _ _ => trivial
    obtain ⟨hc, hd⟩ := genL_reach cas l s1 s2 ids' h3 (hg.tinv ht hn) (by rw [hg.ctx]; exact hn)
    cases h4
    refine ⟨?_, fun j hj1 hj2 => ?_⟩
    · intro i hi
      rcases List.mem_cons.1 hi with rfl | hi
      · exact Nat.lt_of_lt_of_le ha hg2.len
      · exact hc i hi
    · by_cases hj : j < s1.data.length
      · exact ⟨id, .head _, (hb j hj1 hj).keep hg2⟩
      · obtain ⟨i, hi, hr⟩ := hd j (by omega) hj2
        exact ⟨i, .tail _ hi, hr⟩
end

/-! ## Emission -/

theorem mem_insertNat {a x : Nat} : ∀ {l : List Nat}, x ∈ insertNat a l ↔ x = a ∨ x ∈ l
  | [] => by simp [insertNat]
  | b :: l => by
    simp only [insertNat]
    split
    · simp
    · split
      · rename_i h; subst h; simp
      · simp only [List.mem_cons, mem_insertNat (l := l)]
        constructor
        · rintro (h | h | h) <;> simp [h]
        · rintro (h | h | h) <;> simp [h]

theorem mem_extendNat {x : Nat} : ∀ {l set : List Nat}, x ∈ extendNat set l ↔ x ∈ set ∨ x ∈ l
  | [], set => by simp [extendNat]
  | a :: l, set => by
    have := mem_extendNat (x := x) (l := l) (set := insertNat a set)
    simp only [extendNat, List.foldl_cons] at this ⊢
    rw [this, mem_insertNat, List.mem_cons]
    constructor
    · rintro ((h | h) | h) <;> simp [h]
    · rintro (h | h | h) <;> simp [h]

/-- Sorted lists without repetitions. -/
def Sorted (l : List Nat) : Prop := l.Pairwise (· < ·)

theorem insertNat_sorted {a : Nat} : ∀ {l : List Nat}, Sorted l → Sorted (insertNat a l)
  | [], _ => by simp [insertNat, Sorted]
  | b :: l, h => by
    have hb := List.pairwise_cons.1 h
    simp only [insertNat]
    split
    · rename_i hab
      refine List.pairwise_cons.2 ⟨fun x hx => ?_, h⟩
      rcases List.mem_cons.1 hx with rfl | hx
      · exact hab
      · exact Nat.lt_trans hab (hb.1 x hx)
    · split
      · exact h
      · refine List.pairwise_cons.2 ⟨fun x hx => ?_, insertNat_sorted hb.2⟩
        rcases mem_insertNat.1 hx with rfl | hx
        · omega
        · exact hb.1 x hx

theorem extendNat_sorted : ∀ {l set : List Nat}, Sorted set → Sorted (extendNat set l)
  | [], _, h => h
  | a :: l, set, h => extendNat_sorted (l := l) (set := insertNat a set) (insertNat_sorted h)

theorem Sorted.nodup {l : List Nat} (h : Sorted l) : l.Nodup := by
  refine List.Pairwise.imp ?_ h
  intro a b hab
  omega

theorem emitRound_ok {data : List Entry} {completed : List Nat} : ∀ {next todo : List Nat}, (∀ i ∈ next, i < data.length) →
    Sorted todo → ∃ todo', emitRound data completed next todo = .ok todo' ∧ Sorted todo' ∧
      ∀ d, d ∈ todo' ↔ d ∈ todo ∨ (d ∉ completed ∧ ∃ i ∈ next, ∃ e : Entry, data[i]? = some e ∧ d ∈ e.deps)
  | [], todo, _, hs => ⟨todo, rfl, hs, by simp⟩
  | i :: next, todo, h, hs => by
    have hi := h i (.head _)
    have he : data[i]? = some data[i] := List.getElem?_eq_getElem hi
    obtain ⟨todo', h1, h2, h3⟩ := emitRound_ok (data := data) (completed := completed) (next := next)
      (todo := extendNat todo (data[i].deps.filter fun d => !completed.contains d)) (fun j hj => h j (.tail _ hj)) (extendNat_sorted hs)
    refine ⟨todo', by simp only [emitRound, he]; exact h1, h2, fun d => ?_⟩
    rw [h3, mem_extendNat, List.mem_filter]
    constructor
    · rintro ((h | ⟨h, hc⟩) | ⟨hc, j, hj, hr⟩)
      · exact .inl h
      · exact .inr ⟨by simpa using hc, i, .head _, _, he, h⟩
      · exact .inr ⟨hc, j, .tail _ hj, hr⟩
    · rintro (h | ⟨hc, j, hj, e, he', hd⟩)
      · exact .inl (.inl h)
      · rcases List.mem_cons.1 hj with rfl | hj
        · rw [he] at he'; cases he'
          exact .inl (.inr ⟨hd, by simpa using hc⟩)
        · exact .inr ⟨hc, j, hj, e, he', hd⟩

/-- The loop, started with any set of pending ids. -/
theorem emitLoop_ok {data : List Entry} (hlt : ∀ (i : Nat) (e : Entry), data[i]? = some e → ∀ d ∈ e.deps, d < data.length)
    (root : Nat) : ∀ (n : Nat) (todo completed out : List Nat), (∀ i ∈ todo, i < data.length) → (∀ i ∈ out, i < data.length) →
    Sorted todo → out.Nodup → (∀ i ∈ todo, i ∉ out) → (∀ i, i ∈ completed ↔ i ∈ out) →
    (∀ i ∈ out, ∀ e : Entry, data[i]? = some e → ∀ d ∈ e.deps, d ∈ out ∨ d ∈ todo) →
    (∀ i ∈ out, DepReach data root i) → (∀ i ∈ todo, DepReach data root i) → (root ∈ out ∨ root ∈ todo) →
    data.length < n + out.length →
    ∃ r, emitLoop data n todo completed out = some (.ok r) ∧ r.Nodup ∧ ∀ j, j ∈ r ↔ DepReach data root j := by
  intro n
  induction n with
  | zero =>
    intro todo completed out _ ho _ hn _ _ _ _ _ _ hf
    exfalso
    have := List.Nodup.length_le_of_subset hn (l₂ := List.range data.length) fun i hi => by simpa using ho i hi
    simp at this
    omega
  | succ n ih =>
    intro todo completed out ht ho hs hn hd hc hcl hr hr' hroot hf
    cases todo with
    | nil =>
      refine ⟨out, rfl, hn, fun j => ⟨hr j, fun hj => ?_⟩⟩
      induction hj with
      | refl => simpa using hroot
      | step _ he hd ih => simpa using hcl _ ih _ he _ hd
    | cons a todo =>
      have hcomp : ∀ i, i ∈ extendNat completed (a :: todo) ↔ i ∈ out ∨ i ∈ a :: todo := by
        intro i; rw [mem_extendNat, hc]
      obtain ⟨todo', h1, h2, h3⟩ := emitRound_ok (data := data) (completed := extendNat completed (a :: todo)) (next := a :: todo)
        (todo := []) ht (by simp [Sorted])
      have h4 : ∀ d, d ∈ todo' ↔ (d ∉ out ++ (a :: todo) ∧ ∃ i ∈ a :: todo, ∃ e : Entry, data[i]? = some e ∧ d ∈ e.deps) := by
        intro d
        rw [h3, hcomp, List.mem_append]
        simp
      have := ih todo' (extendNat completed (a :: todo)) (out ++ (a :: todo)) ?_ ?_ h2 ?_ ?_ ?_ ?_ ?_ ?_ ?_ ?_
      · obtain ⟨r, hr1, hr2⟩ := this
        exact ⟨r, by simp only [emitLoop, h1]; exact hr1, hr2⟩
      · intro i hi
        obtain ⟨_, j, _, e, he, hd⟩ := (h4 i).1 hi
        exact hlt j e he i hd
      · intro i hi
        rcases List.mem_append.1 hi with hi | hi
        · exact ho i hi
        · exact ht i hi
      · refine List.nodup_append.2 ⟨hn, hs.nodup, ?_⟩
        rintro x hx y hy rfl
        exact hd x hy hx
      · intro i hi
        exact ((h4 i).1 hi).1
      · intro i
        rw [hcomp, List.mem_append]
      · intro i hi e he d hde
        by_cases hdo : d ∈ out ++ (a :: todo)
        · exact .inl hdo
        · rcases List.mem_append.1 hi with hi | hi
          · exfalso
            rcases hcl i hi e he d hde with h | h
            · exact hdo (List.mem_append.2 (.inl h))
            · exact hdo (List.mem_append.2 (.inr h))
          · exact .inr ((h4 d).2 ⟨hdo, i, hi, e, he, hde⟩)
      · intro i hi
        rcases List.mem_append.1 hi with hi | hi
        · exact hr i hi
        · exact hr' i hi
      · intro i hi
        obtain ⟨_, j, hj, e, he, hd⟩ := (h4 i).1 hi
        exact .step (hr' j hj) he hd
      · left
        exact List.mem_append.2 hroot
      · simp
        omega

/-- Emission lists exactly the reachable ids, each once. -/
theorem emit_reach {data : List Entry} (hlt : ∀ (i : Nat) (e : Entry), data[i]? = some e → ∀ d ∈ e.deps, d < data.length)
    {root : Nat} (hr : root < data.length) {n : Nat} (hn : data.length < n) :
    ∃ r, emitLoop data n [root] [] [] = some (.ok r) ∧ r.Nodup ∧ ∀ j, j ∈ r ↔ DepReach data root j := by
  refine emitLoop_ok hlt root n [root] [] [] ?_ ?_ ?_ ?_ ?_ ?_ ?_ ?_ ?_ ?_ ?_
  · simpa using hr
  · simp
  · simp [Sorted]
  · simp
  · simp
  · simp
  · simp
  · simp
  · intro i hi; simp at hi; subst hi; exact .refl
  · simp
  · simpa using hn

end Chomp
