import Verif.Lower.Rust
import Verif.Lower.RustTable
import Verif.Lower.Values
import Verif.Nibble.StmtLemmas

/-!
# The emitted program and the table of generated types
-/

namespace Chomp

/-! ## Lists -/

theorem lookup_of_mem_nodup {α β : Type} [BEq α] [LawfulBEq α] : ∀ {l : List (α × β)} {a : α} {b : β},
    (l.map (·.1)).Nodup → (a, b) ∈ l → l.lookup a = some b
  | (x, y) :: l, a, b, hn, hm => by
    simp only [List.map_cons, List.nodup_cons] at hn
    simp only [List.lookup]
    rcases List.mem_cons.1 hm with hm' | hm'
    · cases hm'; simp
    · have hne : a ≠ x := by
        intro hax
        exact hn.1 (List.mem_map.2 ⟨(a, b), hm', hax⟩)
      rw [show (a == x) = false by simpa using hne]
      exact lookup_of_mem_nodup hn.2 hm'

theorem zip_mem_of_get {α β : Type} {ks : List α} {vs : List β} {j : Nat} {k : α} {v : β} (h1 : ks[j]? = some k)
    (h2 : vs[j]? = some v) : (k, v) ∈ ks.zip vs :=
  List.mem_of_getElem? (i := j) (List.getElem?_zip_eq_some.2 ⟨h1, h2⟩)

theorem zip_fst_nodup {α β : Type} {ks : List α} (hn : ks.Nodup) (vs : List β) : ((ks.zip vs).map (·.1)).Nodup := by
  induction ks generalizing vs with
  | nil => simp
  | cons k ks ih =>
    cases vs with
    | nil => simp
    | cons v vs =>
      simp only [List.zip_cons_cons, List.map_cons]
      refine List.nodup_cons.2 ⟨fun hm => ?_, ih (List.nodup_cons.1 hn).2 vs⟩
      obtain ⟨⟨a, b⟩, hab, rfl⟩ := List.mem_map.1 hm
      exact (List.nodup_cons.1 hn).1 (List.of_mem_zip hab).1

theorem zip_lookup {α β : Type} [BEq α] [LawfulBEq α] {ks : List α} {vs : List β} (hn : ks.Nodup) {j : Nat} {k : α} {v : β}
    (h1 : ks[j]? = some k) (h2 : vs[j]? = some v) : (ks.zip vs).lookup k = some v :=
  lookup_of_mem_nodup (zip_fst_nodup hn vs) (zip_mem_of_get h1 h2)

theorem nodup_get_inj {α : Type} : ∀ {l : List α} {i j : Nat} {a : α}, l.Nodup → l[i]? = some a → l[j]? = some a → i = j
  | x :: l, 0, 0, a, _, _, _ => rfl
  | x :: l, 0, j + 1, a, hn, h1, h2 => by
    simp only [List.getElem?_cons_zero, Option.some.injEq, List.getElem?_cons_succ] at h1 h2
    subst h1
    exact absurd (List.mem_of_getElem? h2) (List.nodup_cons.1 hn).1
  | x :: l, i + 1, 0, a, hn, h1, h2 => by
    simp only [List.getElem?_cons_zero, Option.some.injEq, List.getElem?_cons_succ] at h1 h2
    subst h2
    exact absurd (List.mem_of_getElem? h1) (List.nodup_cons.1 hn).1
  | x :: l, i + 1, j + 1, a, hn, h1, h2 => by
    simp only [List.getElem?_cons_succ] at h1 h2
    rw [nodup_get_inj (List.nodup_cons.1 hn).2 h1 h2]

theorem All2.of_get {α β : Type} {R : α → β → Prop} : ∀ {l : List α} {m : List β}, l.length = m.length →
    (∀ (j : Nat) (a : α) (b : β), l[j]? = some a → m[j]? = some b → R a b) → All2 R l m
  | [], [], _, _ => .nil
  | a :: l, b :: m, hl, h => .cons (h 0 a b rfl rfl) (All2.of_get (by simpa using hl) fun j x y hx hy => h (j + 1) x y hx hy)

/-! ## The variables `part0`, `part1`, ... -/

theorem numberParts_length : ∀ (i n : Nat), (numberParts i n).length = n
  | _, 0 => rfl
  | i, n + 1 => by simp [numberParts, numberParts_length]

theorem numberParts_get : ∀ (i n j : Nat) (x : String), (numberParts i n)[j]? = some x → x = "part" ++ digits (i + j)
  | i, n + 1, 0, x, h => by simp [numberParts] at h; exact h.symm
  | i, n + 1, j + 1, x, h => by
    simp only [numberParts, List.getElem?_cons_succ] at h
    rw [numberParts_get _ _ _ _ h, Nat.add_right_comm, Nat.add_assoc]

theorem numberParts_nodup : ∀ (i n : Nat), (numberParts i n).Nodup
  | _, 0 => by simp [numberParts]
  | i, n + 1 => by
    refine List.nodup_cons.2 ⟨fun hm => ?_, numberParts_nodup (i + 1) n⟩
    obtain ⟨j, hj⟩ := List.mem_iff_getElem?.1 hm
    have h1 := numberParts_get _ _ _ _ hj
    have := (base_digits_inj h1 (by decide) (by decide)).2
    omega

/-! ## Trees of values -/

mutual
/-- The syntax tree a value stands for: the text of a literal, the fields in order, the number of the
variant. -/
def RVal.tree (p : RProg) : RVal → Tree
  | .epsilon => .eps
  | .unit ty =>
    match p.find ty with
    | some (.unit _ _ s _) => .lit s
    | _ => .eps
  | .struct _ fs => .cat (RVal.treeN p fs)
  | .tuple _ vs => .cat (RVal.treeT p vs)
  | .variant ty x v =>
    match p.find ty with
    | some (.enum _ variants _ _ _ _) => .alt ((findIdx (fun y : String × RTy => y.1 == x) variants).getD 0) (v.tree p)
    | _ => .eps
  | .boxed v => .box (v.tree p)
def RVal.treeN (p : RProg) : List (String × RVal) → List Tree
  | [] => []
  | (_, v) :: l => v.tree p :: RVal.treeN p l
def RVal.treeT (p : RProg) : List RVal → List Tree
  | [] => []
  | v :: l => v.tree p :: RVal.treeT p l
end

theorem RVal.treeN_zip (p : RProg) : ∀ {fs : List String} {vs : List RVal}, fs.length = vs.length →
    RVal.treeN p (fs.zip vs) = RVal.treeT p vs
  | [], [], _ => rfl
  | f :: fs, v :: vs, h => by
    simp only [List.zip_cons_cons, RVal.treeN, RVal.treeT]
    rw [RVal.treeN_zip p (by simpa using h)]

theorem RVal.HasTypeT.length {p : RProg} : ∀ {l : List RTy} {vs : List RVal}, RVal.HasTypeT p l vs → l.length = vs.length
  | _, _, .nil => rfl
  | _, _, .cons _ _ _ _ _ h => by simp [h.length]

theorem RVal.HasTypeT.zip {p : RProg} : ∀ {l : List RTy} {vs : List RVal}, RVal.HasTypeT p l vs → ∀ {fs : List String},
    fs.length = l.length → RVal.HasTypeN p (fs.zip l) (fs.zip vs)
  | _, _, .nil, [], _ => .nil
  | _, _, .cons t v l vs h h', f :: fs, hl => .cons f t v _ _ h (h'.zip (by simpa using hl))

/-! ## The program of a table -/

/-- The program contains the items of the table, under their names. -/
structure Emitted (s : BState) (p : RProg) : Prop where
  item : ∀ (i : Nat) (e : Entry) (it : RItem), s.data[i]? = some e → s.item e = some it → p.find e.name = some it
  noEps : p.find "Epsilon" = none
  epsName : ∀ (i : Nat) (e : Entry), s.data[i]? = some e → e.node = .eps → e.name = "Epsilon"
  box : ∀ (i : Nat) (e : Entry) (f : Nat), s.data[i]? = some e → e.node = .box f → s.rty i = .boxed (s.rty f)
  bad : ∀ (i : Nat) (e : Entry), s.data[i]? = some e → e.node ≠ .bad
  cat : ∀ (i : Nat) (e : Entry) (ids : List Nat), s.data[i]? = some e → e.node = .cat ids → e.fields ≠ [] →
    e.fields.length = ids.length ∧ e.fields.Nodup
  alt : ∀ (i : Nat) (e : Entry) (tys : List Ty) (ids : List Nat), s.data[i]? = some e → e.node = .alt tys ids →
    e.fields.length = ids.length ∧ tys.length = ids.length ∧ e.fields.Nodup

theorem BState.item_name {s : BState} {e : Entry} {it : RItem} (h : s.item e = some it) : it.name = e.name := by
  unfold BState.item at h
  split at h
  · cases h
  · cases h
  · cases h
  · cases h; rfl
  · dsimp only at h; split at h <;> cases h <;> rfl
  · cases h; rfl
  · cases h; rfl

theorem BState.rty_eq {s : BState} {i : Nat} {e : Entry} (h : s.data[i]? = some e) (hb : ∀ f, e.node ≠ .box f) :
    s.rty i = .path e.name := by
  unfold BState.rty
  rw [h]
  dsimp only
  split
  · rename_i f hf; exact absurd hf (hb f)
  · rfl

/-! ## `take` -/

/-- The same outcome, with related values. -/
inductive Res.Rel {α β : Type} (R : α → β → Prop) : Res α → Res β → Prop
  | ok (a : α) (b : β) (w : IW) : R a b → Res.Rel R (.ok a w) (.ok b w)
  | err (e : TakeError) (w : IW) : Res.Rel R (.err e w) (.err e w)
  | panic : Res.Rel R .panic .panic
  | oof : Res.Rel R .oof .oof

theorem Res.Rel.map {α β γ δ : Type} {R : α → β → Prop} {S : γ → δ → Prop} {x : Res α} {y : Res β} (h : Res.Rel R x y)
    {f : α → γ} {g : β → δ} (hfg : ∀ a b, R a b → S (f a) (g b)) : Res.Rel S (x.map f) (y.map g) := by
  cases h with
  | ok a b w hr => exact .ok _ _ _ (hfg _ _ hr)
  | err => exact .err _ _
  | panic => exact .panic
  | oof => exact .oof

/-- A value and the tree it stands for. -/
def RVal.Stands (p : RProg) (t : RTy) (v : RVal) (x : Tree) : Prop := v.HasType p t ∧ v.tree p = x

theorem takeLets_rel {s : BState} {p : RProg} {f : String → IW → Res RVal} {g : Nat → IW → Res Tree} : ∀ {lets : List String}
    {ids : List Nat}, All2 (fun x i => ∀ w, Res.Rel (RVal.Stands p (s.rty i)) (f x w) (g i w)) lets ids → ∀ w,
    Res.Rel (fun env ts => ∃ vs, env = lets.zip vs ∧ RVal.HasTypeT p (ids.map s.rty) vs ∧ RVal.treeT p vs = ts)
      (takeLets f lets w) (seqTake g ids w)
  | [], [], .nil, w => .ok _ _ _ ⟨[], rfl, .nil, rfl⟩
  | x :: lets, i :: ids, .cons h hl, w => by
    simp only [takeLets, seqTake]
    have h1 := h w
    generalize f x w = fx at h1
    generalize g i w = gi at h1
    cases h1 with
    | err => exact .err _ _
    | panic => exact .panic
    | oof => exact .oof
    | ok v t w' hv =>
      simp only [Res.bind]
      have h2 := takeLets_rel hl w'
      generalize takeLets f lets w' = fx at h2
      generalize seqTake g ids w' = gi at h2
      cases h2 with
      | err => exact .err _ _
      | panic => exact .panic
      | oof => exact .oof
      | ok env ts w'' hr =>
        obtain ⟨vs, rfl, h3, h4⟩ := hr
        exact .ok _ _ _ ⟨v :: vs, rfl, .cons _ _ _ _ hv.1 h3, by simp [RVal.treeT, hv.2, h4]⟩

theorem getVar_zip {lets : List String} (hn : lets.Nodup) {vs : List RVal} {j : Nat} {x : String} {v : RVal}
    (h1 : lets[j]? = some x) (h2 : vs[j]? = some v) : getVar (lets.zip vs) x = some v := by
  refine lookup_of_mem_nodup ?_ (List.mem_reverse.2 (zip_mem_of_get h1 h2))
  rw [List.map_reverse]
  exact List.pairwise_reverse.2 ((zip_fst_nodup hn vs).imp fun h => h.symm)

theorem makeNamed_eq {env : List (String × RVal)} {build : List (String × String)} : ∀ {fs : List (String × RTy)} {vs : List RVal},
    All2 (fun f v => (build.lookup f.1).bind (getVar env) = some v) fs vs →
    makeNamed env build fs = some ((fs.map (·.1)).zip vs)
  | [], [], .nil => rfl
  | (f, t) :: fs, v :: vs, .cons h hl => by
    simp only [makeNamed, h, makeNamed_eq hl]
    rfl

theorem makeTuple_eq {env : List (String × RVal)} : ∀ {xs : List String} {vs : List RVal},
    All2 (fun x v => getVar env x = some v) xs vs → makeTuple env xs = some vs
  | [], [], .nil => rfl
  | x :: xs, v :: vs, .cons h hl => by simp only [makeTuple, h, makeTuple_eq hl]; rfl

theorem varField_zip {fields : List String} (hn : fields.Nodup) {tys : List RTy} {lets : List String} (hl : lets.Nodup)
    {j : Nat} {f x : String} {t : RTy} (h1 : fields[j]? = some f) (h2 : tys[j]? = some t) (h3 : lets[j]? = some x) :
    varField (fields.zip tys) (fields.zip lets) x = some t := by
  unfold varField
  cases hf : (fields.zip lets).find? (fun b => b.2 == x) with
  | none =>
    have := List.find?_eq_none.1 hf _ (zip_mem_of_get h1 h3)
    simp at this
  | some b =>
    have hb := List.find?_some hf
    obtain ⟨k, hk⟩ := List.mem_iff_getElem?.1 (List.mem_of_find?_eq_some hf)
    rw [List.getElem?_zip_eq_some] at hk
    have hb' : b.2 = x := by simpa using hb
    rw [hb'] at hk
    have hkj := nodup_get_inj hl hk.2 h3
    subst hkj
    rw [h1] at hk
    obtain ⟨hk, _⟩ := hk
    cases hk
    exact zip_lookup hn h1 h2

theorem varIndex_get {tys : List RTy} {lets : List String} (hl : lets.Nodup) {j : Nat} {x : String} {t : RTy}
    (h2 : tys[j]? = some t) (h3 : lets[j]? = some x) : varIndex tys lets x = some t := by
  unfold varIndex
  rw [findIdx_unique h3 (by simp) (fun k b hk hb => by
    have : b = x := by simpa using hb
    subst this
    exact nodup_get_inj hl hk h3)]
  exact h2

theorem pickArm_eq (c : Char) : ∀ {tys : List Ty} {parts : List String}, tys.length = parts.length →
    pickArm (some c) (enumArms tys parts) = (findIdx (fun ty : Ty => decide (c ∈ ty.first)) tys).bind fun k => parts[k]?
  | [], [], _ => rfl
  | ty :: tys, x :: parts, h => by
    have ih := pickArm_eq c (tys := tys) (parts := parts) (by simpa using h)
    simp only [pickArm, Option.bind_some, enumArms, List.zip_cons_cons, List.filterMap_cons, findIdx] at ih ⊢
    by_cases hc : c ∈ ty.first
    · have hne : ty.first.chars.isEmpty = false := by
        cases hx : ty.first.chars with
        | nil => rw [CharSet.mem_def, hx] at hc; cases hc
        | cons => rfl
      rw [hne]
      simp only [Bool.false_eq_true, if_false, List.find?_cons]
      rw [show ty.first.chars.contains c = true from List.contains_iff_mem.2 hc]
      simp [hc]
    · cases he : ty.first.chars.isEmpty with
      | true =>
        simp only [if_true, hc, decide_false, Bool.false_eq_true, if_false]
        rw [ih]
        cases findIdx (fun ty : Ty => decide (c ∈ ty.first)) tys <;> rfl
      | false =>
        simp only [Bool.false_eq_true, if_false, List.find?_cons]
        rw [show ty.first.chars.contains c = false by
          cases hx : ty.first.chars.contains c with
          | true => exact absurd (List.contains_iff_mem.1 hx) hc
          | false => rfl]
        simp only [hc, decide_false, Bool.false_eq_true, if_false]
        rw [ih]
        cases findIdx (fun ty : Ty => decide (c ∈ ty.first)) tys <;> rfl

theorem find_nullable : ∀ {tys : List Ty} {parts : List String}, tys.length = parts.length →
    ((tys.zip parts).find? fun x => x.1.nullable).map (·.2) = (findIdx (fun ty : Ty => ty.nullable) tys).bind fun k => parts[k]?
  | [], [], _ => rfl
  | ty :: tys, x :: parts, h => by
    have ih := find_nullable (tys := tys) (parts := parts) (by simpa using h)
    simp only [List.zip_cons_cons, List.find?_cons, findIdx]
    by_cases hty : ty.nullable = true
    · simp [hty]
    · rw [if_neg hty]
      simp only [hty]
      rw [ih]
      cases findIdx (fun ty : Ty => ty.nullable) tys <;> rfl

/-- The choice made by the arms of an enum is that of `altChoose`. -/
theorem enum_choice {tys : List Ty} {parts : List String} (hl : tys.length = parts.length) (c : Option Char) :
    (∀ k, altChoose c tys = some k → ∃ x, parts[k]? = some x ∧ (pickArm c (enumArms tys parts) = some x ∨
      (pickArm c (enumArms tys parts) = none ∧ enumOther tys parts = .take x))) ∧
    (altChoose c tys = none → pickArm c (enumArms tys parts) = none ∧
      enumOther tys parts = .fail (tys.flatMap fun ty => ty.first.chars)) := by
  have hget : ∀ {q : Ty → Bool} {k : Nat}, findIdx q tys = some k → ∃ x, parts[k]? = some x := by
    intro q k hk
    have := findIdx_lt hk
    exact ⟨parts[k]'(by omega), List.getElem?_eq_getElem _⟩
  have harm : pickArm c (enumArms tys parts) =
      (c.bind fun c => findIdx (fun ty : Ty => decide (c ∈ ty.first)) tys).bind fun k => parts[k]? := by
    cases c with
    | none => rfl
    | some c => rw [pickArm_eq c hl]; rfl
  have hnull := find_nullable hl
  unfold altChoose
  cases hc : c.bind fun c => findIdx (fun ty : Ty => decide (c ∈ ty.first)) tys with
  | some k =>
    simp only [Option.some.injEq]
    refine ⟨?_, by simp⟩
    rintro _ rfl
    have hk : ∃ x, parts[k]? = some x := by
      cases c with
      | none => cases hc
      | some c => exact hget hc
    obtain ⟨x, hx⟩ := hk
    exact ⟨x, hx, .inl (by rw [harm, hc]; exact hx)⟩
  | none =>
    have harm' : pickArm c (enumArms tys parts) = none := by rw [harm, hc]; rfl
    simp only [harm']
    constructor
    · intro k hk
      obtain ⟨x, hx⟩ := hget hk
      rw [hk] at hnull
      refine ⟨x, hx, .inr ⟨trivial, ?_⟩⟩
      simp only [Option.bind_some, hx] at hnull
      unfold enumOther
      cases hf : (tys.zip parts).find? fun x => x.1.nullable with
      | none => rw [hf] at hnull; cases hnull
      | some y => rw [hf] at hnull; cases hnull; rfl
    · intro hk
      rw [hk] at hnull
      refine ⟨trivial, ?_⟩
      unfold enumOther
      cases hf : (tys.zip parts).find? fun x => x.1.nullable with
      | none => rfl
      | some y => rw [hf] at hnull; cases hnull

theorem ids_rty_get {s : BState} {ids : List Nat} {j i : Nat} (h : ids[j]? = some i) : (ids.map s.rty)[j]? = some (s.rty i) := by
  rw [List.getElem?_map, h]; rfl

theorem get_of_length {α β : Type} {l : List α} {m : List β} {j : Nat} {a : α} (hl : l.length = m.length) (h : l[j]? = some a) :
    ∃ b, m[j]? = some b := by
  have := (List.getElem?_eq_some_iff.1 h).1
  exact ⟨m[j]'(by omega), List.getElem?_eq_getElem _⟩

/-- Running the emitted program is running the table. -/
theorem Emitted.take {s : BState} {p : RProg} (h : Emitted s p) : ∀ (n i : Nat) (w : IW), i < s.data.length →
    (∀ (j : Nat) (e : Entry), s.data[j]? = some e → ∀ d ∈ e.node.subs, d < s.data.length) →
    (∀ (j : Nat) (e : Entry) (f : Nat), s.data[j]? = some e → e.node = .box f → f < s.data.length) →
    Res.Rel (RVal.Stands p (s.rty i)) (p.take n (s.rty i) w) (run s.step n i w) := by
  intro n
  induction n with
  | zero =>
    intro i w _ _ _
    rw [RProg.take, run]
    exact .oof
  | succ n ih =>
    intro i w hi hlt hbx
    have he : s.data[i]? = some s.data[i] := List.getElem?_eq_getElem hi
    generalize s.data[i] = e at he
    rw [run, step_eq he]
    have hsub := hlt i e he
    cases hnd : e.node with
    | bad => exact absurd hnd (h.bad i e he)
    | eps =>
      have hr := BState.rty_eq he (by simp [hnd])
      rw [h.epsName i e he hnd] at hr
      rw [hr, RProg.take, h.noEps]
      exact .ok _ _ _ ⟨.epsilon h.noEps, rfl⟩
    | box f =>
      rw [h.box i e f he hnd, RProg.take]
      exact (ih f w (hbx i e f he hnd) hlt hbx).map fun v t hv => ⟨.boxed _ _ hv.1, by simp [RVal.tree, hv.2]⟩
    | lit str =>
      have hr := BState.rty_eq he (by simp [hnd])
      have hf := h.item i e _ he (by rw [BState.item, hnd])
      rw [hr, RProg.take, hf]
      dsimp only
      have hx : RVal.Stands p (.path e.name) (.unit e.name) (.lit str) := ⟨.unit _ _ _ _ hf, by simp only [RVal.tree, hf]⟩
      cases consumeStr str w with
      | ok a w' => exact .ok _ _ _ hx
      | err => exact .err _ _
      | panic => exact .panic
      | oof => exact .oof
    | alias j =>
      have hr := BState.rty_eq he (by simp [hnd])
      have hf := h.item i e _ he (by rw [BState.item, hnd])
      rw [hr, RProg.take, hf]
      have := (ih j w (hsub j (by simp [hnd, NodeF.subs])) hlt hbx).map (f := id) (g := id)
        (S := RVal.Stands p (.path e.name)) fun v t hv => ⟨.alias _ _ _ hf hv.1, hv.2⟩
      have hid : ∀ {α : Type} (r : Res α), r.map id = r := by intro α r; cases r <;> rfl
      rwa [hid, hid] at this
    | cat ids =>
      have hr := BState.rty_eq he (by simp [hnd])
      have hln := numberParts_nodup 0 ids.length
      have hll := numberParts_length 0 ids.length
      generalize hlets : numberParts 0 ids.length = lets at hln hll
      cases hemp : e.fields.isEmpty with
      | true =>
        have hf := h.item i e _ he (by simp only [BState.item, hnd, hemp, if_true, hlets]; rfl)
        rw [hr, RProg.take, hf]
        dsimp only
        have hA : All2 (fun x i => ∀ w, Res.Rel (RVal.Stands p (s.rty i))
            (resolved (varIndex (ids.map s.rty) lets x) fun t => p.take n t w) (run s.step n i w)) lets ids := by
          refine All2.of_get hll fun j x a hx ha w => ?_
          rw [varIndex_get hln (ids_rty_get ha) hx]
          exact ih a w (hsub a (by simp only [hnd, NodeF.subs]; exact List.mem_of_getElem? ha)) hlt hbx
        have h1 := takeLets_rel hA w
        generalize takeLets _ lets w = x1 at h1 ⊢
        generalize seqTake _ ids w = x2 at h1 ⊢
        cases h1 with
        | err => exact .err _ _
        | panic => exact .panic
        | oof => exact .oof
        | ok env ts w' hr' =>
          obtain ⟨vs, rfl, h3, h4⟩ := hr'
          have hlen := h3.length
          rw [List.length_map] at hlen
          simp only [Res.bind, Res.map]
          rw [makeTuple_eq (All2.of_get (by omega) fun j x v hx hv => getVar_zip hln hx hv)]
          exact .ok _ _ _ ⟨.tuple _ _ _ _ _ _ hf h3, by simp only [RVal.tree, h4]⟩
      | false =>
        have hf := h.item i e _ he (by simp only [BState.item, hnd, hemp, Bool.false_eq_true, if_false, hlets]; rfl)
        obtain ⟨hfl, hfn⟩ := h.cat i e ids he hnd (by rintro h0; rw [h0] at hemp; cases hemp)
        rw [hr, RProg.take, hf]
        dsimp only
        have hA : All2 (fun x i => ∀ w, Res.Rel (RVal.Stands p (s.rty i))
            (resolved (varField (e.fields.zip (ids.map s.rty)) (e.fields.zip lets) x) fun t => p.take n t w)
            (run s.step n i w)) lets ids := by
          refine All2.of_get hll fun j x a hx ha w => ?_
          obtain ⟨f, hf'⟩ := get_of_length hfl.symm ha
          rw [varField_zip hfn hln hf' (ids_rty_get ha) hx]
          exact ih a w (hsub a (by simp only [hnd, NodeF.subs]; exact List.mem_of_getElem? ha)) hlt hbx
        have h1 := takeLets_rel hA w
        generalize takeLets _ lets w = x1 at h1 ⊢
        generalize seqTake _ ids w = x2 at h1 ⊢
        cases h1 with
        | err => exact .err _ _
        | panic => exact .panic
        | oof => exact .oof
        | ok env ts w' hr' =>
          obtain ⟨vs, rfl, h3, h4⟩ := hr'
          have hlen := h3.length
          rw [List.length_map] at hlen
          simp only [Res.bind, Res.map]
          rw [makeNamed_eq (vs := vs)]
          · have h5 : (e.fields.zip (ids.map s.rty)).map (·.1) = e.fields := by
              rw [show (fun x : String × RTy => x.1) = Prod.fst from rfl, List.map_fst_zip (by simp; omega)]
            rw [h5]
            refine .ok _ _ _ ⟨.struct _ _ _ _ _ _ hf (h3.zip (by simp; omega)), ?_⟩
            simp only [RVal.tree]
            rw [RVal.treeN_zip p (by omega), h4]
          · refine All2.of_get (by simp; omega) fun j f v hf' hv => ?_
            rw [List.getElem?_zip_eq_some] at hf'
            obtain ⟨x, hx⟩ := get_of_length (m := lets) (by omega) hv
            rw [zip_lookup hfn hf'.1 hx]
            exact getVar_zip hln hx hv
    | alt tys ids =>
      have hr := BState.rty_eq he (by simp [hnd])
      have hf := h.item i e _ he (by rw [BState.item, hnd])
      obtain ⟨hfl, htl, hfn⟩ := h.alt i e tys ids he hnd
      rw [hr, RProg.take, hf]
      dsimp only [altTake]
      rcases hpk : w.peek with ⟨c, w'⟩
      dsimp only
      obtain ⟨hc1, hc2⟩ := enum_choice (tys := tys) (parts := e.fields) (by omega) c
      cases hch : altChoose c tys with
      | none =>
        obtain ⟨h1, h2⟩ := hc2 hch
        rw [h1, h2]
        cases c <;> exact .err _ _
      | some k =>
        obtain ⟨x, hx, hpick⟩ := hc1 k hch
        obtain ⟨a, ha⟩ := get_of_length (m := ids) (by omega) hx
        have hlk : (e.fields.zip (ids.map s.rty)).lookup x = some (s.rty a) := zip_lookup hfn hx (ids_rty_get ha)
        have hidx : findIdx (fun y : String × RTy => y.1 == x) (e.fields.zip (ids.map s.rty)) = some k :=
          findIdx_unique (a := (x, s.rty a)) (List.getElem?_zip_eq_some.2 ⟨hx, ids_rty_get (s := s) ha⟩) (by simp) fun j b hj hb => by
            have hb' : b.1 = x := by simpa using hb
            rw [List.getElem?_zip_eq_some, hb'] at hj
            exact nodup_get_inj hfn hj.1 hx
        have hres : Res.Rel (RVal.Stands p (.path e.name)) ((p.take n (s.rty a) w').map (.variant e.name x))
            ((run s.step n a w').map (.alt k)) :=
          (ih a w' (hsub a (by simp only [hnd, NodeF.subs]; exact List.mem_of_getElem? ha)) hlt hbx).map fun v t hv =>
            ⟨.variant _ _ _ _ _ _ _ _ _ hf hlk hv.1, by simp only [RVal.tree, hf, hidx, hv.2, Option.getD_some]⟩
        dsimp only
        rw [ha]
        dsimp only
        rcases hpick with h1 | ⟨h1, h2⟩
        · rw [h1]
          dsimp only
          rw [hlk]
          exact hres
        · rw [h1, h2]
          dsimp only
          rw [hlk]
          exact hres

end Chomp
