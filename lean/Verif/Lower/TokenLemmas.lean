import Verif.Lower.TokenRead

/-! # What is written can be read back -/

namespace Chomp

theorem Q.use_eq : Q.use = R.use := rfl
theorem Q.doc_eq : Q.doc = R.doc := rfl
theorem Q.docEnd_eq : Q.docEnd = R.docEnd := rfl
theorem Q.derive_eq : Q.derive = R.derive := rfl
theorem Q.pubStruct_eq : Q.pubStruct = R.pubStruct := rfl
theorem Q.pubEnum_eq : Q.pubEnum = R.pubEnum := rfl
theorem Q.pubType_eq : Q.pubType = R.pubType := rfl
theorem Q.implDisplay_eq : Q.implDisplay = R.implDisplay := rfl
theorem Q.fnFmt_eq : Q.fnFmt = R.fnFmt := rfl
theorem Q.implParse_eq : Q.implParse = R.implParse := rfl
theorem Q.fnTake_eq : Q.fnTake = R.fnTake := rfl
theorem Q.close_eq : Q.close = R.close := rfl
theorem Q.write_eq : Q.write = R.write := rfl
theorem Q.consume_eq : Q.consume = R.consume := rfl
theorem Q.mapUnit_eq : Q.mapUnit = R.mapUnit := rfl
theorem Q.fromOpen_eq : Q.fromOpen = R.fromOpen := rfl
theorem Q.fromLit_eq : Q.fromLit = R.fromLit := rfl
theorem Q.fromAlt_eq : Q.fromAlt = R.fromAlt := rfl
theorem Q.toSelf_eq : Q.toSelf = R.toSelf := rfl
theorem Q.matchAlt_eq : Q.matchAlt = R.matchAlt := rfl
theorem Q.innerInto_eq : Q.innerInto = R.innerInto := rfl
theorem Q.selfDot_eq : Q.selfDot = R.selfDot := rfl
theorem Q.dotFmt_eq : Q.dotFmt = R.dotFmt := rfl
theorem Q.okUnit_eq : Q.okUnit = R.okUnit := rfl
theorem Q.let__eq : Q.let_ = R.let_ := rfl
theorem Q.take_eq : Q.take = R.take := rfl
theorem Q.okNamed_eq : Q.okNamed = R.okNamed := rfl
theorem Q.okTuple_eq : Q.okTuple = R.okTuple := rfl
theorem Q.matchSelf_eq : Q.matchSelf = R.matchSelf := rfl
theorem Q.selfPath_eq : Q.selfPath = R.selfPath := rfl
theorem Q.innerFmt_eq : Q.innerFmt = R.innerFmt := rfl
theorem Q.matchPeek_eq : Q.matchPeek = R.matchPeek := rfl
theorem Q.armOk_eq : Q.armOk = R.armOk := rfl
theorem Q.armTake_eq : Q.armTake = R.armTake := rfl
theorem Q.badBranch_eq : Q.badBranch = R.badBranch := rfl
theorem Q.endOfStream_eq : Q.endOfStream = R.endOfStream := rfl

theorem eat_append : ∀ (p ts : List RTok), eat p (p ++ ts) = some ts
  | [], _ => rfl
  | a :: p, ts => by simp only [List.cons_append, eat, if_true]; exact eat_append p ts

theorem eat_append_nil (p : List RTok) : eat p p = some [] := by simpa using eat_append p []

theorem eat_nil (ts : List RTok) : eat [] ts = some ts := by cases ts <;> rfl

theorem readId_cons (x : String) (ts : List RTok) : readId (.id x :: ts) = some (x, ts) := rfl
theorem readInt_cons (x : Nat) (ts : List RTok) : readInt (.int x :: ts) = some (x, ts) := rfl
theorem readChr_cons (x : Char) (ts : List RTok) : readChr (.chr x :: ts) = some (x, ts) := rfl
theorem readStr_cons (x : List Char) (ts : List RTok) : readStr (.str x :: ts) = some (x, ts) := rfl

/-- One more token can be eaten before. -/
theorem eat_cons (a : RTok) (p ts : List RTok) : eat (a :: p) (a :: ts) = eat p ts := by simp [eat]

theorem eat_ne {a b : RTok} (h : a ≠ b) (p ts : List RTok) : eat (a :: p) (b :: ts) = none := by simp [eat, h]

theorem eat_head {a : RTok} {p ts : List RTok} (h : ts.head? ≠ some a) : eat (a :: p) ts = none := by
  cases ts with
  | nil => rfl
  | cons b ts => exact eat_ne (fun h' => h (by simp [h'])) p ts

theorem eat_two : ∀ (p q ts : List RTok), eat (p ++ q) (p ++ (q ++ ts)) = some ts := by
  intro p q ts
  rw [← List.append_assoc]
  exact eat_append _ _

/-- `r` reads the tokens `ts` as `a`, if what follows satisfies `ok`. -/
def TokReads {α : Type} (ok : List RTok → Prop) (r : List RTok → Option (α × List RTok)) (ts : List RTok) (a : α) : Prop :=
  ∀ rest, ok rest → r (ts ++ rest) = some (a, rest)

/-- What follows starts with one of the given tokens. -/
def Starts (l : List RTok) (rest : List RTok) : Prop := ∃ t ∈ l, rest.head? = some t

theorem sepToks_length (sep : RTok) : ∀ (l : List (List RTok)), (∀ x ∈ l, x ≠ []) → l.length ≤ (sepToks sep l).length
  | [], _ => by simp
  | [x], h => by
    have := h x (by simp)
    have : x.length ≠ 0 := by simpa using this
    simp only [sepToks, List.length_singleton]; omega
  | x :: y :: l, h => by
    have h1 := sepToks_length sep (y :: l) fun z hz => h z (List.mem_cons_of_mem _ hz)
    simp only [sepToks, List.length_append, List.length_cons, List.length_nil] at h1 ⊢
    omega

theorem manyToks_length : ∀ (l : List (List RTok)), (∀ x ∈ l, x ≠ []) → l.length ≤ (manyToks l).length
  | [], _ => by simp
  | x :: l, h => by
    have h1 := manyToks_length l fun z hz => h z (List.mem_cons_of_mem _ hz)
    have : x ≠ [] := h x (by simp)
    have : x.length ≠ 0 := by simpa using this
    simp only [manyToks, List.length_append, List.length_cons]
    omega

theorem readMore_ok {α : Type} {r : List RTok → Option (α × List RTok)} {sep stop : RTok} (hne : sep ≠ stop) {pr : α → List RTok} :
    ∀ {l : List α} {n : Nat}, (∀ a ∈ l, TokReads (Starts [sep, stop]) r (pr a) a) → l ≠ [] → l.length ≤ n → ∀ rest,
      readMore r sep stop n (sepToks sep (l.map pr) ++ (stop :: rest)) = some (l, rest)
  | [], _, _, h, _, _ => absurd rfl h
  | [a], 0, _, _, h, _ => by simp at h
  | [a], n + 1, hr, _, _, rest => by
    have h1 := hr a (by simp) (stop :: rest) ⟨stop, by simp, rfl⟩
    simp only [List.map_cons, List.map_nil, sepToks, readMore, h1, Option.bind_eq_bind, Option.bind_some]
    rw [eat_ne hne]
    simp [eat]
  | a :: b :: l, 0, _, _, h, _ => by simp at h
  | a :: b :: l, n + 1, hr, _, hn, rest => by
    have h2 := readMore_ok hne (l := b :: l) (n := n) (fun x hx => hr x (List.mem_cons_of_mem _ hx)) (by simp)
      (by simpa using hn) rest
    have h1 := hr a (by simp) (sep :: (sepToks sep ((b :: l).map pr) ++ (stop :: rest))) ⟨sep, by simp, rfl⟩
    have h3 : sepToks sep ((a :: b :: l).map pr) ++ (stop :: rest) = pr a ++ (sep :: (sepToks sep ((b :: l).map pr) ++ (stop :: rest))) := by
      simp [sepToks]
    rw [h3]
    simp only [readMore, h1, Option.bind_eq_bind, Option.bind_some]
    rw [eat_cons]
    simp only [eat, h2, Option.bind_some]

theorem readSep_ok {α : Type} {r : List RTok → Option (α × List RTok)} {sep stop : RTok} (hne : sep ≠ stop) {pr : α → List RTok}
    {l : List α} (hr : ∀ a ∈ l, TokReads (Starts [sep, stop]) r (pr a) a) (hh : ∀ a ∈ l, pr a ≠ [] ∧ (pr a).head? ≠ some stop)
    (rest : List RTok) : readSep r sep stop (sepToks sep (l.map pr) ++ ([stop] ++ rest)) = some (l, rest) := by
  rw [List.singleton_append]
  unfold readSep
  cases l with
  | nil => simp [sepToks, eat]
  | cons a l =>
    have h1 : eat [stop] (sepToks sep ((a :: l).map pr) ++ (stop :: rest)) = none := by
      refine eat_head ?_
      obtain ⟨h2, h3⟩ := hh a (by simp)
      cases hp : pr a with
      | nil => exact absurd hp h2
      | cons t u =>
        rw [hp] at h3
        cases l with
        | nil => simpa [sepToks, hp] using h3
        | cons b l => simpa [sepToks, hp] using h3
    rw [h1]
    refine readMore_ok hne hr (by simp) ?_ rest
    have := sepToks_length sep ((a :: l).map pr) (by
      intro x hx
      obtain ⟨y, hy, rfl⟩ := List.mem_map.1 hx
      exact (hh y hy).1)
    simp only [List.length_map, List.length_append, List.length_cons] at this ⊢
    omega

theorem readWhile_ok {α : Type} {start : List RTok} (hs : start ≠ []) {r : List RTok → Option (α × List RTok)} {pr : α → List RTok} :
    ∀ {l : List α} {n : Nat}, (∀ a ∈ l, TokReads (fun _ => True) r (pr a) a) → l.length < n → ∀ rest, eat start rest = none →
      readWhile start r n (manyToks (l.map fun a => start ++ pr a) ++ rest) = some (l, rest)
  | [], 0, _, h, _, _ => by simp at h
  | [], n + 1, _, _, rest, h => by simp [manyToks, readWhile, h]
  | a :: l, 0, _, h, _, _ => by simp at h
  | a :: l, n + 1, hr, hn, rest, h => by
    have h2 := readWhile_ok hs (l := l) (n := n) (fun x hx => hr x (List.mem_cons_of_mem _ hx)) (by simpa using hn) rest h
    have h1 := hr a (by simp) (manyToks (l.map fun a => start ++ pr a) ++ rest) trivial
    simp only [List.map_cons, manyToks, List.append_assoc, readWhile, eat_append, h1, Option.bind_eq_bind, Option.bind_some, h2]

/-- The fuel that the readers use is enough. -/
theorem readWhile_len {α : Type} {start : List RTok} (hs : start ≠ []) {r : List RTok → Option (α × List RTok)} {pr : α → List RTok}
    {l : List α} (hr : ∀ a ∈ l, TokReads (fun _ => True) r (pr a) a) {rest : List RTok} (hne : rest ≠ []) (h : eat start rest = none) :
    readWhile start r (manyToks (l.map fun a => start ++ pr a) ++ rest).length (manyToks (l.map fun a => start ++ pr a) ++ rest) =
      some (l, rest) := by
  refine readWhile_ok hs hr ?_ rest h
  have := manyToks_length (l.map fun a => start ++ pr a) (by
    intro x hx
    obtain ⟨y, _, rfl⟩ := List.mem_map.1 hx
    simp [hs])
  have h3 : rest.length ≠ 0 := by simpa using hne
  simp only [List.length_map, List.length_append] at this ⊢
  omega

/-! ## Types -/

/-- The depth of a type. -/
def RTy.depth : RTy → Nat
  | .path _ => 1
  | .boxed t => t.depth + 1

theorem RTy.depth_le : ∀ t : RTy, t.depth ≤ t.toks.length
  | .path _ => by simp [RTy.depth, RTy.toks]
  | .boxed t => by
    have := RTy.depth_le t
    simp only [RTy.depth, RTy.toks, List.length_append, List.length_cons, List.length_nil]
    omega

theorem readTy_ok : ∀ (t : RTy) (n : Nat), t.depth ≤ n → TokReads (fun rest => rest.head? ≠ some (.op "<")) (readTy n) t.toks t
  | .path x, 0, h, _, _ => by simp [RTy.depth] at h
  | .path x, n + 1, _, rest, hrest => by
    have h1 : eat [.id "Box", .op "<"] ([RTok.id x] ++ rest) = none := by
      rw [List.singleton_append]
      by_cases hx : x = "Box"
      · subst hx
        rw [eat_cons]
        exact eat_head hrest
      · exact eat_ne (fun h => hx (by injection h with h; exact h.symm)) _ _
    simp only [RTy.toks, readTy, h1]
    simp [readId]
  | .boxed t, 0, h, _, _ => by simp [RTy.depth] at h
  | .boxed t, n + 1, h, rest, _ => by
    have h2 := readTy_ok t n (by simpa [RTy.depth] using h) ([.op ">"] ++ rest) (by simp)
    simp only [RTy.toks, readTy, List.append_assoc]
    rw [eat_append]
    simp only [h2, Option.bind_eq_bind, Option.bind_some]
    rw [eat_append]
    simp

theorem readTy_len (t : RTy) {rest : List RTok} (h : rest.head? ≠ some (.op "<")) : readTy (t.toks ++ rest).length (t.toks ++ rest) = some (t, rest) := by
  refine readTy_ok t _ ?_ rest h
  have := t.depth_le
  simp only [List.length_append]
  omega

theorem starts_lt {l : List RTok} (hl : .op "<" ∉ l) {rest : List RTok} (h : Starts l rest) : rest.head? ≠ some (.op "<") := by
  obtain ⟨t, ht, h⟩ := h
  intro h'
  rw [h] at h'
  cases h'
  exact hl ht

/-! ## Parts of items -/

theorem readField_ok (f : String × RTy) {l : List RTok} (hl : .op "<" ∉ l) :
    TokReads (Starts l) readField ([.id "pub"] ++ [.id f.1] ++ [.op ":"] ++ f.2.toks) f := by
  intro rest hrest
  simp only [List.append_assoc, readField, eat_append, Option.bind_eq_bind, Option.bind_some]
  simp only [List.cons_append, List.nil_append, readId_cons, Option.bind_some, eat_cons, eat_nil]
  simp only [readTy_len _ (starts_lt hl hrest), Option.bind_some]

theorem readIndexed_ok (f : RTy) {l : List RTok} (hl : .op "<" ∉ l) : TokReads (Starts l) readIndexed ([.id "pub"] ++ f.toks) f := by
  intro rest hrest
  simp only [List.append_assoc, readIndexed, eat_append, Option.bind_eq_bind, Option.bind_some]
  simp only [readTy_len _ (starts_lt hl hrest)]

theorem readVariant_ok (f : String × RTy) (ok : List RTok → Prop) :
    TokReads ok readVariant ([.id f.1] ++ [.opn '('] ++ f.2.toks ++ [.cls ')']) f := by
  intro rest _
  simp only [List.append_assoc, readVariant, Option.bind_eq_bind]
  simp only [List.cons_append, List.nil_append, readId_cons, Option.bind_some, eat_cons, eat_nil]
  rw [readTy_len _ (by simp)]
  simp [eat]

theorem readLet_ok (x : String) (ok : List RTok → Prop) : TokReads ok readLet ([.id x] ++ R.take) x := by
  intro rest _
  simp only [List.cons_append, List.nil_append, readLet, readId_cons, Option.bind_eq_bind, Option.bind_some, eat_append]

theorem readShown_ok (x : String) (ok : List RTok → Prop) : TokReads ok readShown ([.id x] ++ R.dotFmt) x := by
  intro rest _
  simp only [List.cons_append, List.nil_append, readShown, readId_cons, Option.bind_eq_bind, Option.bind_some, eat_append]

theorem readShownIdx_ok (x : Nat) (ok : List RTok → Prop) : TokReads ok readShownIdx ([.int x] ++ R.dotFmt) x := by
  intro rest _
  simp only [List.cons_append, List.nil_append, readShownIdx, readInt_cons, Option.bind_eq_bind, Option.bind_some, eat_append]

theorem readBuild_ok (b : String × String) (ok : List RTok → Prop) : TokReads ok readBuild ([.id b.1] ++ [.op ":"] ++ [.id b.2]) b := by
  intro rest _
  simp only [List.cons_append, List.nil_append, readBuild, readId_cons, Option.bind_eq_bind, Option.bind_some, eat_cons, eat_nil]

theorem readFmtArm_ok (x : String) (ok : List RTok → Prop) : TokReads ok readFmtArm (R.selfPath ++ [.id x] ++ R.innerFmt) x := by
  intro rest _
  simp only [List.append_assoc, readFmtArm, Option.bind_eq_bind, Option.bind_some, eat_append]
  simp only [List.cons_append, List.nil_append, readId_cons, Option.bind_some, eat_append]

theorem readIntoArm_ok (name x : String) (ok : List RTok → Prop) :
    TokReads ok (readIntoArm name) ([.id name] ++ [.op "::"] ++ [.id x] ++ R.innerInto) x := by
  intro rest _
  simp only [List.cons_append, List.nil_append, readIntoArm, readId_cons, Option.bind_eq_bind, Option.bind_some, eat_cons, eat_nil, eat_append]

theorem readSome_ok (c : Char) (ok : List RTok → Prop) : TokReads ok readSome ([.id "Some"] ++ [.opn '('] ++ [.chr c] ++ [.cls ')']) c := by
  intro rest _
  simp only [List.cons_append, List.nil_append, readSome, readChr_cons, Option.bind_eq_bind, Option.bind_some, eat_cons, eat_nil]

theorem readId_ok (x : String) (ok : List RTok → Prop) : TokReads ok readId [.id x] x := fun _ _ => rfl

theorem readChr_ok (x : Char) (ok : List RTok → Prop) : TokReads ok readChr [.chr x] x := fun _ _ => rfl

theorem readTake_ok (x : String) (rest : List RTok) : readTake (.id "Ok" :: .opn '(' :: .id "Self" :: .op "::" :: .id x :: (R.armTake ++ rest)) = some (x, rest) := by
  simp only [readTake, R.selfPath, Option.bind_eq_bind, eat_cons, eat_nil, Option.bind_some, readId_cons, eat_append]

theorem readArms_ok : ∀ (arms : List (List Char × String)) (other : ROther) (n : Nat), (∀ a ∈ arms, a.1 ≠ []) → arms.length < n → ∀ rest,
    readArms n (armToks arms ++ (otherToks other ++ ([.cls '}'] ++ rest))) = some ((arms, other), rest)
  | [], other, 0, _, h, _ => by simp at h
  | [], .take v, n + 1, _, _, rest => by
    have h1 : armToks [] ++ (otherToks (.take v) ++ ([.cls '}'] ++ rest)) =
        [.id "_", .op "=>"] ++ (.id "Ok" :: .opn '(' :: .id "Self" :: .op "::" :: .id v :: (R.armTake ++ ([.cls '}'] ++ rest))) := by
      simp [armToks, manyToks, otherToks, Q.armOk, Q.armTake, R.armTake]
    rw [h1]
    simp only [readArms, eat_append, Option.bind_eq_bind, readTake_ok, Option.bind_some]
  | [], .fail l, n + 1, _, _, rest => by
    have h1 : armToks [] ++ (otherToks (.fail l) ++ ([.cls '}'] ++ rest)) =
        R.badBranch ++ (sepToks (.op ",") (l.map fun c => [.chr c]) ++ ([.cls ']'] ++ (R.endOfStream.drop 1 ++ ([.cls '}'] ++ rest)))) := by
      simp [armToks, manyToks, otherToks, Q.badBranch, Q.endOfStream, R.badBranch, R.endOfStream]
    have h2 : eat [.id "_", .op "=>"] (R.badBranch ++ (sepToks (.op ",") (l.map fun c => [.chr c]) ++ ([.cls ']'] ++ (R.endOfStream.drop 1 ++ ([.cls '}'] ++ rest))))) = none := by
      refine eat_head ?_
      simp [R.badBranch]
    rw [h1]
    simp only [readArms, h2, eat_append, Option.bind_eq_bind]
    rw [readSep_ok (by decide) (fun c _ => readChr_ok c _) (fun c _ => by simp)]
    simp only [Option.bind_some, eat_append]
  | a :: arms, other, 0, _, h, _ => by simp at h
  | ([], x) :: arms, other, n + 1, h, _, _ => absurd rfl (h ([], x) (by simp))
  | (c :: fs, x) :: arms, other, n + 1, h, hn, rest => by
    have ih := readArms_ok arms other n (fun a ha => h a (List.mem_cons_of_mem _ ha)) (by simpa using hn) rest
    generalize hT : armToks arms ++ (otherToks other ++ ([.cls '}'] ++ rest)) = T at ih
    have h1 : armToks ((c :: fs, x) :: arms) ++ (otherToks other ++ ([.cls '}'] ++ rest)) =
        sepToks (.op "|") ((c :: fs).map fun c => [.id "Some"] ++ [.opn '('] ++ [.chr c] ++ [.cls ')']) ++ ([.op "=>"] ++
          (.id "Ok" :: .opn '(' :: .id "Self" :: .op "::" :: .id x :: (R.armTake ++ T))) := by
      subst hT
      simp [armToks, someToks, manyToks, Q.armOk, Q.armTake, R.armTake]
    rw [h1]
    have h2 : ∃ V, sepToks (.op "|") ((c :: fs).map fun c => [.id "Some"] ++ [.opn '('] ++ [.chr c] ++ [.cls ')']) = .id "Some" :: .opn '(' :: .chr c :: V := by
      cases fs <;> exact ⟨_, rfl⟩
    obtain ⟨V, hV⟩ := h2
    have h3 : ∀ W, eat [.id "_", .op "=>"] (.id "Some" :: .opn '(' :: .chr c :: W) = none := fun W => eat_ne (by decide) _ _
    have h4 : ∀ W, eat R.badBranch (.id "Some" :: .opn '(' :: .chr c :: W) = none := by
      intro W
      rw [R.badBranch, eat_cons, eat_cons]
      exact eat_ne (by simp) _ _
    have h5 := readSep_ok (sep := .op "|") (stop := .op "=>") (by decide) (r := readSome) (l := c :: fs)
      (pr := fun c => [.id "Some"] ++ [.opn '('] ++ [.chr c] ++ [.cls ')']) (fun c _ => readSome_ok c _) (fun c _ => by simp)
      (.id "Ok" :: .opn '(' :: .id "Self" :: .op "::" :: .id x :: (R.armTake ++ T))
    rw [hV] at h5 ⊢
    rw [List.cons_append, List.cons_append, List.cons_append] at h5 ⊢
    unfold readArms
    rw [h3, h4]
    simp only [h5, Option.bind_eq_bind, Option.bind_some, readTake_ok, ih]

theorem eatDisplay_ok (name : String) (ts : List RTok) : eatDisplay name (R.implDisplay ++ (.id name :: (R.fnFmt ++ ts))) = some ts := by
  simp only [eatDisplay, Option.bind_eq_bind, eat_append, Option.bind_some, eat_cons, eat_nil]

theorem eatParse_ok (name : String) (ts : List RTok) : eatParse name (R.implParse ++ (.id name :: (R.fnTake ++ ts))) = some ts := by
  simp only [eatParse, Option.bind_eq_bind, eat_append, Option.bind_some, eat_cons, eat_nil]

/-! ## Items -/

theorem readUnit_ok (name : String) (text consume : List Char) (c : Option Char) (rest : List RTok) (h : rest.head? ≠ some (.id "impl")) :
    readUnit name ([.op ";"] ++ (displayToks name (Q.write ++ [.str text] ++ [.cls ')']) ++
      (parseToks name (Q.consume ++ [.str consume] ++ Q.mapUnit ++ [.id name] ++ [.cls ')']) ++
      ((match c with
        | none => []
        | some c => Q.fromOpen ++ [.id name] ++ Q.fromLit ++ [.id name] ++ Q.toSelf ++ [.chr c] ++ Q.close) ++ rest)))) =
      some (.unit name text consume c, rest) := by
  simp only [displayToks, parseToks, Q.implDisplay_eq, Q.fnFmt_eq, Q.implParse_eq, Q.fnTake_eq, Q.write_eq, Q.consume_eq, Q.mapUnit_eq,
    Q.close_eq, List.append_assoc, List.cons_append, List.nil_append, readUnit, eat_cons, eat_nil, Option.bind_eq_bind, Option.bind_some,
    eatDisplay_ok, eatParse_ok, eat_append, readStr_cons]
  cases c with
  | none => simp only [R.fromOpen, List.nil_append, eat_head h]
  | some c =>
    simp only [Q.fromOpen_eq, Q.fromLit_eq, Q.toSelf_eq, List.append_assoc, List.cons_append, List.nil_append, eat_append, eat_cons, eat_nil,
      Option.bind_some, readChr_cons]

theorem eat_selfDot (l : List RTok) : eat R.selfDot (R.okUnit ++ l) = none := by
  rw [R.selfDot, R.okUnit]; exact eat_ne (by decide) _ _

theorem eat_let (l : List RTok) : eat R.let_ (R.okNamed ++ l) = none := by
  rw [R.let_, R.okNamed]; exact eat_ne (by decide) _ _

theorem eat_let' (l : List RTok) : eat R.let_ (R.okTuple ++ l) = none := by
  rw [R.let_, R.okTuple]; exact eat_ne (by decide) _ _

theorem readLets_ok (lets : List String) {rest : List RTok} (hne : rest ≠ []) (h : eat R.let_ rest = none) :
    readWhile R.let_ readLet (letToks lets ++ rest).length (letToks lets ++ rest) = some (lets, rest) := by
  have := readWhile_len (start := R.let_) (by simp [R.let_]) (r := readLet) (pr := fun x => [.id x] ++ R.take) (l := lets)
    (fun x _ => readLet_ok x _) hne h
  simpa only [letToks, Q.let__eq, Q.take_eq, List.append_assoc] using this

theorem readNamed_ok (name : String) (fields : List (String × RTy)) (shown lets : List String) (build : List (String × String)) (rest : List RTok) :
    readNamed name (sepToks (.op ",") ((fields.map fun f => (f.1, f.2.toks)).map fun f => [.id "pub"] ++ [.id f.1] ++ [.op ":"] ++ f.2) ++ ([.cls '}'] ++
      (displayToks name (manyToks (shown.map fun x => Q.selfDot ++ [.id x] ++ Q.dotFmt) ++ Q.okUnit) ++
      (parseToks name (letToks lets ++ Q.okNamed ++
        sepToks (.op ",") (build.map fun b => [.id b.1] ++ [.op ":"] ++ [.id b.2]) ++ [.cls '}'] ++ [.cls ')']) ++ rest)))) =
      some (.named name fields shown lets build, rest) := by
  have h1 := fun rest => readSep_ok (sep := .op ",") (stop := .cls '}') (by decide) (r := readField) (l := fields)
    (pr := fun f => [.id "pub"] ++ [.id f.1] ++ [.op ":"] ++ f.2.toks) (fun f _ => readField_ok f (by simp)) (fun f _ => by simp) rest
  have h2 := fun rest hne h => readWhile_len (start := R.selfDot) (by simp [R.selfDot]) (r := readShown) (pr := fun x => [.id x] ++ R.dotFmt)
    (l := shown) (fun x _ => readShown_ok x _) (rest := rest) hne h
  have h3 := fun rest => readSep_ok (sep := .op ",") (stop := .cls '}') (by decide) (r := readBuild) (l := build)
    (pr := fun b => [.id b.1] ++ [.op ":"] ++ [.id b.2]) (fun f _ => readBuild_ok f _) (fun f _ => by simp) rest
  unfold readNamed
  rw [List.map_map]
  simp only [Function.comp_def]
  rw [h1]
  simp only [displayToks, parseToks, Q.implDisplay_eq, Q.fnFmt_eq, Q.implParse_eq, Q.fnTake_eq, Q.selfDot_eq, Q.dotFmt_eq, Q.okUnit_eq,
    Q.okNamed_eq, Q.close_eq, List.append_assoc, Option.bind_eq_bind, Option.bind_some]
  simp only [List.singleton_append, eatDisplay_ok, Option.bind_some]
  simp only [List.singleton_append] at h2
  rw [h2 _ (by simp [R.okUnit]) (eat_selfDot _)]
  simp only [Option.bind_some]
  rw [eat_two]
  simp only [Option.bind_some, eatParse_ok]
  rw [readLets_ok lets (by simp [R.okNamed]) (eat_let _)]
  simp only [Option.bind_some, eat_append]
  simp only [List.cons_append, List.nil_append] at h3
  rw [h3]
  simp only [Option.bind_some, eat_cons, eat_append]

theorem readTuple_ok (name : String) (fields : List RTy) (shown : List Nat) (lets build : List String) (rest : List RTok) :
    readTuple name (sepToks (.op ",") ((fields.map RTy.toks).map fun f => [.id "pub"] ++ f) ++ ([.cls ')'] ++ ([.op ";"] ++
      (displayToks name (manyToks (shown.map fun x => Q.selfDot ++ [.int x] ++ Q.dotFmt) ++ Q.okUnit) ++
      (parseToks name (letToks lets ++ Q.okTuple ++ sepToks (.op ",") (build.map fun b => [.id b]) ++ [.cls ')'] ++ [.cls ')']) ++ rest))))) =
      some (.tuple name fields shown lets build, rest) := by
  have h1 := fun rest => readSep_ok (sep := .op ",") (stop := .cls ')') (by decide) (r := readIndexed) (l := fields)
    (pr := fun f => [.id "pub"] ++ f.toks) (fun f _ => readIndexed_ok f (by simp)) (fun f _ => by simp) rest
  have h2 := fun rest hne h => readWhile_len (start := R.selfDot) (by simp [R.selfDot]) (r := readShownIdx) (pr := fun x => [.int x] ++ R.dotFmt)
    (l := shown) (fun x _ => readShownIdx_ok x _) (rest := rest) hne h
  have h3 := fun rest => readSep_ok (sep := .op ",") (stop := .cls ')') (by decide) (r := readId) (l := build)
    (pr := fun b => [.id b]) (fun f _ => readId_ok f _) (fun f _ => by simp) rest
  unfold readTuple
  rw [List.map_map]
  simp only [Function.comp_def]
  rw [h1]
  simp only [displayToks, parseToks, Q.implDisplay_eq, Q.fnFmt_eq, Q.implParse_eq, Q.fnTake_eq, Q.selfDot_eq, Q.dotFmt_eq, Q.okUnit_eq,
    Q.okTuple_eq, Q.close_eq, List.append_assoc, Option.bind_eq_bind, Option.bind_some]
  simp only [List.singleton_append, eat_cons, eat_nil, eatDisplay_ok, Option.bind_some]
  simp only [List.singleton_append] at h2
  rw [h2 _ (by simp [R.okUnit]) (eat_selfDot _)]
  simp only [Option.bind_some]
  rw [eat_two]
  simp only [Option.bind_some, eatParse_ok]
  rw [readLets_ok lets (by simp [R.okTuple]) (eat_let' _)]
  simp only [Option.bind_some, eat_append]
  simp only [List.cons_append, List.nil_append] at h3
  rw [h3]
  simp only [Option.bind_some, eat_cons, eat_append]

theorem armToks_length (arms : List (List Char × String)) : arms.length ≤ (armToks arms).length := by
  have := manyToks_length (arms.map fun a => someToks a.1 ++ Q.armOk ++ [.id a.2] ++ Q.armTake) (by
    intro x hx
    obtain ⟨y, _, rfl⟩ := List.mem_map.1 hx
    simp)
  simpa [armToks] using this

theorem readEnum_ok (name : String) (variants : List (String × RTy)) (shown : List String) (arms : List (List Char × String)) (other : ROther)
    (chars : Option (List String)) (ha : ∀ a ∈ arms, a.1 ≠ []) (rest : List RTok) (h : rest.head? ≠ some (.id "impl")) :
    readEnum name (sepToks (.op ",") ((variants.map fun f => (f.1, f.2.toks)).map fun v => [.id v.1] ++ [.opn '('] ++ v.2 ++ [.cls ')']) ++ ([.cls '}'] ++
      (displayToks name (Q.matchSelf ++ sepToks (.op ",") (shown.map fun x => Q.selfPath ++ [.id x] ++ Q.innerFmt) ++ [.cls '}']) ++
      (parseToks name (Q.matchPeek ++ armToks arms ++ otherToks other ++ [.cls '}']) ++
      ((match chars with
        | none => []
        | some xs => Q.fromOpen ++ [.id name] ++ Q.fromAlt ++ [.id name] ++ Q.toSelf ++ Q.matchAlt ++
            sepToks (.op ",") (xs.map fun x => [.id name] ++ [.op "::"] ++ [.id x] ++ Q.innerInto) ++ [.cls '}'] ++ Q.close) ++ rest))))) =
      some (.enum name variants shown arms other chars, rest) := by
  have h1 := fun rest => readSep_ok (sep := .op ",") (stop := .cls '}') (by decide) (r := readVariant) (l := variants)
    (pr := fun v => [.id v.1] ++ [.opn '('] ++ v.2.toks ++ [.cls ')']) (fun f _ => readVariant_ok f _) (fun f _ => by simp) rest
  have h2 := fun rest => readSep_ok (sep := .op ",") (stop := .cls '}') (by decide) (r := readFmtArm) (l := shown)
    (pr := fun x => R.selfPath ++ [.id x] ++ R.innerFmt) (fun f _ => readFmtArm_ok f _) (fun f _ => by simp [R.selfPath]) rest
  have h3 := fun xs rest => readSep_ok (sep := .op ",") (stop := .cls '}') (by decide) (r := readIntoArm name) (l := xs)
    (pr := fun x => [.id name] ++ [.op "::"] ++ [.id x] ++ R.innerInto) (fun f _ => readIntoArm_ok name f _) (fun f _ => by simp) rest
  unfold readEnum
  rw [List.map_map]
  simp only [Function.comp_def]
  rw [h1]
  simp only [displayToks, parseToks, Q.implDisplay_eq, Q.fnFmt_eq, Q.implParse_eq, Q.fnTake_eq, Q.matchSelf_eq, Q.selfPath_eq, Q.innerFmt_eq,
    Q.matchPeek_eq, Q.close_eq, List.append_assoc, Option.bind_eq_bind, Option.bind_some]
  simp only [List.singleton_append, eatDisplay_ok, Option.bind_some, eat_append]
  simp only [List.append_assoc, List.singleton_append] at h2
  rw [h2]
  simp only [Option.bind_some, eat_append, eatParse_ok]
  have h4 := fun rest => readArms_ok arms other (armToks arms ++ (otherToks other ++ ([RTok.cls '}'] ++ rest))).length ha (by
    have := armToks_length arms
    simp only [List.length_append, List.length_cons]
    omega) rest
  simp only [List.singleton_append] at h4
  rw [h4]
  simp only [Option.bind_some, eat_append]
  cases chars with
  | none => simp only [R.fromOpen, List.nil_append, eat_head h]
  | some xs =>
    simp only [Q.fromOpen_eq, Q.fromAlt_eq, Q.toSelf_eq, Q.matchAlt_eq, Q.innerInto_eq, List.append_assoc, List.cons_append, List.nil_append,
      eat_append, eat_cons, eat_nil, Option.bind_some]
    have h5 := h3 xs
    simp only [List.append_assoc, List.cons_append, List.nil_append] at h5
    simp only [h5, Option.bind_some, eat_append]

/-- Every arm for characters has a character (`src/lower/mod.rs:306`). -/
def RItem.ArmsOk : RItem → Prop
  | .enum _ _ _ arms _ _ => ∀ a ∈ arms, a.1 ≠ []
  | _ => True

theorem readItem_ok (doc : List Char → List Char) (i : RItem) (hi : i.ArmsOk) : TokReads (fun rest => rest.head? ≠ some (.id "impl")) readItem (i.toks doc) i := by
  have hp : ∀ l, eat R.pubType (.op "#" :: l) = none := fun l => eat_ne (by decide) _ _
  have hd : ∀ l, eat R.doc (R.derive ++ l) = none := by
    intro l
    rw [R.doc, R.derive, List.cons_append, List.cons_append, eat_cons, eat_cons]
    exact eat_ne (by decide) _ _
  have hp' : ∀ l, eat R.pubType (R.derive ++ l) = none := fun l => hp _
  have hs : ∀ l, eat R.pubEnum (R.pubStruct ++ l) = none := by
    intro l
    rw [R.pubEnum, R.pubStruct, List.cons_append, eat_cons]
    exact eat_ne (by decide) _ _
  have hb : ∀ l, eat [.opn '{'] ([.opn '('] ++ l) = none := fun l => eat_ne (by decide) _ _
  intro rest h
  cases i with
  | unit n text consume c =>
    simp only [RItem.toks, litToks, Q.doc_eq, Q.docEnd_eq, Q.derive_eq, Q.pubStruct_eq, List.append_assoc, readItem]
    rw [show eat R.pubType (R.doc ++ _) = none from hp _]
    simp only [eat_append, List.singleton_append, readStr_cons, Option.bind_eq_bind, Option.bind_some]
    rw [← List.append_assoc R.derive, eat_two]
    simp only [Option.bind_some, readId_cons]
    have := readUnit_ok n text consume c rest h
    simp only [List.append_assoc, List.singleton_append] at this
    exact this
  | named n fields shown lets build =>
    simp only [RItem.toks, namedToks, Q.derive_eq, Q.pubStruct_eq, List.append_assoc, readItem, hp', hd, eat_append, hs, Option.bind_eq_bind, Option.bind_some]
    rw [List.singleton_append (x := RTok.id n)]
    simp only [readId_cons, Option.bind_some, eat_append]
    have := readNamed_ok n fields shown lets build rest
    simp only [List.append_assoc] at this
    exact this
  | tuple n fields shown lets build =>
    simp only [RItem.toks, tupleToks, Q.derive_eq, Q.pubStruct_eq, List.append_assoc, readItem, hp', hd, eat_append, hs, Option.bind_eq_bind, Option.bind_some]
    rw [List.singleton_append (x := RTok.id n)]
    simp only [readId_cons, Option.bind_some, hb, eat_append]
    have := readTuple_ok n fields shown lets build rest
    simp only [List.append_assoc] at this
    exact this
  | enum n variants shown arms other chars =>
    simp only [RItem.toks, enumToks, Q.derive_eq, Q.pubEnum_eq, List.append_assoc, readItem, hp', hd, eat_append, Option.bind_eq_bind, Option.bind_some]
    rw [List.singleton_append (x := RTok.id n)]
    simp only [readId_cons, Option.bind_some, eat_append]
    have := readEnum_ok n variants shown arms other chars hi rest h
    simp only [List.append_assoc] at this
    exact this
  | alias n t =>
    simp only [RItem.toks, aliasToks, Q.pubType_eq, List.append_assoc, readItem, eat_append, readAlias, Option.bind_eq_bind]
    rw [List.singleton_append (x := RTok.id n)]
    simp only [readId_cons, Option.bind_some, eat_append]
    rw [readTy_len t (by simp)]
    simp only [Option.bind_some, eat_append]

/-! ## Programs -/

theorem RItem.toks_head (doc : List Char → List Char) (i : RItem) : (i.toks doc).head? = some (.op "#") ∨ (i.toks doc).head? = some (.id "pub") := by
  cases i <;> simp [RItem.toks, litToks, namedToks, tupleToks, enumToks, aliasToks, Q.doc, Q.derive, Q.pubType]

theorem RItem.toks_ne (doc : List Char → List Char) (i : RItem) : i.toks doc ≠ [] := by
  intro h
  have := i.toks_head doc
  rw [h] at this
  simp at this

theorem readItems_ok (doc : List Char → List Char) : ∀ (p : RProg) (n : Nat), (∀ i ∈ p, i.ArmsOk) → p.length ≤ n →
    readItems n (manyToks (p.map (RItem.toks doc))) = some p
  | [], n, _, _ => by cases n <;> rfl
  | i :: p, 0, _, h => by simp at h
  | i :: p, n + 1, hi, hn => by
    have ih := readItems_ok doc p n (fun j hj => hi j (List.mem_cons_of_mem _ hj)) (by simpa using hn)
    have h1 := readItem_ok doc i (hi i (by simp)) (manyToks (p.map (RItem.toks doc))) (by
      cases p with
      | nil => simp [manyToks]
      | cons j p =>
        have h2 := j.toks_head doc
        cases h3 : j.toks doc with
        | nil => exact absurd h3 (j.toks_ne doc)
        | cons t u =>
          rw [h3] at h2
          simp only [List.map_cons, manyToks, h3, List.cons_append, List.head?_cons] at h2 ⊢
          rcases h2 with h2 | h2 <;> rw [h2] <;> decide)
    simp only [List.map_cons, manyToks]
    cases h4 : i.toks doc ++ manyToks (p.map (RItem.toks doc)) with
    | nil => exact absurd (List.append_eq_nil_iff.1 h4).1 (i.toks_ne doc)
    | cons t u =>
      rw [h4] at h1
      simp only [readItems, h1, Option.bind_eq_bind, Option.bind_some, ih]

theorem readProgram_ok (doc : List Char → List Char) (p : RProg) (h : ∀ i ∈ p, i.ArmsOk) : readProgram (p.toks doc) = some p := by
  unfold readProgram RProg.toks
  rw [Q.use_eq, eat_append]
  simp only [Option.bind_eq_bind, Option.bind_some]
  refine readItems_ok doc p _ h ?_
  have := manyToks_length (p.map (RItem.toks doc)) (by
    intro x hx
    obtain ⟨i, _, rfl⟩ := List.mem_map.1 hx
    exact i.toks_ne doc)
  simpa using this

end Chomp
