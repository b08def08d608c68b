import Verif.Lower.TokenLemmas

/-! # Nothing else can be read -/

namespace Chomp

theorem eat_inv : ∀ {p ts r : List RTok}, eat p ts = some r → ts = p ++ r
  | [], ts, r, h => by
    rw [eat_nil] at h
    cases h; rfl
  | a :: p, [], r, h => by cases h
  | a :: p, b :: ts, r, h => by
    simp only [eat] at h
    split at h
    · rename_i hab
      rw [hab, eat_inv h]
      rfl
    · cases h

theorem readId_inv {ts r : List RTok} {x : String} (h : readId ts = some (x, r)) : ts = [.id x] ++ r := by
  unfold readId at h
  split at h
  · cases h; rfl
  · cases h

theorem readStr_inv {ts r : List RTok} {x : List Char} (h : readStr ts = some (x, r)) : ts = [.str x] ++ r := by
  unfold readStr at h
  split at h
  · cases h; rfl
  · cases h

theorem readChr_inv {ts r : List RTok} {x : Char} (h : readChr ts = some (x, r)) : ts = [.chr x] ++ r := by
  unfold readChr at h
  split at h
  · cases h; rfl
  · cases h

theorem readInt_inv {ts r : List RTok} {x : Nat} (h : readInt ts = some (x, r)) : ts = [.int x] ++ r := by
  unfold readInt at h
  split at h
  · cases h; rfl
  · cases h

/-- Whatever `r` reads as `a` is `pr a`. -/
def Only {α : Type} (r : List RTok → Option (α × List RTok)) (pr : α → List RTok) : Prop :=
  ∀ {ts rest : List RTok} {a : α}, r ts = some (a, rest) → ts = pr a ++ rest

theorem readMore_inv {α : Type} {r : List RTok → Option (α × List RTok)} {sep stop : RTok} {pr : α → List RTok} (hr : Only r pr) :
    ∀ {n : Nat} {ts rest : List RTok} {l : List α}, readMore r sep stop n ts = some (l, rest) →
      l ≠ [] ∧ ts = sepToks sep (l.map pr) ++ ([stop] ++ rest)
  | 0, _, _, _, h => by cases h
  | n + 1, ts, rest, l, h => by
    simp only [readMore, Option.bind_eq_bind] at h
    obtain ⟨⟨a, t1⟩, h1, h⟩ := Option.bind_eq_some_iff.1 h
    dsimp only at h
    cases h2 : eat [sep] t1 with
    | some t2 =>
      simp only [h2] at h
      obtain ⟨⟨l', t3⟩, h3, h⟩ := Option.bind_eq_some_iff.1 h
      try dsimp only at h
      cases h
      obtain ⟨h4, h5⟩ := readMore_inv hr h3
      refine ⟨by simp, ?_⟩
      rw [hr h1, eat_inv h2, h5]
      cases l' with
      | nil => exact absurd rfl h4
      | cons b l' => simp [sepToks]
    | none =>
      simp only [h2] at h
      obtain ⟨t3, h3, h⟩ := Option.bind_eq_some_iff.1 h
      cases h
      refine ⟨by simp, ?_⟩
      rw [hr h1, eat_inv h3]
      simp [sepToks]

theorem readSep_inv {α : Type} {r : List RTok → Option (α × List RTok)} {sep stop : RTok} {pr : α → List RTok} (hr : Only r pr)
    {ts rest : List RTok} {l : List α} (h : readSep r sep stop ts = some (l, rest)) : ts = sepToks sep (l.map pr) ++ ([stop] ++ rest) := by
  unfold readSep at h
  cases h1 : eat [stop] ts with
  | some t =>
    simp only [h1] at h
    cases h
    rw [eat_inv h1]
    rfl
  | none =>
    simp only [h1] at h
    exact (readMore_inv hr h).2

theorem readSep_ne {α : Type} {r : List RTok → Option (α × List RTok)} {sep stop : RTok} {pr : α → List RTok} (hr : Only r pr)
    {ts rest : List RTok} {l : List α} (h0 : eat [stop] ts = none) (h : readSep r sep stop ts = some (l, rest)) : l ≠ [] := by
  unfold readSep at h
  simp only [h0] at h
  exact (readMore_inv hr h).1

theorem readWhile_inv {α : Type} {start : List RTok} {r : List RTok → Option (α × List RTok)} {pr : α → List RTok} (hr : Only r pr) :
    ∀ {n : Nat} {ts rest : List RTok} {l : List α}, readWhile start r n ts = some (l, rest) →
      ts = manyToks (l.map fun a => start ++ pr a) ++ rest
  | 0, _, _, _, h => by cases h
  | n + 1, ts, rest, l, h => by
    simp only [readWhile] at h
    cases h1 : eat start ts with
    | none =>
      simp only [h1] at h
      cases h
      rfl
    | some t1 =>
      simp only [h1, Option.bind_eq_bind] at h
      obtain ⟨⟨a, t2⟩, h2, h⟩ := Option.bind_eq_some_iff.1 h
      try dsimp only at h
      obtain ⟨⟨l', t3⟩, h3, h⟩ := Option.bind_eq_some_iff.1 h
      try dsimp only at h
      cases h
      rw [eat_inv h1, hr h2, readWhile_inv hr h3]
      simp [manyToks]

theorem readTy_inv : ∀ {n : Nat} {ts rest : List RTok} {t : RTy}, readTy n ts = some (t, rest) → ts = t.toks ++ rest
  | 0, _, _, _, h => by cases h
  | n + 1, ts, rest, t, h => by
    simp only [readTy] at h
    cases h1 : eat [.id "Box", .op "<"] ts with
    | some t1 =>
      simp only [h1, Option.bind_eq_bind] at h
      obtain ⟨⟨a, t2⟩, h2, h⟩ := Option.bind_eq_some_iff.1 h
      try dsimp only at h
      obtain ⟨t3, h3, h⟩ := Option.bind_eq_some_iff.1 h
      cases h
      rw [eat_inv h1, readTy_inv h2, eat_inv h3]
      simp [RTy.toks]
    | none =>
      simp only [h1, Option.bind_eq_bind] at h
      obtain ⟨⟨a, t2⟩, h2, h⟩ := Option.bind_eq_some_iff.1 h
      try dsimp only at h
      cases h
      rw [readId_inv h2]
      rfl

/-! ## Parts of items -/

theorem readField_inv : Only readField fun f => [.id "pub"] ++ [.id f.1] ++ [.op ":"] ++ f.2.toks := by
  intro ts rest a h
  simp only [readField, Option.bind_eq_bind] at h
  obtain ⟨t1, h1, h⟩ := Option.bind_eq_some_iff.1 h
  obtain ⟨⟨x, t2⟩, h2, h⟩ := Option.bind_eq_some_iff.1 h
  try dsimp only at h
  obtain ⟨t3, h3, h⟩ := Option.bind_eq_some_iff.1 h
  obtain ⟨⟨t, t4⟩, h4, h⟩ := Option.bind_eq_some_iff.1 h
  try dsimp only at h
  cases h
  rw [eat_inv h1, readId_inv h2, eat_inv h3, readTy_inv h4]
  simp

theorem readIndexed_inv : Only readIndexed fun f => [.id "pub"] ++ f.toks := by
  intro ts rest a h
  simp only [readIndexed, Option.bind_eq_bind] at h
  obtain ⟨t1, h1, h⟩ := Option.bind_eq_some_iff.1 h
  rw [eat_inv h1, readTy_inv h]
  simp

theorem readVariant_inv : Only readVariant fun f => [.id f.1] ++ [.opn '('] ++ f.2.toks ++ [.cls ')'] := by
  intro ts rest a h
  simp only [readVariant, Option.bind_eq_bind] at h
  obtain ⟨⟨x, t1⟩, h1, h⟩ := Option.bind_eq_some_iff.1 h
  try dsimp only at h
  obtain ⟨t2, h2, h⟩ := Option.bind_eq_some_iff.1 h
  obtain ⟨⟨t, t3⟩, h3, h⟩ := Option.bind_eq_some_iff.1 h
  try dsimp only at h
  obtain ⟨t4, h4, h⟩ := Option.bind_eq_some_iff.1 h
  cases h
  rw [readId_inv h1, eat_inv h2, readTy_inv h3, eat_inv h4]
  simp

theorem eatDisplay_inv {name : String} {ts r : List RTok} (h : eatDisplay name ts = some r) : ts = R.implDisplay ++ [.id name] ++ R.fnFmt ++ r := by
  simp only [eatDisplay, Option.bind_eq_bind] at h
  obtain ⟨t1, h1, h⟩ := Option.bind_eq_some_iff.1 h
  obtain ⟨t2, h2, h⟩ := Option.bind_eq_some_iff.1 h
  rw [eat_inv h1, eat_inv h2, eat_inv h]
  simp

theorem eatParse_inv {name : String} {ts r : List RTok} (h : eatParse name ts = some r) : ts = R.implParse ++ [.id name] ++ R.fnTake ++ r := by
  simp only [eatParse, Option.bind_eq_bind] at h
  obtain ⟨t1, h1, h⟩ := Option.bind_eq_some_iff.1 h
  obtain ⟨t2, h2, h⟩ := Option.bind_eq_some_iff.1 h
  rw [eat_inv h1, eat_inv h2, eat_inv h]
  simp

theorem readLet_inv : Only readLet fun x => [.id x] ++ R.take := by
  intro ts rest a h
  simp only [readLet, Option.bind_eq_bind] at h
  obtain ⟨⟨x, t1⟩, h1, h⟩ := Option.bind_eq_some_iff.1 h
  try dsimp only at h
  obtain ⟨t2, h2, h⟩ := Option.bind_eq_some_iff.1 h
  cases h
  rw [readId_inv h1, eat_inv h2]
  simp

theorem readShown_inv : Only readShown fun x => [.id x] ++ R.dotFmt := by
  intro ts rest a h
  simp only [readShown, Option.bind_eq_bind] at h
  obtain ⟨⟨x, t1⟩, h1, h⟩ := Option.bind_eq_some_iff.1 h
  try dsimp only at h
  obtain ⟨t2, h2, h⟩ := Option.bind_eq_some_iff.1 h
  cases h
  rw [readId_inv h1, eat_inv h2]
  simp

theorem readShownIdx_inv : Only readShownIdx fun x => [.int x] ++ R.dotFmt := by
  intro ts rest a h
  simp only [readShownIdx, Option.bind_eq_bind] at h
  obtain ⟨⟨x, t1⟩, h1, h⟩ := Option.bind_eq_some_iff.1 h
  try dsimp only at h
  obtain ⟨t2, h2, h⟩ := Option.bind_eq_some_iff.1 h
  cases h
  rw [readInt_inv h1, eat_inv h2]
  simp

theorem readBuild_inv : Only readBuild fun b => [.id b.1] ++ [.op ":"] ++ [.id b.2] := by
  intro ts rest a h
  simp only [readBuild, Option.bind_eq_bind] at h
  obtain ⟨⟨x, t1⟩, h1, h⟩ := Option.bind_eq_some_iff.1 h
  try dsimp only at h
  obtain ⟨t2, h2, h⟩ := Option.bind_eq_some_iff.1 h
  obtain ⟨⟨y, t3⟩, h3, h⟩ := Option.bind_eq_some_iff.1 h
  try dsimp only at h
  cases h
  rw [readId_inv h1, eat_inv h2, readId_inv h3]
  simp

theorem readFmtArm_inv : Only readFmtArm fun x => R.selfPath ++ [.id x] ++ R.innerFmt := by
  intro ts rest a h
  simp only [readFmtArm, Option.bind_eq_bind] at h
  obtain ⟨t1, h1, h⟩ := Option.bind_eq_some_iff.1 h
  obtain ⟨⟨x, t2⟩, h2, h⟩ := Option.bind_eq_some_iff.1 h
  try dsimp only at h
  obtain ⟨t3, h3, h⟩ := Option.bind_eq_some_iff.1 h
  cases h
  rw [eat_inv h1, readId_inv h2, eat_inv h3]
  simp

theorem readIntoArm_inv (name : String) : Only (readIntoArm name) fun x => [.id name] ++ [.op "::"] ++ [.id x] ++ R.innerInto := by
  intro ts rest a h
  simp only [readIntoArm, Option.bind_eq_bind] at h
  obtain ⟨t0, h0, h⟩ := Option.bind_eq_some_iff.1 h
  obtain ⟨t1, h1, h⟩ := Option.bind_eq_some_iff.1 h
  obtain ⟨⟨x, t2⟩, h2, h⟩ := Option.bind_eq_some_iff.1 h
  try dsimp only at h
  obtain ⟨t3, h3, h⟩ := Option.bind_eq_some_iff.1 h
  cases h
  rw [eat_inv h0, eat_inv h1, readId_inv h2, eat_inv h3]
  simp

theorem readSome_inv : Only readSome fun c => [.id "Some"] ++ [.opn '('] ++ [.chr c] ++ [.cls ')'] := by
  intro ts rest a h
  simp only [readSome, Option.bind_eq_bind] at h
  obtain ⟨t1, h1, h⟩ := Option.bind_eq_some_iff.1 h
  obtain ⟨⟨x, t2⟩, h2, h⟩ := Option.bind_eq_some_iff.1 h
  try dsimp only at h
  obtain ⟨t3, h3, h⟩ := Option.bind_eq_some_iff.1 h
  cases h
  rw [eat_inv h1, readChr_inv h2, eat_inv h3]
  simp

theorem readTake_inv : Only readTake fun x => [.id "Ok"] ++ [.opn '('] ++ R.selfPath ++ [.id x] ++ R.armTake := by
  intro ts rest a h
  simp only [readTake, Option.bind_eq_bind] at h
  obtain ⟨t1, h1, h⟩ := Option.bind_eq_some_iff.1 h
  obtain ⟨⟨x, t2⟩, h2, h⟩ := Option.bind_eq_some_iff.1 h
  try dsimp only at h
  obtain ⟨t3, h3, h⟩ := Option.bind_eq_some_iff.1 h
  cases h
  rw [eat_inv h1, readId_inv h2, eat_inv h3]
  simp

theorem readArms_inv : ∀ {n : Nat} {ts rest : List RTok} {arms : List (List Char × String)} {other : ROther},
    readArms n ts = some ((arms, other), rest) → ts = armToks arms ++ (otherToks other ++ ([.cls '}'] ++ rest))
  | 0, _, _, _, _, h => by cases h
  | n + 1, ts, rest, arms, other, h => by
    simp only [readArms] at h
    cases h1 : eat [.id "_", .op "=>"] ts with
    | some t1 =>
      simp only [h1, Option.bind_eq_bind] at h
      obtain ⟨⟨x, t2⟩, h2, h⟩ := Option.bind_eq_some_iff.1 h
      try dsimp only at h
      obtain ⟨t3, h3, h⟩ := Option.bind_eq_some_iff.1 h
      cases h
      rw [eat_inv h1, readTake_inv h2, eat_inv h3]
      simp [armToks, manyToks, otherToks, Q.armOk, Q.armTake, R.armTake, R.selfPath]
    | none =>
      simp only [h1] at h
      cases h2 : eat R.badBranch ts with
      | some t1 =>
        simp only [h2, Option.bind_eq_bind] at h
        obtain ⟨⟨l, t2⟩, h3, h⟩ := Option.bind_eq_some_iff.1 h
        try dsimp only at h
        obtain ⟨t3, h4, h⟩ := Option.bind_eq_some_iff.1 h
        obtain ⟨t4, h5, h⟩ := Option.bind_eq_some_iff.1 h
        cases h
        rw [eat_inv h2, readSep_inv (pr := fun c => [.chr c]) readChr_inv h3, eat_inv h4, eat_inv h5]
        simp [armToks, manyToks, otherToks, Q.badBranch, Q.endOfStream, R.badBranch, R.endOfStream]
      | none =>
        simp only [h2, Option.bind_eq_bind] at h
        obtain ⟨⟨fs, t2⟩, h3, h⟩ := Option.bind_eq_some_iff.1 h
        try dsimp only at h
        obtain ⟨⟨x, t3⟩, h4, h⟩ := Option.bind_eq_some_iff.1 h
        try dsimp only at h
        obtain ⟨⟨⟨l, o⟩, t4⟩, h5, h⟩ := Option.bind_eq_some_iff.1 h
        try dsimp only at h
        cases h
        rw [readSep_inv readSome_inv h3, readTake_inv h4, readArms_inv h5]
        simp [armToks, someToks, manyToks, Q.armOk, Q.armTake, R.armTake, R.selfPath]

/-! ## Items -/

theorem readUnit_inv {name : String} {ts rest : List RTok} {i : RItem} (h : readUnit name ts = some (i, rest)) :
    ∀ d, Q.doc ++ [.str d] ++ Q.docEnd ++ Q.derive ++ Q.pubStruct ++ [.id name] ++ ts = i.toks (fun _ => d) ++ rest := by
  intro d
  simp only [readUnit, Option.bind_eq_bind] at h
  obtain ⟨t1, h1, h⟩ := Option.bind_eq_some_iff.1 h
  obtain ⟨t2, h2, h⟩ := Option.bind_eq_some_iff.1 h
  obtain ⟨t3, h3, h⟩ := Option.bind_eq_some_iff.1 h
  obtain ⟨⟨text, t4⟩, h4, h⟩ := Option.bind_eq_some_iff.1 h
  try dsimp only at h
  obtain ⟨t5, h5, h⟩ := Option.bind_eq_some_iff.1 h
  obtain ⟨t6, h6, h⟩ := Option.bind_eq_some_iff.1 h
  obtain ⟨t7, h7, h⟩ := Option.bind_eq_some_iff.1 h
  obtain ⟨⟨consume, t8⟩, h8, h⟩ := Option.bind_eq_some_iff.1 h
  try dsimp only at h
  obtain ⟨t9, h9, h⟩ := Option.bind_eq_some_iff.1 h
  obtain ⟨t10, h10, h⟩ := Option.bind_eq_some_iff.1 h
  obtain ⟨t11, h11, h⟩ := Option.bind_eq_some_iff.1 h
  rw [eat_inv h1, eatDisplay_inv h2, eat_inv h3, readStr_inv h4, eat_inv h5, eatParse_inv h6, eat_inv h7, readStr_inv h8, eat_inv h9,
    eat_inv h10, eat_inv h11]
  cases h12 : eat R.fromOpen t11 with
  | none =>
    simp only [h12] at h
    cases h
    simp [RItem.toks, litToks, displayToks, parseToks, Q.implDisplay_eq, Q.fnFmt_eq, Q.implParse_eq, Q.fnTake_eq, Q.write_eq, Q.consume_eq,
      Q.mapUnit_eq, Q.close_eq]
  | some t12 =>
    simp only [h12] at h
    obtain ⟨t13, h13, h⟩ := Option.bind_eq_some_iff.1 h
    obtain ⟨t14, h14, h⟩ := Option.bind_eq_some_iff.1 h
    obtain ⟨t15, h15, h⟩ := Option.bind_eq_some_iff.1 h
    obtain ⟨t16, h16, h⟩ := Option.bind_eq_some_iff.1 h
    obtain ⟨⟨c, t17⟩, h17, h⟩ := Option.bind_eq_some_iff.1 h
    try dsimp only at h
    obtain ⟨t18, h18, h⟩ := Option.bind_eq_some_iff.1 h
    cases h
    rw [eat_inv h12, eat_inv h13, eat_inv h14, eat_inv h15, eat_inv h16, readChr_inv h17, eat_inv h18]
    simp [RItem.toks, litToks, displayToks, parseToks, Q.implDisplay_eq, Q.fnFmt_eq, Q.implParse_eq, Q.fnTake_eq, Q.write_eq, Q.consume_eq,
      Q.mapUnit_eq, Q.close_eq, Q.fromOpen_eq, Q.fromLit_eq, Q.toSelf_eq]

theorem readNamed_inv {name : String} {ts rest : List RTok} {i : RItem} (h : readNamed name ts = some (i, rest)) (doc : List Char → List Char) :
    Q.derive ++ Q.pubStruct ++ [.id name] ++ [.opn '{'] ++ ts = i.toks doc ++ rest := by
  simp only [readNamed, Option.bind_eq_bind] at h
  obtain ⟨⟨fields, t1⟩, h1, h⟩ := Option.bind_eq_some_iff.1 h
  try dsimp only at h
  obtain ⟨t2, h2, h⟩ := Option.bind_eq_some_iff.1 h
  obtain ⟨⟨shown, t3⟩, h3, h⟩ := Option.bind_eq_some_iff.1 h
  try dsimp only at h
  obtain ⟨t4, h4, h⟩ := Option.bind_eq_some_iff.1 h
  obtain ⟨t5, h5, h⟩ := Option.bind_eq_some_iff.1 h
  obtain ⟨⟨lets, t6⟩, h6, h⟩ := Option.bind_eq_some_iff.1 h
  try dsimp only at h
  obtain ⟨t7, h7, h⟩ := Option.bind_eq_some_iff.1 h
  obtain ⟨⟨build, t8⟩, h8, h⟩ := Option.bind_eq_some_iff.1 h
  try dsimp only at h
  obtain ⟨t9, h9, h⟩ := Option.bind_eq_some_iff.1 h
  cases h
  rw [readSep_inv readField_inv h1, eatDisplay_inv h2, readWhile_inv readShown_inv h3, eat_inv h4, eatParse_inv h5, readWhile_inv readLet_inv h6,
    eat_inv h7, readSep_inv readBuild_inv h8, eat_inv h9]
  simp [RItem.toks, namedToks, displayToks, parseToks, letToks, Q.implDisplay_eq, Q.fnFmt_eq, Q.implParse_eq, Q.fnTake_eq, Q.selfDot_eq,
    Q.dotFmt_eq, Q.okUnit_eq, Q.let__eq, Q.take_eq, Q.okNamed_eq, Q.close_eq, Function.comp_def]

theorem readTuple_inv {name : String} {ts rest : List RTok} {i : RItem} (h : readTuple name ts = some (i, rest)) (doc : List Char → List Char) :
    Q.derive ++ Q.pubStruct ++ [.id name] ++ [.opn '('] ++ ts = i.toks doc ++ rest := by
  simp only [readTuple, Option.bind_eq_bind] at h
  obtain ⟨⟨fields, t1⟩, h1, h⟩ := Option.bind_eq_some_iff.1 h
  try dsimp only at h
  obtain ⟨t0, h0, h⟩ := Option.bind_eq_some_iff.1 h
  obtain ⟨t2, h2, h⟩ := Option.bind_eq_some_iff.1 h
  obtain ⟨⟨shown, t3⟩, h3, h⟩ := Option.bind_eq_some_iff.1 h
  try dsimp only at h
  obtain ⟨t4, h4, h⟩ := Option.bind_eq_some_iff.1 h
  obtain ⟨t5, h5, h⟩ := Option.bind_eq_some_iff.1 h
  obtain ⟨⟨lets, t6⟩, h6, h⟩ := Option.bind_eq_some_iff.1 h
  try dsimp only at h
  obtain ⟨t7, h7, h⟩ := Option.bind_eq_some_iff.1 h
  obtain ⟨⟨build, t8⟩, h8, h⟩ := Option.bind_eq_some_iff.1 h
  try dsimp only at h
  obtain ⟨t9, h9, h⟩ := Option.bind_eq_some_iff.1 h
  cases h
  rw [readSep_inv readIndexed_inv h1, eat_inv h0, eatDisplay_inv h2, readWhile_inv readShownIdx_inv h3, eat_inv h4, eatParse_inv h5,
    readWhile_inv readLet_inv h6, eat_inv h7, readSep_inv (pr := fun b => [.id b]) readId_inv h8, eat_inv h9]
  simp [RItem.toks, tupleToks, displayToks, parseToks, letToks, Q.implDisplay_eq, Q.fnFmt_eq, Q.implParse_eq, Q.fnTake_eq, Q.selfDot_eq,
    Q.dotFmt_eq, Q.okUnit_eq, Q.let__eq, Q.take_eq, Q.okTuple_eq, Q.close_eq, Function.comp_def]

theorem readEnum_inv {name : String} {ts rest : List RTok} {i : RItem} (h : readEnum name ts = some (i, rest)) (doc : List Char → List Char) :
    Q.derive ++ Q.pubEnum ++ [.id name] ++ [.opn '{'] ++ ts = i.toks doc ++ rest := by
  simp only [readEnum, Option.bind_eq_bind] at h
  obtain ⟨⟨variants, t1⟩, h1, h⟩ := Option.bind_eq_some_iff.1 h
  try dsimp only at h
  obtain ⟨t2, h2, h⟩ := Option.bind_eq_some_iff.1 h
  obtain ⟨t3, h3, h⟩ := Option.bind_eq_some_iff.1 h
  obtain ⟨⟨shown, t4⟩, h4, h⟩ := Option.bind_eq_some_iff.1 h
  try dsimp only at h
  obtain ⟨t5, h5, h⟩ := Option.bind_eq_some_iff.1 h
  obtain ⟨t6, h6, h⟩ := Option.bind_eq_some_iff.1 h
  obtain ⟨t7, h7, h⟩ := Option.bind_eq_some_iff.1 h
  obtain ⟨⟨⟨arms, other⟩, t8⟩, h8, h⟩ := Option.bind_eq_some_iff.1 h
  try dsimp only at h
  obtain ⟨t9, h9, h⟩ := Option.bind_eq_some_iff.1 h
  rw [readSep_inv readVariant_inv h1, eatDisplay_inv h2, eat_inv h3, readSep_inv readFmtArm_inv h4, eat_inv h5, eatParse_inv h6, eat_inv h7,
    readArms_inv h8, eat_inv h9]
  cases h10 : eat R.fromOpen t9 with
  | none =>
    simp only [h10] at h
    cases h
    simp [RItem.toks, enumToks, displayToks, parseToks, Q.implDisplay_eq, Q.fnFmt_eq, Q.implParse_eq, Q.fnTake_eq, Q.matchSelf_eq,
      Q.selfPath_eq, Q.innerFmt_eq, Q.matchPeek_eq, Q.close_eq, Function.comp_def]
  | some t10 =>
    simp only [h10] at h
    obtain ⟨t11, h11, h⟩ := Option.bind_eq_some_iff.1 h
    obtain ⟨t12, h12, h⟩ := Option.bind_eq_some_iff.1 h
    obtain ⟨t13, h13, h⟩ := Option.bind_eq_some_iff.1 h
    obtain ⟨t14, h14, h⟩ := Option.bind_eq_some_iff.1 h
    obtain ⟨t15, h15, h⟩ := Option.bind_eq_some_iff.1 h
    obtain ⟨⟨xs, t16⟩, h16, h⟩ := Option.bind_eq_some_iff.1 h
    try dsimp only at h
    obtain ⟨t17, h17, h⟩ := Option.bind_eq_some_iff.1 h
    cases h
    rw [eat_inv h10, eat_inv h11, eat_inv h12, eat_inv h13, eat_inv h14, eat_inv h15, readSep_inv (readIntoArm_inv name) h16, eat_inv h17]
    simp [RItem.toks, enumToks, displayToks, parseToks, Q.implDisplay_eq, Q.fnFmt_eq, Q.implParse_eq, Q.fnTake_eq, Q.matchSelf_eq,
      Q.selfPath_eq, Q.innerFmt_eq, Q.matchPeek_eq, Q.close_eq, Q.fromOpen_eq, Q.fromAlt_eq, Q.toSelf_eq, Q.matchAlt_eq, Q.innerInto_eq,
      Function.comp_def]

theorem readAlias_inv {ts rest : List RTok} {i : RItem} (h : readAlias ts = some (i, rest)) (doc : List Char → List Char) :
    Q.pubType ++ ts = i.toks doc ++ rest := by
  simp only [readAlias, Option.bind_eq_bind] at h
  obtain ⟨⟨name, t1⟩, h1, h⟩ := Option.bind_eq_some_iff.1 h
  try dsimp only at h
  obtain ⟨t2, h2, h⟩ := Option.bind_eq_some_iff.1 h
  obtain ⟨⟨t, t3⟩, h3, h⟩ := Option.bind_eq_some_iff.1 h
  try dsimp only at h
  obtain ⟨t4, h4, h⟩ := Option.bind_eq_some_iff.1 h
  cases h
  rw [readId_inv h1, eat_inv h2, readTy_inv h3, eat_inv h4]
  simp [RItem.toks, aliasToks]

theorem readItem_inv {ts rest : List RTok} {i : RItem} (h : readItem ts = some (i, rest)) : ∃ d, ts = i.toks (fun _ => d) ++ rest := by
  unfold readItem at h
  cases h1 : eat R.pubType ts with
  | some t1 =>
    simp only [h1] at h
    refine ⟨[], ?_⟩
    rw [eat_inv h1, ← Q.pubType_eq]
    exact readAlias_inv h _
  | none =>
    simp only [h1] at h
    cases h2 : eat R.doc ts with
    | some t2 =>
      simp only [h2, Option.bind_eq_bind] at h
      obtain ⟨⟨d, t3⟩, h3, h⟩ := Option.bind_eq_some_iff.1 h
      try dsimp only at h
      obtain ⟨t4, h4, h⟩ := Option.bind_eq_some_iff.1 h
      obtain ⟨⟨name, t5⟩, h5, h⟩ := Option.bind_eq_some_iff.1 h
      try dsimp only at h
      refine ⟨d, ?_⟩
      rw [eat_inv h2, readStr_inv h3, eat_inv h4, readId_inv h5, ← readUnit_inv h d]
      simp [Q.doc_eq, Q.docEnd_eq, Q.derive_eq, Q.pubStruct_eq]
    | none =>
      simp only [h2, Option.bind_eq_bind] at h
      obtain ⟨t3, h3, h⟩ := Option.bind_eq_some_iff.1 h
      refine ⟨[], ?_⟩
      rw [eat_inv h3]
      cases h4 : eat R.pubEnum t3 with
      | some t4 =>
        simp only [h4] at h
        obtain ⟨⟨name, t5⟩, h5, h⟩ := Option.bind_eq_some_iff.1 h
        try dsimp only at h
        obtain ⟨t6, h6, h⟩ := Option.bind_eq_some_iff.1 h
        rw [eat_inv h4, readId_inv h5, eat_inv h6, ← readEnum_inv h]
        simp [Q.derive_eq, Q.pubEnum_eq]
      | none =>
        simp only [h4] at h
        obtain ⟨t5, h5, h⟩ := Option.bind_eq_some_iff.1 h
        obtain ⟨⟨name, t6⟩, h6, h⟩ := Option.bind_eq_some_iff.1 h
        dsimp only at h
        rw [eat_inv h5, readId_inv h6]
        cases h7 : eat [.opn '{'] t6 with
        | some t7 =>
          simp only [h7] at h
          rw [eat_inv h7, ← readNamed_inv h]
          simp [Q.derive_eq, Q.pubStruct_eq]
        | none =>
          simp only [h7] at h
          obtain ⟨t7, h8, h⟩ := Option.bind_eq_some_iff.1 h
          rw [eat_inv h8, ← readTuple_inv h]
          simp [Q.derive_eq, Q.pubStruct_eq]

/-- The tokens of a program whose items have the given doc comments. -/
def docToks : RProg → List (List Char) → List RTok
  | i :: p, d :: ds => i.toks (fun _ => d) ++ docToks p ds
  | _, _ => []

theorem readItems_inv : ∀ {n : Nat} {ts : List RTok} {p : RProg}, readItems n ts = some p → ∃ ds, ds.length = p.length ∧ ts = docToks p ds
  | 0, [], p, h => by cases h; exact ⟨[], rfl, rfl⟩
  | n + 1, [], p, h => by cases h; exact ⟨[], rfl, rfl⟩
  | 0, _ :: _, p, h => by cases h
  | n + 1, t :: ts, p, h => by
    simp only [readItems, Option.bind_eq_bind] at h
    obtain ⟨⟨i, t1⟩, h1, h⟩ := Option.bind_eq_some_iff.1 h
    try dsimp only at h
    obtain ⟨l, h2, h⟩ := Option.bind_eq_some_iff.1 h
    cases h
    obtain ⟨d, h3⟩ := readItem_inv h1
    obtain ⟨ds, h4, h5⟩ := readItems_inv h2
    exact ⟨d :: ds, by simp [h4], by rw [h3, h5]; rfl⟩

end Chomp
