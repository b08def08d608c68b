import Verif.Lower.TokenBackend
import Verif.Lower.RustTable
import Verif.Lower.Reach

/-! # The two models of the backend agree -/

namespace Chomp

/-- The type written for an entry. -/
def BState.entryTy (s : BState) (e : Entry) : RTy :=
  match e.node with
  | .box f =>
    match s.data[f]? with
    | none => .boxed (.path "")
    | some e' => .boxed (.path e'.name)
  | _ => .path e.name

theorem BState.rty_entryTy {s : BState} {i : Nat} {e : Entry} (h : s.data[i]? = some e) : s.rty i = s.entryTy e := by
  simp only [BState.rty, BState.entryTy, h]
  cases e.node <;> rfl

/-- The tokens of an entry. -/
def BState.tty (doc : List Char → List Char) (s : BState) (e : Entry) : TTy :=
  ⟨(s.entryTy e).toks,
    match s.item e with
    | some i => i.toks doc
    | none => [],
    e.deps⟩

/-- The table of tokens. -/
def BState.render (doc : List Char → List Char) (s : BState) : TBackend where
  data := s.data.map (s.tty doc)
  epsId := s.epsId
  litMap := s.litMap
  catMap := s.catMap
  altMap := s.altMap
  fixMap := s.fixMap
  varMap := s.varMap
  nameMap := s.nameMap
  canChar := s.canChar
  context := s.context

theorem item_congr {s s' : BState} {e : Entry} (h : ∀ d ∈ e.node.subs, s'.rty d = s.rty d) : s'.item e = s.item e := by
  unfold BState.item
  cases hn : e.node with
  | cat ids =>
    rw [hn] at h
    have : ids.map s'.rty = ids.map s.rty := List.map_congr_left h
    simp only [this]
  | alt tys ids =>
    rw [hn] at h
    have : ids.map s'.rty = ids.map s.rty := List.map_congr_left h
    simp only [this]
  | alias j =>
    rw [hn] at h
    simp only [h j (by simp [NodeF.subs])]
  | _ => rfl

/-- Names and boxes are kept. -/
def Keeps (s s' : BState) : Prop :=
  ∀ (i : Nat) (e : Entry), s.data[i]? = some e → ∃ e', s'.data[i]? = some e' ∧ e'.name = e.name ∧ ∀ f, e'.node = .box f ↔ e.node = .box f

theorem Keeps.entryTy {s s' : BState} (h : Keeps s s') (ht : TInv s) {i : Nat} {e e' : Entry} (he : s.data[i]? = some e) (hn : e'.name = e.name)
    (hb : ∀ f, e'.node = .box f ↔ e.node = .box f) : s'.entryTy e' = s.entryTy e := by
  unfold BState.entryTy
  cases hx : e.node with
  | box f =>
    rw [(hb f).2 hx]
    obtain ⟨e1, h1, _, _⟩ := ht.box i e f he hx
    obtain ⟨e2, h2, h3, _⟩ := h f e1 h1
    simp only [h1, h2, h3]
  | _ =>
    cases hy : e'.node with
    | box f => rw [(hb f).1 hy] at hx; cases hx
    | _ => simp only [hn]

theorem Keeps.rty {s s' : BState} (h : Keeps s s') (ht : TInv s) {i : Nat} (hi : i < s.data.length) : s'.rty i = s.rty i := by
  have he : s.data[i]? = some s.data[i] := List.getElem?_eq_getElem hi
  obtain ⟨e', h1, h2, h3⟩ := h i _ he
  rw [BState.rty_entryTy he, BState.rty_entryTy h1]
  exact h.entryTy ht he h2 h3

theorem Keeps.tty {s s' : BState} (h : Keeps s s') (ht : TInv s) (doc : List Char → List Char) {i : Nat} {e : Entry} (he : s.data[i]? = some e) :
    s'.tty doc e = s.tty doc e := by
  unfold BState.tty
  rw [h.entryTy ht he rfl fun _ => Iff.rfl, item_congr fun d hd => h.rty ht (ht.depsLt i e he d hd)]

theorem keeps_push {s s' : BState} {x : Entry} (hd : s'.data = s.data ++ [x]) : Keeps s s' := by
  intro i e he
  exact ⟨e, by rw [hd, List.getElem?_append_left (List.getElem?_eq_some_iff.1 he).1]; exact he, rfl, fun _ => Iff.rfl⟩

theorem render_push {s s' : BState} (ht : TInv s) (doc : List Char → List Char) {x : Entry} (hd : s'.data = s.data ++ [x]) :
    s'.data.map (s'.tty doc) = s.data.map (s.tty doc) ++ [s'.tty doc x] := by
  rw [hd, List.map_append]
  congr 1
  refine List.map_congr_left fun e he => ?_
  obtain ⟨i, hi⟩ := List.getElem?_of_mem he
  exact (keeps_push hd).tty ht doc hi

theorem render_newTypeName (doc : List Char → List Char) (cas : Casing) (pre : String) (nm : Option Name) (s : BState) :
    (s.render doc).newTypeName cas pre nm = (s.newTypeName cas pre nm).map fun x => (x.1, x.2.render doc) := by
  cases nm with
  | none => simp [TBackend.newTypeName, BState.newTypeName, BState.render, Except.map]
  | some n =>
    simp only [TBackend.newTypeName, BState.newTypeName]
    cases cas.camel n.content.hashed with
    | none => rfl
    | some c => rfl

theorem render_get (doc : List Char → List Char) (s : BState) (i : Nat) : (s.render doc).data[i]? = (s.data[i]?).map (s.tty doc) := by
  simp [BState.render]

theorem render_tyNames (doc : List Char → List Char) (s : BState) : ∀ ids : List Nat,
    (s.render doc).tyNames ids = (s.tyNames ids).map fun _ => (ids.map s.rty).map RTy.toks
  | [] => rfl
  | i :: l => by
    simp only [TBackend.tyNames, BState.tyNames, render_get]
    cases h : s.data[i]? with
    | none => rfl
    | some e =>
      simp only [Option.map_some, render_tyNames doc s l]
      cases s.tyNames l with
      | error _ => rfl
      | ok r => simp [Except.map, BState.rty_entryTy h, BState.tty]

theorem partNames_nil {conv : String → Option String} {dflt : String} {i : Nat} {m : List (String × Nat)} {l : List (Option Name)} {parts : List String}
    (h : partNames conv dflt i m l = .ok parts) : parts.length = l.length := partNames_length h

/-- The result of a step of the other model. -/
def rendered {α : Type} (doc : List Char → List Char) (x : Except GenPanic (α × BState)) : Except GenPanic (α × TBackend) :=
  x.map fun y => (y.1, y.2.render doc)

theorem genEpsT_eq (doc : List Char → List Char) {s : BState} (ht : TInv s) : genEpsT (s.render doc) = ((genEps s).1, (genEps s).2.render doc) := by
  have h1 : (s.render doc).epsId = none := ht.eps
  simp only [genEpsT, h1, genEps, ht.eps]
  have h2 := render_push (s' := { s with data := s.data ++ [⟨"Epsilon", .eps, [], [], false⟩] }) ht doc rfl
  rw [ht.eps] at h2
  unfold BState.render
  simp only [h2, List.length_map]
  rfl

theorem genLitT_eq (doc : List Char → List Char) (cas : Casing) (nm : Option Name) (str : List Char) {s : BState} (ht : TInv s) :
    genLitT doc cas nm str (s.render doc) = rendered doc (genLit cas nm str s) := by
  unfold genLitT genLit
  have h1 : (s.render doc).litMap = s.litMap := rfl
  rw [h1]
  cases s.litMap.lookup str with
  | some id => rfl
  | none =>
    simp only [render_newTypeName]
    cases h2 : s.newTypeName cas "Lit" nm with
    | error e => rfl
    | ok x =>
      obtain ⟨name, s1⟩ := x
      obtain ⟨m, rfl⟩ := newTypeName_state h2
      simp only [Except.map, rendered]
      have h3 := fun (b : Bool) (cm : List Nat) => render_push
        (s' := { s with nameMap := m, data := s.data ++ [⟨name, .lit str, [], [], b⟩], litMap := (str, s.data.length) :: s.litMap, canChar := cm }) ht doc rfl
      match str, h3 with
      | [], h3 =>
        unfold BState.render
        simp only [h3, List.length_map]
        rfl
      | [c], h3 =>
        unfold BState.render
        simp only [h3, List.length_map]
        rfl
      | _ :: _ :: _, h3 =>
        unfold BState.render
        simp only [h3, List.length_map]
        rfl

theorem any_isSome_ne_nil {names : List (Option Name)} (h : names.any Option.isSome = true) : names ≠ [] := by
  rintro rfl; simp at h

theorem map_toks_zip (parts : List String) (l : List RTy) : parts.zip (l.map RTy.toks) = (parts.zip l).map fun f => (f.1, f.2.toks) := by
  rw [List.zip_map_right]; rfl

theorem rty_push {s s' : BState} (ht : TInv s) {x : Entry} (hd : s'.data = s.data ++ [x]) {ids : List Nat} (hi : ∀ i ∈ ids, i < s.data.length) :
    ids.map s'.rty = ids.map s.rty :=
  List.map_congr_left fun i h => (keeps_push hd).rty ht (hi i h)

theorem genCatT_eq (doc : List Char → List Char) (cas : Casing) (nm : Option Name) (names : List (Option Name)) (ids : List Nat)
    (hl : ids.length = names.length) {s : BState} (ht : TInv s) :
    genCatT cas nm names ids (s.render doc) = rendered doc (genCat cas nm names ids s) := by
  unfold genCatT genCat
  have h1 : (s.render doc).catMap = s.catMap := rfl
  rw [h1]
  cases s.catMap.lookup ids with
  | some id => rfl
  | none =>
    simp only [render_newTypeName]
    cases h2 : s.newTypeName cas "Cat" nm with
    | error e => rfl
    | ok x =>
      obtain ⟨name, s1⟩ := x
      obtain ⟨m, rfl⟩ := newTypeName_state h2
      simp only [Except.map, Except.bind]
      rw [render_tyNames]
      cases h3 : BState.tyNames { s with nameMap := m } ids with
      | error e => rfl
      | ok tn =>
        have hi : ∀ i ∈ ids, i < s.data.length := tyNames_lt (s := { s with nameMap := m }) h3
        simp only [Except.map]
        cases h4 : partNames cas.snake "part" 0 [] names with
        | error e => rfl
        | ok parts =>
          simp only [rendered, Except.map]
          have h5 := fun (fs : List String) (cm : List (List Nat × Nat)) => render_push
            (s' := { s with nameMap := m, data := s.data ++ [⟨name, .cat ids, fs, ids, false⟩], catMap := cm }) ht doc rfl
          unfold BState.render
          simp only [h5, List.length_map]
          refine congrArg Except.ok (Prod.ext rfl ?_)
          simp only [TBackend.mk.injEq, and_true]
          refine congrArg (fun x => s.data.map (s.tty doc) ++ [x]) ?_
          have h6 := fun (fs : List String) (cm : List (List Nat × Nat)) => rty_push
            (s' := { s with nameMap := m, data := s.data ++ [⟨name, .cat ids, fs, ids, false⟩], catMap := cm }) ht rfl hi
          have h7 : ids.map (BState.rty { s with nameMap := m }) = ids.map s.rty := rfl
          simp only [BState.tty, BState.entryTy, BState.item, h6, h7, RTy.toks, TTy.mk.injEq, and_true, true_and]
          by_cases hn : names.any Option.isSome = true
          · have hp : parts ≠ [] := by
              intro h
              have := partNames_length h4
              rw [h] at this
              exact any_isSome_ne_nil hn (List.length_eq_zero_iff.1 this.symm)
            simp [hn, hp, hl, RItem.toks, ← map_toks_zip]
          · simp [hn, hl, RItem.toks]

theorem genAltT_eq (doc : List Char → List Char) (cas : Casing) (nm : Option Name) (tys : List Ty) (names : List (Option Name)) (ids : List Nat)
    {s : BState} (ht : TInv s) : genAltT cas nm tys names ids (s.render doc) = rendered doc (genAlt cas nm tys names ids s) := by
  unfold genAltT genAlt
  have h1 : (s.render doc).altMap = s.altMap := rfl
  rw [h1]
  cases s.altMap.lookup ids with
  | some id => rfl
  | none =>
    simp only [render_newTypeName]
    cases h2 : s.newTypeName cas "Alt" nm with
    | error e => rfl
    | ok x =>
      obtain ⟨name, s1⟩ := x
      obtain ⟨m, rfl⟩ := newTypeName_state h2
      simp only [Except.map, Except.bind]
      rw [render_tyNames]
      cases h3 : BState.tyNames { s with nameMap := m } ids with
      | error e => rfl
      | ok tn =>
        have hi : ∀ i ∈ ids, i < s.data.length := tyNames_lt (s := { s with nameMap := m }) h3
        simp only [Except.map]
        cases h4 : partNames cas.camel "Branch" 0 [] names with
        | error e => rfl
        | ok parts =>
          simp only [rendered, Except.map]
          have h5 := fun (b : Bool) (am : List (List Nat × Nat)) (cm : List Nat) => render_push
            (s' := { s with nameMap := m, data := s.data ++ [⟨name, .alt tys ids, parts, ids, b⟩], altMap := am, canChar := cm }) ht doc rfl
          unfold BState.render
          simp only [h5, List.length_map]
          refine congrArg Except.ok (Prod.ext rfl ?_)
          simp only [TBackend.mk.injEq, and_true]
          refine congrArg (fun x => s.data.map (s.tty doc) ++ [x]) ?_
          have h6 := fun (b : Bool) (am : List (List Nat × Nat)) (cm : List Nat) => rty_push
            (s' := { s with nameMap := m, data := s.data ++ [⟨name, .alt tys ids, parts, ids, b⟩], altMap := am, canChar := cm }) ht rfl hi
          have h7 : ids.map (BState.rty { s with nameMap := m }) = ids.map s.rty := rfl
          simp only [BState.tty, BState.entryTy, BState.item, h6, h7, RTy.toks, RItem.toks, map_toks_zip]

theorem genVarT_eq (doc : List Char → List Char) (i : Nat) {s : BState} (ht : TInv s) : genVarT i (s.render doc) = rendered doc (genVar i s) := by
  unfold genVarT genVar
  have h1 : (s.render doc).context = s.context := rfl
  have h2 : (s.render doc).varMap = s.varMap := rfl
  rw [h1, h2]
  split
  · cases h3 : s.context[s.context.length - i - 1]? with
    | none => rfl
    | some f =>
      dsimp only
      cases h4 : s.varMap.lookup f with
      | some id => rfl
      | none =>
        dsimp only
        rw [render_get]
        have hf : f ∈ s.context := List.mem_of_getElem? h3
        cases h5 : s.data[f]? with
        | none => rfl
        | some e =>
          have hb : e.node = .bad := (ht.bad f e h5).2 hf
          have h6 := render_push (s' := { s with data := s.data ++ [⟨"Box<" ++ e.name ++ ">", .box f, [], [], false⟩], varMap := (f, s.data.length) :: s.varMap })
            ht doc rfl
          simp only [rendered, Except.map, Option.map_some]
          unfold BState.render
          simp only [h6, List.length_map]
          refine congrArg Except.ok (Prod.ext rfl ?_)
          have h7 : (s.data ++ [(⟨"Box<" ++ e.name ++ ">", .box f, [], [], false⟩ : Entry)])[f]? = some e := by
            rw [List.getElem?_append_left (List.getElem?_eq_some_iff.1 h5).1]; exact h5
          simp [BState.tty, BState.entryTy, BState.item, hb, h7, RTy.toks]
  · rfl

mutual
theorem genT_eq (doc : List Char → List Char) (cas : Casing) : ∀ (te : TE) (s : BState), TInv s → s.context.Nodup →
    genT doc cas te (s.render doc) = rendered doc (gen cas te s)
  | .eps _, s, ht, _ => by
    simp only [genT, gen, rendered, Except.map, genEpsT_eq doc ht]
  | .lit nm str, s, ht, _ => by
    simp only [genT, gen]; exact genLitT_eq doc cas nm str ht
  | .cat nm _ l, s, ht, hn => by
    simp only [genT, gen, genTL_eq doc cas l s ht hn]
    cases h : genL cas l s with
    | error e => rfl
    | ok x =>
      obtain ⟨ids, s1⟩ := x
      have hg := genL_gen1 cas (fun _ => True) l s s1 ids h fun _ _ => trivial
      simp only [rendered, Except.map, Except.bind]
      exact genCatT_eq doc cas nm (l.map TE.name) ids (by simpa using genL_length cas h) (hg.tinv ht hn)
  | .alt nm _ l, s, ht, hn => by
    simp only [genT, gen, genTL_eq doc cas l s ht hn]
    cases h : genL cas l s with
    | error e => rfl
    | ok x =>
      obtain ⟨ids, s1⟩ := x
      have hg := genL_gen1 cas (fun _ => True) l s s1 ids h fun _ _ => trivial
      simp only [rendered, Except.map, Except.bind]
      exact genAltT_eq doc cas nm (l.map TE.ty) (l.map TE.name) ids (hg.tinv ht hn)
  | .fix nm b, s, ht, hn => by
    simp only [genT, gen]
    have h1 : (s.render doc).findFix b = s.findFix b := rfl
    rw [h1]
    cases h0 : s.findFix b with
    | some id => rfl
    | none =>
      simp only [render_newTypeName]
      cases h2 : s.newTypeName cas "Fix" nm with
      | error e => rfl
      | ok x =>
        obtain ⟨name, s1⟩ := x
        obtain ⟨m, rfl⟩ := newTypeName_state h2
        simp only [Except.map, Except.bind]
        have hstep : BStep cas (fun _ => True) s _ := .fixOpen s nm b name m (fun _ _ => trivial) h0 h2
        have ht2 := ht.step hstep hn
        have hn2 := ctx_nodup ht hstep hn
        have ih := genT_eq doc cas b _ ht2 hn2
        have h5 := render_push (s' := { s with
          nameMap := m
          fixMap := (b, s.data.length) :: s.fixMap
          data := s.data ++ [⟨name, .bad, [], [], false⟩]
          context := s.context ++ [s.data.length] }) ht doc rfl
        have h6 : (BState.render doc { s with
            nameMap := m
            fixMap := (b, s.data.length) :: s.fixMap
            data := s.data ++ [⟨name, .bad, [], [], false⟩]
            context := s.context ++ [s.data.length] }) =
          { BState.render doc { s with nameMap := m } with
            fixMap := (b, (BState.render doc { s with nameMap := m }).data.length) :: (BState.render doc { s with nameMap := m }).fixMap
            data := (BState.render doc { s with nameMap := m }).data ++ [⟨[.id name], [], []⟩]
            context := (BState.render doc { s with nameMap := m }).context ++ [(BState.render doc { s with nameMap := m }).data.length] } := by
          unfold BState.render
          simp only [h5, List.length_map]
          rfl
        rw [h6] at ih
        rw [ih]
        cases h7 : gen cas b { s with
            nameMap := m
            fixMap := (b, s.data.length) :: s.fixMap
            data := s.data ++ [⟨name, .bad, [], [], false⟩]
            context := s.context ++ [s.data.length] } with
        | error e => rfl
        | ok y =>
          obtain ⟨inner, s3⟩ := y
          simp only [rendered, Except.map]
          have hg := gen_gen1 cas (fun _ => True) b _ s3 inner h7 fun _ _ => trivial
          have ht3 := hg.tinv ht2 hn2
          have hold : s3.data[s.data.length]? = some ⟨name, .bad, [], [], false⟩ := by
            rw [hg.keep s.data.length (by simp)]
            simp
          rw [render_get, render_get]
          cases h8 : s3.data[inner]? with
          | none => rfl
          | some ty =>
            have hlen : (BState.render doc { s with nameMap := m }).data.length = s.data.length := by simp [BState.render]
            simp only [Option.map_some, hlen, hold]
            refine congrArg Except.ok (Prod.ext rfl ?_)
            have hk : Keeps s3 { s3 with context := s3.context.dropLast, data := s3.data.set s.data.length ⟨name, .alias inner, [], [inner], false⟩ } := by
              intro i e he
              by_cases hi : i = s.data.length
              · subst hi
                rw [hold] at he
                cases he
                refine ⟨⟨name, .alias inner, [], [inner], false⟩, ?_, rfl, fun f => by simp⟩
                rw [List.getElem?_set_self (List.getElem?_eq_some_iff.1 hold).1]
              · exact ⟨e, by dsimp only; rw [List.getElem?_set_ne (fun h => hi h.symm)]; exact he, rfl, fun _ => Iff.rfl⟩
            generalize hs4 : ({ s3 with context := s3.context.dropLast, data := s3.data.set s.data.length ⟨name, .alias inner, [], [inner], false⟩ } : BState) = s4 at hk
            have hd4 : s4.data = s3.data.set s.data.length ⟨name, .alias inner, [], [inner], false⟩ := by rw [← hs4]
            have hdata : s4.data.map (s4.tty doc) = (s3.data.map (s3.tty doc)).set s.data.length
                ⟨(s3.entryTy ⟨name, .bad, [], [], false⟩).toks, aliasToks name (s3.entryTy ty).toks, [inner]⟩ := by
              refine List.ext_getElem? fun i => ?_
              by_cases hi : i = s.data.length
              · subst hi
                rw [List.getElem?_set_self (by simpa using (List.getElem?_eq_some_iff.1 hold).1), List.getElem?_map, hd4,
                  List.getElem?_set_self (List.getElem?_eq_some_iff.1 hold).1]
                simp only [Option.map_some, BState.tty, BState.entryTy, BState.item, RItem.toks]
                rw [hk.rty ht3 (List.getElem?_eq_some_iff.1 h8).1, BState.rty_entryTy h8]
                rfl
              · rw [List.getElem?_set_ne (fun h => hi h.symm), List.getElem?_map, List.getElem?_map, hd4, List.getElem?_set_ne (fun h => hi h.symm)]
                cases h9 : s3.data[i]? with
                | none => rfl
                | some e => simp only [Option.map_some, hk.tty ht3 doc h9]
            have : s4.render doc = { s3.render doc with context := s3.context.dropLast, data := s4.data.map (s4.tty doc) } := by
              unfold BState.render
              subst hs4
              rfl
            rw [this, hdata]
            rfl
  | .var _ i _, s, ht, _ => by
    simp only [genT, gen]; exact genVarT_eq doc i ht
theorem genTL_eq (doc : List Char → List Char) (cas : Casing) : ∀ (l : List TE) (s : BState), TInv s → s.context.Nodup →
    genTL doc cas l (s.render doc) = rendered doc (genL cas l s)
  | [], s, _, _ => rfl
  | e :: l, s, ht, hn => by
    simp only [genTL, genL, genT_eq doc cas e s ht hn]
    cases h : gen cas e s with
    | error _ => rfl
    | ok x =>
      obtain ⟨id, s1⟩ := x
      have hg := gen_gen1 cas (fun _ => True) e s s1 id h fun _ _ => trivial
      simp only [rendered, Except.map, Except.bind]
      have ih := genTL_eq doc cas l s1 (hg.tinv ht hn) (by rw [hg.ctx]; exact hn)
      rw [ih]
      cases genL cas l s1 with
      | error _ => rfl
      | ok y => rfl
end

/-! ## Emission -/

/-- The tokens of the entries with the given ids. -/
def BState.restToks (doc : List Char → List Char) (s : BState) (l : List Nat) : List RTok :=
  manyToks ((l.filterMap fun i => (s.data[i]?).bind s.item).map (RItem.toks doc))

theorem manyToks_append : ∀ a b : List (List RTok), manyToks (a ++ b) = manyToks a ++ manyToks b
  | [], _ => rfl
  | x :: a, b => by simp [manyToks, manyToks_append a b]

theorem restToks_append (doc : List Char → List Char) (s : BState) (a b : List Nat) : s.restToks doc (a ++ b) = s.restToks doc a ++ s.restToks doc b := by
  simp [BState.restToks, manyToks_append]

theorem restToks_cons (doc : List Char → List Char) {s : BState} {i : Nat} {e : Entry} (h : s.data[i]? = some e) (l : List Nat) :
    s.restToks doc (i :: l) = (s.tty doc e).rest ++ s.restToks doc l := by
  unfold BState.restToks BState.tty
  rw [List.filterMap_cons, h]
  simp only [Option.bind_some]
  cases s.item e with
  | none => simp
  | some x => simp [manyToks]

theorem emitRoundT_eq (doc : List Char → List Char) (s : BState) (completed : List Nat) : ∀ (next todo : List Nat) (tokens : List RTok),
    emitRoundT (s.render doc).data completed next todo tokens =
      (emitRound s.data completed next todo).map fun todo' => (todo', tokens ++ s.restToks doc next)
  | [], todo, tokens => by simp [emitRoundT, emitRound, Except.map, BState.restToks, manyToks]
  | id :: next, todo, tokens => by
    simp only [emitRoundT, emitRound, render_get]
    cases h : s.data[id]? with
    | none => rfl
    | some e =>
      simp only [Option.map_some]
      rw [emitRoundT_eq doc s completed next, restToks_cons doc h]
      simp only [List.append_assoc]
      rfl

theorem emitLoopT_eq (doc : List Char → List Char) (s : BState) (pre : List RTok) : ∀ (n : Nat) (todo completed out : List Nat),
    emitLoopT (s.render doc).data n todo completed (pre ++ s.restToks doc out) =
      (emitLoop s.data n todo completed out).map fun r => r.map fun out => pre ++ s.restToks doc out
  | n, [], completed, out => by cases n <;> rfl
  | 0, _ :: _, _, _ => rfl
  | n + 1, a :: todo, completed, out => by
    simp only [emitLoopT, emitLoop, emitRoundT_eq]
    cases emitRound s.data (extendNat completed (a :: todo)) (a :: todo) [] with
    | error e => rfl
    | ok todo' =>
      simp only [Except.map]
      rw [List.append_assoc, ← restToks_append]
      exact emitLoopT_eq doc s pre n todo' _ (out ++ a :: todo)

theorem emitCode_eq (doc : List Char → List Char) (s : BState) (n : Nat) (name : Option Name) {id : Nat} (hid : id < s.data.length) :
    (s.render doc).emitCode n name id = (s.emitIds n id).map fun r => r.map fun out => (s.program name id out).toks doc := by
  unfold TBackend.emitCode BState.emitIds
  have h := emitLoopT_eq doc s Q.use n [id] [] []
  have h0 : s.restToks doc [] = [] := rfl
  rw [h0, List.append_nil] at h
  rw [h]
  cases emitLoop s.data n [id] [] [] with
  | none => rfl
  | some r =>
    cases r with
    | error e => rfl
    | ok out =>
      simp only [Option.map_some, Except.map, render_get, List.getElem?_eq_getElem hid]
      refine congrArg some (congrArg Except.ok ?_)
      have h2 : s.rty id = s.entryTy s.data[id] := BState.rty_entryTy (List.getElem?_eq_getElem hid)
      have h3 : (s.program name id out).toks doc = Q.use ++ (s.restToks doc out ++ aliasToks (s.rootName name) (s.rty id).toks) := by
        simp [RProg.toks, BState.program, BState.restToks, manyToks_append, manyToks, RItem.toks]
      rw [h3, h2]
      simp only [List.append_assoc]
      cases name <;> rfl

end Chomp
