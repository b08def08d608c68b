import Verif.Lower.RustValues
import Verif.Props.Shared
import Verif.Props.EndToEnd

/-! # C63, C64: the emitted program compiles and does what it should -/

namespace Chomp

/-- `e` is accepted by type inference as `te`, code generation ends with the table `s` and the root type
`id`, and `emit_code` emits the program `p` (with its root called `Ast`, as everywhere in `/repo`). -/
structure Emits (cas : Casing) (e : NE) (te : TE) (s : BState) (id : Nat) (p : RProg) : Prop where
  typed : ∃ n, (inferTop n e ⟨[], []⟩).1 = .ok te
  code : gen cas te {} = .ok (id, s)
  emission : ∃ n out, s.emitIds n id = some (.ok out) ∧ p = s.program none id out

/-- `Ast::parse_str` of the emitted program ends with `r` on the given text. -/
def RProg.Parses (p : RProg) (text : List Char) (r : ParseRes RVal) : Prop :=
  r ≠ .oof ∧ ∃ n, parseStr (p.take n (.path "Ast")) text = r

/-- The type of the root of an emitted program. -/
def astTy : RTy := .path "Ast"

theorem Emits.compiled {cas : Casing} {e : NE} {te : TE} {s : BState} {id : Nat} {p : RProg} (h : Emits cas e te s id p) :
    Compiled e te s id := ⟨h.typed, cas, h.code⟩

/-! ## The items of the program -/

theorem Emits.program {cas : Casing} {e : NE} {te : TE} {s : BState} {id : Nat} {p : RProg} (h : Emits cas e te s id p) :
    ∃ out, p = s.program none id out ∧ out.Nodup ∧ ∀ j, j ∈ out ↔ j < s.data.length := by
  obtain ⟨n, out, h1, h2⟩ := h.emission
  obtain ⟨out', h3, h4, h5, -⟩ := C38_emits_everything_once h.code
  have := emitLoop_det h1 h3
  cases this
  exact ⟨out, h2, h4, h5⟩

theorem Emits.id_lt {cas : Casing} {e : NE} {te : TE} {s : BState} {id : Nat} {p : RProg} (h : Emits cas e te s id p) :
    id < s.data.length := (gen_reach cas te _ _ _ h.code .empty (by simp)).1

theorem mem_program {s : BState} {id : Nat} {out : List Nat} (ho : ∀ j, j ∈ out ↔ j < s.data.length) {it : RItem} :
    it ∈ s.program none id out ↔ (∃ (i : Nat) (e : Entry), s.data[i]? = some e ∧ s.item e = some it) ∨ it = .alias "Ast" (s.rty id) := by
  unfold BState.program
  rw [List.mem_append, List.mem_filterMap, List.mem_singleton]
  constructor
  · rintro (⟨i, _, h2⟩ | h)
    · rw [Option.bind_eq_some_iff] at h2
      obtain ⟨e, he, h2⟩ := h2
      exact .inl ⟨i, e, he, h2⟩
    · exact .inr h
  · rintro (⟨i, e, h1, h2⟩ | h)
    · exact .inl ⟨i, (ho i).2 (List.getElem?_eq_some_iff.1 h1).1, by rw [h1]; exact h2⟩
    · exact .inr h

theorem find_of_mem {p : RProg} (hn : (p.map RItem.name).Nodup) {it : RItem} (h : it ∈ p) : p.find it.name = some it := by
  unfold RProg.find
  induction p with
  | nil => cases h
  | cons x p ih =>
    simp only [List.map_cons, List.nodup_cons] at hn
    rw [List.find?_cons]
    rcases List.mem_cons.1 h with rfl | h
    · simp
    · have : x.name ≠ it.name := fun hx => hn.1 (hx ▸ List.mem_map.2 ⟨it, h, rfl⟩)
      rw [show (x.name == it.name) = false by simpa using this]
      exact ih hn.2 h

theorem gen_eps {cas : Casing} {te : TE} {s : BState} {id : Nat} (h : gen cas te {} = .ok (id, s)) :
    ∀ e ∈ s.data, e.node = .eps → e.name = "Epsilon" := by
  refine (gen_gen1 cas (fun _ => True) te _ _ _ h fun _ _ => trivial).steps.inv
    (P := fun s => ∀ e ∈ s.data, e.node = .eps → e.name = "Epsilon") ?_ (by simp)
  intro a b ha hb
  have push : ∀ {x : Entry}, (x.node = .eps → x.name = "Epsilon") → ∀ e ∈ a.data ++ [x], e.node = .eps → e.name = "Epsilon" := by
    intro x hx e he
    rcases List.mem_append.1 he with he | he
    · exact ha e he
    · rw [List.mem_singleton] at he; subst he; exact hx
  cases hb with
  | eps => exact push fun _ => rfl
  | lit nm str name m _ _ h1 => exact push fun h => by cases h
  | cat nm names ids name m parts _ _ _ h1 => exact push fun h => by cases h
  | alt nm tys names ids name m parts _ _ _ h1 => exact push fun h => by cases h
  | fixOpen nm b name m _ _ h1 => exact push fun h => by cases h
  | fixClose c id name inner _ h1 =>
    intro e he hd
    rcases List.mem_or_eq_of_mem_set he with he | rfl
    · exact ha e he hd
    · cases hd
  | var f e => exact push fun h => by cases h

theorem item_defines {s : BState} {e : Entry} {it : RItem} (h : s.item e = some it) : e.defines = true := by
  unfold BState.item at h
  unfold Entry.defines
  split at h <;> simp_all

/-- The fields of the table. -/
theorem Emits.fields {cas : Casing} {e : NE} {te : TE} {s : BState} {id : Nat} {p : RProg} (h : Emits cas e te s id p) {i : Nat}
    {en : Entry} (he : s.data[i]? = some en) : en.FieldsOk cas (· ∈ te.names) :=
  gen_fields cas (· ∈ te.names) te _ _ _ h.code (fun _ hn => hn) h.compiled.ann.full (by simp) en (List.mem_of_getElem? he)

theorem Emits.cat_length {cas : Casing} {e : NE} {te : TE} {s : BState} {id : Nat} {p : RProg} (h : Emits cas e te s id p) {i : Nat}
    {en : Entry} {ids : List Nat} (he : s.data[i]? = some en) (hnd : en.node = .cat ids) (hne : en.fields ≠ []) :
    en.fields.length = ids.length := by
  have := h.fields he
  simp only [Entry.FieldsOk, hnd] at this
  obtain ⟨names, parts, -, h1, h2, h3⟩ := this
  rw [h3] at hne ⊢
  split at hne
  · rename_i hs
    rw [if_pos hs, partNames_length h2, h1]
  · exact absurd rfl hne

theorem Emits.alt_length {cas : Casing} {e : NE} {te : TE} {s : BState} {id : Nat} {p : RProg} (h : Emits cas e te s id p) {i : Nat}
    {en : Entry} {tys : List Ty} {ids : List Nat} (he : s.data[i]? = some en) (hnd : en.node = .alt tys ids) :
    en.fields.length = ids.length ∧ tys.length = ids.length ∧ ids ≠ [] := by
  have := h.fields he
  simp only [Entry.FieldsOk, hnd] at this
  obtain ⟨names, -, h1, h2, h3, h4⟩ := this
  exact ⟨by rw [partNames_length h4, h1], h2, h3⟩

theorem zip_fst {α β : Type} {l : List α} {m : List β} (h : l.length = m.length) : (l.zip m).map (·.1) = l := by
  rw [show (fun x : α × β => x.1) = Prod.fst from rfl, List.map_fst_zip (by omega)]

theorem zip_snd {α β : Type} {l : List α} {m : List β} (h : l.length = m.length) : (l.zip m).map (·.2) = m := by
  rw [show (fun x : α × β => x.2) = Prod.snd from rfl, List.map_snd_zip (by omega)]

/-- Every name in the program is that of a table entry, or `Ast`. -/
theorem Emits.emitted {cas : Casing} {e : NE} {te : TE} {s : BState} {id : Nat} {p : RProg} (h : Emits cas e te s id p)
    (hn : (p.map RItem.name).Nodup) (hp : ∀ it ∈ p, it.parts.Nodup) :
    Emitted s p ∧ p.find "Ast" = some (.alias "Ast" (s.rty id)) := by
  have ht := gen_tinv h.code
  obtain ⟨out, hpo, ho1, ho⟩ := h.program
  have hmem : ∀ {it : RItem}, it ∈ p ↔ (∃ (i : Nat) (e : Entry), s.data[i]? = some e ∧ s.item e = some it) ∨ it = .alias "Ast" (s.rty id) := by
    rw [hpo]; exact mem_program ho
  have hbad : ∀ (i : Nat) (e : Entry), s.data[i]? = some e → e.node ≠ .bad := by
    intro i en he hb
    have := (ht.bad i en he).1 hb
    rw [gen_ctx h.code] at this
    cases this
  refine ⟨⟨?_, ?_, ?_, ?_, hbad, ?_, ?_⟩, ?_⟩
  · intro i en it he hit
    rw [← BState.item_name hit]
    exact find_of_mem hn (hmem.2 (.inl ⟨i, en, he, hit⟩))
  · cases hf : p.find "Epsilon" with
    | none => rfl
    | some it =>
      exfalso
      have hnm := RProg.find_name hf
      rcases hmem.1 (RProg.find_mem hf) with ⟨i, en, he, hit⟩ | rfl
      · have := gen_digits h.code en (List.mem_of_getElem? he) (item_defines hit)
        rw [← BState.item_name hit, hnm] at this
        revert this; decide
      · simp [RItem.name] at hnm
  · intro i en he
    exact gen_eps h.code en (List.mem_of_getElem? he)
  · intro i en f he hnd
    obtain ⟨e', h1, h2, -⟩ := ht.box i en f he hnd
    have hr := BState.rty_eq h1 (by
      intro g hg
      rcases h2 with h2 | ⟨j, h2⟩ <;> rw [h2] at hg <;> cases hg)
    rw [hr]
    simp only [BState.rty, he, hnd, h1]
  · intro i en ids he hnd hne
    have hl := h.cat_length he hnd hne
    refine ⟨hl, ?_⟩
    have hit : s.item en = some (.named en.name (en.fields.zip (ids.map s.rty)) en.fields (numberParts 0 ids.length)
        (en.fields.zip (numberParts 0 ids.length))) := by
      have : en.fields.isEmpty = false := by cases hx : en.fields with | nil => exact absurd hx hne | cons => rfl
      simp only [BState.item, hnd, this, Bool.false_eq_true, if_false]
    have := hp _ (hmem.2 (.inl ⟨i, en, he, hit⟩))
    simp only [RItem.parts] at this
    rwa [zip_fst (by simp [hl])] at this
  · intro i en tys ids he hnd
    obtain ⟨hl, hl2, -⟩ := h.alt_length he hnd
    refine ⟨hl, hl2, ?_⟩
    have := hp _ (hmem.2 (.inl ⟨i, en, he, by rw [BState.item, hnd]⟩))
    simp only [RItem.parts] at this
    rwa [zip_fst (by simp [hl])] at this
  · exact find_of_mem hn (hmem.2 (.inr rfl))

/-! ## C63 -/

/-- **C63** (only clashes of names). The emitted program compiles if no two types, and no two fields or
variants of one type, have the same name: all its types are defined and of finite size, no alias is
circular, and all bodies are well formed. -/
theorem C63_compiles_iff {cas : Casing} {e : NE} {te : TE} {s : BState} {id : Nat} {p : RProg} (h : Emits cas e te s id p) :
    p.Compiles ↔ (p.map RItem.name).Nodup ∧ ∀ it ∈ p, it.parts.Nodup := by
  refine ⟨fun hc => ⟨hc.names, hc.parts⟩, fun ⟨hn, hp⟩ => ?_⟩
  have ht := gen_tinv h.code
  obtain ⟨hE, hroot⟩ := h.emitted hn hp
  obtain ⟨out, hpo, ho1, ho⟩ := h.program
  have hmem : ∀ {it : RItem}, it ∈ p ↔ (∃ (i : Nat) (e : Entry), s.data[i]? = some e ∧ s.item e = some it) ∨ it = .alias "Ast" (s.rty id) := by
    rw [hpo]; exact mem_program ho
  have hid := h.id_lt
  -- types of an item
  have htypes : ∀ {i : Nat} {en : Entry} {it : RItem}, s.data[i]? = some en → s.item en = some it →
      it.types = en.node.subs.map s.rty := by
    intro i en it he hit
    unfold BState.item at hit
    split at hit <;> try cases hit
    · rename_i hnd; simp [hnd, RItem.types, NodeF.subs]
    · rename_i ids hnd
      dsimp only at hit
      split at hit
      · cases hit; simp [hnd, RItem.types, NodeF.subs]
      · rename_i hemp
        cases hit
        have hl := h.cat_length he hnd (by rintro h0; exact hemp (by simp [h0]))
        simp only [hnd, RItem.types, NodeF.subs]
        exact zip_snd (by simp [hl])
    · rename_i tys ids hnd
      obtain ⟨hl, -, -⟩ := h.alt_length he hnd
      simp only [hnd, RItem.types, NodeF.subs]
      exact zip_snd (by simp [hl])
    · rename_i j hnd; simp [hnd, RItem.types, NodeF.subs]
  have hdef : ∀ i, i < s.data.length → (s.rty i).Defined p := by
    intro i hi
    have he : s.data[i]? = some s.data[i] := List.getElem?_eq_getElem hi
    rcases hE.kind he with ⟨_, hr⟩ | ⟨f, hnd, hr⟩ | ⟨it, _, hf, hr⟩
    · rw [hr]; exact .inr rfl
    · obtain ⟨e', h1, h2, -⟩ := ht.box i _ f he hnd
      rcases hE.kind h1 with ⟨hx, _⟩ | ⟨g, hx, _⟩ | ⟨it, _, hf, hr'⟩
      · rcases h2 with h2 | ⟨j, h2⟩ <;> rw [h2] at hx <;> cases hx
      · rcases h2 with h2 | ⟨j, h2⟩ <;> rw [h2] at hx <;> cases hx
      · rw [hr, hr']; exact .inl (by rw [hf]; simp)
    · rw [hr]; exact .inl (by rw [hf]; simp)
  have hsubs : ∀ {i : Nat} {en : Entry}, s.data[i]? = some en → ∀ d ∈ en.node.subs, d < s.data.length :=
    fun he => ht.depsLt _ _ he
  refine ⟨hn, hp, ?_, ?_, ?_, ?_⟩
  · -- no undefined type
    intro it hit t htt
    rcases hmem.1 hit with ⟨i, en, he, hit⟩ | rfl
    · rw [htypes he hit, List.mem_map] at htt
      obtain ⟨d, hd, rfl⟩ := htt
      exact hdef d (hsubs he d hd)
    · simp only [RItem.types, List.mem_singleton] at htt
      subst htt
      exact hdef id hid
  · -- bodies
    intro it hit
    rcases hmem.1 hit with ⟨i, en, he, hit'⟩ | rfl
    · unfold BState.item at hit'
      split at hit' <;> try cases hit'
      · trivial
      · rename_i ids hnd
        dsimp only at hit'
        have hln := numberParts_nodup 0 ids.length
        have hll := numberParts_length 0 ids.length
        split at hit'
        · cases hit'
          refine ⟨by simp, hln, hln, by simp [hll], fun x => Iff.rfl⟩
        · rename_i hemp
          have hne : en.fields ≠ [] := by rintro h0; exact hemp (by simp [h0])
          obtain ⟨hl, hfn⟩ := hE.cat i en ids he hnd hne
          cases hit'
          have e1 : (en.fields.zip (ids.map s.rty)).map (·.1) = en.fields := zip_fst (by simp [hl])
          have e2 : (en.fields.zip (numberParts 0 ids.length)).map (·.1) = en.fields := zip_fst (by omega)
          have e3 : (en.fields.zip (numberParts 0 ids.length)).map (·.2) = numberParts 0 ids.length := zip_snd (by omega)
          refine ⟨fun x hx => by rw [e1]; exact hx, hln, by rw [e2]; exact hfn, by rw [e3]; exact hln, fun x => by rw [e1, e2],
            fun x => by rw [e3]⟩
      · rename_i tys ids hnd
        obtain ⟨hl, hl2, hfn⟩ := hE.alt i en tys ids he hnd
        obtain ⟨-, -, hne⟩ := h.alt_length he hnd
        have e1 : (en.fields.zip (ids.map s.rty)).map (·.1) = en.fields := zip_fst (by simp [hl])
        have e2 : (en.fields.zip (ids.map s.rty)).map (·.2) = ids.map s.rty := zip_snd (by simp [hl])
        refine ⟨?_, fun x => by rw [e1], ?_, ?_, ?_⟩
        · intro h0
          rw [h0] at e2
          cases ids with
          | nil => exact hne rfl
          | cons a l => cases e2
        · rintro a ha
          unfold enumArms at ha
          rw [List.mem_filterMap] at ha
          obtain ⟨⟨ty, x⟩, hx, ha⟩ := ha
          split at ha
          · cases ha
          · rename_i hc
            cases ha
            rw [e1]
            exact ⟨fun h0 => hc (List.isEmpty_iff.2 h0), (List.of_mem_zip hx).2⟩
        · intro x hx
          unfold enumOther at hx
          split at hx
          · rename_i y hy
            cases hx
            rw [e1]
            exact (List.of_mem_zip (List.mem_of_find?_eq_some hy)).2
          · cases hx
        · intro xs hxs
          split at hxs
          · rename_i htc
            cases hxs
            refine ⟨fun x => by rw [e1], fun t htt => ?_⟩
            rw [e2, List.mem_map] at htt
            obtain ⟨j, hj, rfl⟩ := htt
            rcases (C42_which_types h.code i en he).1 htc with ⟨c, h1⟩ | ⟨tys', ids', h1, h2⟩
            · rw [hnd] at h1; cases h1
            · rw [hnd] at h1
              cases h1
              obtain ⟨e', he', hc'⟩ := h2 j hj
              rcases (C42_which_types h.code j e' he').1 hc' with ⟨c, h1⟩ | ⟨tys', ids', h1, _⟩
              · rw [BState.rty_eq he' (by simp [h1])]
                exact .unit _ _ _ c (hE.item j e' _ he' (by rw [BState.item, h1]))
              · rw [BState.rty_eq he' (by simp [h1])]
                exact .enum _ _ _ _ _ _ (hE.item j e' _ he' (by rw [BState.item, h1, hc', if_pos rfl]))
          · cases hxs
      · trivial
    · trivial
  · -- finite types
    have hacc : ∀ i, i < s.data.length → Acc (fun a b => a ∈ p.inside b) (s.rty i) := by
      intro i
      induction i using (C53_types_finite h.code).induction with
      | _ i ih =>
        intro hi
        have he : s.data[i]? = some s.data[i] := List.getElem?_eq_getElem hi
        generalize s.data[i] = en at he
        refine ⟨_, fun t htt => ?_⟩
        rcases hE.kind he with ⟨_, hr⟩ | ⟨f, hnd, hr⟩ | ⟨it, hit, hf, hr⟩
        · rw [hr] at htt; simp only [RProg.inside, hE.noEps] at htt; cases htt
        · rw [hr] at htt; simp only [RProg.inside] at htt; cases htt
        · rw [hr] at htt
          simp only [RProg.inside, hf, htypes he hit, List.mem_map] at htt
          obtain ⟨d, hd, rfl⟩ := htt
          exact ih d (by rw [step_eq he]; exact hd) (hsubs he d hd)
    refine ⟨fun t => ⟨_, fun u hu => ?_⟩⟩
    cases t with
    | boxed t => simp only [RProg.inside] at hu; cases hu
    | path x =>
      simp only [RProg.inside] at hu
      split at hu
      · rename_i it hit
        rcases hmem.1 (RProg.find_mem hit) with ⟨i, en, he, hit'⟩ | rfl
        · rw [htypes he hit', List.mem_map] at hu
          obtain ⟨d, hd, rfl⟩ := hu
          exact hacc d (hsubs he d hd)
        · simp only [RItem.types, List.mem_singleton] at hu
          subst hu
          exact hacc id hid
      · cases hu
  · -- no circular alias
    have hacc : ∀ i, i < s.data.length → Acc (fun a b => a ∈ p.expands b) (s.rty i) := by
      intro i
      induction i using (C53_aliases_end h.compiled).induction with
      | _ i ih =>
        intro hi
        have he : s.data[i]? = some s.data[i] := List.getElem?_eq_getElem hi
        generalize s.data[i] = en at he
        refine ⟨_, fun t htt => ?_⟩
        rcases hE.kind he with ⟨_, hr⟩ | ⟨f, hnd, hr⟩ | ⟨it, hit, hf, hr⟩
        · rw [hr] at htt; simp only [RProg.expands, hE.noEps] at htt; cases htt
        · rw [hr] at htt
          simp only [RProg.expands, List.mem_singleton] at htt
          subst htt
          obtain ⟨e', h1, -⟩ := ht.box i en f he hnd
          exact ih f (.inr (by rw [step_eq he, hnd])) (List.getElem?_eq_some_iff.1 h1).1
        · rw [hr] at htt
          simp only [RProg.expands, hf] at htt
          split at htt
          · rename_i nm t' hx
            cases hx
            simp only [List.mem_singleton] at htt
            subst htt
            have hnd : ∃ j, en.node = .alias j ∧ t = s.rty j := by
              unfold BState.item at hit
              split at hit <;> try cases hit
              · dsimp only at hit; split at hit <;> cases hit
              · exact ⟨_, by assumption, rfl⟩
            obtain ⟨j, hnd, rfl⟩ := hnd
            exact ih j (.inl (by rw [step_eq he, hnd])) (hsubs he j (by simp [hnd, NodeF.subs]))
          · cases htt
    refine ⟨fun t => ?_⟩
    induction t with
    | boxed t ih =>
      refine ⟨_, fun u hu => ?_⟩
      simp only [RProg.expands, List.mem_singleton] at hu
      subst hu
      exact ih
    | path x =>
      refine ⟨_, fun u hu => ?_⟩
      simp only [RProg.expands] at hu
      split at hu
      · rename_i nm t hit
        simp only [List.mem_singleton] at hu
        subst hu
        rcases hmem.1 (RProg.find_mem hit) with ⟨i, en, he, hit'⟩ | hx
        · have hnd : ∃ j, en.node = .alias j ∧ u = s.rty j := by
            unfold BState.item at hit'
            split at hit' <;> try cases hit'
            · dsimp only at hit'; split at hit' <;> cases hit'
            · exact ⟨_, by assumption, rfl⟩
          obtain ⟨j, hnd, rfl⟩ := hnd
          exact hacc j (hsubs he j (by simp [hnd, NodeF.subs]))
        · cases hx
          exact hacc id hid
      · cases hu

theorem program_names {s : BState} {id : Nat} {out : List Nat} (hb : ∀ j ∈ out, s.step j ≠ .bad) :
    (s.program none id out).map RItem.name = s.definedNames out ++ ["Ast"] := by
  unfold BState.program BState.definedNames
  rw [List.map_append]
  congr 1
  induction out with
  | nil => rfl
  | cons i out ih =>
    have ih := ih fun j hj => hb j (by simp [hj])
    have hbi := hb i (by simp)
    simp only [List.filterMap_cons]
    cases he : s.data[i]? with
    | none => simpa using ih
    | some en =>
      rw [step_eq he] at hbi
      simp only [Option.bind_some]
      cases hit : s.item en with
      | some it =>
        rw [if_pos (item_defines hit)]
        simp only [List.map_cons, BState.item_name hit, ih]
      | none =>
        have : en.defines = false := by
          unfold BState.item at hit
          unfold Entry.defines
          split at hit <;> simp_all
          split at hit <;> cases hit
        rw [this]
        simpa using ih

/-- **C63** (for grammars whose names do not interfere). If no converted name in the grammar ends in a digit,
no camel case name is one of `Lit`, `Cat`, `Alt`, `Fix` and `Branch`, and no snake case name is `part`, the
emitted program compiles.  Missing: other names, for which the claim is false (`C63_type_clash`,
`C63_field_clash`). -/
theorem C63_compiles_partial {cas : Casing} {e : NE} {te : TE} {s : BState} {id : Nat} {p : RProg} (h : Emits cas e te s id p)
    (hcamel : ∀ n ∈ te.names, ∀ c, cas.camel n.content.hashed = some c →
      endsInDigit c = false ∧ c ∉ ["Lit", "Cat", "Alt", "Fix", "Branch"])
    (hsnake : ∀ n ∈ te.names, ∀ c, cas.snake n.content.hashed = some c → endsInDigit c = false ∧ c ≠ "part") :
    p.Compiles := by
  refine (C63_compiles_iff h).2 ⟨?_, ?_⟩
  · obtain ⟨out', h1, h2⟩ := C39_type_names_distinct_partial h.code fun n hn c hc => ⟨(hcamel n hn c hc).1, fun hm =>
      (hcamel n hn c hc).2 (by
        simp only [List.mem_cons, List.not_mem_nil, or_false] at hm ⊢
        rcases hm with hm | hm | hm | hm <;> simp [hm])⟩
    obtain ⟨out'', h3, -, -, -, -, h4⟩ := C38_emits_everything_once h.code
    obtain ⟨n, out, h5, rfl⟩ := h.emission
    cases emitLoop_det h1 h3
    cases emitLoop_det h1 h5
    rw [program_names h4]
    refine (List.perm_append_comm (l₁ := ["Ast"])).nodup_iff.1 ?_
    exact h2
  · intro it hit
    obtain ⟨out, rfl, -, ho⟩ := h.program
    rcases (mem_program ho).1 hit with ⟨i, en, he, hit'⟩ | rfl
    · have hf := h.fields he
      unfold BState.item at hit'
      split at hit' <;> try cases hit'
      · exact List.nodup_nil
      · rename_i ids hnd
        dsimp only at hit'
        split at hit'
        · cases hit'; exact List.nodup_nil
        · rename_i hemp
          cases hit'
          have hne : en.fields ≠ [] := by rintro h0; exact hemp (by simp [h0])
          have hl := h.cat_length he hnd hne
          simp only [Entry.FieldsOk, hnd] at hf
          obtain ⟨names, parts, hN, hnl, hpn, hfe⟩ := hf
          have := (C40_part_names_distinct_partial _ _ (.inl rfl) names parts hpn fun n hn c hc => hsnake n (hN n hn) c hc).1
          simp only [RItem.parts]
          rw [zip_fst (by simp [hl])]
          split at hfe
          · rw [hfe]; exact this
          · exact absurd hfe hne
      · rename_i tys ids hnd
        obtain ⟨hl, -, -⟩ := h.alt_length he hnd
        simp only [Entry.FieldsOk, hnd] at hf
        obtain ⟨names, hN, hnl, -, -, hpn⟩ := hf
        simp only [RItem.parts]
        rw [zip_fst (by simp [hl])]
        exact (C40_part_names_distinct_partial _ _ (.inr rfl) names _ hpn fun n hn c hc =>
          ⟨(hcamel n (hN n hn) c hc).1, fun hm => (hcamel n (hN n hn) c hc).2 (by simp [hm])⟩).1
      · exact List.nodup_nil
    · exact List.nodup_nil

/-! ## Examples -/

private def xi : Info := ⟨none, 0⟩
private def xnm (s : String) : Info := ⟨some (.newVariable (.spanless s)), 0⟩
private def xcat (a : NE) (l : List NE) : NE := .cat xi a (l.map fun b => (0, b))
private def xalt (a : NE) (l : List NE) : NE := .alt xi a (l.map fun b => (0, b))
private def xcas : Casing := ⟨fun s => some (if s = "x" then "X" else if s = "open" then "Open" else s), some⟩

/-- `!(/x/ "(" : open . x . ")" | "b" | "c")`. -/
private def exNested : NE :=
  .fix xi (.lam xi [.newVariable (.spanless "x")]
    (xalt (xcat (.lit (xnm "open") ['(']) [.var xi 0, .lit xi [')']]) [.lit xi ['b'], .lit xi ['c']]))

/-- The program emitted for it. -/
private def exProg : RProg :=
  [.alias "Fix1" (.path "Alt8"),
   .enum "Alt8" [("Branch1", .path "Cat5"), ("Branch2", .path "Lit6"), ("Branch3", .path "Lit7")] ["Branch1", "Branch2", "Branch3"]
     [(['('], "Branch1"), (['b'], "Branch2"), (['c'], "Branch3")] (.fail ['(', 'b', 'c']) none,
   .named "Cat5" [("open1", .path "Open1"), ("part2", .boxed (.path "Fix1")), ("part3", .path "Lit4")]
     ["open1", "part2", "part3"] ["part0", "part1", "part2"] [("open1", "part0"), ("part2", "part1"), ("part3", "part2")],
   .unit "Lit6" ['b'] ['b'] (some 'b'), .unit "Lit7" ['c'] ['c'] (some 'c'), .unit "Open1" ['('] ['('] (some '('),
   .unit "Lit4" [')'] [')'] (some ')'), .alias "Ast" (.path "Fix1")]

private theorem exNested_emits : ∃ te s, Emits xcas exNested te s 0 exProg ∧ NoSharingConflict te ∧
    te.names = [.newVariable (.spanless "open")] :=
  ⟨_, _, ⟨⟨10, rfl⟩, rfl, 20, _, rfl, by decide +kernel⟩, TE.shareSafe_sound (by decide), rfl⟩

/-- It satisfies the conditions of `C63_compiles_partial`, and compiles. -/
example : exProg.Compiles := by
  obtain ⟨te, s, h, -, hn⟩ := exNested_emits
  refine C63_compiles_partial h ?_ ?_ <;> (rw [hn]; simp only [List.mem_singleton]; rintro n rfl c hc; cases hc; decide)

/-- **C63** (counterexample in the code). A rule whose name is `lit` in camel case `Lit`: the program defines
`Lit1` twice. -/
theorem C63_type_clash : ∃ cas e te s id p, Emits cas e te s id p ∧ ¬ p.Compiles ∧
    (p.filter fun it => it.name == "Lit1").length = 2 := by
  refine ⟨⟨fun s => some (if s = "lit" then "Lit" else s), some⟩, xcat (.lit xi ['a']) [.lit (xnm "lit") ['b']], _, _, _, _,
    ⟨⟨5, rfl⟩, rfl, 10, _, rfl, rfl⟩, fun h => ?_, rfl⟩
  exact absurd h.names (by decide)

/-- **C63** (counterexample in the code). For `"a" . "b" : part` a struct with two fields `part1` is emitted. -/
theorem C63_field_clash : ∃ cas e te s id p, Emits cas e te s id p ∧ ¬ p.Compiles ∧
    ∃ it ∈ p, it.parts = ["part1", "part1"] := by
  refine ⟨⟨fun s => some s, some⟩, xcat (.lit xi ['a']) [.lit (xnm "part") ['b']], _, _, _, _,
    ⟨⟨5, rfl⟩, rfl, 10, _, rfl, rfl⟩, fun h => ?_, _, List.mem_cons_self .., rfl⟩
  exact absurd (h.parts _ (List.mem_cons_self ..)) (by decide)

/-! ## C64 -/

theorem Emits.shaped {cas : Casing} {e : NE} {te : TE} {s : BState} {id : Nat} {p : RProg} (h : Emits cas e te s id p)
    (hc : p.Compiles) : ∀ it ∈ p, it.Shaped := by
  intro it hit
  obtain ⟨hE, -⟩ := h.emitted hc.names hc.parts
  obtain ⟨out, rfl, -, ho⟩ := h.program
  rcases (mem_program ho).1 hit with ⟨i, en, he, hit'⟩ | rfl
  · unfold BState.item at hit'
    split at hit' <;> try cases hit'
    · exact ⟨rfl, rfl⟩
    · rename_i ids hnd
      dsimp only at hit'
      split at hit'
      · cases hit'; simp [RItem.Shaped]
      · rename_i hemp
        cases hit'
        obtain ⟨hl, hfn⟩ := hE.cat i en ids he hnd (by rintro h0; exact hemp (by simp [h0]))
        have e1 : (en.fields.zip (ids.map s.rty)).map (·.1) = en.fields := zip_fst (by simp [hl])
        exact ⟨e1.symm, by rw [e1]; exact hfn⟩
    · rename_i tys ids hnd
      obtain ⟨hl, -, hfn⟩ := hE.alt i en tys ids he hnd
      have e1 : (en.fields.zip (ids.map s.rty)).map (·.1) = en.fields := zip_fst (by simp [hl])
      refine ⟨e1.symm, by rw [e1]; exact hfn, fun xs hxs => ?_⟩
      split at hxs
      · cases hxs; exact e1.symm
      · cases hxs
    · trivial
  · trivial

/-- Running `Ast` is running the table. -/
theorem Emits.rel {cas : Casing} {e : NE} {te : TE} {s : BState} {id : Nat} {p : RProg} (h : Emits cas e te s id p)
    (hc : p.Compiles) (n : Nat) (w : IW) : Res.Rel (RVal.Stands p astTy) (p.take (n + 1) astTy w) (s.take n id w) := by
  have ht := gen_tinv h.code
  obtain ⟨hE, hroot⟩ := h.emitted hc.names hc.parts
  have := hE.take n id w h.id_lt (fun _ _ he => ht.depsLt _ _ he) (fun j en f he hnd => by
    obtain ⟨e', h1, -⟩ := ht.box j en f he hnd
    exact (List.getElem?_eq_some_iff.1 h1).1)
  have h2 := this.map (f := fun v => v) (g := fun t => t) (S := RVal.Stands p astTy) fun v t hv => ⟨.alias _ _ _ hroot hv.1, hv.2⟩
  have hid : ∀ {α : Type} (r : Res α), r.map (fun x => x) = r := by intro α r; cases r <;> rfl
  rw [hid, hid] at h2
  simp only [astTy, RProg.take, hroot]
  exact h2

/-- The same outcome of `parse_str`, with related values. -/
inductive ParseRes.Rel {α β : Type} (R : α → β → Prop) : ParseRes α → ParseRes β → Prop
  | ok (a : α) (b : β) : R a b → ParseRes.Rel R (.ok a) (.ok b)
  | err (e : ParseError) : ParseRes.Rel R (.err e) (.err e)
  | panic : ParseRes.Rel R .panic .panic
  | oof : ParseRes.Rel R .oof .oof

theorem parseStr_rel {α β : Type} {R : α → β → Prop} {f : IW → Res α} {g : IW → Res β} (h : ∀ w, Res.Rel R (f w) (g w))
    (text : List Char) : ParseRes.Rel R (parseStr f text) (parseStr g text) := by
  unfold parseStr parseWith
  have h1 := h (IW.new text)
  generalize f (IW.new text) = x at h1
  generalize g (IW.new text) = y at h1
  cases h1 with
  | err => exact .err _
  | panic => exact .panic
  | oof => exact .oof
  | ok a b w hr =>
    dsimp only
    rcases w.peek with ⟨_ | _, _⟩
    · exact .ok _ _ hr
    · exact .err _

/-- **C64** (same outcomes as the table). `Ast::parse_str` of a program that compiles returns a value, an
error or panics exactly when the table does, with the same error; so what C30–C36, C55 say about errors
and panics holds of the emitted program. -/
theorem C64_same_outcome {cas : Casing} {e : NE} {te : TE} {s : BState} {id : Nat} {p : RProg} (h : Emits cas e te s id p)
    (hc : p.Compiles) (text : List Char) :
    (∀ err, p.Parses text (.err err) ↔ Parses s id text (.err err)) ∧ (p.Parses text .panic ↔ Parses s id text .panic) ∧
    (∀ v, p.Parses text (.ok v) ↔ v.HasType p astTy ∧ Parses s id text (.ok (v.tree p))) := by
  have hrel : ∀ n, ParseRes.Rel (RVal.Stands p astTy) (parseStr (p.take (n + 1) astTy) text) (parseStr (s.take n id) text) :=
    fun n => parseStr_rel (fun w => h.rel hc n w) text
  have h0 : parseStr (p.take 0 astTy) text = .oof := rfl
  have up : ∀ {r : ParseRes RVal}, p.Parses text r → r ≠ .oof ∧ ∃ n, parseStr (p.take (n + 1) astTy) text = r := by
    rintro r ⟨hr, n, hn⟩
    cases n with
    | zero => exact absurd (hn.symm.trans h0) hr
    | succ n => exact ⟨hr, n, hn⟩
  refine ⟨fun err => ⟨fun hp => ?_, fun hp => ?_⟩, ⟨fun hp => ?_, fun hp => ?_⟩, fun v => ⟨fun hp => ?_, fun ⟨hv, hp⟩ => ?_⟩⟩
  · obtain ⟨-, n, hn⟩ := up hp
    refine ⟨by simp, n, ?_⟩
    have := hrel n
    rw [hn] at this
    generalize parseStr (s.take n id) text = y at this
    cases this; rfl
  · obtain ⟨-, n, hn⟩ := hp
    refine ⟨by simp, n + 1, ?_⟩
    have := hrel n
    rw [hn] at this
    generalize hx : parseStr (p.take (n + 1) astTy) text = y at this
    cases this; exact hx
  · obtain ⟨-, n, hn⟩ := up hp
    refine ⟨by simp, n, ?_⟩
    have := hrel n
    rw [hn] at this
    generalize parseStr (s.take n id) text = y at this
    cases this; rfl
  · obtain ⟨-, n, hn⟩ := hp
    refine ⟨by simp, n + 1, ?_⟩
    have := hrel n
    rw [hn] at this
    generalize hx : parseStr (p.take (n + 1) astTy) text = y at this
    cases this; exact hx
  · obtain ⟨-, n, hn⟩ := up hp
    have := hrel n
    rw [hn] at this
    generalize hx : parseStr (s.take n id) text = y at this
    cases this with
    | ok _ b hs => exact ⟨hs.1, by simp, n, by rw [hx, hs.2]⟩
  · obtain ⟨-, n, hn⟩ := hp
    refine ⟨by simp, n + 1, ?_⟩
    have := hrel n
    rw [hn] at this
    generalize hx : parseStr (p.take (n + 1) astTy) text = y at this
    cases this with
    | ok v' b hs =>
      rw [hs.1.tree_inj hv hs.2] at hx
      exact hx

/-- **C64** (language). `Ast::parse_str` of the emitted program accepts exactly the words of the grammar. -/
theorem C64_accepts_language {cas : Casing} {e : NE} {te : TE} {s : BState} {id : Nat} {p : RProg} (h : Emits cas e te s id p)
    (hc : p.Compiles) (hns : NoSharingConflict te) :
    ∃ g, e.grammar = some g ∧ ∀ text, (∃ v, p.Parses text (.ok v)) ↔ g.language text := by
  obtain ⟨g, hg, hl⟩ := C30_accepts_language h.compiled hns
  refine ⟨g, hg, fun text => ?_⟩
  rw [← hl text]
  have ht := gen_tinv h.code
  obtain ⟨hE, hroot⟩ := h.emitted hc.names hc.parts
  constructor
  · rintro ⟨v, hv⟩
    exact ⟨_, ((C64_same_outcome h hc text).2.2 v).1 hv |>.2⟩
  · rintro ⟨t, hp⟩
    obtain ⟨q, h1, h2⟩ := Parses.takes.1 hp
    have hval : Value s.step id t := by
      cases q with
      | ok t' w' =>
        simp only [parseWith] at h2
        rcases hpk : w'.peek with ⟨_ | c, w''⟩ <;> rw [hpk] at h2 <;> cases h2
        exact C31_parse_value s id _ _ _ h1
      | err => cases h2
      | panic => cases h2
      | oof => cases h2
    obtain ⟨v, h3, rfl⟩ := hE.value_of (fun j en f he hnd => by
      obtain ⟨e', h1, -⟩ := ht.box j en f he hnd
      exact (List.getElem?_eq_some_iff.1 h1).1) hval
    exact ⟨v, ((C64_same_outcome h hc text).2.2 v).2 ⟨.alias _ _ _ hroot h3, hp⟩⟩

/-- **C64** (display of what was parsed). If `Ast::parse_str` succeeds, the result has the type `Ast`, and its
`Display` writes the input. -/
theorem C64_parse_display {cas : Casing} {e : NE} {te : TE} {s : BState} {id : Nat} {p : RProg} (h : Emits cas e te s id p)
    (hc : p.Compiles) (text : List Char) (v : RVal) (hp : p.Parses text (.ok v)) : v.HasType p astTy ∧ v.fmt p = some text := by
  obtain ⟨h1, h2⟩ := ((C64_same_outcome h hc text).2.2 v).1 hp
  refine ⟨h1, ?_⟩
  rw [h1.fmt (h.shaped hc), C31_parse_display s id text _ h2]

/-- **C64** (parsing what is displayed). Every value of the type `Ast`, whether it was parsed or built by
hand, has a text, and parsing this text gives back the value. -/
theorem C64_display_parse {cas : Casing} {e : NE} {te : TE} {s : BState} {id : Nat} {p : RProg} (h : Emits cas e te s id p)
    (hc : p.Compiles) (v : RVal) (hv : v.HasType p astTy) :
    ∃ text, v.fmt p = some text ∧ p.Parses text (.ok v) := by
  have ht := gen_tinv h.code
  obtain ⟨hE, hroot⟩ := h.emitted hc.names hc.parts
  refine ⟨_, hv.fmt (h.shaped hc), ((C64_same_outcome h hc _).2.2 v).2 ⟨hv, ?_⟩⟩
  refine C32_parse_of_display h.compiled _ ?_
  have hbx : ∀ (j : Nat) (e : Entry) (f : Nat), s.data[j]? = some e → e.node = .box f → f < s.data.length := by
    intro j en f he hnd
    obtain ⟨e', h1, -⟩ := ht.box j en f he hnd
    exact (List.getElem?_eq_some_iff.1 h1).1
  have hv' : v.HasType p (s.rty id) := by
    unfold astTy at hv
    generalize hx : "Ast" = x at hv hroot
    cases hv with
    | epsilon => exact absurd hx (by decide)
    | alias _ t _ hf hv => rw [hroot] at hf; cases hf; exact hv
    | unit _ _ _ _ hf => rw [hroot] at hf; cases hf
    | struct _ _ _ _ _ _ hf => rw [hroot] at hf; cases hf
    | tuple _ _ _ _ _ _ hf => rw [hroot] at hf; cases hf
    | variant _ _ _ _ _ _ _ _ _ hf => rw [hroot] at hf; cases hf
  exact hE.to_value (fun _ _ he => ht.depsLt _ _ he) hbx hv' id h.id_lt rfl

/-- **C64** (exactly). `Ast::parse_str` returns `v` exactly if `v` is a value of the type `Ast` and the input is what its
`Display` writes; this needs no condition on the grammar. -/
theorem C64_parse_iff {cas : Casing} {e : NE} {te : TE} {s : BState} {id : Nat} {p : RProg} (h : Emits cas e te s id p)
    (hc : p.Compiles) (text : List Char) (v : RVal) : p.Parses text (.ok v) ↔ v.HasType p astTy ∧ v.fmt p = some text := by
  constructor
  · exact C64_parse_display h hc text v
  · rintro ⟨h1, h2⟩
    obtain ⟨text', h3, h4⟩ := C64_display_parse h hc v h1
    rw [h2] at h3
    cases h3
    exact h4

/-- **C64** (conversion to `char`). Where a type of the emitted program has a conversion to `char`, every
value of the type converts to a character, and its `Display` writes exactly this character. -/
theorem C64_to_char {cas : Casing} {e : NE} {te : TE} {s : BState} {id : Nat} {p : RProg} (h : Emits cas e te s id p)
    (hc : p.Compiles) (t : RTy) (ht : t.HasChar p) (v : RVal) (hv : v.HasType p t) :
    ∃ c, v.toChar p = some c ∧ v.fmt p = some [c] :=
  hv.toChar (h.shaped hc) hc.bodies ht

/-- **C64** (always an answer). On every text `Ast::parse_str` ends. -/
theorem C64_ends {cas : Casing} {e : NE} {te : TE} {s : BState} {id : Nat} {p : RProg} (h : Emits cas e te s id p)
    (hc : p.Compiles) (text : List Char) : ∃ r, p.Parses text r := by
  obtain ⟨⟨r, ⟨h1, n, h2⟩, -⟩, -⟩ := C33_parser_terminates h.compiled (IW.new text)
  refine ⟨_, ?_, n + 1, rfl⟩
  have h3 := h.rel hc n (IW.new text)
  rw [h2] at h3
  show parseWith (p.take (n + 1) astTy) (IW.new text) ≠ .oof
  unfold parseWith
  generalize p.take (n + 1) astTy (IW.new text) = x at h3 ⊢
  cases h3 with
  | ok a b w hr =>
    dsimp only
    rcases w.peek with ⟨_ | _, _⟩ <;> simp
  | err => simp
  | panic => simp
  | oof => exact absurd rfl h1

/-- **C64** (from the source). If all stages succeed and the emitted program compiles, its `Ast::parse_str`
accepts exactly the language of the reduced program. -/
theorem C64_end_to_end {cas : Casing} {fuel : Nat} {s : Stmt} {te : TE} {id : Nat} {st : BState} {out : List Nat}
    (h : compile cas fuel s = .ok te id st out) (hns : NoSharingConflict te) (hc : (st.program none id out).Compiles) :
    ∃ (e : NE) (c : Ctx) (e' : NE) (g : Gram), convStmt s [] = some (.ok e, c) ∧ Core.Steps e.erase e'.erase ∧
      e'.grammar = some g ∧ ∀ text, (∃ v, (st.program none id out).Parses text (.ok v)) ↔ g.language text := by
  obtain ⟨e, c, e', h1, h2, h3, h4⟩ := compile_ok h
  obtain ⟨cas', hcode⟩ := h3.code
  obtain ⟨g, hg, hl⟩ := C64_accepts_language (p := st.program none id out) ⟨h3.typed, hcode, fuel, out, h4, rfl⟩ hc hns
  exact ⟨e, c, e', g, h1, C17_reduce_steps _ _ _ h2, hg, hl⟩

/-- The example program parses `((b))` to a nested value, which displays as `((b))`. -/
example : ∃ te s, Emits xcas exNested te s 0 exProg ∧ exProg.Compiles ∧ NoSharingConflict te ∧
    exProg.Parses "(b)".toList (.ok (.variant "Alt8" "Branch1" (.struct "Cat5" [("open1", .unit "Open1"),
      ("part2", .boxed (.variant "Alt8" "Branch2" (.unit "Lit6"))), ("part3", .unit "Lit4")]))) := by
  obtain ⟨te, s, h, h', -⟩ := exNested_emits
  exact ⟨te, s, h, (C63_compiles_iff h).2 ⟨by decide, by decide⟩, h', by simp, 20, rfl⟩

end Chomp
