import Verif.Lower.Values
import Verif.Lower.Bound

/-!
# Systems of generated types

The theory of C30 to C35 once more, for any system of definitions whose types fit together: no grammar is involved.
-/

namespace Chomp

/-- The types of the parts of a concatenation after parts of type `τ`; the last argument is the type of the whole (`HasTyCat` without grammars). -/
inductive CatTys : Ty → List Ty → Ty → Prop
  | nil (τ : Ty) : CatTys τ [] τ
  | cons (τ σ : Ty) (l : List Ty) (υ : Ty) : (∀ c, c ∈ τ.flast → c ∉ σ.first) → CatTys (τ.cat σ) l υ → CatTys τ (σ :: l) υ

/-- The definitions of `S` fit together with the types `ty`. -/
structure TySys {α : Type} (step : α → NodeF α) (S : α → Prop) (ty : α → Ty) : Prop where
  bad : ∀ a, S a → step a ≠ .bad
  eps : ∀ a, S a → step a = .eps → ty a = .eps
  lit : ∀ a s, S a → step a = .lit s → ty a = .ofStr s
  cat : ∀ a l, S a → step a = .cat l → ∃ b l', l = b :: l' ∧ (∀ x ∈ l, S x) ∧ (ty b).nullable = false ∧ CatTys (ty b) (l'.map ty) (ty a)
  alt : ∀ a tys l, S a → step a = .alt tys l → tys = l.map ty ∧ (∀ x ∈ l, S x) ∧ tys.Pairwise Ty.Sep ∧
    ((ty a).nullable = true ↔ ∃ x ∈ l, (ty x).nullable = true) ∧ (∀ c, c ∈ (ty a).first ↔ ∃ x ∈ l, c ∈ (ty x).first) ∧
    ∀ c, c ∈ (ty a).flast ↔ ∃ x ∈ l, c ∈ (ty x).flast
  alias : ∀ a b, S a → step a = .alias b → S b ∧ ty a = ty b
  box : ∀ a b, S a → step a = .box b → S b ∧ ty a = ty b

section
variable {α : Type} {step : α → NodeF α} {S : α → Prop} {ty : α → Ty}

mutual
/-- Induction over values. -/
theorem Value.ind {P : α → Tree → Prop} (eps : ∀ a, step a = .eps → P a .eps) (lit : ∀ a s, step a = .lit s → P a (.lit s))
    (cat : ∀ a l ts, step a = .cat l → ValueL step l ts → All2 P l ts → P a (.cat ts))
    (alt : ∀ a tys l (k : Nat) b t, step a = .alt tys l → l[k]? = some b → Value step b t → P b t → P a (.alt k t))
    (alias : ∀ a b t, step a = .alias b → Value step b t → P b t → P a t)
    (box : ∀ a b t, step a = .box b → Value step b t → P b t → P a (.box t)) : ∀ {a : α} {t : Tree}, Value step a t → P a t
  | _, _, .eps a h => eps a h
  | _, _, .lit a s h => lit a s h
  | _, _, .cat a l ts h hv => cat a l ts h hv (ValueL.ind eps lit cat alt alias box hv)
  | _, _, .alt a tys l k b t h hk hv => alt a tys l k b t h hk hv (Value.ind eps lit cat alt alias box hv)
  | _, _, .alias a b t h hv => alias a b t h hv (Value.ind eps lit cat alt alias box hv)
  | _, _, .box a b t h hv => box a b t h hv (Value.ind eps lit cat alt alias box hv)
theorem ValueL.ind {P : α → Tree → Prop} (eps : ∀ a, step a = .eps → P a .eps) (lit : ∀ a s, step a = .lit s → P a (.lit s))
    (cat : ∀ a l ts, step a = .cat l → ValueL step l ts → All2 P l ts → P a (.cat ts))
    (alt : ∀ a tys l (k : Nat) b t, step a = .alt tys l → l[k]? = some b → Value step b t → P b t → P a (.alt k t))
    (alias : ∀ a b t, step a = .alias b → Value step b t → P b t → P a t)
    (box : ∀ a b t, step a = .box b → Value step b t → P b t → P a (.box t)) : ∀ {l : List α} {ts : List Tree}, ValueL step l ts → All2 P l ts
  | _, _, .nil => .nil
  | _, _, .cons _ _ _ _ h1 h2 => .cons (Value.ind eps lit cat alt alias box h1) (ValueL.ind eps lit cat alt alias box h2)
end

/-! ## Types describe values -/

theorem descL_of {l : List α} {ts : List Tree} (ha : All2 (fun a t => S a → (ty a).Desc t.text) l ts) (hS : ∀ x ∈ l, S x) {τ υ : Ty}
    (hT : CatTys τ (l.map ty) υ) (p : List Char) (hp : τ.Desc p) : υ.Desc (p ++ Tree.textL ts) := by
  induction ha generalizing τ p with
  | nil => cases hT; simpa [Tree.textL] using hp
  | @cons a t l ts h1 h2 ih =>
    cases hT with
    | cons _ _ _ _ h3 h4 =>
      have := ih (fun x hx => hS x (.tail _ hx)) h4 (p ++ t.text) (hp.cat (h1 (hS a (.head _))))
      simpa [Tree.textL] using this

theorem TySys.desc (h : TySys step S ty) {a : α} {t : Tree} (hv : Value step a t) (hS : S a) : (ty a).Desc t.text := by
  revert hS
  refine Value.ind (P := fun a t => S a → (ty a).Desc t.text) ?_ ?_ ?_ ?_ ?_ ?_ hv
  · intro a ha hS
    rw [h.eps a hS ha]; simp [Ty.Desc, Tree.text, Ty.eps]
  · intro a s ha hS
    rw [h.lit a s hS ha]
    refine ⟨fun h => by simpa [Tree.text, Ty.ofStr] using h, fun c r h => ?_⟩
    simp only [Ty.ofStr]
    rw [CharSet.mem_ofStr]
    simp only [Tree.text] at h
    simp [h]
  · intro a l ts ha _ hv hS
    obtain ⟨b, l', rfl, h1, h2, h3⟩ := h.cat a l hS ha
    cases hv with
    | @cons _ t _ ts hv1 hv2 => exact descL_of hv2 (fun x hx => h1 x (.tail _ hx)) h3 _ (hv1 (h1 b (.head _)))
  · intro a tys l k b t ha hk _ hv hS
    obtain ⟨_, h1, _, h3, h4, _⟩ := h.alt a tys l hS ha
    have hb := List.mem_of_getElem? hk
    have hd := hv (h1 b hb)
    exact ⟨fun h => h3.2 ⟨b, hb, hd.1 h⟩, fun c r h => (h4 c).2 ⟨b, hb, hd.2 c r h⟩⟩
  · intro a b t ha _ hv hS
    obtain ⟨h1, h2⟩ := h.alias a b hS ha
    rw [h2]; exact hv h1
  · intro a b t ha _ hv hS
    obtain ⟨h1, h2⟩ := h.box a b hS ha
    rw [h2]; exact hv h1

/-! ## Values are determined by their text -/

theorem TySys.uniqL (h : TySys step S ty) {l : List α} {ts : List Tree}
    (ha : All2 (fun a t => S a → ∀ t', Value step a t' → Uniq (ty a) (t = t') t.text t'.text) l ts) (hv : ValueL step l ts) (hS : ∀ x ∈ l, S x)
    {τ υ : Ty} (hT : CatTys τ (l.map ty) υ) (ts' : List Tree) (h' : ValueL step l ts') (A : Prop) (p p' : List Char) (n1 : p ≠ []) (n2 : p' ≠ [])
    (hu : Uniq τ A p p') : Uniq υ (A ∧ ts = ts') (p ++ Tree.textL ts) (p' ++ Tree.textL ts') := by
  induction ha generalizing τ ts' A p p' with
  | nil =>
    cases h'
    cases hT
    simpa [Tree.textL] using hu
  | @cons a t l ts h1 h2 ih =>
    cases hv with
    | cons _ _ _ _ hv1 hv2 =>
    cases h' with
    | cons _ _ t' ts' h1' h2' =>
      cases hT with
      | cons _ _ _ _ h4 h5 =>
        have ha := hS a (.head _)
        have hc := hu.cat n1 n2 (h1 ha t' h1') (h.desc hv1 ha) (h.desc h1' ha) h4
        have := ih hv2 (fun x hx => hS x (.tail _ hx)) h5 ts' h2' _ (p ++ t.text) (p' ++ t'.text) (by simp [n1]) (by simp [n2]) hc
        simp only [Tree.textL, ← List.append_assoc]
        refine this.mono ?_ (fun _ h => h)
        rintro ⟨⟨h6, rfl⟩, rfl⟩
        exact ⟨h6, rfl⟩

theorem Value.inv_eps {a : α} {t : Tree} (h : Value step a t) (ha : step a = .eps) : t = .eps := by
  cases h <;> simp_all
theorem Value.inv_lit {a : α} {t : Tree} {s : List Char} (h : Value step a t) (ha : step a = .lit s) : t = .lit s := by
  cases h <;> simp_all
theorem Value.inv_cat {a : α} {t : Tree} {l : List α} (h : Value step a t) (ha : step a = .cat l) : ∃ ts, t = .cat ts ∧ ValueL step l ts := by
  cases h <;> simp_all
theorem Value.inv_alt {a : α} {t : Tree} {tys : List Ty} {l : List α} (h : Value step a t) (ha : step a = .alt tys l) :
    ∃ (k : Nat) (b : α) (u : Tree), t = .alt k u ∧ l[k]? = some b ∧ Value step b u := by
  cases h with
  | alt _ tys' l' k b u ha' hk hv => rw [ha] at ha'; cases ha'; exact ⟨k, b, u, rfl, hk, hv⟩
  | _ => simp_all
theorem Value.inv_alias {a b : α} {t : Tree} (h : Value step a t) (ha : step a = .alias b) : Value step b t := by
  cases h <;> simp_all
theorem Value.inv_box {a b : α} {t : Tree} (h : Value step a t) (ha : step a = .box b) : ∃ u, t = .box u ∧ Value step b u := by
  cases h <;> simp_all

theorem TySys.uniq (h : TySys step S ty) {a : α} {t : Tree} (hv : Value step a t) (hS : S a) (t' : Tree) (hv' : Value step a t') :
    Uniq (ty a) (t = t') t.text t'.text := by
  suffices H : ∀ t', S a → Value step a t' → Uniq (ty a) (t = t') t.text t'.text from H t' hS hv'
  clear hv' t' hS
  refine Value.ind (P := fun a t => ∀ t', S a → Value step a t' → Uniq (ty a) (t = t') t.text t'.text) ?_ ?_ ?_ ?_ ?_ ?_ hv
  · intro a ha t' hS h'
    rw [h'.inv_eps ha]
    exact ⟨fun _ => rfl, by simp [Follows, Tree.text], by simp [Follows, Tree.text]⟩
  · intro a s ha t' hS h'
    rw [h'.inv_lit ha]
    refine ⟨fun _ => rfl, ?_, ?_⟩
    · rintro c ⟨_, w, h⟩
      have := congrArg List.length h
      simp at this
    · rintro c ⟨_, w, h⟩
      have := congrArg List.length h
      simp at this
  · intro a l ts ha hv hi t' hS h'
    obtain ⟨b, l', rfl, h1, h2, h3⟩ := h.cat a l hS ha
    obtain ⟨ts', rfl, hv'⟩ := h'.inv_cat ha
    cases hi with
    | @cons _ t _ ts hi1 hi2 =>
    cases hv with
    | cons _ _ _ _ hd1 hd2 =>
    cases hv' with
    | cons _ _ t' ts' hd1' hd2' =>
      have hb := h1 b (.head _)
      have n1 : t.text ≠ [] := fun he => by have := (h.desc hd1 hb).1 he; simp [h2] at this
      have n2 : t'.text ≠ [] := fun he => by have := (h.desc hd1' hb).1 he; simp [h2] at this
      have := h.uniqL (hi2.mono fun _ _ hx h1 t' h2 => hx t' h1 h2) hd2 (fun x hx => h1 x (.tail _ hx)) h3 ts' hd2' (t = t') t.text t'.text n1 n2
        (hi1 t' hb hd1')
      refine this.mono ?_ (fun _ h => h)
      rintro ⟨rfl, rfl⟩
      rfl
  · intro a tys l k b t ha hk hv ih t' hS h'
    obtain ⟨h0, h1, h2, h3, h4, h5⟩ := h.alt a tys l hS ha
    have hb := List.mem_of_getElem? hk
    have hdesc := h.desc hv (h1 b hb)
    obtain ⟨k', b', t', rfl, hk', hv'⟩ := h'.inv_alt ha
    by_cases hkk : k = k'
    · subst hkk
      rw [hk] at hk'
      cases hk'
      exact (ih t' (h1 b hb) hv').mono (fun h => by rw [h]) (fun c hc => (h5 c).2 ⟨b, hb, hc⟩)
    · have hb' := List.mem_of_getElem? hk'
      have hdesc' := h.desc hv' (h1 b' hb')
      have hsep : (ty b).Sep (ty b') :=
        pairwise_get (fun _ _ => Ty.Sep.symm) h2 hkk (by rw [h0, List.getElem?_map, hk]; rfl) (by rw [h0, List.getElem?_map, hk']; rfl)
      have key : ∀ {u v : List Char} {a b : Ty}, a.Desc u → b.Desc v → a.Sep b → ∀ c, ¬ Follows u v c := by
        rintro u v a b ha hb hs c ⟨hne, w, he⟩
        cases u with
        | nil => exact hne rfl
        | cons x u => exact hs.2 x (ha.2 x u rfl) (hb.2 x _ he)
      refine ⟨?_, fun c hc => absurd hc (key hdesc hdesc' hsep c), fun c hc => absurd hc (key hdesc' hdesc hsep.symm c)⟩
      intro he
      simp only [Tree.text] at he
      exfalso
      cases hw : t.text with
      | nil => exact hsep.1 ⟨hdesc.1 hw, hdesc'.1 (he ▸ hw)⟩
      | cons c w => exact hsep.2 c (hdesc.2 c w hw) (hdesc'.2 c w (he ▸ hw))
  · intro a b t ha hv ih t' hS h'
    obtain ⟨h1, h2⟩ := h.alias a b hS ha
    rw [h2]
    exact ih t' h1 (h'.inv_alias ha)
  · intro a b t ha hv ih t' hS h'
    obtain ⟨h1, h2⟩ := h.box a b hS ha
    rw [h2]
    obtain ⟨t', rfl, hv'⟩ := h'.inv_box ha
    exact (ih t' h1 hv').mono (fun h => by rw [h]) (fun _ h => h)

/-! ## Every value is parsed from its text -/

theorem TySys.rest_follow (h : TySys step S ty) : ∀ {l : List α} {us : List Tree}, ValueL step l us → (∀ x ∈ l, S x) → ∀ {τ υ : Ty},
    CatTys τ (l.map ty) υ → ∀ {r : List Char}, (∀ c r', r = c :: r' → c ∉ υ.flast) → ∀ c r', Tree.textL us ++ r = c :: r' → c ∉ τ.flast
  | _, _, .nil, hS, τ, υ, hA, r, hr, c, r', he => by
    cases hA
    exact hr c r' (by simpa [Tree.textL] using he)
  | _, _, .cons a l u us hd1 hd2, hS, τ, υ, hA, r, hr, c, r', he => by
    cases hA with
    | cons _ _ _ _ h2 h3 =>
      have hdesc := h.desc hd1 (hS a (.head _))
      cases hu : u.text with
      | cons d v =>
        simp only [Tree.textL, hu, List.cons_append, List.cons.injEq] at he
        rw [← he.1]
        intro hc
        exact h2 d hc (hdesc.2 d v hu)
      | nil =>
        have := h.rest_follow hd2 (fun x hx => hS x (.tail _ hx)) h3 hr c r' (by simpa [Tree.textL, hu] using he)
        intro hc
        apply this
        simp [Ty.cat, hdesc.1 hu, hc]

/-- Taking the text of a value of type `a` returns the value, with fuel `n`. -/
def TakesText (step : α → NodeF α) (ty : α → Ty) (n : Nat) (a : α) (t : Tree) : Prop :=
  ∀ (w : IW) (r : List Char), w.rem = t.text ++ r → Follow (ty a) t.text r → ∃ w', run step n a w = .ok t w' ∧ w'.rem = r

theorem TakesText.mono {n m : Nat} {a : α} {t : Tree} (h : TakesText step ty n a t) (hnm : n ≤ m) : TakesText step ty m a t := by
  intro w r hw hf
  obtain ⟨w', h1, h2⟩ := h w r hw hf
  exact ⟨w', by rw [run_fuel hnm (by rw [h1]; simp), h1], h2⟩

theorem takesText_all {l : List α} {ts : List Tree} (ha : All2 (fun a t => S a → ∃ n, TakesText step ty n a t) l ts) (hS : ∀ x ∈ l, S x) :
    ∃ n, All2 (TakesText step ty n) l ts := by
  induction ha with
  | nil => exact ⟨0, .nil⟩
  | @cons a t l ts h1 h2 ih =>
    obtain ⟨n, hn⟩ := h1 (hS a (.head _))
    obtain ⟨m, hm⟩ := ih (fun x hx => hS x (.tail _ hx))
    exact ⟨max n m, .cons (hn.mono (Nat.le_max_left ..)) (hm.mono fun _ _ h => h.mono (Nat.le_max_right ..))⟩

theorem TySys.completeL (h : TySys step S ty) {n : Nat} {l : List α} {us : List Tree} (ha : All2 (TakesText step ty n) l us) (hv : ValueL step l us)
    (hS : ∀ x ∈ l, S x) {τ υ : Ty} (hT : CatTys τ (l.map ty) υ) {w : IW} {r : List Char} (hw : w.rem = Tree.textL us ++ r)
    (hr : ∀ c r', r = c :: r' → c ∉ υ.flast) : ∃ w', seqTake (run step n) l w = .ok us w' ∧ w'.rem = r := by
  induction ha generalizing τ w with
  | nil => exact ⟨w, rfl, by simpa [Tree.textL] using hw⟩
  | @cons a u l us h1 h2 ih =>
    cases hv with
    | cons _ _ _ _ hd1 hd2 =>
    cases hT with
    | cons _ _ _ _ h3 h4 =>
      have hdesc := h.desc hd1 (hS a (.head _))
      have hfol := flast_cat_of hdesc (h.rest_follow hd2 (fun x hx => hS x (.tail _ hx)) h4 hr)
      have hw' : w.rem = u.text ++ (Tree.textL us ++ r) := by rw [hw]; simp [Tree.textL]
      obtain ⟨w1, e1, e2⟩ := h1 w _ hw' hfol
      obtain ⟨w2, e3, e4⟩ := ih hd2 (fun x hx => hS x (.tail _ hx)) h4 e2
      exact ⟨w2, by simp [seqTake, e1, e3, Res.bind], e4⟩

/-- Taking a value's text returns the value. -/
theorem TySys.complete (h : TySys step S ty) {a : α} {t : Tree} (hv : Value step a t) (hS : S a) : ∃ n, TakesText step ty n a t := by
  revert hS
  refine Value.ind (P := fun a t => S a → ∃ n, TakesText step ty n a t) ?_ ?_ ?_ ?_ ?_ ?_ hv
  · intro a ha hS
    exact ⟨1, fun w r hw _ => ⟨w, by simp [run, ha], by simpa [Tree.text] using hw⟩⟩
  · intro a s ha hS
    refine ⟨1, fun w r hw _ => ?_⟩
    obtain ⟨w', h1⟩ := consumeStr_complete (s := s) (w := w) ⟨r, hw.symm⟩
    refine ⟨w', by simp [run, ha, h1, Res.map], ?_⟩
    have := (consumeStr_ok h1).1
    rw [hw] at this
    simpa [Tree.text] using this.symm
  · intro a l us ha hv hi hS
    obtain ⟨b, l', rfl, h1, h2, h3⟩ := h.cat a l hS ha
    obtain ⟨n, hn⟩ := takesText_all hi h1
    cases hv with
    | cons _ _ u us hd1 hd2 =>
    cases hn with
    | cons hn1 hn2 =>
      have hb := h1 b (.head _)
      refine ⟨n + 1, fun w r hw hfol => ?_⟩
      have hdesc := h.desc hd1 hb
      have hne : u.text ≠ [] := fun he => by have := hdesc.1 he; simp [h2] at this
      have hr : ∀ c r', r = c :: r' → c ∉ (ty a).flast := fun c r' he =>
        (hfol c r' he).1 (by simp [Tree.text, Tree.textL, hne])
      have hcr := h.rest_follow hd2 (fun x hx => h1 x (.tail _ hx)) h3 hr
      have hw' : w.rem = u.text ++ (Tree.textL us ++ r) := by rw [hw]; simp [Tree.text, Tree.textL]
      obtain ⟨w1, e1, e2⟩ := hn1 w _ hw' (fun c r' he => ⟨fun _ => hcr c r' he, fun he => absurd he hne⟩)
      obtain ⟨w2, e3, e4⟩ := h.completeL hn2 hd2 (fun x hx => h1 x (.tail _ hx)) h3 e2 hr
      exact ⟨w2, by simp [run, ha, seqTake, e1, e3, Res.bind, Res.map], e4⟩
  · intro a tys l k b u ha hk hv ih hS
    obtain ⟨h0, h1, h2, h3, h4, h5⟩ := h.alt a tys l hS ha
    have hb := List.mem_of_getElem? hk
    have hdesc := h.desc hv (h1 b hb)
    obtain ⟨n, hn⟩ := ih (h1 b hb)
    refine ⟨n + 1, fun w r hw hfol => ?_⟩
    have hch : altChoose w.rem.head? tys = some k := by
      rw [hw]
      refine altChoose_complete h2 (σ := ty b) (by rw [h0, List.getElem?_map, hk]; rfl) hdesc ?_
      intro hu c r' hr τ hτ
      rw [h0] at hτ
      obtain ⟨t', ht', rfl⟩ := List.mem_map.1 hτ
      intro hc
      exact (hfol c r' hr).2 (by simpa [Tree.text] using hu) ((h4 c).2 ⟨t', ht', hc⟩)
    have heq : run step (n + 1) a w = (run step n b w.peek.2).map (.alt k) := by
      simp only [run, ha, altTake]
      rw [IW.peek_eq]
      simp only [hch, hk]
    obtain ⟨w1, e1, e2⟩ := hn w.peek.2 r (by simpa [Tree.text] using hw)
      (fun c r' h => ⟨fun hu hc => (hfol c r' h).1 (by simpa [Tree.text] using hu) ((h5 c).2 ⟨b, hb, hc⟩),
        fun hu hc => (hfol c r' h).2 (by simpa [Tree.text] using hu) ((h4 c).2 ⟨b, hb, hc⟩)⟩)
    exact ⟨w1, by rw [heq]; simp [e1, Res.map], e2⟩
  · intro a b t ha hv ih hS
    obtain ⟨h1, h2⟩ := h.alias a b hS ha
    obtain ⟨n, hn⟩ := ih h1
    refine ⟨n + 1, fun w r hw hfol => ?_⟩
    rw [h2] at hfol
    obtain ⟨w', e1, e2⟩ := hn w r hw hfol
    exact ⟨w', by simp [run, ha, e1], e2⟩
  · intro a b t ha hv ih hS
    obtain ⟨h1, h2⟩ := h.box a b hS ha
    obtain ⟨n, hn⟩ := ih h1
    refine ⟨n + 1, fun w r hw hfol => ?_⟩
    rw [h2] at hfol
    obtain ⟨w', e1, e2⟩ := hn w r hw hfol
    exact ⟨w', by simp [run, ha, e1, Res.map], e2⟩

end

end Chomp
