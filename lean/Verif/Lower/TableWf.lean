import Verif.Lower.TableGen

/-!
# The generated definitions contain no left recursion, whatever has been shared
-/

namespace Chomp

/-! ## A well-founded relation on finitely many numbers has ranks -/

theorem exists_rank (R : Nat → Nat → Prop) : ∀ (n : Nat) (L : List Nat), L.length = n → (∀ a ∈ L, Acc (fun b a => R a b) a) →
    ∃ rk : Nat → Nat, (∀ a ∈ L, ∀ b ∈ L, R a b → rk b < rk a) ∧ ∀ a ∈ L, rk a < n
  | 0, L, hl, _ => by
    have : L = [] := List.length_eq_zero_iff.1 hl
    subst this
    exact ⟨fun _ => 0, by simp, by simp⟩
  | n + 1, L, hl, hA => by
    -- an element without successors
    have hmin : ∃ m ∈ L, ∀ b ∈ L, ¬ R m b := by
      have hne : ∃ a, a ∈ L := by
        cases L with
        | nil => cases hl
        | cons a L => exact ⟨a, .head _⟩
      obtain ⟨a, ha⟩ := hne
      have := hA a ha
      induction this with
      | intro a _ ih =>
        by_cases h : ∃ b ∈ L, R a b
        · obtain ⟨b, hb, hR⟩ := h
          exact ih b hR hb
        · exact ⟨a, ha, fun b hb hR => h ⟨b, hb, hR⟩⟩
    obtain ⟨m, hm, hno⟩ := hmin
    obtain ⟨rk, h1, h2⟩ := exists_rank R n (L.erase m) (by rw [List.length_erase_of_mem hm, hl]; rfl) (fun a ha => hA a (List.mem_of_mem_erase ha))
    refine ⟨fun a => if a = m then 0 else rk a + 1, ?_, ?_⟩
    · intro a ha b hb hR
      have hne : a ≠ m := by rintro rfl; exact hno b hb hR
      dsimp only
      rw [if_neg hne]
      split
      · omega
      · rename_i hbm
        have := h1 a ((List.mem_erase_of_ne hne).2 ha) b ((List.mem_erase_of_ne hbm).2 hb) hR
        omega
    · intro a ha
      dsimp only
      split
      · omega
      · rename_i hne
        have := h2 a ((List.mem_erase_of_ne hne).2 ha)
        omega

/-! ## Measuring first sets -/

/-- How many of the given characters are first characters of the type. -/
def firstCount (U : List Char) (t : Ty) : Nat := U.countP fun c => decide (c ∈ t.first)

theorem firstCount_le (U : List Char) {a b : Ty} (h : ∀ c, c ∈ b.first → c ∈ a.first) : firstCount U b ≤ firstCount U a :=
  List.countP_mono_left fun c _ hc => by simpa using h c (by simpa using hc)

theorem firstCount_lt {U : List Char} {a b : Ty} (h : ∀ c, c ∈ b.first → c ∈ a.first) {c : Char} (hU : c ∈ U) (ha : c ∈ a.first) (hb : c ∉ b.first) :
    firstCount U b < firstCount U a := by
  induction U with
  | nil => cases hU
  | cons x U ih =>
    have hle := firstCount_le U h
    simp only [firstCount, List.countP_cons] at hle ih ⊢
    rcases List.mem_cons.1 hU with rfl | hU
    · simp [ha, hb]; omega
    · have := ih hU
      by_cases hx : x ∈ b.first
      · simp [hx, h x hx]; omega
      · simp [hx]; omega

theorem CharSet.mem_chars {s : CharSet} {c : Char} (h : c ∈ s) : c ∈ s.chars := h

/-! ## No left recursion -/

theorem SameFirst.refl (a : Ty) : SameFirst a a := fun _ => Iff.rfl

theorem CatTys.first {τ υ : Ty} {l : List Ty} (h : CatTys τ l υ) (hn : τ.nullable = false) : SameFirst υ τ := by
  induction h with
  | nil τ => exact .refl τ
  | cons τ σ l υ _ _ ih =>
    refine (ih (by simp [Ty.cat, hn])).trans fun c => by simp [Ty.cat, hn]

theorem All2.head_mem {τ : List Ty} {b : Nat} {l : List Nat} {tb : Ty} {tys : List Ty} (h : All2 (TyAt τ) (b :: l) (tb :: tys)) : TyAt τ b tb := by
  cases h with
  | cons h1 _ => exact h1

theorem All2.mem_left_of {α β : Type} {R : α → β → Prop} : ∀ {l : List α} {l' : List β}, All2 R l l' → ∀ a ∈ l, ∃ b ∈ l', R a b
  | _, _, .nil, a, ha => by cases ha
  | _, _, .cons h1 h2, a, ha => by
    rcases List.mem_cons.1 ha with rfl | ha
    · exact ⟨_, .head _, h1⟩
    · obtain ⟨b, hb, h⟩ := h2.mem_left_of a ha
      exact ⟨b, .tail _ hb, h⟩

theorem altTy_first' {l : List Ty} (hne : l ≠ []) (c : Char) : c ∈ (altTy l).first ↔ ∃ x ∈ l, c ∈ x.first := by
  cases l with
  | nil => exact absurd rfl hne
  | cons t l => simp [altTy, altTy_first]

section
variable {s : BState} {τ : List Ty}

theorem FPath.target_lt (h : TyInv s τ) {a f : Nat} (hf : FPath s.data τ a f) : f < s.data.length := by
  induction hf with
  | box j f hn =>
    have := h.typed j
    simp only [NodeTy, hn] at this
    obtain ⟨t, h1, _⟩ := this
    exact h.lt h1
  | cat _ _ _ _ _ _ ih => exact ih
  | alt _ _ _ _ _ _ _ _ _ ih => exact ih
  | alias _ _ _ _ _ ih => exact ih

theorem TyInv.left_acc (h : TyInv s τ) (hc : s.context = []) (U : List Char) (hU : ∀ id t, TyAt τ id t → ∀ c, c ∈ t.first → c ∈ U) :
    ∀ (n g : Nat) (a : Nat) (t : Ty), TyAt τ a t → firstCount U t ≤ n → (∀ f, FPath s.data τ a f → f < g) → Acc (fun b a => LeftOf s.step a b) a := by
  intro n
  induction n using Nat.strongRecOn with
  | _ n ihn =>
  intro g
  induction g using Nat.strongRecOn with
  | _ g ihg =>
  intro a t hat hcount hfp
  -- smaller first sets
  have small : ∀ b tb, TyAt τ b tb → (∀ c, c ∈ tb.first → c ∈ t.first) → ¬ SameFirst t tb → Acc (fun b a => LeftOf s.step a b) b := by
    intro b tb hb hsub hns
    have : ∃ c, c ∈ t.first ∧ c ∉ tb.first := by
      apply Classical.byContradiction
      intro hno
      exact hns fun c => ⟨fun hc => Classical.byContradiction fun hc' => hno ⟨c, hc, hc'⟩, hsub c⟩
    obtain ⟨c, h1, h2⟩ := this
    have := firstCount_lt hsub (hU a t hat c h1) h1 h2
    exact ihn (firstCount U tb) (by omega) s.data.length b tb hb (Nat.le_refl _) (fun f hf => hf.target_lt h)
  have hdone : NodeDone s.data a := by
    rcases h.done a (h.lt hat) with h1 | h1
    · rw [hc] at h1; cases h1
    · exact h1
  induction hdone generalizing t with
  | eps id hn =>
    refine ⟨_, fun b hb => ?_⟩
    simp only [LeftOf, BState.step_eq, hn] at hb
    simp at hb
  | lit id str hn =>
    refine ⟨_, fun b hb => ?_⟩
    simp only [LeftOf, BState.step_eq, hn] at hb
    simp at hb
  | cat id l hn _ ih =>
    refine ⟨_, fun b hb => ?_⟩
    simp only [LeftOf, BState.step_eq, hn] at hb
    have hb : ∃ l', l = b :: l' := by simpa using hb
    obtain ⟨l', rfl⟩ := hb
    have hty := h.typed id
    simp only [NodeTy, hn] at hty
    obtain ⟨tb, tys, h1, h2, h3, h4⟩ := hty
    rw [TyAt, hat] at h4
    cases h4
    have hsf := h3.first h2
    refine ih b (.head _) tb h1.head_mem (Nat.le_trans (firstCount_le U fun c hc => (hsf c).2 hc) hcount) (fun f hf => hfp f (.cat id b f l' hn hf)) ?_
    intro x tx hx hsub hns
    exact small x tx hx (fun c hc => (hsf c).2 (hsub c hc)) (fun hs => hns (hsf.symm.trans hs))
  | alt id tys l hn _ ih =>
    refine ⟨_, fun b hb => ?_⟩
    simp only [LeftOf, BState.step_eq, hn] at hb
    have hb : b ∈ l := by
      have hb : ∃ tys_1 l_1, (tys = tys_1 ∧ l = l_1) ∧ b ∈ l_1 := by simpa using hb
      obtain ⟨_, _, ⟨rfl, rfl⟩, hb⟩ := hb
      exact hb
    have hty := h.typed id
    simp only [NodeTy, hn] at hty
    obtain ⟨h1, h2, h3, h4⟩ := hty
    rw [TyAt, hat] at h4
    cases h4
    obtain ⟨tb, htb, hbt⟩ := h1.mem_left_of b hb
    have hsub : ∀ c, c ∈ tb.first → c ∈ (altTy tys).first := fun c hc => (altTy_first' h3 c).2 ⟨tb, htb, hc⟩
    by_cases hsf : SameFirst (altTy tys) tb
    · refine ih b hb tb hbt (Nat.le_trans (firstCount_le U hsub) hcount) (fun f hf => hfp f (.alt id b f tys l hn hb ⟨_, _, hat, hbt, hsf⟩ hf)) ?_
      intro x tx hx hsub' hns
      exact small x tx hx (fun c hc => hsub c (hsub' c hc)) (fun hs => hns (hsf.symm.trans hs))
    · exact small b tb hbt hsub hsf
  | alias id j hn _ ih =>
    refine ⟨_, fun b hb => ?_⟩
    simp only [LeftOf, BState.step_eq, hn] at hb
    have hb : j = b := by simpa using hb
    subst hb
    have hty := h.typed id
    simp only [NodeTy, hn] at hty
    obtain ⟨tj, h1, h2⟩ := hty
    rw [TyAt, hat] at h2
    cases h2
    exact ih _ h1 hcount (fun f hf => hfp f (.alias id j f hn hf)) small
  | box id f hn =>
    refine ⟨_, fun b hb => ?_⟩
    simp only [LeftOf, BState.step_eq, hn] at hb
    have hb : f = b := by simpa using hb
    subst hb
    have hty := h.typed id
    simp only [NodeTy, hn] at hty
    obtain ⟨tj, h1, h2⟩ := hty
    rw [TyAt, hat] at h2
    cases h2
    refine ihg f (hfp f (.box id f hn)) f _ h1 hcount ?_
    intro f' hf'
    rcases h.boxes id f hn with h3 | ⟨j, h3⟩
    · rw [hc] at h3; cases h3
    · cases hf' with
      | alias _ b' _ h4 h5 =>
        rw [h3] at h4; cases h4
        exact h.left f j h3 f' h5
      | _ => simp_all

/-- The types as a function. -/
def tyFun (τ : List Ty) (id : Nat) : Ty := (τ[id]?).getD .default

theorem tyFun_eq {id : Nat} {t : Ty} (h : TyAt τ id t) : tyFun τ id = t := by
  rw [TyAt] at h
  simp [tyFun, h]

theorem All2.map_tyFun : ∀ {l : List Nat} {tys : List Ty}, All2 (TyAt τ) l tys → l.map (tyFun τ) = tys
  | _, _, .nil => rfl
  | _, _, .cons h1 h2 => by rw [List.map_cons, tyFun_eq h1, h2.map_tyFun]

theorem altTy_nullable : ∀ (l : List Ty) (t : Ty), (l.foldl Ty.alt t).nullable = true ↔ t.nullable = true ∨ ∃ x ∈ l, x.nullable = true
  | [], t => by simp
  | a :: l, t => by
    rw [List.foldl_cons, altTy_nullable l]
    simp [Ty.alt, or_assoc]

theorem altTy_flast : ∀ (l : List Ty) (t : Ty) (c : Char), c ∈ (l.foldl Ty.alt t).flast ↔ c ∈ t.flast ∨ ∃ x ∈ l, c ∈ x.flast
  | [], t, c => by simp
  | a :: l, t, c => by
    rw [List.foldl_cons, altTy_flast l]
    simp [Ty.alt, or_assoc]

/-- The generated definitions fit together. -/
theorem TyInv.sys (h : TyInv s τ) (hc : s.context = []) : TySys s.step (· < s.data.length) (tyFun τ) := by
  have hty := h.typed
  simp only [NodeTy] at hty
  refine ⟨?_, ?_, ?_, ?_, ?_, ?_, ?_⟩
  · intro a ha hb
    rcases h.done a ha with h1 | h1
    · rw [hc] at h1; cases h1
    · exact h1.ne_bad hb
  · intro a ha hn
    rw [BState.step_eq] at hn
    have := hty a
    rw [hn] at this
    exact tyFun_eq this
  · intro a str ha hn
    rw [BState.step_eq] at hn
    have := hty a
    rw [hn] at this
    exact tyFun_eq this
  · intro a l ha hn
    rw [BState.step_eq] at hn
    have h1 := hty a
    rw [hn] at h1
    obtain ⟨tb, tys, h2, h3, h4, h5⟩ := h1
    cases h2 with
    | @cons b _ l' _ h6 h7 =>
      refine ⟨b, l', rfl, ?_, by rw [tyFun_eq h6]; exact h3, ?_⟩
      · intro x hx
        rcases List.mem_cons.1 hx with rfl | hx
        · exact h.lt h6
        · exact h7.lt_of h x hx
      · rw [tyFun_eq h6, h7.map_tyFun, tyFun_eq h5]; exact h4
  · intro a tys l ha hn
    rw [BState.step_eq] at hn
    have h1 := hty a
    rw [hn] at h1
    obtain ⟨h2, h3, h4, h5⟩ := h1
    rw [tyFun_eq h5]
    have hmap := h2.map_tyFun
    have hex : ∀ P : Ty → Prop, (∃ x ∈ tys, P x) ↔ ∃ x ∈ l, P (tyFun τ x) := by
      intro P
      rw [← hmap]
      simp only [List.mem_map]
      exact ⟨fun ⟨x, ⟨a, h1, h2⟩, h3⟩ => ⟨a, h1, h2 ▸ h3⟩, fun ⟨a, h1, h2⟩ => ⟨_, ⟨a, h1, rfl⟩, h2⟩⟩
    refine ⟨hmap.symm, h2.lt_of h, h3, ?_, ?_, ?_⟩
    · rw [← hex fun t => t.nullable = true]
      cases tys with
      | nil => exact absurd rfl h4
      | cons t tys => simp [altTy, altTy_nullable]
    · intro c
      rw [← hex fun t => c ∈ t.first]
      exact altTy_first' h4 c
    · intro c
      rw [← hex fun t => c ∈ t.flast]
      cases tys with
      | nil => exact absurd rfl h4
      | cons t tys => simp [altTy, altTy_flast]
  · intro a b ha hn
    rw [BState.step_eq] at hn
    have h1 := hty a
    rw [hn] at h1
    obtain ⟨t, h2, h3⟩ := h1
    exact ⟨h.lt h2, by rw [tyFun_eq h2, tyFun_eq h3]⟩
  · intro a b ha hn
    rw [BState.step_eq] at hn
    have h1 := hty a
    rw [hn] at h1
    obtain ⟨t, h2, h3⟩ := h1
    exact ⟨h.lt h2, by rw [tyFun_eq h2, tyFun_eq h3]⟩

/-- The number of fields of the struct with the most. -/
def BState.maxParts (s : BState) : Nat := s.data.foldl (fun m e => match e.node with | .cat l => max m l.length | _ => m) 0

/-- The length of the longest literal. -/
def BState.maxLit (s : BState) : Nat := s.data.foldl (fun m e => match e.node with | .lit l => max m l.length | _ => m) 0

theorem le_foldl_max {α : Type} (f : Nat → α → Nat) (g : α → Nat) (hf : ∀ m a, m ≤ f m a) (hg : ∀ m a, g a ≤ f m a) :
    ∀ (l : List α) (m : Nat), m ≤ l.foldl f m ∧ ∀ a ∈ l, g a ≤ l.foldl f m
  | [], m => by simp
  | a :: l, m => by
    obtain ⟨h1, h2⟩ := le_foldl_max f g hf hg l (f m a)
    refine ⟨Nat.le_trans (hf m a) h1, fun b hb => ?_⟩
    rcases List.mem_cons.1 hb with rfl | hb
    · exact Nat.le_trans (hg m b) h1
    · exact h2 b hb

theorem BState.le_maxParts {a : Nat} {l : List Nat} (h : s.step a = .cat l) : l.length ≤ s.maxParts := by
  simp only [BState.step] at h
  split at h
  · rename_i e he
    have := (le_foldl_max (fun m (e : Entry) => match e.node with | .cat l => max m l.length | _ => m)
      (fun e => match e.node with | .cat l => l.length | _ => 0) (by intro m a; split <;> omega) (by intro m a; split <;> omega) s.data 0).2
      e (List.mem_of_getElem? he)
    rw [h] at this
    exact this
  · cases h

theorem BState.le_maxLit {a : Nat} {l : List Char} (h : s.step a = .lit l) : l.length ≤ s.maxLit := by
  simp only [BState.step] at h
  split at h
  · rename_i e he
    have := (le_foldl_max (fun m (e : Entry) => match e.node with | .lit l => max m l.length | _ => m)
      (fun e => match e.node with | .lit l => l.length | _ => 0) (by intro m a; split <;> omega) (by intro m a; split <;> omega) s.data 0).2
      e (List.mem_of_getElem? he)
    rw [h] at this
    exact this
  · cases h

/-- There is no left recursion among the generated definitions. -/
theorem TyInv.ranked (h : TyInv s τ) (hc : s.context = []) : ∃ rk, Ranked s.step (· < s.data.length) (s.data.length - 1) s.maxParts s.maxLit rk := by
  have hU : ∀ id t, TyAt τ id t → ∀ c, c ∈ t.first → c ∈ τ.flatMap fun t => t.first.chars := fun id t ht c hc =>
    List.mem_flatMap.2 ⟨t, List.mem_of_getElem? ht, CharSet.mem_chars hc⟩
  obtain ⟨rk, h1, h2⟩ := exists_rank (LeftOf s.step) s.data.length (List.range s.data.length) (by simp) (by
    intro a ha
    obtain ⟨t, ht⟩ := h.ty_of (List.mem_range.1 ha)
    exact h.left_acc hc _ hU _ s.data.length a t ht (Nat.le_refl _) (fun f hf => hf.target_lt h))
  refine ⟨rk, fun a b ha hb => h1 a (List.mem_range.2 ha) b (List.mem_range.2 hb), fun a ha => ?_, fun a l _ => BState.le_maxParts, fun a l _ => BState.le_maxLit⟩
  have := h2 a (List.mem_range.2 ha)
  omega

end

theorem TyInv.initial : TyInv {} [] := by
  refine ⟨rfl, rfl, ?_, ?_, ?_, ?_, ?_, ?_, ?_, ?_, ?_, ?_, ?_⟩ <;> simp [NodeTy, nodeAt]

/-- What code generation has produced in the end. -/
theorem gen_final {cas : Casing} {te : TE} (hA : Ann [] 0 te) {id : Nat} {s : BState} (hg : gen cas te {} = .ok (id, s)) :
    ∃ τ, TyInv s τ ∧ s.context = [] ∧ TyAt τ id te.ty := by
  have h := gen_tabled cas te {} [] [] 0 .initial ⟨rfl, by simp⟩ (by simp) hA (by intro b id h; cases h)
  rw [hg] at h
  obtain ⟨τ, h⟩ := h
  exact ⟨τ, h.step.inv, h.step.ctx, h.ty⟩

end Chomp
