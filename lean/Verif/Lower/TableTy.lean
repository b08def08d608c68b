import Verif.Lower.Sim
import Verif.Lower.SysRun

/-!
# The generated definitions fit together, whatever has been shared

An invariant of code generation that does not mention which expression an id stands for.
-/

namespace Chomp

/-! ## Definitions -/

/-- The definition of `id` is complete, and so are those of all types it consists of (a `Box` may refer to anything). -/
inductive NodeDone (D : List Entry) : Nat → Prop
  | eps (id : Nat) : nodeAt D id = .eps → NodeDone D id
  | lit (id : Nat) (s : List Char) : nodeAt D id = .lit s → NodeDone D id
  | cat (id : Nat) (l : List Nat) : nodeAt D id = .cat l → (∀ x ∈ l, NodeDone D x) → NodeDone D id
  | alt (id : Nat) (tys : List Ty) (l : List Nat) : nodeAt D id = .alt tys l → (∀ x ∈ l, NodeDone D x) → NodeDone D id
  | alias (id j : Nat) : nodeAt D id = .alias j → NodeDone D j → NodeDone D id
  | box (id f : Nat) : nodeAt D id = .box f → NodeDone D id

theorem NodeDone.ne_bad {D : List Entry} {id : Nat} (h : NodeDone D id) : nodeAt D id ≠ .bad := by
  cases h <;> simp [*]

theorem NodeDone.mono {D D' : List Entry} (hD : Ext D D') {id : Nat} (h : NodeDone D id) : NodeDone D' id := by
  induction h with
  | eps id h => exact .eps id (by rw [hD.keep id (by simp [h]), h])
  | lit id s h => exact .lit id s (by rw [hD.keep id (by simp [h]), h])
  | cat id l h _ ih => exact .cat id l (by rw [hD.keep id (by simp [h]), h]) ih
  | alt id tys l h _ ih => exact .alt id tys l (by rw [hD.keep id (by simp [h]), h]) ih
  | alias id j h _ ih => exact .alias id j (by rw [hD.keep id (by simp [h]), h]) ih
  | box id f h => exact .box id f (by rw [hD.keep id (by simp [h]), h])

/-- Types with the same first characters. -/
def SameFirst (a b : Ty) : Prop := ∀ c, c ∈ a.first ↔ c ∈ b.first

theorem SameFirst.symm {a b : Ty} (h : SameFirst a b) : SameFirst b a := fun c => (h c).symm
theorem SameFirst.trans {a b c : Ty} (h : SameFirst a b) (h' : SameFirst b c) : SameFirst a c := fun x => (h x).trans (h' x)

/-- The same for ids. -/
def SameF (τ : List Ty) (a b : Nat) : Prop := ∃ ta tb, TyAt τ a ta ∧ TyAt τ b tb ∧ SameFirst ta tb

/-- `take` of `j` may reach the box of `f` before anything has been consumed, and whatever is called on the way has the same first characters. -/
inductive FPath (D : List Entry) (τ : List Ty) : Nat → Nat → Prop
  | box (j f : Nat) : nodeAt D j = .box f → FPath D τ j f
  | cat (j b f : Nat) (l : List Nat) : nodeAt D j = .cat (b :: l) → FPath D τ b f → FPath D τ j f
  | alt (j b f : Nat) (tys : List Ty) (l : List Nat) : nodeAt D j = .alt tys l → b ∈ l → SameF τ j b → FPath D τ b f → FPath D τ j f
  | alias (j b f : Nat) : nodeAt D j = .alias b → FPath D τ b f → FPath D τ j f

/-- The type of `id` follows from its definition and the types of the parts. -/
def NodeTy (D : List Entry) (τ : List Ty) (id : Nat) : Prop :=
  match nodeAt D id with
  | .bad => True
  | .eps => TyAt τ id .eps
  | .lit s => TyAt τ id (.ofStr s)
  | .cat l => ∃ tb tys, All2 (TyAt τ) l (tb :: tys) ∧ tb.nullable = false ∧ CatTys tb tys (catTy (tb :: tys)) ∧ TyAt τ id (catTy (tb :: tys))
  | .alt tys l => All2 (TyAt τ) l tys ∧ tys.Pairwise Ty.Sep ∧ tys ≠ [] ∧ TyAt τ id (altTy tys)
  | .alias j => ∃ t, TyAt τ j t ∧ TyAt τ id t
  | .box f => ∃ t, TyAt τ f t ∧ TyAt τ id t

theorem NodeTy.mono {D D' : List Entry} {τ τ' : List Ty} (hD : Ext D D') (hτ : τ <+: τ') {id : Nat} (h : NodeTy D τ id)
    (hne : nodeAt D id ≠ .bad) : NodeTy D' τ' id := by
  simp only [NodeTy, hD.keep id hne] at h ⊢
  cases hn : nodeAt D id with
  | bad => exact absurd hn hne
  | eps => rw [hn] at h; exact h.mono hτ
  | lit s => rw [hn] at h; exact h.mono hτ
  | cat l =>
    rw [hn] at h
    obtain ⟨tb, tys, h1, h2, h3, h4⟩ := h
    exact ⟨tb, tys, h1.mono fun _ _ => TyAt.mono hτ, h2, h3, h4.mono hτ⟩
  | alt tys l =>
    rw [hn] at h
    obtain ⟨h1, h2, h3, h4⟩ := h
    exact ⟨h1.mono fun _ _ => TyAt.mono hτ, h2, h3, h4.mono hτ⟩
  | alias j =>
    rw [hn] at h
    obtain ⟨t, h1, h2⟩ := h
    exact ⟨t, h1.mono hτ, h2.mono hτ⟩
  | box f =>
    rw [hn] at h
    obtain ⟨t, h1, h2⟩ := h
    exact ⟨t, h1.mono hτ, h2.mono hτ⟩

/-- The invariant. -/
structure TyInv (s : BState) (τ : List Ty) : Prop where
  eps : s.epsId = none
  len : τ.length = s.data.length
  lit : ∀ str id, (str, id) ∈ s.litMap → nodeAt s.data id = .lit str
  cat : ∀ ids id, (ids, id) ∈ s.catMap → nodeAt s.data id = .cat ids
  alt : ∀ ids id, (ids, id) ∈ s.altMap → ∃ tys, nodeAt s.data id = .alt tys ids
  var : ∀ f id, (f, id) ∈ s.varMap → nodeAt s.data id = .box f
  fix : ∀ b id, (b, id) ∈ s.fixMap → TyAt τ id b.ty ∧ (id ∈ s.context ∨ ∃ j, nodeAt s.data id = .alias j)
  ctx : ∀ f ∈ s.context, f < s.data.length ∧ nodeAt s.data f = .bad
  inc : s.context.Pairwise (· < ·)
  done : ∀ id, id < s.data.length → id ∈ s.context ∨ NodeDone s.data id
  typed : ∀ id, NodeTy s.data τ id
  left : ∀ id j, nodeAt s.data id = .alias j → ∀ f, FPath s.data τ j f → f < id
  boxes : ∀ id f, nodeAt s.data id = .box f → f ∈ s.context ∨ ∃ j, nodeAt s.data f = .alias j

theorem TyInv.same {s s' : BState} {τ : List Ty} (h : TyInv s τ) (hs : SameTables s s') : TyInv s' τ := by
  obtain ⟨h1, h2, h3, h4, h5, h6, h7, h8, h9, h10, h11, h12, h13⟩ := h
  constructor <;> (try simp only [hs.data, hs.eps, hs.lit, hs.cat, hs.alt, hs.fix, hs.var, hs.ctx]) <;> assumption

theorem TyInv.lt {s : BState} {τ : List Ty} (h : TyInv s τ) {id : Nat} {t : Ty} (ht : TyAt τ id t) : id < s.data.length := by
  rw [← h.len]; exact (List.getElem?_eq_some_iff.1 ht).1

theorem TyInv.ty_of {s : BState} {τ : List Ty} (h : TyInv s τ) {id : Nat} (hid : id < s.data.length) : ∃ t, TyAt τ id t := by
  rw [← h.len] at hid
  exact ⟨_, List.getElem?_eq_getElem hid⟩

theorem TyInv.done_of {s : BState} {τ : List Ty} (h : TyInv s τ) {id : Nat} (hne : nodeAt s.data id ≠ .bad) : NodeDone s.data id := by
  rcases h.done id (nodeAt_lt hne) with h1 | h1
  · exact absurd (h.ctx id h1).2 hne
  · exact h1

theorem TyAt.back {τ τ' : List Ty} (h : τ <+: τ') {id : Nat} (hid : id < τ.length) {t : Ty} (ht : TyAt τ' id t) : TyAt τ id t := by
  obtain ⟨r, rfl⟩ := h
  rw [TyAt, List.getElem?_append_left hid] at ht
  exact ht

/-- A path that starts at a complete definition was there before. -/
theorem FPath.back {D D' : List Entry} {τ τ' : List Ty} (hD : Ext D D') (hτ : τ <+: τ') (hl : τ.length = D.length) {j f : Nat} (hj : NodeDone D j)
    (h : FPath D' τ' j f) : FPath D τ j f := by
  induction h with
  | box j f h => rw [hD.keep j hj.ne_bad] at h; exact .box j f h
  | cat j b f l h _ ih =>
    rw [hD.keep j hj.ne_bad] at h
    cases hj with
    | cat _ l' h' hl' => rw [h] at h'; cases h'; exact .cat j b f l h (ih (hl' b (.head _)))
    | _ => simp_all
  | alt j b f tys l h hb hs _ ih =>
    rw [hD.keep j hj.ne_bad] at h
    have hjl := nodeAt_lt hj.ne_bad
    cases hj with
    | alt _ tys' l' h' hl' =>
      rw [h] at h'; cases h'
      have hbl := nodeAt_lt (hl' b hb).ne_bad
      obtain ⟨ta, tb, h1, h2, h3⟩ := hs
      exact .alt j b f tys l h hb ⟨ta, tb, h1.back hτ (by omega), h2.back hτ (by omega), h3⟩ (ih (hl' b hb))
    | _ => simp_all
  | alias j b f h _ ih =>
    rw [hD.keep j hj.ne_bad] at h
    cases hj with
    | alias _ j' h' hj' => rw [h] at h'; cases h'; exact .alias j b f h (ih hj')
    | _ => simp_all

/-! ## Types without first characters -/

/-- A type without first characters is nullable. -/
def FirstOrNull (t : Ty) : Prop := (∀ c, c ∉ t.first) → t.nullable = true

theorem Ann.cat_first {Γ : List Ty} {k : Nat} {nm : Option Name} {ty : Ty} {t : TE} {ts : List TE} (h : Ann Γ k (.cat nm ty (t :: ts))) :
    (∀ c, c ∈ ty.first ↔ c ∈ t.ty.first) ∧ ty.nullable = false := by
  cases h with
  | cat _ _ _ _ t ts h1 h2 h3 =>
    suffices H : ∀ {Γ τ ts υ}, AnnCat Γ τ ts υ → τ.nullable = false → (∀ c, c ∈ υ.first ↔ c ∈ τ.first) ∧ υ.nullable = false from H h3 h2
    intro Γ τ ts
    induction ts generalizing τ with
    | nil => intro υ h hn; cases h; exact ⟨fun _ => Iff.rfl, hn⟩
    | cons t ts ih =>
      intro υ h hn
      cases h with
      | cons _ _ _ _ _ h1 h2 h3 =>
        obtain ⟨h4, h5⟩ := ih h3 (by simp [Ty.cat, hn])
        exact ⟨fun c => (h4 c).trans (by simp [Ty.cat, hn]), h5⟩

theorem Ann.firstOrNull : ∀ (te : TE) (Γ : List Ty) (k : Nat), (∀ t ∈ Γ, FirstOrNull t) → Ann Γ k te → FirstOrNull te.ty := by
  suffices H : ∀ (n : Nat) (te : TE) (Γ : List Ty) (k : Nat), te.size ≤ n → (∀ i t, Γ[i]? = some t → k ≤ i → FirstOrNull t) → Ann Γ k te → FirstOrNull te.ty from
    fun te Γ k h => H te.size te Γ k (Nat.le_refl _) (fun i t hi _ => h t (List.mem_of_getElem? hi))
  intro n
  induction n with
  | zero => intro te Γ k hn; have := te.size_pos; omega
  | succ n ih =>
    intro te Γ k hn hΓ hA
    cases te with
    | eps nm => intro _; rfl
    | lit nm s =>
      intro h
      cases s with
      | nil => rfl
      | cons c s => exact absurd (by simp [TE.ty, Ty.ofStr, CharSet.mem_ofStr]) (h c)
    | cat nm ty ts =>
      cases hA with
      | cat _ _ _ _ t ts h1 h2 h3 =>
        intro h
        have h4 := (Ann.cat _ _ nm _ _ _ h1 h2 h3).cat_first
        have h5 := ih t Γ k (by simp only [TE.size, TE.sizeL] at hn; omega) hΓ h1 (fun c hc => h c ((h4.1 c).2 hc))
        rw [h2] at h5; cases h5
    | alt nm ty ts =>
      have hi := hA.alt_inv
      cases hA with
      | alt _ _ _ _ t ts h1 h2 =>
        intro h
        have h5 := ih t Γ k (by simp only [TE.size, TE.sizeL] at hn; omega) hΓ h1 (fun c hc => h c ((hi.2.2.2.1 c).2 ⟨t, .head _, hc⟩))
        exact hi.2.2.1.2 ⟨t, .head _, h5⟩
    | fix nm b =>
      cases hA with
      | fix _ _ _ _ hb =>
        refine ih b (b.ty :: Γ) (k + 1) (by simp only [TE.size] at hn; omega) ?_ hb
        intro i t hi hk
        cases i with
        | zero => omega
        | succ i => exact hΓ i t (by simpa using hi) (by omega)
    | var nm i ty =>
      cases hA with
      | var _ _ _ _ _ h1 h2 => exact hΓ i ty h1 h2

mutual
theorem TE.eqv_size_of : ∀ {a b : TE}, a.eqv b = true → a.size = b.size
  | .eps _, b, h => by cases b <;> simp_all [TE.eqv, TE.size]
  | .lit _ s, b, h => by cases b <;> simp_all [TE.eqv, TE.size]
  | .cat _ _ l, b, h => by
    cases b with
    | cat n' t' l' =>
      simp only [TE.eqv, Bool.and_eq_true] at h
      have : TE.eqvL l l' = true := by simp_all
      simp only [TE.size, TE.eqvL_sizeL this]
    | _ => simp [TE.eqv] at h
  | .alt _ _ l, b, h => by
    cases b with
    | alt n' t' l' =>
      simp only [TE.eqv, Bool.and_eq_true] at h
      have : TE.eqvL l l' = true := by simp_all
      simp only [TE.size, TE.eqvL_sizeL this]
    | _ => simp [TE.eqv] at h
  | .fix _ a, b, h => by
    cases b with
    | fix n' b => simp only [TE.eqv, Bool.and_eq_true] at h; simp only [TE.size, TE.eqv_size_of h.1]
    | _ => simp [TE.eqv] at h
  | .var _ _ _, b, h => by cases b <;> simp_all [TE.eqv, TE.size]
theorem TE.eqvL_sizeL : ∀ {a b : List TE}, TE.eqvL a b = true → TE.sizeL a = TE.sizeL b
  | [], b, h => by cases b <;> simp_all [TE.eqvL, TE.sizeL]
  | x :: a, b, h => by
    cases b with
    | nil => simp [TE.eqvL] at h
    | cons y b =>
      simp only [TE.eqvL, Bool.and_eq_true] at h
      simp only [TE.sizeL, TE.eqv_size_of h.1, TE.eqvL_sizeL h.2]
end

end Chomp
