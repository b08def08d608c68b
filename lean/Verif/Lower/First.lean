import Verif.Lower.Hash
import Verif.Lower.Values

/-!
# What the emitted parsers do when fix points are shared

`gen_fix` (`/repo/src/lower/mod.rs:380-405`) looks a fix point up by its body as it is written, whatever the variables bound outside
of it refer to.  Here this is described on the source: a fix point stands for the first fix point of the program with the same body,
with the meaning the variables have there.
-/

namespace Chomp

/-- The first fix point of the program, in reading order, whose body is equal to `b`; with the bodies of the fix points around it. -/
def TE.firstFix (root : TE) (b : TE) : Option (List TE × TE) := (root.fixes []).find? fun p => p.2.eqv b

/-- `stepR` with every fix point replaced by the first one with an equal body. -/
def stepS (root : TE) : List TE × TE → NodeF (List TE × TE)
  | (_, .eps _) => .eps
  | (_, .lit _ s) => .lit s
  | (ρ, .cat _ _ ts) => .cat (ts.map fun t => (ρ, t))
  | (ρ, .alt _ _ ts) => .alt (ts.map TE.ty) (ts.map fun t => (ρ, t))
  | (_, .fix _ b) =>
    match root.firstFix b with
    | some (ρ0, b0) => .alias (b0 :: ρ0, b0)
    | none => .bad
  | (ρ, .var _ i _) =>
    match ρ.drop i with
    | b :: ρ' => .box (ρ', .fix none b)
    | [] => .bad

/-- Equality of bodies is transitive on the fix points of the program. -/
def TE.EqTrans (root : TE) : Prop :=
  ∀ p ∈ root.fixes [], ∀ q ∈ root.fixes [], ∀ r ∈ root.fixes [], p.2.eqv q.2 = true → q.2.eqv r.2 = true → p.2.eqv r.2 = true

mutual
/-- Equal expressions have equal fix points below them. -/
theorem TE.eqv_fixes : ∀ {a b : TE}, a.eqv b = true → ∀ (ρa ρb : List TE), ∀ v ∈ b.fixes ρb, ∃ u ∈ a.fixes ρa, u.2.eqv v.2 = true
  | .eps _, b, h, ρa, ρb, v, hv => by cases b <;> simp_all [TE.eqv, TE.fixes]
  | .lit _ _, b, h, ρa, ρb, v, hv => by cases b <;> simp_all [TE.eqv, TE.fixes]
  | .var _ _ _, b, h, ρa, ρb, v, hv => by cases b <;> simp_all [TE.eqv, TE.fixes]
  | .cat _ _ l, b, h, ρa, ρb, v, hv => by
    cases b with
    | cat _ _ l' =>
      simp only [TE.eqv, Bool.and_eq_true] at h
      simp only [TE.fixes] at hv ⊢
      exact TE.eqvL_fixes h.1.1 ρa ρb v hv
    | _ => simp [TE.eqv] at h
  | .alt _ _ l, b, h, ρa, ρb, v, hv => by
    cases b with
    | alt _ _ l' =>
      simp only [TE.eqv, Bool.and_eq_true] at h
      simp only [TE.fixes] at hv ⊢
      exact TE.eqvL_fixes h.1.1 ρa ρb v hv
    | _ => simp [TE.eqv] at h
  | .fix _ a, b, h, ρa, ρb, v, hv => by
    cases b with
    | fix _ b =>
      simp only [TE.eqv, Bool.and_eq_true] at h
      simp only [TE.fixes, List.mem_cons] at hv ⊢
      rcases hv with rfl | hv
      · exact ⟨(ρa, a), .inl rfl, h.1⟩
      · obtain ⟨u, h1, h2⟩ := TE.eqv_fixes h.1 (a :: ρa) (b :: ρb) v hv
        exact ⟨u, .inr h1, h2⟩
    | _ => simp [TE.eqv] at h
theorem TE.eqvL_fixes : ∀ {a b : List TE}, TE.eqvL a b = true → ∀ (ρa ρb : List TE), ∀ v ∈ TE.fixesL ρb b, ∃ u ∈ TE.fixesL ρa a, u.2.eqv v.2 = true
  | [], b, h, ρa, ρb, v, hv => by cases b <;> simp_all [TE.eqvL, TE.fixesL]
  | x :: a, b, h, ρa, ρb, v, hv => by
    cases b with
    | nil => simp [TE.eqvL] at h
    | cons y b =>
      simp only [TE.eqvL, Bool.and_eq_true] at h
      simp only [TE.fixesL, List.mem_append] at hv ⊢
      rcases hv with hv | hv
      · obtain ⟨u, h1, h2⟩ := TE.eqv_fixes h.1 ρa ρb v hv
        exact ⟨u, .inl h1, h2⟩
      · obtain ⟨u, h1, h2⟩ := TE.eqvL_fixes h.2 ρa ρb v hv
        exact ⟨u, .inr h1, h2⟩
end

/-! ## The fix points for which code is generated are the first ones -/

/-- After the fix points `V`, `K` have been generated; `O` are those around the current place. -/
structure VInv (G : TE → Prop) (O V K : List (List TE × TE)) : Prop where
  good : ∀ v ∈ V, G v.2
  mem : ∀ p ∈ K, p ∈ V
  first : ∀ p ∈ K, V.find? (fun q => q.2.eqv p.2) = some p
  cover : ∀ v ∈ V, ∃ p ∈ K, p.2.eqv v.2 = true
  opn : ∀ p ∈ K, (∀ x ∈ p.2.fixes (p.2 :: p.1), x ∈ V) ∨ p ∈ O

theorem find?_append_some {α : Type} {p : α → Bool} {l l' : List α} {x : α} (h : l.find? p = some x) : (l ++ l').find? p = some x := by
  rw [List.find?_append, h]; rfl

mutual
theorem visit_inv {G : TE → Prop} (hG : ∀ a b c, G a → G b → G c → a.eqv b = true → b.eqv c = true → a.eqv c = true) :
    ∀ (te : TE) (ρ : List TE) (O V K : List (List TE × TE)), VInv G O V K → (∀ x ∈ te.fixes ρ, G x.2) → (∀ p ∈ O, te.size ≤ p.2.size) →
      VInv G O (V ++ te.fixes ρ) (te.visit ρ K)
  | .eps _, ρ, O, V, K, h, hg, ho => by simpa [TE.fixes, TE.visit] using h
  | .lit _ _, ρ, O, V, K, h, hg, ho => by simpa [TE.fixes, TE.visit] using h
  | .var _ _ _, ρ, O, V, K, h, hg, ho => by simpa [TE.fixes, TE.visit] using h
  | .cat _ _ l, ρ, O, V, K, h, hg, ho => by
    simp only [TE.fixes, TE.visit] at hg ⊢
    exact visitL_inv hG l ρ O V K h hg (fun p hp => by have := ho p hp; simp only [TE.size] at this; omega)
  | .alt _ _ l, ρ, O, V, K, h, hg, ho => by
    simp only [TE.fixes, TE.visit] at hg ⊢
    exact visitL_inv hG l ρ O V K h hg (fun p hp => by have := ho p hp; simp only [TE.size] at this; omega)
  | .fix _ b, ρ, O, V, K, h, hg, ho => by
    simp only [TE.fixes, TE.visit] at hg ⊢
    have hb : G b := hg (ρ, b) (.head _)
    split
    · rename_i hk
      rw [List.any_eq_true] at hk
      obtain ⟨p, hp, he⟩ := hk
      have hcl : ∀ x ∈ p.2.fixes (p.2 :: p.1), x ∈ V := by
        rcases h.opn p hp with h1 | h1
        · exact h1
        · have h2 := ho p h1
          have h3 := TE.eqv_size he
          simp only [TE.size] at h2
          omega
      refine ⟨?_, fun q hq => List.mem_append_left _ (h.mem q hq), fun q hq => find?_append_some (h.first q hq), ?_, ?_⟩
      · intro v hv
        rcases List.mem_append.1 hv with hv | hv
        · exact h.good v hv
        · exact hg v hv
      · intro v hv
        rcases List.mem_append.1 hv with hv | hv
        · exact h.cover v hv
        rcases List.mem_cons.1 hv with rfl | hv'
        · exact ⟨p, hp, he⟩
        · obtain ⟨u, h1, h2⟩ := TE.eqv_fixes he (p.2 :: p.1) (b :: ρ) v hv'
          obtain ⟨q, h3, h4⟩ := h.cover u (hcl u h1)
          exact ⟨q, h3, hG _ _ _ (h.good q (h.mem q h3)) (h.good u (hcl u h1)) (hg v hv) h4 h2⟩
      · intro q hq
        rcases h.opn q hq with h1 | h1
        · exact .inl fun x hx => List.mem_append_left _ (h1 x hx)
        · exact .inr h1
    · rename_i hk
      have hnone : V.find? (fun q => q.2.eqv b) = none := by
        rw [List.find?_eq_none]
        intro v hv he
        obtain ⟨q, h1, h2⟩ := h.cover v hv
        exact hk (List.any_eq_true.2 ⟨q, h1, hG _ _ _ (h.good q (h.mem q h1)) (h.good v hv) hb h2 he⟩)
      have hstart : VInv G ((ρ, b) :: O) (V ++ [(ρ, b)]) ((ρ, b) :: K) := by
        refine ⟨?_, ?_, ?_, ?_, ?_⟩
        · intro v hv
          rcases List.mem_append.1 hv with hv | hv
          · exact h.good v hv
          · rw [List.mem_singleton] at hv; subst hv; exact hb
        · intro p hp
          rcases List.mem_cons.1 hp with rfl | hp
          · simp
          · exact List.mem_append_left _ (h.mem p hp)
        · intro p hp
          rcases List.mem_cons.1 hp with rfl | hp
          · rw [List.find?_append, hnone]
            simp [TE.eqv_refl]
          · exact find?_append_some (h.first p hp)
        · intro v hv
          rcases List.mem_append.1 hv with hv | hv
          · obtain ⟨p, h1, h2⟩ := h.cover v hv
            exact ⟨p, .tail _ h1, h2⟩
          · rw [List.mem_singleton] at hv; subst hv
            exact ⟨(ρ, b), .head _, TE.eqv_refl b⟩
        · intro p hp
          rcases List.mem_cons.1 hp with rfl | hp
          · exact .inr (.head _)
          · rcases h.opn p hp with h1 | h1
            · exact .inl fun x hx => List.mem_append_left _ (h1 x hx)
            · exact .inr (.tail _ h1)
      have hrec := visit_inv hG b (b :: ρ) ((ρ, b) :: O) (V ++ [(ρ, b)]) ((ρ, b) :: K) hstart (fun x hx => hg x (.tail _ hx)) (by
        intro p hp
        rcases List.mem_cons.1 hp with rfl | hp
        · exact Nat.le_refl _
        · have := ho p hp; simp only [TE.size] at this; omega)
      rw [List.append_assoc] at hrec
      obtain ⟨h1, h2, h3, h4, h5⟩ := hrec
      refine ⟨h1, h2, h3, h4, ?_⟩
      intro p hp
      rcases h5 p hp with h6 | h6
      · exact .inl h6
      · rcases List.mem_cons.1 h6 with rfl | h6
        · exact .inl fun x hx => List.mem_append_right _ (.tail _ hx)
        · exact .inr h6
theorem visitL_inv {G : TE → Prop} (hG : ∀ a b c, G a → G b → G c → a.eqv b = true → b.eqv c = true → a.eqv c = true) :
    ∀ (l : List TE) (ρ : List TE) (O V K : List (List TE × TE)), VInv G O V K → (∀ x ∈ TE.fixesL ρ l, G x.2) → (∀ p ∈ O, TE.sizeL l ≤ p.2.size) →
      VInv G O (V ++ TE.fixesL ρ l) (TE.visitL l ρ K)
  | [], ρ, O, V, K, h, hg, ho => by simpa [TE.fixesL, TE.visitL] using h
  | e :: l, ρ, O, V, K, h, hg, ho => by
    simp only [TE.fixesL, TE.visitL, List.mem_append] at hg ⊢
    rw [← List.append_assoc]
    refine visitL_inv hG l ρ O _ _ (visit_inv hG e ρ O V K h (fun x hx => hg x (.inl hx)) ?_) (fun x hx => hg x (.inr hx)) ?_
    · intro p hp; have := ho p hp; simp only [TE.sizeL] at this; omega
    · intro p hp; have := ho p hp; simp only [TE.sizeL] at this; omega
end

theorem TE.visit_first {root : TE} (h : root.EqTrans) {p : List TE × TE} (hp : p ∈ root.visit [] []) : root.firstFix p.2 = some p := by
  have := visit_inv (G := fun b => ∃ ρ, (ρ, b) ∈ root.fixes []) (fun a b c ⟨_, ha⟩ ⟨_, hb⟩ ⟨_, hc⟩ h1 h2 => h _ ha _ hb _ hc h1 h2) root [] [] [] []
    ⟨by simp, by simp, by simp, by simp, by simp⟩ (fun x hx => ⟨x.1, hx⟩) (by simp)
  exact this.first p hp

/-- Equal bodies have the same first fix point. -/
theorem TE.firstFix_congr {root : TE} (h : root.EqTrans) {p q : List TE × TE} (hp : p ∈ root.fixes []) (hq : q ∈ root.fixes [])
    (he : p.2.eqv q.2 = true) : root.firstFix p.2 = root.firstFix q.2 := by
  have key : ∀ (l : List (List TE × TE)), (∀ x ∈ l, x ∈ root.fixes []) → l.find? (fun x => x.2.eqv p.2) = l.find? (fun x => x.2.eqv q.2) := by
    intro l hl
    induction l with
    | nil => rfl
    | cons x l ih =>
      have hx := hl x (.head _)
      have : x.2.eqv p.2 = x.2.eqv q.2 := by
        rw [Bool.eq_iff_iff]
        exact ⟨fun h1 => h x hx p hp q hq h1 he, fun h1 => h x hx q hq p hp h1 (by rw [TE.eqv_comm]; exact he)⟩
      simp only [List.find?_cons, this, ih (fun y hy => hl y (.tail _ hy))]
  exact key _ (fun _ h => h)

/-! ## The table behaves like the description -/

theorem gen_first {cas : Casing} {te : TE} (hA : Ann [] 0 te) (ht : te.EqTrans) {id : Nat} {s : BState}
    (hg : gen cas te {} = .ok (id, s)) : ∃ B : Nat → List TE × TE → Prop, B id ([], te) ∧
      ∀ a c, B a c → NodeF.Rel B (s.step a) (stepS te c) := by
  have h := gen_initial cas te hA
  rw [hg] at h
  obtain ⟨R, τ, h1, h2, h3, hv⟩ := h
  have hrec : ∀ id ρ b, (id, ρ, b) ∈ R → (∃ nm, Occ te ρ (.fix nm b)) ∧ te.firstFix b = some (ρ, b) ∧
      ∃ j, nodeAt s.data id = .alias j ∧ Impl s.data R (b :: ρ) b j := by
    intro id ρ b hm
    refine ⟨(h1.inv.recTy id ρ b hm).2, ?_, ?_⟩
    · refine TE.visit_first ht (p := (ρ, b)) ?_
      have : (ρ, b) ∈ R.map Prod.snd := List.mem_map.2 ⟨_, hm, rfl⟩
      rw [hv] at this
      exact this
    · rcases h1.inv.done id ρ b hm with h | h
      · rw [h1.ctx] at h; simp at h
      · exact h
  refine ⟨fun a c => Impl s.data R c.1 c.2 a ∧ ∃ ρ nm, (∃ b, c.2 = .fix nm b ∧ ∃ nm', Occ te ρ (.fix nm' b)) ∨ Occ te c.1 c.2, ⟨h2, [], none, .inr .root⟩, ?_⟩
  rintro a ⟨ρ, t⟩ ⟨hI, ρ', nm', hO⟩
  dsimp only at hI hO
  have hfix : ∀ nm b, t = .fix nm b → ∃ ρ, (ρ, b) ∈ te.fixes [] := by
    rintro nm b rfl
    rcases hO with ⟨b', hb, nm', hO⟩ | hO
    · cases hb
      exact ⟨ρ', hO.fixes (ρ', b) (by simp [TE.fixes])⟩
    · exact ⟨ρ, hO.fixes (ρ, b) (by simp [TE.fixes])⟩
  have hO' : ∀ {t' : TE}, t = t' → (∀ nm b, t' ≠ .fix nm b) → Occ te ρ t' := by
    rintro t' rfl hn
    rcases hO with ⟨b', hb, _⟩ | hO
    · exact absurd hb (hn _ _)
    · exact hO
  cases t with
  | eps nm => simp only [Impl] at hI; rw [BState.step_eq, hI]; exact .eps
  | lit nm str => simp only [Impl] at hI; rw [BState.step_eq, hI]; exact .lit str
  | cat nm ty l =>
    simp only [Impl] at hI
    obtain ⟨ids, h4, h5⟩ := hI
    have hO := hO' rfl (by simp)
    rw [BState.step_eq, h4]
    refine .cat ((ImplL.all2 h5).mono ?_)
    rintro id c ⟨t, rfl, ht, h⟩
    exact ⟨h, [], none, .inr (hO.cat ht)⟩
  | alt nm ty l =>
    simp only [Impl] at hI
    obtain ⟨ids, h4, h5⟩ := hI
    have hO := hO' rfl (by simp)
    rw [BState.step_eq, h4]
    refine .alt _ ((ImplL.all2 h5).mono ?_)
    rintro id c ⟨t, rfl, ht, h⟩
    exact ⟨h, [], none, .inr (hO.alt ht)⟩
  | fix nm b =>
    simp only [Impl] at hI
    obtain ⟨ρ0, b0, h4, h5⟩ := hI
    obtain ⟨⟨nm0, h6⟩, h7, j, h8, h9⟩ := hrec _ _ _ h4
    obtain ⟨ρ1, hb⟩ := hfix nm b rfl
    have h10 := TE.firstFix_congr ht (p := (ρ0, b0)) (q := (ρ1, b)) (h6.fixes _ (by simp [TE.fixes])) hb h5
    dsimp only at h10
    rw [h7] at h10
    rw [BState.step_eq, h8]
    simp only [stepS, ← h10]
    exact .alias ⟨h9, [], none, .inr h6.fix⟩
  | var nm i ty =>
    simp only [Impl] at hI
    obtain ⟨f, b, ρ', h4, h5, h6⟩ := hI
    obtain ⟨⟨nm0, h7⟩, _⟩ := hrec _ _ _ h6
    rw [BState.step_eq, h4]
    simp only [stepS, h5]
    refine .box ⟨?_, ρ', none, .inl ⟨b, rfl, nm0, h7⟩⟩
    simp only [Impl]
    exact ⟨ρ', b, h6, TE.eqv_refl b⟩

/-! ## Programs whose names are of one kind -/

mutual
theorem TE.fixes_sub : ∀ (te : TE) (ρ : List TE), ∀ x ∈ te.fixes ρ, x.2.size < te.size ∧ ∀ n ∈ x.2.names, n ∈ te.names
  | .eps _, ρ, x, hx => by simp [TE.fixes] at hx
  | .lit _ _, ρ, x, hx => by simp [TE.fixes] at hx
  | .var _ _ _, ρ, x, hx => by simp [TE.fixes] at hx
  | .cat _ _ l, ρ, x, hx => by
    simp only [TE.fixes] at hx
    obtain ⟨h1, h2⟩ := TE.fixesL_sub l ρ x hx
    exact ⟨by simp only [TE.size]; omega, fun n hn => by simp only [TE.names, List.mem_append]; exact .inr (h2 n hn)⟩
  | .alt _ _ l, ρ, x, hx => by
    simp only [TE.fixes] at hx
    obtain ⟨h1, h2⟩ := TE.fixesL_sub l ρ x hx
    exact ⟨by simp only [TE.size]; omega, fun n hn => by simp only [TE.names, List.mem_append]; exact .inr (h2 n hn)⟩
  | .fix _ b, ρ, x, hx => by
    simp only [TE.fixes, List.mem_cons] at hx
    rcases hx with rfl | hx
    · exact ⟨by simp only [TE.size]; omega, fun n hn => by simp only [TE.names, List.mem_append]; exact .inr hn⟩
    · obtain ⟨h1, h2⟩ := TE.fixes_sub b _ x hx
      exact ⟨by simp only [TE.size]; omega, fun n hn => by simp only [TE.names, List.mem_append]; exact .inr (h2 n hn)⟩
theorem TE.fixesL_sub : ∀ (l : List TE) (ρ : List TE), ∀ x ∈ TE.fixesL ρ l, x.2.size ≤ TE.sizeL l ∧ ∀ n ∈ x.2.names, n ∈ TE.namesL l
  | [], ρ, x, hx => by simp [TE.fixesL] at hx
  | e :: l, ρ, x, hx => by
    simp only [TE.fixesL, List.mem_append] at hx
    rcases hx with hx | hx
    · obtain ⟨h1, h2⟩ := TE.fixes_sub e ρ x hx
      exact ⟨by simp only [TE.sizeL]; omega, fun n hn => by simp only [TE.namesL, List.mem_append]; exact .inl (h2 n hn)⟩
    · obtain ⟨h1, h2⟩ := TE.fixesL_sub l ρ x hx
      exact ⟨by simp only [TE.sizeL]; omega, fun n hn => by simp only [TE.namesL, List.mem_append]; exact .inr (h2 n hn)⟩
end

theorem TE.Inner.trans {P : Name → Prop} (hP : Uniform P) : ∀ (te : TE) (ρ : List TE), te.Inner P →
    ∀ p ∈ te.fixes ρ, ∀ q ∈ te.fixes ρ, ∀ r ∈ te.fixes ρ, p.2.eqv q.2 = true → q.2.eqv r.2 = true → p.2.eqv r.2 = true
  | .eps _, ρ, h, p, hp => by simp [TE.fixes] at hp
  | .lit _ _, ρ, h, p, hp => by simp [TE.fixes] at hp
  | .var _ _ _, ρ, h, p, hp => by simp [TE.fixes] at hp
  | .cat _ _ l, ρ, h, p, hp => by
    intro q hq r hr
    simp only [TE.fixes, TE.Inner] at hp hq hr h
    have := fun x hx n hn => h n ((TE.fixesL_sub l ρ x hx).2 n hn)
    exact TE.eqv_trans hP _ _ _ (this p hp) (this q hq) (this r hr)
  | .alt _ _ l, ρ, h, p, hp => by
    intro q hq r hr
    simp only [TE.fixes, TE.Inner] at hp hq hr h
    have := fun x hx n hn => h n ((TE.fixesL_sub l ρ x hx).2 n hn)
    exact TE.eqv_trans hP _ _ _ (this p hp) (this q hq) (this r hr)
  | .fix _ b, ρ, h, p, hp => by
    intro q hq r hr h1 h2
    have s1 := TE.eqv_size h1
    have s2 := TE.eqv_size h2
    simp only [TE.fixes, TE.Inner, List.mem_cons] at hp hq hr h
    have lt : ∀ x ∈ b.fixes (b :: ρ), x.2.size < b.size := fun x hx => (TE.fixes_sub b _ x hx).1
    rcases hp with rfl | hp <;> rcases hq with rfl | hq <;> rcases hr with rfl | hr <;> (try dsimp only at s1 s2)
    all_goals first
      | exact TE.eqv_refl _
      | exact TE.Inner.trans hP b _ h p hp q hq r hr h1 h2
      | (exfalso
         first
          | (have := lt _ hp; omega)
          | (have := lt _ hq; omega)
          | (have := lt _ hr; omega))

end Chomp
