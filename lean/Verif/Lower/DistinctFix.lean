import Verif.Lower.Faithful
import Verif.Lower.TableProps

/-! # Grammars whose fix points all have different bodies -/

namespace Chomp

mutual
/-- The bodies of all fix points in a grammar. -/
def Gram.fixes : Gram → List Gram
  | .eps => []
  | .lit _ => []
  | .cat l => Gram.fixesL l
  | .alt l => Gram.fixesL l
  | .fix b => b :: b.fixes
  | .var _ => []
def Gram.fixesL : List Gram → List Gram
  | [] => []
  | g :: l => g.fixes ++ Gram.fixesL l
end

theorem Gram.fixesL_eq (l : List Gram) : Gram.fixesL l = l.flatMap Gram.fixes := by
  induction l with
  | nil => rfl
  | cons g l ih => rw [Gram.fixesL, ih, List.flatMap_cons]

mutual
theorem fixes_gram : ∀ (t : TE) (ρ : List TE), (t.fixes ρ).map (fun x => x.2.gram) = t.gram.fixes
  | .eps _, ρ => rfl
  | .lit _ _, ρ => rfl
  | .cat _ _ l, ρ => by rw [TE.fixes, TE.gram, Gram.fixes]; exact fixesL_gram l ρ
  | .alt _ _ l, ρ => by rw [TE.fixes, TE.gram, Gram.fixes]; exact fixesL_gram l ρ
  | .fix _ b, ρ => by rw [TE.fixes, TE.gram, Gram.fixes, List.map_cons, fixes_gram b (b :: ρ)]
  | .var _ _ _, ρ => rfl
theorem fixesL_gram : ∀ (l : List TE) (ρ : List TE), (TE.fixesL ρ l).map (fun x => x.2.gram) = Gram.fixesL (TE.gramL l)
  | [], ρ => rfl
  | e :: l, ρ => by rw [TE.fixesL, TE.gramL, Gram.fixesL, List.map_append, fixes_gram e ρ, fixesL_gram l ρ]
end

mutual
theorem freeVars_lt : ∀ (t : TE) (d i n : Nat), i ∈ t.freeVars d → t.scoped n → i + d < n
  | .eps _, d, i, n, h, _ => by simp [TE.freeVars] at h
  | .lit _ _, d, i, n, h, _ => by simp [TE.freeVars] at h
  | .cat _ _ l, d, i, n, h, hs => freeVarsL_lt l d i n (by simpa only [TE.freeVars] using h) (by simpa only [TE.scoped] using hs)
  | .alt _ _ l, d, i, n, h, hs => freeVarsL_lt l d i n (by simpa only [TE.freeVars] using h) (by simpa only [TE.scoped] using hs)
  | .fix _ b, d, i, n, h, hs => by
    have := freeVars_lt b (d + 1) i (n + 1) (by simpa only [TE.freeVars] using h) (by simpa only [TE.scoped] using hs)
    omega
  | .var _ j _, d, i, n, h, hs => by
    simp only [TE.scoped] at hs
    simp only [TE.freeVars] at h
    split at h
    · simp at h; omega
    · simp at h
theorem freeVarsL_lt : ∀ (l : List TE) (d i n : Nat), i ∈ TE.freeVarsL d l → TE.scopedL n l → i + d < n
  | [], d, i, n, h, _ => by simp [TE.freeVarsL] at h
  | e :: l, d, i, n, h, hs => by
    rw [TE.scopedL] at hs
    simp only [TE.freeVarsL, List.mem_append] at h
    rcases h with h | h
    · exact freeVars_lt e d i n h hs.1
    · exact freeVarsL_lt l d i n h hs.2
end

theorem scopedL_mem {n : Nat} : ∀ {l : List TE}, TE.scopedL n l → ∀ t ∈ l, t.scoped n
  | _ :: _, h, t, ht => by
    rw [TE.scopedL] at h
    rcases List.mem_cons.1 ht with rfl | ht
    · exact h.1
    · exact scopedL_mem h.2 t ht

/-- Every enclosing fix point is in scope of those around it. -/
def ScopedEnv : List TE → Prop
  | [] => True
  | b :: ρ => b.scoped (ρ.length + 1) ∧ ScopedEnv ρ

theorem occ_scoped {root : TE} (h : root.scoped 0) {ρ : List TE} {t : TE} (ho : Occ root ρ t) :
    t.scoped ρ.length ∧ ScopedEnv ρ := by
  induction ho with
  | root => exact ⟨h, trivial⟩
  | cat _ hm ih => rw [TE.scoped] at ih; exact ⟨scopedL_mem ih.1 _ hm, ih.2⟩
  | alt _ hm ih => rw [TE.scoped] at ih; exact ⟨scopedL_mem ih.1 _ hm, ih.2⟩
  | fix _ ih => rw [TE.scoped] at ih; exact ⟨ih.1, ih.1, ih.2⟩

theorem ScopedEnv.drop : ∀ {ρ : List TE} (i : Nat), ScopedEnv ρ → ScopedEnv (ρ.drop i)
  | [], i, _ => by simp [ScopedEnv]
  | b :: ρ, 0, h => h
  | b :: ρ, i + 1, h => by rw [List.drop_succ_cons]; exact ScopedEnv.drop i h.2

theorem sameFix_refl : ∀ (n : Nat) (ρ : List TE) (t : TE), ρ.length ≤ n → t.scoped ρ.length → ScopedEnv ρ → SameFix ρ ρ t t := by
  intro n
  induction n with
  | zero =>
    intro ρ t hn ht _
    refine .of rfl fun i hi => ?_
    have := freeVars_lt t 0 i _ hi ht
    omega
  | succ n ih =>
    intro ρ t hn ht hρ
    refine .of rfl fun i hi => ?_
    have hlt := freeVars_lt t 0 i _ hi ht
    cases hd : ρ.drop i with
    | nil =>
      have := congrArg List.length hd
      simp at this; omega
    | cons b ρ' =>
      have hl := congrArg List.length hd
      simp at hl
      have hs := hd ▸ hρ.drop i
      exact ⟨b, ρ', b, ρ', rfl, rfl, ih ρ' _ (by omega) (by rw [TE.scoped]; exact hs.1) hs.2⟩

theorem nodup_map_inj {α β : Type} (f : α → β) : ∀ {l : List α}, (l.map f).Nodup → ∀ {a b : α}, a ∈ l → b ∈ l → f a = f b → a = b
  | x :: l, h, a, b, ha, hb, he => by
    rw [List.map_cons, List.nodup_cons] at h
    rcases List.mem_cons.1 ha with e1 | h1
    · rcases List.mem_cons.1 hb with e2 | h2
      · rw [e1, e2]
      · subst e1
        exact absurd (List.mem_map.2 ⟨b, h2, he.symm⟩) h.1
    · rcases List.mem_cons.1 hb with e2 | h2
      · subst e2
        exact absurd (List.mem_map.2 ⟨a, h1, he⟩) h.1
      · exact nodup_map_inj f h.2 h1 h2 he

mutual
theorem strip_gram' : ∀ t : TE, t.strip.gram = t.gram
  | .eps _ => rfl
  | .lit _ _ => rfl
  | .cat _ _ l => by rw [TE.strip, TE.gram, TE.gram, stripL_gram' l]
  | .alt _ _ l => by rw [TE.strip, TE.gram, TE.gram, stripL_gram' l]
  | .fix _ b => by rw [TE.strip, TE.gram, TE.gram, strip_gram' b]
  | .var _ _ _ => rfl
theorem stripL_gram' : ∀ l : List TE, TE.gramL (TE.stripL l) = TE.gramL l
  | [] => rfl
  | e :: l => by rw [TE.stripL, TE.gramL, TE.gramL, strip_gram' e, stripL_gram' l]
end

/-- If the bodies of all fix points are different, code generation identifies none. -/
theorem noConflict_of_distinct {te : TE} (hs : te.scoped 0) (h : te.gram.fixes.Nodup) : NoSharingConflict te := by
  intro ρ1 n1 b1 ρ2 n2 b2 h1 h2 he
  rw [← fixes_gram te []] at h
  have e : (ρ1, b1) = (ρ2, b2) := nodup_map_inj _ h (h1.fixes _ (by simp [TE.fixes])) (h2.fixes _ (by simp [TE.fixes])) (by
    show b1.gram = b2.gram
    rw [← strip_gram' b1, ← strip_gram' b2, TE.eqv_strip he])
  cases e
  obtain ⟨h3, h4⟩ := occ_scoped hs h1
  have := sameFix_refl _ ρ1 (.fix none b1) (Nat.le_refl _) (by rw [TE.scoped] at h3 ⊢; exact h3) h4
  exact this.fix_name

end Chomp
