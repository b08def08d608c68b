import Verif.Gram.Viable
import Verif.Typed.Lemmas

/-! # Inferred types claim nothing that does not happen -/

namespace Chomp

/-- What the type says can happen does happen in the language. -/
structure Under (τ : Ty) (L : Lang) : Prop where
  null : τ.nullable = true → L []
  first : ∀ c, c ∈ τ.first → ∃ w, L (c :: w)
  flast : ∀ c, c ∈ τ.flast → ∃ u w, u ≠ [] ∧ L u ∧ L (u ++ c :: w)

theorem Under.mono {τ : Ty} {L L' : Lang} (h : Under τ L) (hl : ∀ w, L w → L' w) : Under τ L' where
  null hn := hl _ (h.null hn)
  first c hc := by
    obtain ⟨w, hw⟩ := h.first c hc
    exact ⟨w, hl _ hw⟩
  flast c hc := by
    obtain ⟨u, w, h1, h2, h3⟩ := h.flast c hc
    exact ⟨u, w, h1, hl _ h2, hl _ h3⟩

theorem Under.default (L : Lang) : Under .default L :=
  ⟨by simp [Ty.default], fun c h => by simp [Ty.default] at h, fun c h => by simp [Ty.default] at h⟩

theorem Under.alt {a b : Ty} {L : Lang} (ha : Under a L) (hb : Under b L) : Under (a.alt b) L where
  null h := by
    simp only [Ty.alt, Bool.or_eq_true] at h
    exact h.elim ha.null hb.null
  first c h := by
    simp only [Ty.alt, CharSet.mem_union] at h
    exact h.elim (ha.first c) (hb.first c)
  flast c h := by
    simp only [Ty.alt, CharSet.mem_union] at h
    exact h.elim (ha.flast c) (hb.flast c)

theorem Under.cat {a b : Ty} {A B : Lang} (ha : Under a A) (hb : Under b B) (hA : ∃ u, A u ∧ u ≠ []) (hB : ∃ v, B v) :
    Under (a.cat b) (fun w => ∃ u v, A u ∧ B v ∧ w = u ++ v) where
  null h := by
    simp only [Ty.cat, Bool.and_eq_true] at h
    exact ⟨[], [], ha.null h.1, hb.null h.2, rfl⟩
  first c h := by
    obtain ⟨v, hv⟩ := hB
    have hf : c ∈ a.first → ∃ w, ∃ u v, A u ∧ B v ∧ c :: w = u ++ v := by
      intro hc
      obtain ⟨w, hw⟩ := ha.first c hc
      exact ⟨w ++ v, c :: w, v, hw, hv, by simp⟩
    simp only [Ty.cat] at h
    split at h
    · rename_i hn
      rw [CharSet.mem_union] at h
      rcases h with h | h
      · exact hf h
      · obtain ⟨w, hw⟩ := hb.first c h
        exact ⟨w, [], c :: w, ha.null hn, hw, rfl⟩
    · exact hf h
  flast c h := by
    obtain ⟨u, hu, hne⟩ := hA
    have hf : c ∈ b.flast → ∃ x w, x ≠ [] ∧ (∃ u v, A u ∧ B v ∧ x = u ++ v) ∧ ∃ u v, A u ∧ B v ∧ x ++ c :: w = u ++ v := by
      intro hc
      obtain ⟨x, w, h1, h2, h3⟩ := hb.flast c hc
      exact ⟨u ++ x, w, by simp [hne], ⟨u, x, hu, h2, rfl⟩, u, x ++ c :: w, hu, h3, by simp⟩
    simp only [Ty.cat] at h
    split at h
    · rename_i hn
      rw [CharSet.mem_union, CharSet.mem_union] at h
      have he := hb.null hn
      rcases h with (h | h) | h
      · obtain ⟨x, w, h1, h2, h3⟩ := ha.flast c h
        exact ⟨x, w, h1, ⟨x, [], h2, he, by simp⟩, x ++ c :: w, [], h3, he, by simp⟩
      · obtain ⟨w, hw⟩ := hb.first c h
        exact ⟨u, w, hne, ⟨u, [], hu, he, by simp⟩, u, c :: w, hu, hw, rfl⟩
      · exact hf h
    · exact hf h

/-- The words of a grammar, `ρ` being the enclosing fix points. -/
def Words (ρ : List Gram) (g : Gram) : Lang := fun w => ∃ t, Der ρ g t ∧ t.text = w

theorem fixLoop_under {f : Ty → TCtx → Inf TE} (hf : ∀ t c, (f t c).2 = c) {c : TCtx} {L : Lang}
    (h : ∀ (t : Ty) (te : TE), Under t L → (f t c).1 = .ok te → Under te.ty L) :
    ∀ (n : Nat) (t : Ty) (te : TE), Under t L → (fixLoop f n t c).1 = .ok te → Under te.ty L
  | 0, _, _, _, hl => by cases hl
  | n + 1, t, te, ht, hl => by
    simp only [fixLoop] at hl
    rw [Inf.bind_fst (hf t c)] at hl
    obtain ⟨a, h1, hl⟩ := Out.bind_ok hl
    split at hl
    · cases hl; exact h _ _ ht h1
    · exact fixLoop_under hf h n _ _ (h _ _ ht h1) hl

/-- What has been assumed about the variables happens. -/
def VarsUnder (c : TCtx) (ρ : List Gram) : Prop := ∀ (i : Nat) (σ : Ty), c.vars.reverse[i]? = some σ → Under σ (Words ρ (.var i))

theorem VarsUnder.push {c : TCtx} {ρ : List Gram} (h : VarsUnder c ρ) {b : Gram} {t : Ty} (ht : Under t (Words (b :: ρ) b)) :
    VarsUnder { c with vars := c.vars ++ [t] } (b :: ρ) := by
  intro i σ hi
  simp only [List.reverse_append, List.reverse_cons, List.reverse_nil, List.nil_append, List.singleton_append] at hi
  cases i with
  | zero =>
    simp only [List.getElem?_cons_zero, Option.some.injEq] at hi
    subst hi
    refine ht.mono ?_
    rintro w ⟨x, h1, h2⟩
    exact ⟨.box x, .var _ 0 b ρ x rfl h1, by simpa [Tree.text] using h2⟩
  | succ i =>
    refine (h i σ (by simpa using hi)).mono ?_
    rintro w ⟨x, h1, h2⟩
    cases h1 with
    | var _ _ b' ρ' y hd hy => exact ⟨.box y, .var _ (i + 1) b' ρ' y (by simpa using hd) hy, h2⟩

mutual
theorem infer_under (n : Nat) : ∀ (nm : Option Name) (e : NE) (c : TCtx) (te : TE) (Γ : List Ty) (k : Nat) (g : Gram)
    (τ : Ty) (ρ : List Gram), (infer n nm e c).1 = .ok te → e.erase.gram (fun _ => true) = some g → VarsUnder c ρ →
    HasTy Γ k g τ → EnvTy Γ ρ → EnvNE ρ → g.NoEmpty (envLang ρ) → Under te.ty (Words ρ g)
  | nm, .eps _, c, te, Γ, k, g, τ, ρ, h, hg, hV, hT, hE, hN, hg' => by
    simp only [infer] at h; cases h
    simp only [NE.erase, Core.gram] at hg; cases hg
    refine ⟨fun _ => ⟨.eps, .eps ρ, rfl⟩, fun c h => ?_, fun c h => ?_⟩ <;> simp [TE.ty, Ty.eps] at h
  | nm, .lit _ s, c, te, Γ, k, g, τ, ρ, h, hg, hV, hT, hE, hN, hg' => by
    simp only [infer] at h; cases h
    simp only [NE.erase, Core.gram] at hg; cases hg
    have hw : Words ρ (.lit s) s := ⟨.lit s, .lit ρ s, rfl⟩
    refine ⟨fun h => ?_, fun c h => ?_, fun c h => ?_⟩
    · simp only [TE.ty, Ty.ofStr] at h
      rw [List.isEmpty_iff] at h
      rw [h] at hw ⊢; exact hw
    · simp only [TE.ty, Ty.ofStr] at h
      rw [CharSet.mem_ofStr] at h
      cases s with
      | nil => cases h
      | cons a s => cases h; exact ⟨s, hw⟩
    · simp [TE.ty, Ty.ofStr] at h
  | nm, .cat _ f rest, c, te, Γ, k, g, τ, ρ, h, hg, hV, hT, hE, hN, hg' => by
    simp only [NE.erase, Core.gram, Core.gramL] at hg
    rw [Option.map_eq_some_iff] at hg
    obtain ⟨gs, hg, rfl⟩ := hg
    rw [Option.bind_eq_some_iff] at hg
    obtain ⟨g, hg1, hg⟩ := hg
    rw [Option.map_eq_some_iff] at hg
    obtain ⟨gs, hg2, rfl⟩ := hg
    simp only [infer] at h
    rw [Inf.bind_fst (infer_snd n _ f c)] at h
    obtain ⟨t, h1, h⟩ := Out.bind_ok h
    split at h
    · cases h
    rw [Inf.bind_fst (withUnguard_snd fun c => inferCat_snd n _ rest c), withUnguard_fst] at h
    obtain ⟨⟨ts, ty⟩, h3, h⟩ := Out.bind_ok h
    cases h
    cases hT with
    | cat _ _ _ _ σ _ t1 t2 t3 =>
      have i1 := infer_under n _ f c t Γ k g σ ρ h1 hg1 hV t1 hE hN hg'.1
      have hne : ∃ u, Words ρ g u ∧ u ≠ [] := by
        obtain ⟨x, hx⟩ := inhab g t1 hE hN hg'.1
        refine ⟨x.text, ⟨x, hx, rfl⟩, fun h0 => ?_⟩
        have := (der_desc hx hE t1).1 h0
        rw [t2] at this; cases this
      have i2 := inferCat_under n _ rest _ ts ty Γ gs σ τ ρ (Words ρ g) h3 hg2 hV t3 hE hN hg'.2 i1 hne
      refine i2.mono ?_
      rintro w ⟨u, xs, ⟨x, hx, rfl⟩, hxs, rfl⟩
      exact ⟨.cat (x :: xs), .cat ρ _ _ (.cons ρ g gs x xs hx hxs), by simp [Tree.text, Tree.textL]⟩
  | nm, .alt _ f rest, c, te, Γ, k, g, τ, ρ, h, hg, hV, hT, hE, hN, hg' => by
    simp only [NE.erase, Core.gram, Core.gramL] at hg
    rw [Option.map_eq_some_iff] at hg
    obtain ⟨gs, hg, rfl⟩ := hg
    rw [Option.bind_eq_some_iff] at hg
    obtain ⟨g, hg1, hg⟩ := hg
    rw [Option.map_eq_some_iff] at hg
    obtain ⟨gs, hg2, rfl⟩ := hg
    simp only [infer] at h
    rw [Inf.bind_fst (infer_snd n _ f c)] at h
    obtain ⟨t, h1, h⟩ := Out.bind_ok h
    rw [Inf.bind_fst (inferAlt_snd n _ rest c)] at h
    obtain ⟨⟨ts, ty⟩, h3, h⟩ := Out.bind_ok h
    cases h
    cases hT with
    | alt _ _ _ _ σ _ t1 t2 =>
      have i1 := infer_under n _ f c t Γ k g σ ρ h1 hg1 hV t1 hE hN hg'.1
      refine inferAlt_under n _ rest _ ts ty Γ k gs σ τ ρ (Words ρ (.alt (g :: gs))) h3 hg2 hV t2 hE hN hg'.2
        (i1.mono ?_) ?_
      · rintro w ⟨x, hx, rfl⟩
        exact ⟨.alt 0 x, .alt ρ _ 0 g x rfl hx, by simp [Tree.text]⟩
      · rintro g' hg'' w ⟨x, hx, rfl⟩
        obtain ⟨i, hi⟩ := List.getElem?_of_mem hg''
        exact ⟨.alt (i + 1) x, .alt ρ _ (i + 1) g' x (by simpa using hi) hx, by simp [Tree.text]⟩
  | nm, .fix _ (.lam j a b), c, te, Γ, k, g, τ, ρ, h, hg, hV, hT, hE, hN, hg' => by
    simp only [NE.erase] at hg
    obtain ⟨_, _, g', heq, _, hg1, rfl⟩ := gram_fix_eq hg
    cases heq
    simp only [infer] at h
    rw [Inf.bind_fst (fixLoop_snd (fun t c => withVar_snd fun c => infer_snd n _ b c) _ _ _)] at h
    obtain ⟨t, h1, h⟩ := Out.bind_ok h
    cases h
    cases hT with
    | fix _ _ _ _ hT =>
      have : Under t.ty (Words (g' :: ρ) g') := by
        refine fixLoop_under (fun t c => withVar_snd fun c => infer_snd n _ b c) ?_ n _ t (Under.default _) h1
        intro t1 te1 ht1 h2
        rw [withVar_fst] at h2
        exact infer_under n _ b _ te1 (τ :: Γ) (k + 1) g' τ (g' :: ρ) h2 hg1 (hV.push ht1) hT (.cons τ g' k hE hT) (hN.cons hg')
          (by rw [← fix_lang_env]; exact hg'.2)
      refine this.mono ?_
      rintro w ⟨x, hx, rfl⟩
      exact ⟨x, .fix ρ g' x hx, rfl⟩
  | nm, .var i j, c, te, Γ, k, g, τ, ρ, h, hg, hV, hT, hE, hN, hg' => by
    simp only [NE.erase, Core.gram] at hg
    cases hg
    simp only [infer] at h
    split at h
    · rename_i ty h1
      cases h
      exact hV j ty (TCtx.getVar_ok.1 h1).1
    · cases h
  | _, .call _ _ _, _, _, _, _, _, _, _, h, _, _, _, _, _, _ | _, .lam _ _ _, _, _, _, _, _, _, _, h, _, _, _, _, _, _
  | _, .letE _ _ _ _, _, _, _, _, _, _, _, h, _, _, _, _, _, _
  | _, .fix _ (.eps _), _, _, _, _, _, _, _, h, _, _, _, _, _, _ | _, .fix _ (.lit _ _), _, _, _, _, _, _, _, h, _, _, _, _, _, _
  | _, .fix _ (.cat _ _ _), _, _, _, _, _, _, _, h, _, _, _, _, _, _
  | _, .fix _ (.alt _ _ _), _, _, _, _, _, _, _, h, _, _, _, _, _, _ | _, .fix _ (.fix _ _), _, _, _, _, _, _, _, h, _, _, _, _, _, _
  | _, .fix _ (.var _ _), _, _, _, _, _, _, _, h, _, _, _, _, _, _
  | _, .fix _ (.call _ _ _), _, _, _, _, _, _, _, h, _, _, _, _, _, _ | _, .fix _ (.letE _ _ _ _), _, _, _, _, _, _, _, h, _, _, _, _, _, _ => by
    simp only [infer] at h; cases h
theorem inferCat_under (n : Nat) : ∀ (ty : Ty) (l : List (Nat × NE)) (c : TCtx) (ts : List TE) (υ : Ty) (Γ : List Ty)
    (gs : List Gram) (σ τ : Ty) (ρ : List Gram) (A : Lang), (inferCat n ty l c).1 = .ok (ts, υ) →
    Core.gramL (fun _ => true) (NE.eraseP l) = some gs → VarsUnder c ρ → HasTyCat Γ σ gs τ → EnvTy Γ ρ → EnvNE ρ →
    Gram.NoEmptyL gs (envLang ρ) → Under ty A → (∃ u, A u ∧ u ≠ []) →
    Under υ (fun w => ∃ u xs, A u ∧ DerL ρ gs xs ∧ w = u ++ Tree.textL xs)
  | ty, [], c, ts, υ, Γ, gs, σ, τ, ρ, A, h, hg, hV, hT, hE, hN, hg', hA, hne => by
    simp only [inferCat] at h; cases h
    simp only [NE.eraseP, Core.gramL] at hg; cases hg
    exact hA.mono fun w hw => ⟨w, [], hw, .nil ρ, by simp [Tree.textL]⟩
  | ty, (p, e) :: l, c, ts, υ, Γ, gs, σ, τ, ρ, A, h, hg, hV, hT, hE, hN, hg', hA, hne => by
    simp only [NE.eraseP, Core.gramL] at hg
    rw [Option.bind_eq_some_iff] at hg
    obtain ⟨g, hg1, hg⟩ := hg
    rw [Option.map_eq_some_iff] at hg
    obtain ⟨gs, hg2, rfl⟩ := hg
    simp only [inferCat] at h
    rw [Inf.bind_fst (infer_snd n _ e c)] at h
    obtain ⟨t, h1, h⟩ := Out.bind_ok h
    split at h
    · rw [Inf.bind_fst (inferCat_snd n _ l c)] at h
      obtain ⟨⟨ts', υ'⟩, h3, h⟩ := Out.bind_ok h
      cases h
      cases hT with
      | cons _ _ _ _ σ' _ t1 t2 t3 =>
        have i1 := infer_under n _ e c t Γ 0 g σ' ρ h1 hg1 hV t1 hE hN hg'.1
        obtain ⟨x, hx⟩ := inhab g t1 hE hN hg'.1
        have i2 := hA.cat i1 hne ⟨x.text, x, hx, rfl⟩
        have i3 := inferCat_under n _ l c ts' υ' Γ gs _ τ ρ _ h3 hg2 hV t3 hE hN hg'.2 i2 (by
          obtain ⟨u, h4, h5⟩ := hne
          exact ⟨u ++ x.text, ⟨u, _, h4, ⟨x, hx, rfl⟩, rfl⟩, by simp [h5]⟩)
        refine i3.mono ?_
        rintro w ⟨_, xs, ⟨u, _, hu, ⟨y, hy, rfl⟩, rfl⟩, hxs, rfl⟩
        exact ⟨u, y :: xs, hu, .cons ρ g gs y xs hy hxs, by simp [Tree.textL]⟩
    · cases h
theorem inferAlt_under (n : Nat) : ∀ (ty : Ty) (l : List (Nat × NE)) (c : TCtx) (ts : List TE) (υ : Ty) (Γ : List Ty) (k : Nat)
    (gs : List Gram) (σ τ : Ty) (ρ : List Gram) (A : Lang), (inferAlt n ty l c).1 = .ok (ts, υ) →
    Core.gramL (fun _ => true) (NE.eraseP l) = some gs → VarsUnder c ρ → HasTyAlt Γ k σ gs τ → EnvTy Γ ρ → EnvNE ρ →
    Gram.NoEmptyL gs (envLang ρ) → Under ty A → (∀ g ∈ gs, ∀ w, Words ρ g w → A w) → Under υ A
  | ty, [], c, ts, υ, Γ, k, gs, σ, τ, ρ, A, h, hg, hV, hT, hE, hN, hg', hA, hne => by
    simp only [inferAlt] at h; cases h
    exact hA
  | ty, (p, e) :: l, c, ts, υ, Γ, k, gs, σ, τ, ρ, A, h, hg, hV, hT, hE, hN, hg', hA, hs => by
    simp only [NE.eraseP, Core.gramL] at hg
    rw [Option.bind_eq_some_iff] at hg
    obtain ⟨g, hg1, hg⟩ := hg
    rw [Option.map_eq_some_iff] at hg
    obtain ⟨gs, hg2, rfl⟩ := hg
    simp only [inferAlt] at h
    rw [Inf.bind_fst (infer_snd n _ e c)] at h
    obtain ⟨t, h1, h⟩ := Out.bind_ok h
    split at h
    · cases h
    split at h
    · rw [Inf.bind_fst (inferAlt_snd n _ l c)] at h
      obtain ⟨⟨ts', υ'⟩, h3, h⟩ := Out.bind_ok h
      cases h
      cases hT with
      | cons _ _ _ _ _ σ' _ t1 t2 t3 t4 =>
        have i1 := infer_under n _ e c t Γ k g σ' ρ h1 hg1 hV t1 hE hN hg'.1
        exact inferAlt_under n _ l c ts' υ' Γ k gs _ τ ρ A h3 hg2 hV t4 hE hN hg'.2
          (hA.alt (i1.mono (hs g (by simp)))) fun g' hm => hs g' (List.mem_cons_of_mem _ hm)
    · cases h
end

end Chomp
