import Verif.Lower.RunLemmas
import Verif.Gram.Left

/-!
# Grammars whose fix points all match something

For these first sets are exact, and whatever a generated parser has consumed when it fails is the beginning of a word.
-/

namespace Chomp

mutual
/-- Every fix point in the grammar matches some string; `ρ` gives the languages of the free variables. -/
def Gram.NoEmpty : Gram → (Nat → Lang) → Prop
  | .eps, _ => True
  | .lit _, _ => True
  | .cat l, ρ => Gram.NoEmptyL l ρ
  | .alt l, ρ => Gram.NoEmptyL l ρ
  | .fix b, ρ => (∃ w, (Gram.fix b).lang ρ w) ∧ b.NoEmpty (((Gram.fix b).lang ρ).push ρ)
  | .var _, _ => True
def Gram.NoEmptyL : List Gram → (Nat → Lang) → Prop
  | [], _ => True
  | g :: l, ρ => g.NoEmpty ρ ∧ Gram.NoEmptyL l ρ
end

/-- Every fix point in a closed grammar matches some string. -/
def Gram.NoEmptyParts (g : Gram) : Prop := g.NoEmpty fun _ _ => False

theorem Gram.NoEmptyL.mem : ∀ {l : List Gram} {ρ : Nat → Lang}, Gram.NoEmptyL l ρ → ∀ g ∈ l, g.NoEmpty ρ
  | _ :: _, _, h, _, .head _ => h.1
  | _ :: _, _, h, _, .tail _ hm => Gram.NoEmptyL.mem h.2 _ hm

theorem fix_lang_env (b : Gram) (ρ : List Gram) :
    ((Gram.fix b).lang (envLang ρ)).push (envLang ρ) = envLang (b :: ρ) := by
  rw [envLang_cons]
  congr 1
  funext w
  apply propext
  rw [lang_iff_der]
  constructor
  · rintro ⟨t, h1, h2⟩
    cases h1 with
    | fix _ _ _ h1 => exact ⟨t, h1, h2⟩
  · rintro ⟨t, h1, h2⟩
    exact ⟨t, .fix ρ b t h1, h2⟩

/-- The fix points of an environment match something. -/
def EnvNE (ρ : List Gram) : Prop :=
  ∀ i b ρ', ρ.drop i = b :: ρ' → (∃ t, Der (b :: ρ') b t) ∧ b.NoEmpty (envLang (b :: ρ'))

theorem EnvNE.nil : EnvNE [] := by
  intro i b ρ' h
  simp at h

theorem EnvNE.drop {ρ : List Gram} (h : EnvNE ρ) (i : Nat) : EnvNE (ρ.drop i) := by
  intro j b ρ' hj
  rw [List.drop_drop] at hj
  exact h _ b ρ' hj

theorem EnvNE.cons {ρ : List Gram} (h : EnvNE ρ) {b : Gram} (hb : (Gram.fix b).NoEmpty (envLang ρ)) : EnvNE (b :: ρ) := by
  intro i c ρ' hi
  cases i with
  | succ i => exact h i c ρ' (by simpa using hi)
  | zero =>
    simp only [List.drop_zero, List.cons.injEq] at hi
    obtain ⟨rfl, rfl⟩ := hi
    obtain ⟨⟨w, hw⟩, h2⟩ := hb
    rw [lang_iff_der] at hw
    obtain ⟨t, ht, _⟩ := hw
    cases ht with
    | fix _ _ _ ht => exact ⟨⟨t, ht⟩, by rw [← fix_lang_env]; exact h2⟩

theorem derL_all {ρ : List Gram} : ∀ {l : List Gram}, (∀ g ∈ l, ∃ t, Der ρ g t) → ∃ ts, DerL ρ l ts
  | [], _ => ⟨[], .nil ρ⟩
  | g :: l, h => by
    obtain ⟨t, ht⟩ := h g (by simp)
    obtain ⟨ts, hts⟩ := derL_all fun g hg => h g (List.mem_cons_of_mem _ hg)
    exact ⟨t :: ts, .cons ρ g l t ts ht hts⟩

theorem cat_parts {Γ : List Ty} : ∀ {τ : Ty} {l : List Gram} {σ : Ty}, HasTyCat Γ τ l σ → ∀ g ∈ l, ∃ υ, HasTy Γ 0 g υ
  | _, _, _, .cons _ _ g l σ _ h1 _ h3, g', hg' => by
    rcases List.mem_cons.1 hg' with rfl | hg'
    · exact ⟨σ, h1⟩
    · exact cat_parts h3 g' hg'

/-- Every part of such a grammar matches something. -/
theorem inhab : ∀ (g : Gram) {Γ : List Ty} {k : Nat} {τ : Ty} {ρ : List Gram}, HasTy Γ k g τ → EnvTy Γ ρ → EnvNE ρ →
    g.NoEmpty (envLang ρ) → ∃ t, Der ρ g t := by
  intro g
  induction g using Gram.ind with
  | eps => intro Γ k τ ρ _ _ _ _; exact ⟨.eps, .eps ρ⟩
  | lit s => intro Γ k τ ρ _ _ _ _; exact ⟨.lit s, .lit ρ s⟩
  | cat l ih =>
    intro Γ k τ ρ hT hE hN hg
    have : ∀ g ∈ l, ∃ t, Der ρ g t := by
      intro g hm
      cases hT with
      | cat _ _ g' l τ' _ h1 h2 h3 =>
        rcases List.mem_cons.1 hm with rfl | hm'
        · exact ih _ hm h1 hE hN (Gram.NoEmptyL.mem hg _ hm)
        · obtain ⟨υ, hυ⟩ := cat_parts h3 g hm'
          exact ih _ hm hυ hE hN (Gram.NoEmptyL.mem hg _ hm)
    obtain ⟨ts, hts⟩ := derL_all this
    exact ⟨.cat ts, .cat ρ l ts hts⟩
  | alt l ih =>
    intro Γ k τ ρ hT hE hN hg
    cases hT with
    | alt _ _ g l τ' _ h1 h2 =>
      obtain ⟨t, ht⟩ := ih g (by simp) h1 hE hN hg.1
      exact ⟨.alt 0 t, .alt ρ _ 0 g t rfl ht⟩
  | fix b ih =>
    intro Γ k τ ρ hT hE hN hg
    obtain ⟨⟨w, hw⟩, _⟩ := hg
    rw [lang_iff_der] at hw
    obtain ⟨t, ht, _⟩ := hw
    exact ⟨t, ht⟩
  | var i =>
    intro Γ k τ ρ hT hE hN hg
    cases hT with
    | var _ _ _ _ h1 _ =>
      cases hd : ρ.drop i with
      | nil =>
        have hl := hE.length_eq
        have h3 := congrArg List.length hd
        have : i < Γ.length := by
          rcases Nat.lt_or_ge i Γ.length with h' | h'
          · exact h'
          · rw [List.getElem?_eq_none h'] at h1; cases h1
        simp at h3; omega
      | cons b ρ' =>
        obtain ⟨⟨t, ht⟩, _⟩ := hN i b ρ' hd
        exact ⟨.box t, .var ρ i b ρ' t hd ht⟩

theorem cat_first {Γ : List Ty} : ∀ {τ : Ty} {l : List Gram} {σ : Ty}, HasTyCat Γ τ l σ → τ.nullable = false →
    σ.first = τ.first
  | _, _, _, .nil _ _, _ => rfl
  | _, _, _, .cons _ _ _ _ _ _ _ _ h3, h => by
    rw [cat_first h3 (by simp [Ty.cat, h])]
    simp [Ty.cat, h]

/-- First sets of such grammars are exact. -/
theorem first_exact : ∀ (m : Nat) (g : Gram) {Γ : List Ty} {k : Nat} {τ : Ty} {ρ : List Gram}, HasTy Γ k g τ →
    EnvTy Γ ρ → EnvNE ρ → g.NoEmpty (envLang ρ) → ρ.length - k ≤ m → ∀ {c : Char}, c ∈ τ.first →
    ∃ t w, Der ρ g t ∧ t.text = c :: w := by
  intro m
  induction m using Nat.strongRecOn with
  | ind m ihm =>
    intro g
    induction g using Gram.ind with
    | eps => intro Γ k τ ρ hT hE _ _ hm c hc; cases hT; simp [CharSet.mem_def, CharSet.empty] at hc
    | lit s =>
      intro Γ k τ ρ hT hE _ _ hm c hc
      cases hT
      rw [CharSet.mem_ofStr] at hc
      cases s with
      | nil => cases hc
      | cons a s => cases hc; exact ⟨.lit (c :: s), s, .lit ρ _, rfl⟩
    | cat l ih =>
      intro Γ k τ ρ hT hE hN hg hm c hc
      cases hT with
      | cat _ _ g l τ' _ h1 h2 h3 =>
        rw [cat_first h3 h2] at hc
        obtain ⟨t, w, ht, hw⟩ := ih g (by simp) h1 hE hN hg.1 hm hc
        obtain ⟨ts, hts⟩ := derL_all (ρ := ρ) (l := l) (by
          intro g' hg'
          obtain ⟨υ, hυ⟩ := cat_parts h3 g' hg'
          exact inhab g' hυ hE hN (Gram.NoEmptyL.mem hg.2 _ hg'))
        exact ⟨.cat (t :: ts), w ++ Tree.textL ts, .cat ρ _ _ (.cons ρ g l t ts ht hts), by simp [Tree.text, Tree.textL, hw]⟩
    | alt l ih =>
      intro Γ k τ ρ hT hE hN hg hm c hc
      obtain ⟨τs, h1, _, _, h2, _⟩ := alt_inv' hT
      obtain ⟨τ', h3, h4⟩ := (h2 c).1 hc
      obtain ⟨i, g, h5, h6⟩ := h1.mem_right h3
      have hmem := List.mem_of_getElem? h5
      obtain ⟨t, w, h7, h8⟩ := ih g hmem h6 hE hN (Gram.NoEmptyL.mem hg _ hmem) hm h4
      exact ⟨.alt i t, w, .alt ρ l i g t h5 h7, by simpa [Tree.text] using h8⟩
    | fix b ih =>
      intro Γ k τ ρ hT hE hN hg hm c hc
      cases hT with
      | fix _ _ _ _ hb =>
        obtain ⟨t, w, h1, h2⟩ := ih hb (.cons τ b k hE hb) (hN.cons hg) (by rw [← fix_lang_env]; exact hg.2)
          (by simp; omega) hc
        exact ⟨t, w, .fix ρ b t h1, h2⟩
    | var i =>
      intro Γ k τ ρ hT hE hN hg hm c hc
      cases hT with
      | var _ _ _ _ h1 h2 =>
        cases hd : ρ.drop i with
        | nil =>
          have hl := hE.length_eq
          have h3 := congrArg List.length hd
          have : i < Γ.length := by
            rcases Nat.lt_or_ge i Γ.length with h' | h'
            · exact h'
            · rw [List.getElem?_eq_none h'] at h1; cases h1
          simp at h3; omega
        | cons b ρ' =>
          obtain ⟨Γ', k', h3, h4⟩ := hE.get hd h1
          have h5 := congrArg List.length hd
          simp only [List.length_drop, List.length_cons] at h5
          have hN' : EnvNE (b :: ρ') := by rw [← hd]; exact hN.drop i
          obtain ⟨t, w, h6, h7⟩ := ihm (ρ.length - k - 1) (by omega) b h4 h3 hN' (hN i b ρ' hd).2
            (by simp only [List.length_cons]; omega) hc
          exact ⟨.box t, w, .var ρ i b ρ' t hd h6, by simpa [Tree.text] using h7⟩

/-! ## Errors of generated parsers -/

/-- What an error says is true of the trees in `D`: what has been consumed (`p`) is the beginning of the text of one of
them, each character listed as expected can follow it, and the string listed as expected can stand where it was expected. -/
structure Viable (D : Tree → Prop) (p : List Char) (e : TakeError) : Prop where
  consumed : ∃ t, D t ∧ p <+: t.text
  chars : ∀ pos c exp, e = .badBranch pos c exp → ∀ d ∈ exp, ∃ t, D t ∧ (p ++ [d]) <+: t.text
  string : ∀ pos got s, e = .badString pos got s → ∃ p0 q r, p = p0 ++ q ∧ s = q ++ r ∧ r ≠ [] ∧ ∃ t, D t ∧ (p0 ++ s) <+: t.text

theorem Viable.map {D D' : Tree → Prop} {p : List Char} {e : TakeError} (h : Viable D p e) (f : Tree → Tree) (pre post : List Char)
    (hf : ∀ t, D t → D' (f t) ∧ (f t).text = pre ++ t.text ++ post) : Viable D' (pre ++ p) e where
  consumed := by
    obtain ⟨t, h1, x, h2⟩ := h.consumed
    refine ⟨f t, (hf t h1).1, x ++ post, ?_⟩
    rw [(hf t h1).2, ← h2]; simp
  chars := by
    intro pos c exp he d hd
    obtain ⟨t, h1, x, h2⟩ := h.chars pos c exp he d hd
    refine ⟨f t, (hf t h1).1, x ++ post, ?_⟩
    rw [(hf t h1).2, ← h2]; simp
  string := by
    intro pos got s he
    obtain ⟨p0, q, r, h1, h2, h3, t, h4, x, h5⟩ := h.string pos got s he
    refine ⟨pre ++ p0, q, r, by rw [h1]; simp, h2, h3, f t, (hf t h4).1, x ++ post, ?_⟩
    rw [(hf t h4).2, ← h5]; simp

theorem consumeStr_viable {s : List Char} {w w' : IW} {e : TakeError} (h : consumeStr s w = .err e w') :
    ∃ p, Reach w p w' ∧ Viable (fun t => t = .lit s) p e := by
  rcases consumeGo_spec s 0 s w with ⟨w'', h1, h2, h3, h4⟩ | ⟨m, w'', h1, h2, h3, h4, h5, h6, h7, h8⟩
  · rw [consumeStr, h1] at h; cases h
  · have hr : Reach w (w.rem.take m) w'' := by
      refine ⟨by rw [h6]; simp, ?_⟩
      rw [h7, List.length_take, Nat.min_eq_left h3]
    rw [consumeStr] at h
    have hp : w.rem.take m <+: (Tree.lit s).text := by
      rw [← h4]
      exact List.take_prefix m s
    have hv : ∀ e', (∀ pos c exp, e' ≠ .badBranch pos c exp) → (∀ pos got s', e' = .badString pos got s' → s' = s) →
        Viable (fun t => t = .lit s) (w.rem.take m) e' := by
      intro e' hb hs
      refine ⟨⟨_, rfl, hp⟩, fun pos c exp he => absurd he (hb pos c exp), ?_⟩
      intro pos got s' he
      cases hs pos got s' he
      refine ⟨[], w.rem.take m, s.drop m, by simp, by rw [← h4]; simp, ?_, _, rfl, by simp [Tree.text]⟩
      intro hd
      have := congrArg List.length hd
      simp at this
      omega
    rcases h8 with ⟨h9, h'⟩ | ⟨got, h9, ⟨pre, h10, h'⟩ | ⟨_, h'⟩⟩
    · rw [h'] at h
      cases h
      exact ⟨_, hr, hv _ (by simp) (by simp)⟩
    · rw [h'] at h
      cases h
      exact ⟨_, hr, hv _ (by simp) (by simp)⟩
    · rw [h'] at h; cases h

theorem seqTake_viable {ρ : List TE} {f : TE → IW → Res Tree} : ∀ {l : List TE} {w w' : IW} {e : TakeError},
    (∀ x ∈ l, ∀ w w' t, f x w = .ok t w' → Der (ρ.map TE.gram) x.gram t ∧ Reach w t.text w') →
    (∀ x ∈ l, ∀ w w' e, f x w = .err e w' → ∃ p, Reach w p w' ∧ Viable (Der (ρ.map TE.gram) x.gram) p e) →
    (∀ x ∈ l, ∃ t, Der (ρ.map TE.gram) x.gram t) →
    seqTake f l w = .err e w' → ∃ p, Reach w p w' ∧ Viable (fun t => ∃ ts, t = .cat ts ∧ DerL (ρ.map TE.gram) (TE.gramL l) ts) p e
  | [], w, w', e, _, _, _, h => by simp only [seqTake] at h; cases h
  | x :: l, w, w', e, hf, he, hi, h => by
    simp only [seqTake] at h
    cases hx : f x w with
    | ok t w1 =>
      rw [hx] at h
      simp only [Res.bind] at h
      obtain ⟨hd, hr⟩ := hf x (by simp) w w1 t hx
      cases hl : seqTake f l w1 with
      | err e' w2 =>
        rw [hl] at h
        simp only at h
        cases h
        obtain ⟨p, h1, h2⟩ := seqTake_viable (fun a ha => hf a (by simp [ha])) (fun a ha => he a (by simp [ha]))
          (fun a ha => hi a (by simp [ha])) hl
        refine ⟨_, hr.trans h1, h2.map (fun u => match u with | .cat us => .cat (t :: us) | u => u) t.text [] ?_⟩
        rintro u ⟨us, rfl, hus⟩
        exact ⟨⟨_, rfl, .cons _ _ _ _ _ hd hus⟩, by simp [Tree.text, Tree.textL]⟩
      | ok _ _ => rw [hl] at h; cases h
      | panic => rw [hl] at h; cases h
      | oof => rw [hl] at h; cases h
    | err e' w1 =>
      rw [hx] at h
      cases h
      obtain ⟨p, h1, h2⟩ := he x (by simp) w w' e hx
      have : ∃ ts, DerL (ρ.map TE.gram) (TE.gramL l) ts := by
        refine derL_all ?_
        intro g hg
        rw [TE.gramL_map, List.mem_map] at hg
        obtain ⟨y, hy, rfl⟩ := hg
        exact hi y (by simp [hy])
      obtain ⟨ts, hts⟩ := this
      refine ⟨p, h1, h2.map (fun u => .cat (u :: ts)) [] (Tree.textL ts) ?_⟩
      intro u hu
      exact ⟨⟨_, rfl, .cons _ _ _ _ _ hu hts⟩, by simp [Tree.text, Tree.textL]⟩
    | panic => rw [hx] at h; cases h
    | oof => rw [hx] at h; cases h

theorem AnnCat.parts {Γ : List Ty} : ∀ {τ : Ty} {l : List TE} {σ : Ty}, AnnCat Γ τ l σ → ∀ x ∈ l, Ann Γ 0 x
  | _, _, _, .cons _ _ t l _ h1 _ h3, x, hx => by
    rcases List.mem_cons.1 hx with rfl | hx
    · exact h1
    · exact h3.parts x hx

theorem Ann.cat_parts {Γ : List Ty} {k : Nat} {nm : Option Name} {ty : Ty} {l : List TE} (h : Ann Γ k (.cat nm ty l)) :
    ∀ x ∈ l, ∃ k', Ann Γ k' x := by
  cases h with
  | cat _ _ _ _ t ts h1 h2 h3 =>
    intro x hx
    rcases List.mem_cons.1 hx with rfl | hx
    · exact ⟨k, h1⟩
    · exact ⟨0, h3.parts x hx⟩

theorem noEmptyL_mem {l : List TE} {ρ : Nat → Lang} (h : Gram.NoEmptyL (TE.gramL l) ρ) : ∀ x ∈ l, x.gram.NoEmpty ρ := by
  intro x hx
  refine Gram.NoEmptyL.mem h _ ?_
  rw [TE.gramL_map]
  exact List.mem_map_of_mem hx

/-- A failing run of the reference parser has consumed the beginning of a word, and what it says it expected is right. -/
theorem takeR_viable : ∀ (n : Nat) (ρ : List TE) (te : TE) (w w' : IW) (e : TakeError) {Γ : List Ty} {k : Nat}, Ann Γ k te →
    AnnEnv Γ ρ → EnvNE (ρ.map TE.gram) → te.gram.NoEmpty (envLang (ρ.map TE.gram)) → takeR n ρ te w = .err e w' →
    ∃ p, Reach w p w' ∧ Viable (Der (ρ.map TE.gram) te.gram) p e
  | 0, _, _, _, _, _, _, _, _, _, _, _, h => by cases h
  | n + 1, ρ, te, w, w', e, Γ, k, hA, hE, hN, hg, h => by
    have ih := takeR_viable n
    cases te with
    | eps nm => simp only [takeR] at h; cases h
    | lit nm s =>
      simp only [takeR] at h
      obtain ⟨p, h1, h2⟩ := consumeStr_viable (Res.map_err h)
      refine ⟨p, h1, h2.map id [] [] ?_⟩
      rintro t rfl
      exact ⟨.lit _ s, by simp⟩
    | cat nm ty ts =>
      simp only [takeR] at h
      have hparts : ∀ x ∈ ts, ∃ k', Ann Γ k' x := hA.cat_parts
      obtain ⟨p, h1, h2⟩ := seqTake_viable (ρ := ρ) (fun x _ w w' t hx => takeR_sound n ρ x w w' t hx)
        (fun x hx w w' e he => by
          obtain ⟨k', hk⟩ := hparts x hx
          exact ih ρ x w w' e hk hE hN (noEmptyL_mem hg x hx) he)
        (fun x hx => by
          obtain ⟨k', hk⟩ := hparts x hx
          exact inhab x.gram hk.hasTy hE.envTy hN (noEmptyL_mem hg x hx)) (Res.map_err h)
      refine ⟨p, h1, h2.map id [] [] ?_⟩
      rintro t ⟨us, rfl, hus⟩
      exact ⟨.cat _ _ us hus, by simp⟩
    | alt nm ty ts =>
      obtain ⟨a1, a2, a3, a4, a5⟩ := hA.alt_inv
      simp only [takeR, altTake] at h
      rw [IW.peek_eq] at h
      dsimp only at h
      split at h
      · rename_i j hj
        split at h
        · rename_i x hx
          have hm := List.mem_of_getElem? hx
          obtain ⟨p, h1, h2⟩ := ih ρ x _ w' e (a1 x hm) hE hN (noEmptyL_mem hg x hm) (Res.map_err h)
          refine ⟨[] ++ p, (Reach.peek w).trans h1, h2.map (.alt j) [] [] ?_⟩
          intro t ht
          exact ⟨.alt _ _ j x.gram t (by simp [TE.gramL_map, hx]) ht, by simp [Tree.text]⟩
        · cases h
      · cases h
        refine ⟨[], Reach.peek w, ?_, ?_, ?_⟩
        · obtain ⟨t, ht⟩ := inhab _ hA.hasTy hE.envTy hN hg
          exact ⟨t, ht, List.nil_prefix⟩
        · intro pos c exp he d hd
          unfold altFail at he
          split at he
          · cases he
            rw [List.mem_flatMap] at hd
            obtain ⟨τ, hτ, hd⟩ := hd
            obtain ⟨x, hx, rfl⟩ := List.mem_map.1 hτ
            obtain ⟨j, hj⟩ := List.getElem?_of_mem hx
            obtain ⟨t, v, h1, h2⟩ := first_exact _ x.gram (a1 x hx).hasTy hE.envTy hN (noEmptyL_mem hg x hx) (Nat.le_refl _) hd
            exact ⟨.alt j t, .alt _ _ j x.gram t (by simp [TE.gramL_map, hj]) h1, v, by simp [Tree.text, h2]⟩
          · cases he
        · intro pos got s he
          unfold altFail at he
          split at he <;> cases he
    | fix nm b =>
      simp only [takeR] at h
      cases hA with
      | fix _ _ _ _ hb =>
        obtain ⟨p, h1, h2⟩ := ih (b :: ρ) b w w' e hb (.cons b k hE hb) (hN.cons hg)
          (by rw [List.map_cons, ← fix_lang_env]; exact hg.2) h
        refine ⟨p, h1, h2.map id [] [] ?_⟩
        intro t ht
        exact ⟨.fix _ _ t ht, by simp⟩
    | var nm i ty =>
      simp only [takeR] at h
      cases hA with
      | var _ _ _ _ _ hi _ =>
        obtain ⟨b, ρ', Γ', k', h1, h2, h3, h4⟩ := hE.get hi
        rw [h1] at h
        have hd : (ρ.map TE.gram).drop i = b.gram :: ρ'.map TE.gram := by rw [← List.map_drop, h1]; rfl
        have hN1 := hN i _ _ hd
        have hN2 : EnvNE (ρ'.map TE.gram) := by
          have := (hN.drop (i + 1))
          rwa [show (ρ.map TE.gram).drop (i + 1) = ρ'.map TE.gram by rw [← List.drop_drop, hd]; rfl] at this
        have hN3 : (TE.fix none b).gram.NoEmpty (envLang (ρ'.map TE.gram)) := by
          obtain ⟨⟨t, ht⟩, hb⟩ := hN1
          refine ⟨⟨t.text, (lang_iff_der _ _ _).2 ⟨t, .fix _ _ t ht, rfl⟩⟩, ?_⟩
          rw [fix_lang_env]
          exact hb
        obtain ⟨p, h5, h6⟩ := ih ρ' (.fix none b) w w' e (.fix _ k' none b h4) h3 hN2 hN3 (Res.map_err h)
        refine ⟨p, h5, h6.map .box [] [] ?_⟩
        intro t ht
        cases ht with
        | fix _ _ _ ht => exact ⟨.var _ i b.gram _ t hd ht, by simp [Tree.text]⟩

end Chomp
