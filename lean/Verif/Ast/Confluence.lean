import Verif.Ast.Refactor

/-!
# Specification layer: evaluation is confluent

Calls and lets may be expanded in any order without losing results (`Core.Steps.confluent`), by parallel
steps and complete developments.
-/

namespace Chomp

mutual
/-- Any number of the calls and lets of an expression are expanded at once. -/
inductive Core.Par : Core → Core → Prop
  | eps : Par .eps .eps
  | lit (s : List Char) : Par (.lit s) (.lit s)
  | cat (l l' : List Core) : ParL l l' → Par (.cat l) (.cat l')
  | alt (l l' : List Core) : ParL l l' → Par (.alt l) (.alt l')
  | fix (b b' : Core) : Par b b' → Par (.fix b) (.fix b')
  | var (k : Nat) : Par (.var k) (.var k)
  | call (o o' : Core) (a a' : List Core) : Par o o' → ParL a a' → Par (.call o a) (.call o' a')
  | lam (n : Nat) (b b' : Core) : Par b b' → Par (.lam n b) (.lam n b')
  | letE (b b' c c' : Core) : Par b b' → Par c c' → Par (.letE b c) (.letE b' c')
  | beta (n : Nat) (b b' : Core) (a a' : List Core) : Par b b' → ParL a a' → a.length = n →
      Par (.call (.lam n b) a) (b'.sub (instArgs a'))
  | letI (b b' c c' : Core) : Par b b' → Par c c' → Par (.letE b c) (c'.sub (inst 0 b'))
inductive Core.ParL : List Core → List Core → Prop
  | nil : ParL [] []
  | cons (e e' : Core) (l l' : List Core) : Par e e' → ParL l l' → ParL (e :: l) (e' :: l')
end

theorem Core.ParL.of_all2 {l l' : List Core} (h : All2 Core.Par l l') : Core.ParL l l' := by
  induction h with
  | nil => exact .nil
  | cons h _ ih => exact .cons _ _ _ _ h ih

theorem Core.ParL.all2 : ∀ {l l' : List Core}, Core.ParL l l' → All2 Core.Par l l'
  | _, _, .nil => .nil
  | _, _, .cons _ _ _ _ h t => .cons h t.all2

theorem Core.Par.refl (e : Core) : Core.Par e e := by
  induction e using Core.ind with
  | eps => exact .eps
  | lit s => exact .lit s
  | cat l ih => exact .cat _ _ (.of_all2 (All2.same ih))
  | alt l ih => exact .alt _ _ (.of_all2 (All2.same ih))
  | fix b ih => exact .fix _ _ ih
  | var k => exact .var k
  | call o a ho ha => exact .call _ _ _ _ ho (.of_all2 (All2.same ha))
  | lam n b ih => exact .lam _ _ _ ih
  | letE b c hb hc => exact .letE _ _ _ _ hb hc

theorem Core.ParL.refl (l : List Core) : Core.ParL l l := .of_all2 (All2.same fun e _ => .refl e)

mutual
theorem Core.Par.ren : ∀ {a b : Core}, Core.Par a b → ∀ f : Nat → Nat, Core.Par (a.ren f) (b.ren f)
  | _, _, .eps, _ => .eps
  | _, _, .lit s, _ => .lit s
  | _, _, .cat _ _ h, f => .cat _ _ (h.ren f)
  | _, _, .alt _ _ h, f => .alt _ _ (h.ren f)
  | _, _, .fix _ _ h, f => .fix _ _ (h.ren f)
  | _, _, .var _, _ => .var _
  | _, _, .call _ _ _ _ h h', f => .call _ _ _ _ (h.ren f) (h'.ren f)
  | _, _, .lam _ _ _ h, _ => .lam _ _ _ (h.ren _)
  | _, _, .letE _ _ _ _ h h', f => .letE _ _ _ _ (h.ren f) (h'.ren _)
  | _, _, .beta n b b' a a' h h' hn, f => by
    have hl := h'.all2.len
    have := Core.Par.beta n _ _ _ _ (h.ren (upr n f)) (h'.ren f) (by simpa [Core.renL_map] using hn)
    rw [sub_instArgs_ren, ← hl, hn, ← Core.renL_map]
    exact this
  | _, _, .letI b b' c c' h h', f => by
    rw [sub_inst_ren]
    exact .letI _ _ _ _ (h.ren f) (h'.ren _)
theorem Core.ParL.ren : ∀ {a b : List Core}, Core.ParL a b → ∀ f : Nat → Nat,
    Core.ParL (Core.renL f a) (Core.renL f b)
  | _, _, .nil, _ => .nil
  | _, _, .cons _ _ _ _ h h', f => .cons _ _ _ _ (h.ren f) (h'.ren f)
end

theorem up_par {σ τ : Nat → Core} (h : ∀ i, Core.Par (σ i) (τ i)) (n : Nat) :
    ∀ i, Core.Par (up n σ i) (up n τ i) := by
  intro i
  simp only [up]
  split
  · exact .var _
  · exact (h _).ren _

mutual
theorem Core.Par.sub : ∀ {a b : Core}, Core.Par a b → ∀ σ τ : Nat → Core, (∀ i, Core.Par (σ i) (τ i)) →
    Core.Par (a.sub σ) (b.sub τ)
  | _, _, .eps, _, _, _ => .eps
  | _, _, .lit s, _, _, _ => .lit s
  | _, _, .cat _ _ h, σ, τ, hs => .cat _ _ (h.sub σ τ hs)
  | _, _, .alt _ _ h, σ, τ, hs => .alt _ _ (h.sub σ τ hs)
  | _, _, .fix _ _ h, σ, τ, hs => .fix _ _ (h.sub σ τ hs)
  | _, _, .var k, _, _, hs => hs k
  | _, _, .call _ _ _ _ h h', σ, τ, hs => .call _ _ _ _ (h.sub σ τ hs) (h'.sub σ τ hs)
  | _, _, .lam n _ _ h, _, _, hs => .lam _ _ _ (h.sub _ _ (up_par hs n))
  | _, _, .letE _ _ _ _ h h', σ, τ, hs => .letE _ _ _ _ (h.sub σ τ hs) (h'.sub _ _ (up_par hs 1))
  | _, _, .beta n b b' a a' h h' hn, σ, τ, hs => by
    have hl := h'.all2.len
    have := Core.Par.beta n _ _ _ _ (h.sub _ _ (up_par hs n)) (h'.sub σ τ hs) (by simpa [Core.subL_map] using hn)
    rw [sub_instArgs_sub, ← hl, hn, ← Core.subL_map]
    exact this
  | _, _, .letI b b' c c' h h', σ, τ, hs => by
    rw [sub_inst_sub]
    exact .letI _ _ _ _ (h.sub σ τ hs) (h'.sub _ _ (up_par hs 1))
theorem Core.ParL.sub : ∀ {a b : List Core}, Core.ParL a b → ∀ σ τ : Nat → Core, (∀ i, Core.Par (σ i) (τ i)) →
    Core.ParL (Core.subL σ a) (Core.subL τ b)
  | _, _, .nil, _, _, _ => .nil
  | _, _, .cons _ _ _ _ h h', σ, τ, hs => .cons _ _ _ _ (h.sub σ τ hs) (h'.sub σ τ hs)
end

theorem instArgs_par {l l' : List Core} (h : Core.ParL l l') : ∀ i, Core.Par (instArgs l i) (instArgs l' i) := by
  intro i
  have h := h.all2
  have hl := h.len
  simp only [instArgs, ← hl]
  split
  · exact h.getElem _ _ .eps _
  · exact .var _

theorem inst_par {b b' : Core} (h : Core.Par b b') : ∀ i, Core.Par (inst 0 b i) (inst 0 b' i) := by
  intro i
  simp only [inst]
  split
  · exact .var _
  · split
    · exact h
    · exact .var _

/-! ### Complete developments -/

mutual
/-- All calls and lets that can be expanded are expanded once. -/
def Core.dev : Core → Core
  | .eps => .eps
  | .lit s => .lit s
  | .cat l => .cat (Core.devL l)
  | .alt l => .alt (Core.devL l)
  | .fix b => .fix b.dev
  | .var k => .var k
  | .call (.lam n b) a => if a.length = n then b.dev.sub (instArgs (Core.devL a)) else .call (.lam n b.dev) (Core.devL a)
  | .call o a => .call o.dev (Core.devL a)
  | .lam n b => .lam n b.dev
  | .letE b c => c.dev.sub (inst 0 b.dev)
def Core.devL : List Core → List Core
  | [] => []
  | e :: l => e.dev :: Core.devL l
end

theorem Core.Par.lam_inv {n : Nat} {b x : Core} (h : Core.Par (.lam n b) x) : ∃ b', x = .lam n b' ∧ Core.Par b b' := by
  cases h with
  | lam _ _ b' h => exact ⟨b', rfl, h⟩

mutual
theorem Core.Par.dev : ∀ {a b : Core}, Core.Par a b → Core.Par b a.dev
  | _, _, .eps => by simp only [Core.dev]; exact .eps
  | _, _, .lit s => by simp only [Core.dev]; exact .lit s
  | _, _, .cat _ _ h => by simp only [Core.dev]; exact .cat _ _ h.dev
  | _, _, .alt _ _ h => by simp only [Core.dev]; exact .alt _ _ h.dev
  | _, _, .fix _ _ h => by simp only [Core.dev]; exact .fix _ _ h.dev
  | _, _, .var k => by simp only [Core.dev]; exact .var k
  | _, _, .call o o' a a' h h' => by
    have h1 := h.dev
    have h2 := h'.dev
    have hl := h'.all2.len
    by_cases ho : ∃ n b, o = .lam n b
    · obtain ⟨n, b, rfl⟩ := ho
      obtain ⟨b', rfl, hb⟩ := h.lam_inv
      simp only [Core.dev] at h1 ⊢
      obtain ⟨b2, h3, hb2⟩ := h1.lam_inv
      cases h3
      split
      · rename_i hn
        exact .beta n _ _ _ _ hb2 h2 (by rw [← hl, hn])
      · exact .call _ _ _ _ (.lam _ _ _ hb2) h2
    · have : (Core.call o a).dev = .call o.dev (Core.devL a) := by
        cases o with
        | lam n b => exact absurd ⟨n, b, rfl⟩ ho
        | _ => simp only [Core.dev]
      rw [this]
      exact .call _ _ _ _ h1 h2
  | _, _, .lam _ _ _ h => by simp only [Core.dev]; exact .lam _ _ _ h.dev
  | _, _, .letE _ _ _ _ h h' => by simp only [Core.dev]; exact .letI _ _ _ _ h.dev h'.dev
  | _, _, .beta n b b' a a' h h' hn => by
    simp only [Core.dev, hn, if_true]
    exact h.dev.sub _ _ (instArgs_par h'.dev)
  | _, _, .letI b b' c c' h h' => by
    simp only [Core.dev]
    exact h'.dev.sub _ _ (inst_par h.dev)
theorem Core.ParL.dev : ∀ {a b : List Core}, Core.ParL a b → Core.ParL b (Core.devL a)
  | _, _, .nil => by simp only [Core.devL]; exact .nil
  | _, _, .cons _ _ _ _ h h' => by simp only [Core.devL]; exact .cons _ _ _ _ h.dev h'.dev
end

/-! ### Steps and parallel steps -/

theorem Core.ParL.mid (p q : List Core) {e e' : Core} (h : Core.Par e e') : Core.ParL (p ++ e :: q) (p ++ e' :: q) :=
  .of_all2 (All2.mid Core.Par.refl p q h)

theorem Core.Step.par {a b : Core} (h : Core.Step a b) : Core.Par a b := by
  induction h with
  | beta n b args hl => exact .beta n _ _ _ _ (.refl _) (.refl _) hl
  | letE b c => exact .letI _ _ _ _ (.refl _) (.refl _)
  | cat pre e e' post _ ih => exact .cat _ _ (.mid _ _ ih)
  | alt pre e e' post _ ih => exact .alt _ _ (.mid _ _ ih)
  | fix b b' _ ih => exact .fix _ _ ih
  | callOn o o' args _ ih => exact .call _ _ _ _ ih (.refl _)
  | callArg o pre e e' post _ ih => exact .call _ _ _ _ (.refl _) (.mid _ _ ih)
  | lam n b b' _ ih => exact .lam _ _ _ ih
  | letBound b b' c _ ih => exact .letE _ _ _ _ ih (.refl _)
  | letBody b c c' _ ih => exact .letE _ _ _ _ (.refl _) ih

mutual
theorem Core.Par.steps : ∀ {a b : Core}, Core.Par a b → Core.Steps a b
  | _, _, .eps => .refl _
  | _, _, .lit s => .refl _
  | _, _, .cat _ _ h => .catL h.steps
  | _, _, .alt _ _ h => .altL h.steps
  | _, _, .fix _ _ h => h.steps.fix
  | _, _, .var k => .refl _
  | _, _, .call _ _ _ _ h h' => .call h.steps h'.steps
  | _, _, .lam _ _ _ h => h.steps.lam
  | _, _, .letE _ _ _ _ h h' => .letE h.steps h'.steps
  | _, _, .beta n b b' a a' h h' hn =>
    (Core.Steps.call h.steps.lam h'.steps).tail (.beta n b' a' (by rw [← h'.all2.len, hn]))
  | _, _, .letI b b' c c' h h' => (Core.Steps.letE h.steps h'.steps).tail (.letE b' c')
theorem Core.ParL.steps : ∀ {a b : List Core}, Core.ParL a b → All2 Core.Steps a b
  | _, _, .nil => .nil
  | _, _, .cons _ _ _ _ h h' => .cons h.steps h'.steps
end

theorem Core.Steps.strip {a b c : Core} (h : Core.Steps a b) (hp : Core.Par a c) :
    ∃ d, Core.Par b d ∧ Core.Steps c d := by
  induction h with
  | refl => exact ⟨c, hp, .refl _⟩
  | tail _ hs ih =>
    obtain ⟨d, h1, h2⟩ := ih
    exact ⟨_, hs.par.dev, h2.trans h1.dev.steps⟩

/-- Evaluation is confluent. -/
theorem Core.Steps.confluent {a b c : Core} (h : Core.Steps a b) (h' : Core.Steps a c) :
    ∃ d, Core.Steps b d ∧ Core.Steps c d := by
  induction h' with
  | refl => exact ⟨b, .refl _, h⟩
  | tail _ hs ih =>
    obtain ⟨d, h1, h2⟩ := ih
    obtain ⟨d', h3, h4⟩ := h2.strip hs.par
    exact ⟨d', h1.trans h3.steps, h4⟩

/-- Two expressions are interconvertible: calls and lets are expanded or introduced, anywhere. -/
inductive Core.Conv : Core → Core → Prop
  | refl (e : Core) : Conv e e
  | step {a b c : Core} : Conv a b → Core.Step b c → Conv a c
  | back {a b c : Core} : Conv a b → Core.Step c b → Conv a c

/-- Interconvertible expressions evaluate to a common one. -/
theorem Core.Conv.join {a b : Core} (h : Core.Conv a b) : ∃ d, Core.Steps a d ∧ Core.Steps b d := by
  induction h with
  | refl => exact ⟨a, .refl _, .refl _⟩
  | step _ hs ih =>
    obtain ⟨d, h1, h2⟩ := ih
    obtain ⟨d', h3, h4⟩ := h2.confluent (.single hs)
    exact ⟨d', h1.trans h3, h4⟩
  | back _ hs ih =>
    obtain ⟨d, h1, h2⟩ := ih
    exact ⟨d, h1, (Core.Steps.single hs).trans h2⟩

theorem Core.Conv.trans {a b c : Core} (h : Core.Conv a b) (h' : Core.Conv b c) : Core.Conv a c := by
  induction h' with
  | refl => exact h
  | step _ hs ih => exact .step ih hs
  | back _ hs ih => exact .back ih hs

theorem Core.Conv.symm {a b : Core} (h : Core.Conv a b) : Core.Conv b a := by
  induction h with
  | refl => exact .refl _
  | step _ hs ih => exact (Core.Conv.back (.refl _) hs).trans ih
  | back _ hs ih => exact (Core.Conv.step (.refl _) hs).trans ih

end Chomp
