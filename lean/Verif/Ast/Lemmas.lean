import Verif.Ast.Model
import Verif.Ast.CoreLemmas

/-! Lemmas about the AST model: substitution, renaming, reduction. -/

namespace Chomp

/-- Induction principle for `NE`. -/
theorem NE.ind {P : NE → Prop} (eps : ∀ i, P (.eps i)) (lit : ∀ i s, P (.lit i s))
    (cat : ∀ i f r, P f → (∀ p ∈ r, P p.2) → P (.cat i f r))
    (alt : ∀ i f r, P f → (∀ p ∈ r, P p.2) → P (.alt i f r))
    (fix : ∀ i b, P b → P (.fix i b)) (var : ∀ i k, P (.var i k))
    (call : ∀ i o a, P o → (∀ e ∈ a, P e) → P (.call i o a)) (lam : ∀ i a b, P b → P (.lam i a b))
    (letE : ∀ i x b c, P b → P c → P (.letE i x b c)) (e : NE) : P e :=
  NE.rec (motive_1 := P) (motive_2 := fun l => ∀ p ∈ l, P p.2) (motive_3 := fun l => ∀ e ∈ l, P e)
    (motive_4 := fun p => P p.2)
    eps lit cat alt fix var call lam letE (by simp) (by
      intro h t hh ht e he
      rcases List.mem_cons.1 he with rfl | he
      · exact hh
      · exact ht e he) (by simp) (by
      intro h t hh ht e he
      rcases List.mem_cons.1 he with rfl | he
      · exact hh
      · exact ht e he) (by intro a b h; exact h) e

mutual
/-- Forget names and spans (specification layer). -/
def NE.erase : NE → Core
  | .eps _ => .eps
  | .lit _ s => .lit s
  | .cat _ f r => .cat (f.erase :: NE.eraseP r)
  | .alt _ f r => .alt (f.erase :: NE.eraseP r)
  | .fix _ b => .fix b.erase
  | .var _ k => .var k
  | .call _ o a => .call o.erase (NE.eraseL a)
  | .lam _ a b => .lam a.length b.erase
  | .letE _ _ b c => .letE b.erase c.erase
def NE.eraseP : List (Nat × NE) → List Core
  | [] => []
  | (_, e) :: l => e.erase :: NE.eraseP l
def NE.eraseL : List NE → List Core
  | [] => []
  | e :: l => e.erase :: NE.eraseL l
end

@[simp] theorem NE.eraseP_map (l : List (Nat × NE)) : NE.eraseP l = l.map (fun p => p.2.erase) := by
  induction l with
  | nil => rfl
  | cons p l ih => obtain ⟨s, e⟩ := p; simp [NE.eraseP, ih]

@[simp] theorem NE.eraseL_map (l : List NE) : NE.eraseL l = l.map NE.erase := by
  induction l <;> simp [NE.eraseL, *]

@[simp] theorem NE.erase_setInfo (i : Info) (e : NE) : (e.setInfo i).erase = e.erase := by
  cases e <;> rfl

@[simp] theorem NE.erase_setName (n : Option Name) (e : NE) : (e.setName n).erase = e.erase := by
  simp [NE.setName]

/-! ### Renaming -/

theorem upr_add (n d k : Nat) : upr k (upr d (· + n)) = upr (d + k) (· + n) := by
  funext i
  simp only [upr]
  by_cases h : i < k
  · have : i < d + k := by omega
    simp [h, this]
  · by_cases h2 : i - k < d
    · have : i < d + k := by omega
      simp [h, h2, this]; omega
    · have : ¬ i < d + k := by omega
      simp [h, h2, this]; omega

/-- Deepening is a renaming of the free variables that never panics and is undone by shallowing. -/
theorem NE.rename_spec (n : Nat) (e : NE) : ∀ d, ∃ e', e.rename .deepen n d = some e' ∧
    e'.erase = e.erase.ren (upr d (· + n)) ∧ e'.rename .shallow n d = some e := by
  have hP : ∀ (d : Nat) (l : List (Nat × NE)),
      (∀ p ∈ l, ∀ d, ∃ e', p.2.rename .deepen n d = some e' ∧
        e'.erase = p.2.erase.ren (upr d (· + n)) ∧ e'.rename .shallow n d = some p.2) →
      ∃ l', NE.renameP .deepen n d l = some l' ∧
        NE.eraseP l' = (NE.eraseP l).map (Core.ren (upr d (· + n))) ∧
        NE.renameP .shallow n d l' = some l := by
    intro d l
    induction l with
    | nil => intro _; exact ⟨[], rfl, rfl, rfl⟩
    | cons p l ih =>
      intro h
      obtain ⟨s, e⟩ := p
      obtain ⟨e', h1, h2, h3⟩ := h (s, e) (by simp) d
      obtain ⟨l', h4, h5, h6⟩ := ih (fun p hp => h p (by simp [hp]))
      dsimp only at h1 h2 h3
      refine ⟨(s, e') :: l', by simp [NE.renameP, h1, h4], ?_, by simp [NE.renameP, h3, h6]⟩
      simp only [NE.eraseP, List.map_cons, h2, h5]
  have hL : ∀ (d : Nat) (l : List NE),
      (∀ p ∈ l, ∀ d, ∃ e', p.rename .deepen n d = some e' ∧
        e'.erase = p.erase.ren (upr d (· + n)) ∧ e'.rename .shallow n d = some p) →
      ∃ l', NE.renameL .deepen n d l = some l' ∧
        NE.eraseL l' = (NE.eraseL l).map (Core.ren (upr d (· + n))) ∧
        NE.renameL .shallow n d l' = some l := by
    intro d l
    induction l with
    | nil => intro _; exact ⟨[], rfl, rfl, rfl⟩
    | cons e l ih =>
      intro h
      obtain ⟨e', h1, h2, h3⟩ := h e (by simp) d
      obtain ⟨l', h4, h5, h6⟩ := ih (fun p hp => h p (by simp [hp]))
      refine ⟨e' :: l', by simp [NE.renameL, h1, h4], ?_, by simp [NE.renameL, h3, h6]⟩
      simp only [NE.eraseL, List.map_cons, h2, h5]
  induction e using NE.ind with
  | eps i => intro d; exact ⟨.eps i, rfl, rfl, rfl⟩
  | lit i s => intro d; exact ⟨.lit i s, rfl, rfl, rfl⟩
  | cat i f r ihf ihr =>
    intro d
    obtain ⟨f', h1, h2, h3⟩ := ihf d
    obtain ⟨r', h4, h5, h6⟩ := hP d r ihr
    refine ⟨.cat i f' r', by simp [NE.rename, h1, h4], ?_, by simp [NE.rename, h3, h6]⟩
    simp only [NE.erase, Core.ren, h2, h5, Core.renL_map, List.map_cons]
  | alt i f r ihf ihr =>
    intro d
    obtain ⟨f', h1, h2, h3⟩ := ihf d
    obtain ⟨r', h4, h5, h6⟩ := hP d r ihr
    refine ⟨.alt i f' r', by simp [NE.rename, h1, h4], ?_, by simp [NE.rename, h3, h6]⟩
    simp only [NE.erase, Core.ren, h2, h5, Core.renL_map, List.map_cons]
  | fix i b ih =>
    intro d
    obtain ⟨b', h1, h2, h3⟩ := ih d
    exact ⟨.fix i b', by simp [NE.rename, h1], by simp [NE.erase, Core.ren, h2], by simp [NE.rename, h3]⟩
  | var i k =>
    intro d
    by_cases h : k ≥ d
    · refine ⟨.var i (k + n), by simp [NE.rename, h], ?_, ?_⟩
      · have : ¬ k < d := by omega
        simp only [NE.erase, Core.ren, upr, this, if_false]
        congr 1; omega
      · have h1 : k + n ≥ d := by omega
        have h2 : ¬ (k + n < n) := by omega
        simp [NE.rename, h1, h2]
    · refine ⟨.var i k, by simp [NE.rename, h], ?_, by simp [NE.rename, h]⟩
      have : k < d := by omega
      simp [NE.erase, Core.ren, upr, this]
  | call i o a ih1 ih2 =>
    intro d
    obtain ⟨f', h1, h2, h3⟩ := ih1 d
    obtain ⟨r', h4, h5, h6⟩ := hL d a ih2
    refine ⟨.call i f' r', by simp [NE.rename, h1, h4], ?_, by simp [NE.rename, h3, h6]⟩
    simp only [NE.erase, Core.ren, h2, h5, Core.renL_map]
  | lam i a b ih =>
    intro d
    obtain ⟨b', h1, h2, h3⟩ := ih (d + a.length)
    refine ⟨.lam i a b', by simp [NE.rename, h1], ?_, by simp [NE.rename, h3]⟩
    simp only [NE.erase, Core.ren, h2, upr_add]
  | letE i x b c ih1 ih2 =>
    intro d
    obtain ⟨b', h1, h2, h3⟩ := ih1 d
    obtain ⟨c', h4, h5, h6⟩ := ih2 (d + 1)
    refine ⟨.letE i x b' c', by simp [NE.rename, h1, h4], ?_, by simp [NE.rename, h3, h6]⟩
    simp only [NE.erase, Core.ren, h2, h5, upr_add]

theorem upr_zero (f : Nat → Nat) : upr 0 f = f := by
  funext i; simp [upr]

theorem NE.rename_zero (n : Nat) (e : NE) : ∃ e', e.rename .deepen n 0 = some e' ∧
    e'.erase = e.erase.ren (· + n) ∧ e'.rename .shallow n 0 = some e := by
  have := e.rename_spec n 0
  rwa [upr_zero] at this

/-! ### Substitution -/

theorem up_inst (n k : Nat) (s : Core) : up n (inst k s) = inst (k + n) (s.ren (· + n)) := by
  funext i
  simp only [up, inst]
  by_cases h : i < n
  · have : i < k + n := by omega
    simp [h, this]
  · by_cases h1 : i - n < k
    · have : i < k + n := by omega
      simp only [h, h1, this, if_false, if_true, Core.ren]
      congr 1; omega
    · have h2 : ¬ i < k + n := by omega
      by_cases h3 : i - n = k
      · have : i = k + n := by omega
        have h4 : ¬ (k + n < n) := by omega
        simp [this, h4]
      · have : i ≠ k + n := by omega
        simp only [h, h1, h2, h3, this, if_false, Core.ren]
        congr 1; omega

/-- The state-passing substitution never panics, gives back its state, and is capture-avoiding
substitution on the nameless expressions. -/
theorem NE.substS_spec (e : NE) : ∀ (k : Nat) (s : NE), ∃ e', e.substS ⟨k, s⟩ = some (e', ⟨k, s⟩) ∧
    e'.erase = e.erase.sub (inst k s.erase) := by
  have hP : ∀ (k : Nat) (s : NE) (l : List (Nat × NE)),
      (∀ p ∈ l, ∀ (k : Nat) (s : NE), ∃ e', p.2.substS ⟨k, s⟩ = some (e', ⟨k, s⟩) ∧
        e'.erase = p.2.erase.sub (inst k s.erase)) →
      ∃ l', NE.substP ⟨k, s⟩ l = some (l', ⟨k, s⟩) ∧
        NE.eraseP l' = (NE.eraseP l).map (Core.sub (inst k s.erase)) := by
    intro k s l
    induction l with
    | nil => intro _; exact ⟨[], rfl, rfl⟩
    | cons p l ih =>
      intro h
      obtain ⟨t, e⟩ := p
      obtain ⟨e', h1, h2⟩ := h (t, e) (by simp) k s
      obtain ⟨l', h4, h5⟩ := ih (fun p hp => h p (by simp [hp]))
      dsimp only at h1 h2
      refine ⟨(t, e') :: l', by simp [NE.substP, h1, h4], ?_⟩
      simp only [NE.eraseP, List.map_cons, h2, h5]
  have hL : ∀ (k : Nat) (s : NE) (l : List NE),
      (∀ p ∈ l, ∀ (k : Nat) (s : NE), ∃ e', p.substS ⟨k, s⟩ = some (e', ⟨k, s⟩) ∧
        e'.erase = p.erase.sub (inst k s.erase)) →
      ∃ l', NE.substL ⟨k, s⟩ l = some (l', ⟨k, s⟩) ∧
        NE.eraseL l' = (NE.eraseL l).map (Core.sub (inst k s.erase)) := by
    intro k s l
    induction l with
    | nil => intro _; exact ⟨[], rfl, rfl⟩
    | cons e l ih =>
      intro h
      obtain ⟨e', h1, h2⟩ := h e (by simp) k s
      obtain ⟨l', h4, h5⟩ := ih (fun p hp => h p (by simp [hp]))
      refine ⟨e' :: l', by simp [NE.substL, h1, h4], ?_⟩
      simp only [NE.eraseL, List.map_cons, h2, h5]
  have hB : ∀ (n k : Nat) (s b : NE),
      (∀ (k : Nat) (s : NE), ∃ e', b.substS ⟨k, s⟩ = some (e', ⟨k, s⟩) ∧
        e'.erase = b.erase.sub (inst k s.erase)) →
      ∃ st b', Sub.enter n ⟨k, s⟩ = some st ∧ b.substS st = some (b', st) ∧
        Sub.leave n st = some ⟨k, s⟩ ∧ b'.erase = b.erase.sub (up n (inst k s.erase)) := by
    intro n k s b ih
    obtain ⟨s', h1, h2, h3⟩ := s.rename_zero n
    obtain ⟨b', h4, h5⟩ := ih (k + n) s'
    refine ⟨⟨k + n, s'⟩, b', by simp [Sub.enter, h1], h4, ?_, ?_⟩
    · have : ¬ (k + n < n) := by omega
      simp [Sub.leave, h3, this]
    · rw [h5, h2, up_inst]
  induction e using NE.ind with
  | eps i => intro k s; exact ⟨.eps i, rfl, rfl⟩
  | lit i s => intro k t; exact ⟨.lit i s, rfl, rfl⟩
  | cat i f r ihf ihr =>
    intro k s
    obtain ⟨f', h1, h2⟩ := ihf k s
    obtain ⟨r', h4, h5⟩ := hP k s r ihr
    refine ⟨.cat i f' r', by simp [NE.substS, h1, h4], ?_⟩
    simp only [NE.erase, Core.sub, h2, h5, Core.subL_map, List.map_cons]
  | alt i f r ihf ihr =>
    intro k s
    obtain ⟨f', h1, h2⟩ := ihf k s
    obtain ⟨r', h4, h5⟩ := hP k s r ihr
    refine ⟨.alt i f' r', by simp [NE.substS, h1, h4], ?_⟩
    simp only [NE.erase, Core.sub, h2, h5, Core.subL_map, List.map_cons]
  | fix i b ih =>
    intro k s
    obtain ⟨b', h1, h2⟩ := ih k s
    exact ⟨.fix i b', by simp [NE.substS, h1], by simp [NE.erase, Core.sub, h2]⟩
  | var i j =>
    intro k s
    by_cases h : j = k
    · refine ⟨s.setName (Name.merge s.info.name i.name), by simp [NE.substS, h], ?_⟩
      simp [NE.erase, Core.sub, inst, h]
    · refine ⟨.var i (if j > k then j - 1 else j), by simp [NE.substS, h], ?_⟩
      simp only [NE.erase, Core.sub, inst, h, if_false]
      by_cases h2 : j < k
      · have : ¬ j > k := by omega
        simp [h2, this]
      · have : j > k := by omega
        simp [h2, this]
  | call i o a ih1 ih2 =>
    intro k s
    obtain ⟨f', h1, h2⟩ := ih1 k s
    obtain ⟨r', h4, h5⟩ := hL k s a ih2
    refine ⟨.call i f' r', by simp [NE.substS, h1, h4], ?_⟩
    simp only [NE.erase, Core.sub, h2, h5, Core.subL_map]
  | lam i a b ih =>
    intro k s
    obtain ⟨st, b', h1, h2, h3, h4⟩ := hB a.length k s b ih
    refine ⟨.lam i a b', by simp [NE.substS, h1, h2, h3], ?_⟩
    simp only [NE.erase, Core.sub, h4]
  | letE i x b c ih1 ih2 =>
    intro k s
    obtain ⟨b', h5, h6⟩ := ih1 k s
    obtain ⟨st, c', h1, h2, h3, h4⟩ := hB 1 k s c ih2
    refine ⟨.letE i x b' c', by simp [NE.substS, h1, h2, h3, h5], ?_⟩
    simp only [NE.erase, Core.sub, h4, h6]

theorem NE.substitute_spec (e : NE) (k : Nat) (s : NE) : ∃ e', e.substitute k s = some e' ∧
    e'.erase = e.erase.sub (inst k s.erase) := by
  obtain ⟨e', h1, h2⟩ := e.substS_spec k s
  exact ⟨e', by simp [NE.substitute, h1], h2⟩

theorem foldOpt_append {α β : Type} (f : β → α → Option β) (b : β) (l l' : List α) :
    foldOpt f b (l ++ l') = (foldOpt f b l).bind fun b => foldOpt f b l' := by
  induction l generalizing b with
  | nil => rfl
  | cons a l ih =>
    simp only [List.cons_append, foldOpt]
    cases f b a with
    | none => rfl
    | some c => simp [ih]

theorem getD_append_left {α : Type} (l l' : List α) (i : Nat) (d : α) (h : i < l.length) :
    (l ++ l').getD i d = l.getD i d := by
  simp [List.getD, List.getElem?_append_left h]

theorem inst_instArgs (e last : Core) (init : List Core) :
    (e.sub (inst 0 (last.ren (· + init.length)))).sub (instArgs init)
      = e.sub (instArgs (init ++ [last])) := by
  rw [Core.sub_sub]
  congr 1
  funext i
  simp only [inst]
  rcases i with _ | i
  · simp only [Nat.lt_irrefl, if_false, if_true, Core.sub_ren]
    have : (instArgs init ∘ fun x => x + init.length) = Core.var := by
      funext j
      have : ¬ (j + init.length < init.length) := by omega
      simp [instArgs, this]
    rw [this, Core.sub_var]
    simp [instArgs]
  · simp only [Nat.not_lt_zero, if_false, Nat.succ_ne_zero, Core.sub, Nat.add_sub_cancel]
    simp only [instArgs, List.length_append, List.length_singleton]
    by_cases h : i < init.length
    · have h2 : i + 1 < init.length + 1 := by omega
      simp only [h, h2, if_true]
      rw [getD_append_left _ _ _ _ (by omega)]
      congr 1; omega
    · have h2 : ¬ (i + 1 < init.length + 1) := by omega
      simp only [h, h2, if_false]
      congr 1; omega

/-- The argument loop substitutes all arguments simultaneously, by position. -/
theorem applyArgs_spec (n : Nat) : ∀ (body : NE) (params : List Name) (args : List NE),
    args.length = n → params.length = n →
    ∃ e', applyArgs body params args = some e' ∧
      e'.erase = body.erase.sub (instArgs (args.map NE.erase)) := by
  induction n with
  | zero =>
    intro body params args h1 h2
    have : args = [] := by simpa using h1
    subst this
    refine ⟨body, by simp [applyArgs, foldOpt], ?_⟩
    have : instArgs (([] : List NE).map NE.erase) = Core.var := by funext i; simp [instArgs]
    rw [this, Core.sub_var]
  | succ n ih =>
    intro body params args h1 h2
    have ha : args ≠ [] := by rintro rfl; simp at h1
    have hp : params ≠ [] := by rintro rfl; simp at h2
    rw [← List.dropLast_concat_getLast ha, ← List.dropLast_concat_getLast hp]
    have la : args.dropLast.length = n := by simp; omega
    have lp : params.dropLast.length = n := by simp; omega
    generalize args.dropLast = A at *
    generalize params.dropLast = P at *
    generalize args.getLast ha = a
    generalize params.getLast hp = p
    obtain ⟨a', e1, e2, _⟩ := (a.setName (Name.merge a.info.name (some p))).rename_zero A.length
    obtain ⟨b', e3, e4⟩ := body.substitute_spec 0 a'
    obtain ⟨out, e5, e6⟩ := ih b' P A la lp
    refine ⟨out, ?_, ?_⟩
    · rw [applyArgs, List.zipIdx_append, List.zip_append (by simp [la, lp]), List.reverse_append, foldOpt_append]
      simp only [List.zipIdx_singleton, List.zip_cons_cons, List.zip_nil_left, List.reverse_singleton, foldOpt,
        applyArg, Nat.zero_add]
      simp only [e1, Option.bind_eq_bind, Option.bind_some, e3]
      exact e5
    · rw [e6, e4, e2]
      rw [List.map_append, List.map_singleton, ← inst_instArgs]
      simp

end Chomp
