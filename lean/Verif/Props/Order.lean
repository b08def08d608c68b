import Verif.Ast.Standard
import Verif.Props.Ast
import Verif.Props.Typed

/-!
# C59: evaluation order

The reducer contracts calls and lets in one particular order.  Users think of a grammar as being
evaluated, not of an order, so the order must not matter.
-/

namespace Chomp

/-- Specification: the places of an expression that have to be evaluated: the expression itself, the
elements of concatenations and alternations, the operand of a fix point, the body of a function that
is the operand of a fix point, and what is being called. -/
inductive Core.Active : Core → Core → Prop
  | here (e : Core) : Active e e
  | cat (l : List Core) (x e : Core) : x ∈ l → Active e x → Active e (.cat l)
  | alt (l : List Core) (x e : Core) : x ∈ l → Active e x → Active e (.alt l)
  | fix (b e : Core) : Active e b → Active e (.fix b)
  | fixLam (n : Nat) (b e : Core) : Active e b → Active e (.fix (.lam n b))
  | callOn (o : Core) (args : List Core) (e : Core) : Active e o → Active e (.call o args)

/-- Specification: a call that can never be contracted, because what is called is not a function (and
is neither a call nor a let, so it cannot become one), or is a function with a different number of
parameters. -/
def Core.stuckCall : Core → Prop
  | .call (.lam n _) args => n ≠ args.length
  | .call (.call _ _) _ => False
  | .call (.letE _ _) _ => False
  | .call _ _ => True
  | _ => False

/-- **C59.** Reduction succeeds exactly if some sequence of contractions of calls and lets, in any
order and at any place, leads to an expression without a call or let left to evaluate. -/
theorem C59_reduces_iff (e : NE) :
    (∃ n e', reduce n e = .ok e') ↔ ∃ s, Core.Steps e.erase s ∧ s.settled := by
  constructor
  · rintro ⟨n, e', h⟩
    exact ⟨_, C17_reduce_steps n e e' h, C18_reduced_settled n e e' h⟩
  · rintro ⟨s, h, hs⟩
    obtain ⟨k, v, hv, _⟩ := reduceC_std h hs
    rw [← erase_reduce] at hv
    cases hr : reduce k e with
    | ok e' => exact ⟨k, e', hr⟩
    | _ => rw [hr] at hv; cases hv

/-- **C59** (the result). Every other way to evaluate the expression leads to the result of the
reducer or to something that follows from it by further contractions (which are then contractions
inside functions that are not called: a settled expression has no others). -/
theorem C59_result_of_every_order (n : Nat) (e e' : NE) (h : reduce n e = .ok e') (s : Core)
    (hs : Core.Steps e.erase s) (hset : s.settled) : Core.Steps e'.erase s := by
  obtain ⟨k, v, hv, hvs⟩ := reduceC_std hs hset
  have h1 := reduce_ok_erase h
  have : reduceC n e.erase = reduceC k e.erase :=
    reduceC_fuel_independent (by rw [h1]; simp) (by rw [hv]; simp)
  rw [h1, hv] at this
  cases this
  exact hvs

/-- **C59** (the result). If the reducer's result contains nothing that could be contracted, it is what
every order of evaluation leads to. -/
theorem C59_result_unique (n : Nat) (e e' : NE) (h : reduce n e = .ok e') (hn : ∀ x, ¬ Core.Step e'.erase x)
    (s : Core) (hs : Core.Steps e.erase s) (hset : s.settled) : s = e'.erase := by
  have := C59_result_of_every_order n e e' h s hs hset
  have key : ∀ a b, Core.Steps a b → (∀ x, ¬ Core.Step a x) → b = a := by
    intro a b hab
    induction hab with
    | refl => intro _; rfl
    | tail _ h ih => intro hn; rw [ih hn] at h; exact absurd h (hn _)
  exact key _ _ this hn

theorem gramL_mem {u : Nat → Bool} : ∀ {l : List Core} {gs : List Gram}, Core.gramL u l = some gs → ∀ e ∈ l, ∃ g, e.gram u = some g
  | [], _, _, e, he => by cases he
  | a :: l, gs, h, e, he => by
    rw [Core.gramL, Option.bind_eq_some_iff] at h
    obtain ⟨g, h1, h2⟩ := h
    rw [Option.map_eq_some_iff] at h2
    obtain ⟨gs', h2, _⟩ := h2
    rcases List.mem_cons.1 he with rfl | he
    · exact ⟨g, h1⟩
    · exact gramL_mem h2 e he

theorem gram_no_step' {u : Nat → Bool} {a b : Core} (h : Core.Step a b) :
    a.gram u = none ∧ ∀ n c, a = .lam n c → c.gram u = none := by
  induction h with
  | beta n b args _ => exact ⟨rfl, by intro _ _ h; cases h⟩
  | letE b c => exact ⟨rfl, by intro _ _ h; cases h⟩
  | cat pre e e' post _ ih =>
    refine ⟨?_, by intro _ _ h; cases h⟩
    cases hg : (Core.cat (pre ++ e :: post)).gram u with
    | none => rfl
    | some g =>
      rw [Core.gram, Option.map_eq_some_iff] at hg
      obtain ⟨gs, hg, _⟩ := hg
      obtain ⟨g', h'⟩ := gramL_mem hg e (by simp)
      rw [ih.1] at h'; cases h'
  | alt pre e e' post _ ih =>
    refine ⟨?_, by intro _ _ h; cases h⟩
    cases hg : (Core.alt (pre ++ e :: post)).gram u with
    | none => rfl
    | some g =>
      rw [Core.gram, Option.map_eq_some_iff] at hg
      obtain ⟨gs, hg, _⟩ := hg
      obtain ⟨g', h'⟩ := gramL_mem hg e (by simp)
      rw [ih.1] at h'; cases h'
  | fix b b' _ ih =>
    refine ⟨?_, by intro _ _ h; cases h⟩
    cases b with
    | lam n c => simp [Core.gram, ih.2 n c rfl]
    | _ => rfl
  | lam n b b' _ ih => exact ⟨rfl, by intro _ _ h; cases h; exact ih.1⟩
  | _ => exact ⟨rfl, by intro _ _ h; cases h⟩

/-- Nothing can be contracted in a grammar. -/
theorem gram_no_step {u : Nat → Bool} {a b : Core} (h : Core.Step a b) : a.gram u = none := (gram_no_step' h).1

/-- **C59** (accepted programs). If type inference accepts the reducer's result, then every order of
evaluation leads to exactly that grammar. -/
theorem C59_accepted_unique (n k : Nat) (e e' : NE) (te : TE) (h : reduce n e = .ok e')
    (ht : (inferTop k e' ⟨[], []⟩).1 = .ok te) (s : Core) (hs : Core.Steps e.erase s) (hset : s.settled) :
    s = e'.erase := by
  refine C59_result_unique n e e' h (fun x hx => ?_) s hs hset
  have h1 := (C23_inference_sound k e' te ht).1
  rw [NE.grammar, gram_no_step hx] at h1
  cases h1

/-- **C59** (errors). If the reducer reports an error, then no order of evaluation succeeds. -/
theorem C59_error_no_order (n : Nat) (e : NE) (x : RErr) (h : reduce n e = .err x) :
    ¬ ∃ s, Core.Steps e.erase s ∧ s.settled := by
  rintro ⟨s, hs, hset⟩
  obtain ⟨k, v, hv, _⟩ := reduceC_std hs hset
  have h1 : reduceC n e.erase = .err x.erase := by rw [← erase_reduce, h]; rfl
  have : reduceC n e.erase = reduceC k e.erase :=
    reduceC_fuel_independent (by rw [h1]; simp) (by rw [hv]; simp)
  rw [h1, hv] at this
  cases this

/-- **C59** (divergence). If the reducer runs for ever, then no order of evaluation succeeds. -/
theorem C59_divergence_no_order (e : NE) (h : ∀ n, reduce n e = .oof) : ¬ ∃ s, Core.Steps e.erase s ∧ s.settled := by
  rw [← C59_reduces_iff]
  rintro ⟨n, e', he⟩
  rw [h n] at he
  cases he

/-- The call an error is about. -/
def CErr.Names (x : CErr) (c : Core) : Prop :=
  match x with
  | .callNotAFunction on => on.settled ∧ (∀ n b, on ≠ .lam n b) ∧ ∃ args, c = .call on args
  | .wrongArgCount l args => (∃ n b, l = .lam n b ∧ n ≠ args.length) ∧ c = .call l args

theorem mapO_err {f : Core → Out CErr Core} {l : List Core} {x : CErr} (h : mapO f l = .err x) :
    ∃ pre e post pre', l = pre ++ e :: post ∧ f e = .err x ∧ All2 (fun a b => f a = .ok b) pre pre' := by
  induction l with
  | nil => cases h
  | cons a l ih =>
    rw [mapO] at h
    cases ha : f a with
    | ok b =>
      rw [ha] at h
      simp only [Out.bind] at h
      cases hl : mapO f l with
      | err y =>
        rw [hl] at h
        cases h
        obtain ⟨pre, e, post, pre', rfl, h2, h3⟩ := ih hl
        exact ⟨a :: pre, e, post, b :: pre', rfl, h2, .cons ha h3⟩
      | _ => rw [hl] at h; cases h
    | err y => rw [ha] at h; cases h; exact ⟨[], a, l, [], rfl, ha, .nil⟩
    | panic => rw [ha] at h; cases h
    | oof => rw [ha] at h; cases h

theorem Out.bind_err {ε α β : Type} {x : Out ε α} {f : α → Out ε β} {e : ε} (h : x.bind f = .err e) :
    x = .err e ∨ ∃ a, x = .ok a ∧ f a = .err e := by
  cases x with
  | ok a => exact .inr ⟨a, rfl, h⟩
  | err y => cases h; exact .inl rfl
  | _ => cases h

theorem reduceC_error (n : Nat) : ∀ (e : Core) (x : CErr), reduceC n e = .err x →
    ∃ e1 c, Core.Steps e e1 ∧ Core.Active c e1 ∧ x.Names c := by
  induction n with
  | zero => intro e x h; cases h
  | succ n ih =>
    intro e x h
    cases e with
    | eps => cases h
    | lit s => cases h
    | var k => cases h
    | lam k b => cases h
    | cat l =>
      rw [reduceC] at h
      rcases Out.bind_err h with h | ⟨a, _, h⟩
      · obtain ⟨pre, e, post, pre', rfl, h2, _⟩ := mapO_err h
        obtain ⟨e1, c, h3, h4, h5⟩ := ih _ _ h2
        exact ⟨_, c, Core.Steps.congr (F := fun e => Core.cat (pre ++ e :: post)) (fun a b h => .cat _ a b _ h) h3,
          .cat _ e1 _ (by simp) h4, h5⟩
      · cases h
    | alt l =>
      rw [reduceC] at h
      rcases Out.bind_err h with h | ⟨a, _, h⟩
      · obtain ⟨pre, e, post, pre', rfl, h2, _⟩ := mapO_err h
        obtain ⟨e1, c, h3, h4, h5⟩ := ih _ _ h2
        exact ⟨_, c, Core.Steps.congr (F := fun e => Core.alt (pre ++ e :: post)) (fun a b h => .alt _ a b _ h) h3,
          .alt _ e1 _ (by simp) h4, h5⟩
      · cases h
    | fix b =>
      rw [reduceC] at h
      rcases Out.bind_err h with h | ⟨b', hb, h⟩
      · obtain ⟨e1, c, h3, h4, h5⟩ := ih _ _ h
        exact ⟨_, c, Core.Steps.congr (F := Core.fix) (fun a b h => .fix a b h) h3, .fix _ _ h4, h5⟩
      · cases b' with
        | lam k d =>
          rcases Out.bind_err h with h | ⟨d', hd, h⟩
          · obtain ⟨e1, c, h3, h4, h5⟩ := ih _ _ h
            refine ⟨.fix (.lam k e1), c, ?_, .fixLam _ _ _ h4, h5⟩
            exact (Core.Steps.congr (F := Core.fix) (fun a b h => .fix a b h) (reduceC_steps _ _ _ hb)).trans
              (Core.Steps.congr (F := fun d => Core.fix (.lam k d)) (fun a b h => .fix _ _ (.lam _ a b h)) h3)
          · cases h
        | _ => cases h
    | call o args =>
      rw [reduceC] at h
      rcases Out.bind_err h with h | ⟨o', ho, h⟩
      · obtain ⟨e1, c, h3, h4, h5⟩ := ih _ _ h
        exact ⟨_, c, Core.Steps.congr (F := fun o => Core.call o args) (fun a b h => .callOn a b args h) h3,
          .callOn _ _ _ h4, h5⟩
      · have hs := Core.Steps.congr (F := fun o => Core.call o args) (fun a b h => .callOn a b args h)
          (reduceC_steps _ _ _ ho)
        cases o' with
        | lam k body =>
          simp only at h
          split at h
          · rename_i hk
            cases h
            exact ⟨_, _, hs, .here _, ⟨_, _, rfl, hk⟩, rfl⟩
          · rename_i hk
            have hk : args.length = k := (Decidable.not_not.1 hk).symm
            obtain ⟨e1, c, h3, h4, h5⟩ := ih _ _ h
            exact ⟨e1, c, (hs.tail (.beta _ _ _ hk)).trans h3, h4, h5⟩
        | _ => cases h; exact ⟨_, _, hs, .here _, reduceC_settled _ _ _ ho, by simp, _, rfl⟩
    | letE b c =>
      obtain ⟨e1, d, h3, h4, h5⟩ := ih _ _ h
      exact ⟨e1, d, (Core.Steps.single (.letE b c)).trans h3, h4, h5⟩

/-- **C59** (errors name the culprit). If the reducer reports a call of something that is not a
function, or with the wrong number of arguments, then by evaluating the expression one arrives at
exactly that call, at a place that has to be evaluated, and that call can never be contracted. -/
theorem C59_error_culprit (n : Nat) (e : NE) (x : RErr) (h : reduce n e = .err x) :
    ∃ e1 c, Core.Steps e.erase e1 ∧ Core.Active c e1 ∧ c.stuckCall ∧
      match x with
      | .callNotAFunction on _ => (∀ i a b, on ≠ .lam i a b) ∧ ∃ args, c = .call on.erase args
      | .wrongArgCount l args _ => (∃ i ps b, l = .lam i ps b ∧ ps.length ≠ args.length) ∧
          c = .call l.erase (args.map NE.erase) := by
  have h1 : reduceC n e.erase = .err x.erase := by rw [← erase_reduce, h]; rfl
  obtain ⟨e1, c, h2, h3, h4⟩ := reduceC_error n _ _ h1
  refine ⟨e1, c, h2, h3, ?_⟩
  cases x with
  | callNotAFunction on sp =>
    obtain ⟨hs, hl, args, rfl⟩ := h4
    refine ⟨?_, ?_, args, rfl⟩
    · cases hon : on.erase with
      | lam n b => exact absurd hon (hl n b)
      | call a b => rw [hon] at hs; simp [Core.settled] at hs
      | letE a b => rw [hon] at hs; simp [Core.settled] at hs
      | _ => simp [Core.stuckCall]
    · intro i a b hon
      subst hon
      exact hl _ _ rfl
  | wrongArgCount l args sp =>
    obtain ⟨⟨k, b, hl, hk⟩, rfl⟩ := h4
    refine ⟨?_, ?_, rfl⟩
    · rw [hl]; exact hk
    · cases l <;> simp only [NE.erase] at hl <;> cases hl
      exact ⟨_, _, _, rfl, by simpa using hk⟩

/-- A stuck call stays stuck whatever is contracted, and prevents the expression around it from being
evaluated: this is why the error is final. -/
theorem Core.stuck_step {c c' : Core} (hs : c.stuckCall) (h : Core.Step c c') : c'.stuckCall := by
  cases h with
  | beta n b args hl => exact absurd hl.symm hs
  | callOn o o' args h =>
    cases h <;> simp only [Core.stuckCall] at hs ⊢ <;> exact hs
  | callArg o pre e e' post h =>
    cases o <;> simp only [Core.stuckCall] at hs ⊢
    · simpa using hs
  | _ => exact absurd hs (by simp [Core.stuckCall])

/-! ## Examples -/

private def spanless (s : String) : Name := .newVariable (.spanless s)
private def nn : Info := ⟨none, 0⟩

/-- `(/x y/ y) Ω "a"`: the argument that runs for ever is not used, and the reducer – unlike a
reducer that evaluates arguments first – finds the result. -/
def exLazy : NE :=
  .call nn (.lam nn [spanless "x", spanless "y"] (.var nn 0))
    [.call nn (.lam nn [spanless "z"] (.call nn (.var nn 0) [.var nn 0]))
        [.lam nn [spanless "z"] (.call nn (.var nn 0) [.var nn 0])], .lit nn ['a']]

example : ∃ e', reduce 3 exLazy = .ok e' ∧ e'.erase = .lit ['a'] ∧ (∀ x, ¬ Core.Step e'.erase x) :=
  ⟨_, rfl, rfl, by intro x h; cases h⟩

example : ∃ e' te, reduce 3 exLazy = .ok e' ∧ (inferTop 3 e' ⟨[], []⟩).1 = .ok te ∧
    ∃ s, Core.Steps exLazy.erase s ∧ s.settled :=
  ⟨_, _, rfl, rfl, (C59_reduces_iff exLazy).1 ⟨3, _, rfl⟩⟩

/-- `(/f/ "b" . f "c") "a"`: after the outer call, a literal is called. -/
def exStuck : NE :=
  .call ⟨none, 1⟩ (.lam nn [spanless "f"] (.cat nn (.lit nn ['b']) [(0, .call ⟨none, 2⟩ (.var nn 0) [.lit nn ['c']])]))
    [.lit nn ['a']]

example : ∃ on, reduce 4 exStuck = .err (.callNotAFunction on 2) ∧ on.erase = .lit ['a'] := ⟨_, rfl, rfl⟩
example : ¬ ∃ s, Core.Steps exStuck.erase s ∧ s.settled := C59_error_no_order 4 _ _ rfl
example : ¬ ∃ s, Core.Steps omegaProg.erase s ∧ s.settled := C59_divergence_no_order _ C21_reduction_can_diverge

end Chomp
