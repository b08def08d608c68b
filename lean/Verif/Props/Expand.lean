import Verif.Props.Order
import Verif.Props.Parser
import Verif.Nibble.Syntax
import Verif.Ast.Swap

/-!
# C82: how large programs get when definitions are expanded

Without functions the expanded program has less than `2 ^ size` nodes, and this is attained (up to a factor in the exponent); with functions it
can have more than `2 ^ 2 ^ n` for a program of `O(n)` tokens, and the emitted program `2 ^ n` types.
-/

set_option linter.unusedSimpArgs false

namespace Chomp

mutual
/-- The number of nodes of an expression. -/
def Core.nodes : Core → Nat
  | .eps => 1
  | .lit _ => 1
  | .cat l => 1 + Core.nodesL l
  | .alt l => 1 + Core.nodesL l
  | .fix b => 1 + b.nodes
  | .var _ => 1
  | .call o a => 1 + o.nodes + Core.nodesL a
  | .lam _ b => 1 + b.nodes
  | .letE b c => 1 + b.nodes + c.nodes
/-- The same for lists. -/
def Core.nodesL : List Core → Nat
  | [] => 0
  | e :: l => e.nodes + Core.nodesL l
end

mutual
/-- A program without functions: no calls, and lambdas only directly below fix points (`u` says that the expression is there). -/
def Core.letOnly : Bool → Core → Prop
  | _, .eps => True
  | _, .lit _ => True
  | _, .cat l => Core.letOnlyL l
  | _, .alt l => Core.letOnlyL l
  | _, .fix b => b.letOnly true
  | _, .var _ => True
  | _, .call _ _ => False
  | u, .lam _ b => u = true ∧ b.letOnly false
  | _, .letE b c => b.letOnly false ∧ c.letOnly false
/-- The same for lists. -/
def Core.letOnlyL : List Core → Prop
  | [] => True
  | e :: l => e.letOnly false ∧ Core.letOnlyL l
end

@[simp] theorem Core.letOnlyL_iff (l : List Core) : Core.letOnlyL l ↔ ∀ e ∈ l, e.letOnly false := by
  induction l with
  | nil => simp [Core.letOnlyL]
  | cons e l ih => simp [Core.letOnlyL, ih]

/-- Sizes of expanded expressions, as an interpretation. -/
def sizeAlg : Alg Nat where
  eps := 1
  lit _ := 1
  cat l := 1 + l.sum
  alt l := 1 + l.sum
  fix d := 1 + d
  call _ _ := 0
  lam _ f := 1 + f fun _ => 1
  letE d f := f d

theorem Core.letOnly.up {u : Bool} {e : Core} (h : e.letOnly false) : e.letOnly u := by
  cases u
  · exact h
  · cases e <;> simp only [Core.letOnly] at h ⊢ <;> first | trivial | exact h | exact h.elim | (exact absurd h.1 (by simp))

theorem Core.letOnly_ren (e : Core) : ∀ (u : Bool) (f : Nat → Nat), e.letOnly u → (e.ren f).letOnly u := by
  induction e using Core.ind with
  | eps => intros; trivial
  | lit => intros; trivial
  | cat l ih =>
    intro u f h
    simp only [Core.letOnly, Core.ren, Core.letOnlyL_iff, Core.renL_map] at h ⊢
    intro e he
    obtain ⟨x, hx, rfl⟩ := List.mem_map.1 he
    exact ih x hx _ _ (h x hx)
  | alt l ih =>
    intro u f h
    simp only [Core.letOnly, Core.ren, Core.letOnlyL_iff, Core.renL_map] at h ⊢
    intro e he
    obtain ⟨x, hx, rfl⟩ := List.mem_map.1 he
    exact ih x hx _ _ (h x hx)
  | fix b ih => intro u f h; exact ih _ _ h
  | var => intros; trivial
  | call => intro u f h; exact h.elim
  | lam n b ih => intro u f h; exact ⟨h.1, ih _ _ h.2⟩
  | letE b c ih1 ih2 => intro u f h; exact ⟨ih1 _ _ h.1, ih2 _ _ h.2⟩

theorem letOnly_up_env {σ : Nat → Core} (n : Nat) (hσ : ∀ i, (σ i).letOnly false) (i : Nat) : (up n σ i).letOnly false := by
  simp only [up]
  split
  · trivial
  · exact Core.letOnly_ren _ _ _ (hσ _)

theorem Core.letOnly_sub (e : Core) : ∀ (u : Bool) (σ : Nat → Core), (∀ i, (σ i).letOnly false) → e.letOnly u → (e.sub σ).letOnly u := by
  induction e using Core.ind with
  | eps => intros; trivial
  | lit => intros; trivial
  | cat l ih =>
    intro u f hf h
    simp only [Core.letOnly, Core.sub, Core.letOnlyL_iff, Core.subL_map] at h ⊢
    intro e he
    obtain ⟨x, hx, rfl⟩ := List.mem_map.1 he
    exact ih x hx _ _ hf (h x hx)
  | alt l ih =>
    intro u f hf h
    simp only [Core.letOnly, Core.sub, Core.letOnlyL_iff, Core.subL_map] at h ⊢
    intro e he
    obtain ⟨x, hx, rfl⟩ := List.mem_map.1 he
    exact ih x hx _ _ hf (h x hx)
  | fix b ih => intro u f hf h; exact ih _ _ hf h
  | var k => intro u f hf _; exact (hf k).up
  | call => intro u f hf h; exact h.elim
  | lam n b ih => intro u f hf h; exact ⟨h.1, ih _ _ (letOnly_up_env n hf) h.2⟩
  | letE b c ih1 ih2 => intro u f hf h; exact ⟨ih1 _ _ hf h.1, ih2 _ _ (letOnly_up_env 1 hf) h.2⟩

theorem letOnly_inst {s : Core} (h : s.letOnly false) (i : Nat) : (inst 0 s i).letOnly false := by
  simp only [inst]
  split
  · trivial
  · split
    · exact h
    · trivial

theorem inst_eval (s : Core) (ρ : Nat → Nat) :
    (fun i => (inst 0 s i).eval sizeAlg ρ) = bindArgs 1 (fun _ => s.eval sizeAlg ρ) ρ := by
  funext i
  cases i with
  | zero => simp [inst, bindArgs]
  | succ i => simp [inst, bindArgs, Core.eval]

/-- Steps keep the absence of functions and the size of the expansion. -/
theorem letOnly_step {a b : Core} (h : Core.Step a b) : ∀ u, a.letOnly u →
    b.letOnly u ∧ ∀ ρ, b.eval sizeAlg ρ = a.eval sizeAlg ρ := by
  induction h with
  | beta n b args _ => intro u h; exact h.elim
  | letE b c =>
    intro u h
    refine ⟨(Core.letOnly_sub _ _ _ (letOnly_inst h.1) h.2).up, fun ρ => ?_⟩
    rw [Core.eval_sub, inst_eval]
    rfl
  | cat pre e e' post _ ih =>
    intro u h
    simp only [Core.letOnly, Core.letOnlyL_iff] at h ⊢
    obtain ⟨h1, h2⟩ := ih false (h e (by simp))
    refine ⟨fun x hx => ?_, fun ρ => by simp [Core.eval, h2]⟩
    rcases List.mem_append.1 hx with hx | hx
    · exact h x (by simp [hx])
    · rcases List.mem_cons.1 hx with rfl | hx
      · exact h1
      · exact h x (by simp [hx])
  | alt pre e e' post _ ih =>
    intro u h
    simp only [Core.letOnly, Core.letOnlyL_iff] at h ⊢
    obtain ⟨h1, h2⟩ := ih false (h e (by simp))
    refine ⟨fun x hx => ?_, fun ρ => by simp [Core.eval, h2]⟩
    rcases List.mem_append.1 hx with hx | hx
    · exact h x (by simp [hx])
    · rcases List.mem_cons.1 hx with rfl | hx
      · exact h1
      · exact h x (by simp [hx])
  | fix b b' _ ih =>
    intro u h
    obtain ⟨h1, h2⟩ := ih true h
    exact ⟨h1, fun ρ => by simp [Core.eval, h2]⟩
  | callOn => intro u h; exact h.elim
  | callArg => intro u h; exact h.elim
  | lam n b b' _ ih =>
    intro u h
    obtain ⟨h1, h2⟩ := ih false h.2
    exact ⟨⟨h.1, h1⟩, fun ρ => by simp [Core.eval, h2]⟩
  | letBound b b' c _ ih =>
    intro u h
    obtain ⟨h1, h2⟩ := ih false h.1
    exact ⟨⟨h1, h.2⟩, fun ρ => by simp [Core.eval, h2]⟩
  | letBody b c c' _ ih =>
    intro u h
    obtain ⟨h1, h2⟩ := ih false h.2
    exact ⟨⟨h.1, h1⟩, fun ρ => by simp [Core.eval, h2]⟩

theorem letOnly_steps {a b : Core} (h : Core.Steps a b) (ha : a.letOnly false) :
    b.letOnly false ∧ ∀ ρ, b.eval sizeAlg ρ = a.eval sizeAlg ρ := by
  induction h with
  | refl => exact ⟨ha, fun _ => rfl⟩
  | tail _ h ih =>
    obtain ⟨h1, h2⟩ := letOnly_step h false ih.1
    exact ⟨h1, fun ρ => by rw [h2, ih.2]⟩

theorem settled_fix_of {e : Core} (h : e.settled) (hl : e.letOnly false) : (Core.fix e).settled :=
  settled_fix h (by rintro k c rfl; exact absurd hl.1 (by simp))

theorem nodesL_sum (l : List Core) : Core.nodesL l = (l.map Core.nodes).sum := by
  induction l with
  | nil => rfl
  | cons e l ih => simp [Core.nodesL, ih]

theorem bind_ones (n : Nat) : bindArgs n (fun _ => 1) (fun _ => 1) = fun _ : Nat => (1 : Nat) := by
  funext i
  simp only [bindArgs]
  split <;> rfl

theorem expanded_nodes (e : Core) : ∀ u, e.letOnly u → (Core.fix e).settled → e.eval sizeAlg (fun _ => 1) = e.nodes := by
  have hL : ∀ l : List Core, (∀ e ∈ l, ∀ u, e.letOnly u → (Core.fix e).settled → e.eval sizeAlg (fun _ => 1) = e.nodes) →
      (∀ e ∈ l, e.letOnly false) → (∀ e ∈ l, e.settled) → (Core.evalL sizeAlg l (fun _ => 1)).sum = Core.nodesL l := by
    intro l ih h1 h2
    rw [nodesL_sum, Core.evalL_map]
    congr 1
    exact map_congr' fun e he => ih e he false (h1 e he) (settled_fix_of (h2 e he) (h1 e he))
  induction e using Core.ind with
  | eps => intros; rfl
  | lit => intros; rfl
  | cat l ih =>
    intro u h hs
    simp only [Core.settled, Core.settledL_iff, Core.letOnly, Core.letOnlyL_iff] at h hs
    simp only [Core.eval, sizeAlg, Core.nodes]
    exact congrArg (1 + ·) (hL l ih h hs)
  | alt l ih =>
    intro u h hs
    simp only [Core.settled, Core.settledL_iff, Core.letOnly, Core.letOnlyL_iff] at h hs
    simp only [Core.eval, sizeAlg, Core.nodes]
    exact congrArg (1 + ·) (hL l ih h hs)
  | fix b ih =>
    intro u h hs
    exact congrArg (1 + ·) (ih true h hs)
  | var => intros; rfl
  | call => intro u h; exact h.elim
  | lam n b ih =>
    intro u h hs
    have := ih false h.2 (settled_fix_of hs h.2)
    simp only [Core.eval, sizeAlg, Core.nodes, bind_ones]
    exact congrArg (1 + ·) this
  | letE b c => intro u h hs; exact hs.elim

/-- `e.eval sizeAlg ρ` is at most exponential. -/
theorem expanded_le (e : Core) : ∀ (ρ : Nat → Nat) (M : Nat), 1 ≤ M → (∀ i, ρ i ≤ M) →
    e.eval sizeAlg ρ + M ≤ 2 ^ e.nodes * M := by
  have two : ∀ (x k M : Nat), x + M ≤ 2 ^ k * M → 1 ≤ M → 1 + x + M ≤ 2 ^ (1 + k) * M := by
    intro x k M h hM
    rw [Nat.pow_add, Nat.pow_one, Nat.mul_assoc]
    omega
  have hL : ∀ (ρ : Nat → Nat) (M : Nat), 1 ≤ M → ∀ l : List Core, (∀ e ∈ l, e.eval sizeAlg ρ + M ≤ 2 ^ e.nodes * M) →
      (Core.evalL sizeAlg l ρ).sum + M ≤ 2 ^ Core.nodesL l * M := by
    intro ρ M hM l
    induction l with
    | nil => intro _; simp [Core.evalL, Core.nodesL]
    | cons e l ih =>
      intro h
      have h1 := h e (.head _)
      have h2 := ih fun x hx => h x (.tail _ hx)
      simp only [Core.evalL, Core.nodesL, List.sum_cons]
      rw [Nat.pow_add]
      have ha : 1 ≤ 2 ^ e.nodes := Nat.one_le_two_pow
      have hb : 1 ≤ 2 ^ Core.nodesL l := Nat.one_le_two_pow
      obtain ⟨a, ha⟩ := Nat.exists_eq_add_of_le ha
      obtain ⟨b, hb⟩ := Nat.exists_eq_add_of_le hb
      rw [ha] at h1 ⊢
      rw [hb] at h2 ⊢
      have : (1 + a) * (1 + b) * M = M + a * M + b * M + a * b * M := by
        simp only [Nat.add_mul, Nat.mul_add, Nat.one_mul, Nat.mul_one]; omega
      rw [this]
      rw [Nat.add_mul, Nat.one_mul] at h1 h2
      omega
  induction e using Core.ind with
  | eps => intro ρ M hM _; simp only [Core.eval, sizeAlg, Core.nodes]; omega
  | lit => intro ρ M hM _; simp only [Core.eval, sizeAlg, Core.nodes]; omega
  | cat l ih =>
    intro ρ M hM hρ
    simp only [Core.eval, sizeAlg, Core.nodes]
    exact two _ _ _ (hL ρ M hM l fun e he => ih e he ρ M hM hρ) hM
  | alt l ih =>
    intro ρ M hM hρ
    simp only [Core.eval, sizeAlg, Core.nodes]
    exact two _ _ _ (hL ρ M hM l fun e he => ih e he ρ M hM hρ) hM
  | fix b ih =>
    intro ρ M hM hρ
    exact two _ _ _ (ih ρ M hM hρ) hM
  | var k => intro ρ M hM hρ; have := hρ k; simp only [Core.eval, Core.nodes]; omega
  | call o a =>
    intro ρ M hM _
    simp only [Core.eval, sizeAlg, Nat.zero_add]
    exact Nat.le_mul_of_pos_left M (Nat.two_pow_pos _)
  | lam n b ih =>
    intro ρ M hM hρ
    refine two _ _ _ (ih _ M hM fun i => ?_) hM
    simp only [bindArgs]
    split
    · exact hM
    · exact hρ _
  | letE b c ih1 ih2 =>
    intro ρ M hM hρ
    have h1 := ih1 ρ M hM hρ
    have h2 := ih2 (bindArgs 1 (fun _ => b.eval sizeAlg ρ) ρ) (b.eval sizeAlg ρ + M) (by omega) (fun i => by
      simp only [bindArgs]
      split
      · omega
      · have := hρ (i - 1); omega)
    simp only [Core.eval, sizeAlg, Core.nodes] at h1 h2 ⊢
    have h3 : 2 ^ c.nodes * (b.eval sizeAlg ρ + M) ≤ 2 ^ c.nodes * (2 ^ b.nodes * M) := Nat.mul_le_mul_left _ h1
    rw [← Nat.mul_assoc, ← Nat.pow_add] at h3
    have h4 : 2 ^ (c.nodes + b.nodes) * M ≤ 2 ^ (1 + b.nodes + c.nodes) * M :=
      Nat.mul_le_mul_right _ (Nat.pow_le_pow_right (by omega) (by omega))
    simp only [sizeAlg] at h3
    omega

/-- **C82** (bound). Expanding the definitions of a program without functions yields less than `2 ^ size` nodes. -/
theorem C82_expansion_bound (n : Nat) (e e' : NE) (h : reduce n e = .ok e') (hl : e.erase.letOnly false) :
    e'.erase.nodes < 2 ^ e.erase.nodes := by
  obtain ⟨h1, h2⟩ := letOnly_steps (C17_reduce_steps n e e' h) hl
  have h3 := expanded_nodes e'.erase false h1 (settled_fix_of (C18_reduced_settled n e e' h) h1)
  have h4 := expanded_le e.erase (fun _ => 1) 1 (Nat.le_refl _) fun _ => Nat.le_refl _
  rw [h2] at h3
  omega

/-! ## Programs that get large -/

/-- `a` doubled `k` times: `2 ^ k` copies. -/
def doubled (a : Core) : Nat → Core
  | 0 => a
  | k + 1 => .cat [doubled a k, doubled a k]

theorem doubled_in (a : Core) : ∀ k, doubled (.cat [a, a]) k = doubled a (k + 1)
  | 0 => rfl
  | k + 1 => by rw [doubled, doubled_in a k]; rfl

theorem doubled_add (a : Core) (j : Nat) : ∀ k, doubled (doubled a j) k = doubled a (j + k)
  | 0 => rfl
  | k + 1 => by rw [doubled, doubled_add a j k]; rfl

theorem doubled_nodes (s : List Char) : ∀ k, (doubled (.lit s) k).nodes = 2 ^ (k + 1) - 1
  | 0 => rfl
  | k + 1 => by
    have := Nat.two_pow_pos (k + 1)
    simp only [doubled, Core.nodes, Core.nodesL, doubled_nodes s k]
    rw [Nat.pow_succ 2 (k + 1)]
    omega

theorem doubled_closed {a : Core} (h : a.closed 0) : ∀ k, (doubled a k).closed 0
  | 0 => h
  | k + 1 => ⟨doubled_closed h k, doubled_closed h k, trivial⟩

theorem doubled_settled {a : Core} (h : a.settled) : ∀ k, (doubled a k).settled
  | 0 => h
  | k + 1 => ⟨doubled_settled h k, doubled_settled h k, trivial⟩

theorem settled_step {a b : Core} (h : Core.Step a b) : (a.settled → b.settled) ∧ ((Core.fix a).settled → (Core.fix b).settled) := by
  induction h with
  | beta => exact ⟨fun h => h.elim, fun h => h.elim⟩
  | letE => exact ⟨fun h => h.elim, fun h => h.elim⟩
  | cat pre e e' post _ ih =>
    have : (Core.cat (pre ++ e :: post)).settled → (Core.cat (pre ++ e' :: post)).settled := by
      simp only [Core.settled, Core.settledL_iff]
      intro h x hx
      rcases List.mem_append.1 hx with hx | hx
      · exact h x (by simp [hx])
      · rcases List.mem_cons.1 hx with rfl | hx
        · exact ih.1 (h e (by simp))
        · exact h x (by simp [hx])
    exact ⟨this, this⟩
  | alt pre e e' post _ ih =>
    have : (Core.alt (pre ++ e :: post)).settled → (Core.alt (pre ++ e' :: post)).settled := by
      simp only [Core.settled, Core.settledL_iff]
      intro h x hx
      rcases List.mem_append.1 hx with hx | hx
      · exact h x (by simp [hx])
      · rcases List.mem_cons.1 hx with rfl | hx
        · exact ih.1 (h e (by simp))
        · exact h x (by simp [hx])
    exact ⟨this, this⟩
  | fix b b' _ ih => exact ⟨ih.2, ih.2⟩
  | callOn => exact ⟨fun h => h.elim, fun h => h.elim⟩
  | callArg => exact ⟨fun h => h.elim, fun h => h.elim⟩
  | lam n b b' _ ih => exact ⟨fun _ => trivial, ih.1⟩
  | letBound => exact ⟨fun h => h.elim, fun h => h.elim⟩
  | letBody => exact ⟨fun h => h.elim, fun h => h.elim⟩

theorem no_step_doubled {s : List Char} : ∀ k a, Core.Step a (doubled (.lit s) k) → ¬ a.settled
  | 0, a, h => by
    generalize hb : doubled (.lit s) 0 = b at h
    cases h with
    | beta => exact fun h => h
    | letE => exact fun h => h
    | cat => cases hb
    | alt => cases hb
    | fix => cases hb
    | callOn => exact fun h => h
    | callArg => exact fun h => h
    | lam => cases hb
    | letBound => exact fun h => h
    | letBody => exact fun h => h
  | k + 1, a, h => by
    generalize hb : doubled (.lit s) (k + 1) = b at h
    cases h with
    | beta => exact fun h => h
    | letE => exact fun h => h
    | cat pre e e' post h =>
      simp only [doubled, Core.cat.injEq] at hb
      have : e' = doubled (.lit s) k := by
        have : e' ∈ [doubled (.lit s) k, doubled (.lit s) k] := by rw [hb]; simp
        simpa using this
      subst this
      intro hs
      simp only [Core.settled, Core.settledL_iff] at hs
      exact no_step_doubled k e h (hs e (by simp))
    | alt => cases hb
    | fix => cases hb
    | callOn => exact fun h => h
    | callArg => exact fun h => h
    | lam => cases hb
    | letBound => exact fun h => h
    | letBody => exact fun h => h

theorem settled_steps {a b : Core} (h : Core.Steps a b) (ha : a.settled) : b.settled := by
  induction h with
  | refl => exact ha
  | tail _ h ih => exact (settled_step h).1 ih

/-- A program that contracts to doubled literals is reduced to them. -/
theorem reduces_doubled {e : NE} {s : List Char} {k : Nat} (h : Core.Steps e.erase (doubled (.lit s) k)) :
    ∃ n e', reduce n e = .ok e' ∧ e'.erase = doubled (.lit s) k := by
  have hs := doubled_settled (a := .lit s) trivial k
  obtain ⟨n, e', he⟩ := (C59_reduces_iff e).2 ⟨_, h, hs⟩
  refine ⟨n, e', he, ?_⟩
  have h1 := C59_result_of_every_order n e e' he _ h hs
  have h2 := C18_reduced_settled n e e' he
  generalize hb : doubled (.lit s) k = b at h1
  cases h1 with
  | refl => rfl
  | tail h3 h4 =>
    subst hb
    exact absurd (settled_steps h3 h2) (no_step_doubled k _ h4)

private def wi : Ident := ⟨false, "x", 0⟩
private def wf : Ident := ⟨false, "f", 0⟩

/-- An expression that is one concatenation. -/
private def wcat (l : List Call) : Expr := .alt (.mk 0 [(.mk 0 (.mk 0 (l.map fun x => (x, 0))) none, 0)])

/-- `let x = x . x;`, `n` times, and `match x;` -/
private def doubleLets : Nat → Stmt
  | 0 => .goal 0 (wcat [.mk 0 [.ident wi]])
  | n + 1 => .letS 0 wi [] (wcat [.mk 0 [.ident wi], .mk 0 [.ident wi]]) (doubleLets n)

/-- `let x = "a"; let x = x . x; … let x = x . x; match x;` -/
def doublingLets (n : Nat) : Stmt := .letS 0 wi [] (wcat [.mk 0 [.lit 0 ['a']]]) (doubleLets n)

/-- `let f x = f (f x);`, `n` times, and `match f "a";` -/
private def doubleFns : Nat → Stmt
  | 0 => .goal 0 (wcat [.mk 0 [.ident wf, .lit 0 ['a']]])
  | n + 1 =>
    .letS 0 wf [wi] (wcat [.mk 0 [.ident wf, .parens (wcat [.mk 0 [.ident wf, .ident wi]])]]) (doubleFns n)

/-- `let f x = x . x; let f x = f (f x); … let f x = f (f x); match f "a";` -/
def doublingFns (n : Nat) : Stmt :=
  .letS 0 wf [wi] (wcat [.mk 0 [.ident wi], .mk 0 [.ident wi]]) (doubleFns n)

private theorem doubleLets_size : ∀ n, Tok.sizeL (doubleLets n).toks = 7 * n + 3
  | 0 => rfl
  | n + 1 => by
    have := doubleLets_size n
    simp only [doubleLets, doublingLets, doubleFns, doublingFns, Stmt.toks, wcat, Expr.toks, Alt.toks, Labelled.toksL, Labelled.toks, Cat.toks, Call.toksL, Call.toks, Term.toksL, Term.toks, Ident.toks, List.map, List.flatMap_nil, List.flatMap_cons, List.append_eq, List.cons_append, List.nil_append, List.append_nil, Tok.sizeL, Tok.size] at this ⊢
    omega

theorem doublingLets_size (n : Nat) : Tok.sizeL (doublingLets n).toks = 7 * n + 8 := by
  have := doubleLets_size n
  simp only [doubleLets, doublingLets, doubleFns, doublingFns, Stmt.toks, wcat, Expr.toks, Alt.toks, Labelled.toksL, Labelled.toks, Cat.toks, Call.toksL, Call.toks, Term.toksL, Term.toks, Ident.toks, List.map, List.flatMap_nil, List.flatMap_cons, List.append_eq, List.cons_append, List.nil_append, List.append_nil, Tok.sizeL, Tok.size] at this ⊢
  omega

private theorem doubleFns_size : ∀ n, Tok.sizeL (doubleFns n).toks = 9 * n + 4
  | 0 => rfl
  | n + 1 => by
    have := doubleFns_size n
    simp only [doubleLets, doublingLets, doubleFns, doublingFns, Stmt.toks, wcat, Expr.toks, Alt.toks, Labelled.toksL, Labelled.toks, Cat.toks, Call.toksL, Call.toks, Term.toksL, Term.toks, Ident.toks, List.map, List.flatMap_nil, List.flatMap_cons, List.append_eq, List.cons_append, List.nil_append, List.append_nil, Tok.sizeL, Tok.size] at this ⊢
    omega

theorem doublingFns_size (n : Nat) : Tok.sizeL (doublingFns n).toks = 9 * n + 12 := by
  have := doubleFns_size n
  simp only [doubleLets, doublingLets, doubleFns, doublingFns, Stmt.toks, wcat, Expr.toks, Alt.toks, Labelled.toksL, Labelled.toks, Cat.toks, Call.toksL, Call.toks, Term.toksL, Term.toks, Ident.toks, List.map, List.flatMap_nil, List.flatMap_cons, List.append_eq, List.cons_append, List.nil_append, List.append_nil, Tok.sizeL, Tok.size] at this ⊢
  omega

/-- `letE (cat [v0, v0]) …`, `n` times. -/
private def coreLets : Nat → Core
  | 0 => .var 0
  | n + 1 => .letE (.cat [.var 0, .var 0]) (coreLets n)

private def coreFns : Nat → Core
  | 0 => .call (.var 0) [.lit ['a']]
  | n + 1 => .letE (.lam 1 (.call (.var 1) [.call (.var 1) [.var 0]])) (coreFns n)


private theorem bound_x (c : Ctx) : ∃ b, convBound 0 [] (wcat [.mk 0 [.ident wi], .mk 0 [.ident wi]]) (c ++ [wi.content]) =
    some (.ok b, c ++ [wi.content]) ∧ ∀ n, (b.setName n).erase = .cat [.var 0, .var 0] := by
  simp [convBound, wcat, convExpr, convAlt, convLabelled, convCat, convCall, convTerm, convIdent, convTerms, convCalls, convLabelleds,
    Conv.bind, Ctx.lookup, findIdx, Content.eqv, Name.newVariable, Ident.content, wi, NE.erase, NE.setName, NE.setInfo]

private theorem conv_lets : ∀ (n : Nat) (c : Ctx), ∃ e c', convStmt (doubleLets n) (c ++ [wi.content]) = some (.ok e, c') ∧
    e.erase = coreLets n
  | 0, c => by
    simp [doubleLets, convStmt, wcat, convExpr, convAlt, convLabelled, convCat, convCall, convTerm, convIdent, convTerms, convCalls, convLabelleds,
      Conv.bind, Ctx.lookup, findIdx, Content.eqv, Name.newVariable, Ident.content, wi, NE.erase, NE.setInfo, coreLets]
  | n + 1, c => by
    obtain ⟨e, c', h1, h2⟩ := conv_lets n (c ++ [wi.content])
    obtain ⟨b, h3, h4⟩ := bound_x c
    have h5 : Ctx.push (c ++ [wi.content]) (Name.newLet wi.content) = c ++ [wi.content] ++ [wi.content] := rfl
    rw [doubleLets, convStmt, h3]
    simp only [Conv.bind, h5, h1]
    exact ⟨_, _, rfl, by rw [NE.erase, h4, h2, coreLets]⟩

private theorem bound_f (c : Ctx) : ∃ b, convBound 0 [wi] (wcat [.mk 0 [.ident wf, .parens (wcat [.mk 0 [.ident wf, .ident wi]])]])
    (c ++ [wf.content]) = some (.ok b, c ++ [wf.content]) ∧
      ∀ n, (b.setName n).erase = .lam 1 (.call (.var 1) [.call (.var 1) [.var 0]]) := by
  have ht : ∀ a b : Content, List.take (List.length c + 1) (c ++ [a, b]) = c ++ [a] := by
    intro a b
    rw [List.take_append, List.take_of_length_le (by omega)]
    simp
  simp [convBound, wcat, convExpr, convAlt, convLabelled, convCat, convCall, convTerm, convIdent, convTerms, convCalls, convLabelleds,
    Conv.bind, Ctx.withVariables, Ctx.lookup, findIdx, Content.eqv, Name.newVariable, Ident.content, wi, wf, ht]
  rfl

private theorem conv_fns : ∀ (n : Nat) (c : Ctx), ∃ e c', convStmt (doubleFns n) (c ++ [wf.content]) = some (.ok e, c') ∧
    e.erase = coreFns n
  | 0, c => by
    simp [doubleFns, convStmt, wcat, convExpr, convAlt, convLabelled, convCat, convCall, convTerm, convIdent, convTerms, convCalls, convLabelleds,
      Conv.bind, Ctx.lookup, findIdx, Content.eqv, Name.newVariable, Ident.content, wf, NE.erase, NE.eraseL, NE.setInfo, coreFns]
  | n + 1, c => by
    obtain ⟨e, c', h1, h2⟩ := conv_fns n (c ++ [wf.content])
    obtain ⟨b, h3, h4⟩ := bound_f c
    have h5 : Ctx.push (c ++ [wf.content]) (Name.newLet wf.content) = c ++ [wf.content] ++ [wf.content] := rfl
    rw [doubleFns, convStmt, h3]
    simp only [Conv.bind, h5, h1]
    exact ⟨_, _, rfl, by rw [NE.erase, h4, h2, coreFns]⟩

private theorem conv_doublingLets (n : Nat) : ∃ e c, convStmt (doublingLets n) [] = some (.ok e, c) ∧
    e.erase = .letE (.lit ['a']) (coreLets n) := by
  obtain ⟨e, c', h1, h2⟩ := conv_lets n []
  have h3 : ∃ b, convBound 0 [] (wcat [.mk 0 [.lit 0 ['a']]]) [] = some (.ok b, []) ∧ ∀ n, (b.setName n).erase = .lit ['a'] :=
    ⟨_, rfl, fun _ => rfl⟩
  obtain ⟨b, h3, h4⟩ := h3
  have h5 : Ctx.push [] (Name.newLet wi.content) = [] ++ [wi.content] := rfl
  rw [doublingLets, convStmt, h3]
  simp only [Conv.bind, h5, h1]
  exact ⟨_, _, rfl, by rw [NE.erase, h4, h2]⟩

private theorem conv_doublingFns (n : Nat) : ∃ e c, convStmt (doublingFns n) [] = some (.ok e, c) ∧
    e.erase = .letE (.lam 1 (.cat [.var 0, .var 0])) (coreFns n) := by
  obtain ⟨e, c', h1, h2⟩ := conv_fns n []
  have h3 : ∃ b, convBound 0 [wi] (wcat [.mk 0 [.ident wi], .mk 0 [.ident wi]]) [] = some (.ok b, []) ∧
      ∀ n, (b.setName n).erase = .lam 1 (.cat [.var 0, .var 0]) := ⟨_, rfl, fun _ => rfl⟩
  obtain ⟨b, h3, h4⟩ := h3
  have h5 : Ctx.push [] (Name.newLet wf.content) = [] ++ [wf.content] := rfl
  rw [doublingFns, convStmt, h3]
  simp only [Conv.bind, h5, h1]
  exact ⟨_, _, rfl, by rw [NE.erase, h4, h2]⟩

private theorem coreLets_closed : ∀ n m, (coreLets n).closed (m + 1)
  | 0, _ => Nat.succ_pos _
  | n + 1, m => ⟨⟨Nat.succ_pos _, Nat.succ_pos _, trivial⟩, coreLets_closed n (m + 1)⟩

private theorem coreFns_closed : ∀ n m, (coreFns n).closed (m + 1)
  | 0, _ => ⟨Nat.succ_pos _, trivial, trivial⟩
  | n + 1, m => ⟨⟨Nat.succ_lt_succ (Nat.succ_pos _), ⟨Nat.succ_lt_succ (Nat.succ_pos _), Nat.succ_pos _, trivial⟩, trivial⟩,
      coreFns_closed n (m + 1)⟩

private theorem up_inst_closed {e a : Core} (h : e.closed 1) : e.sub (up 1 (inst 0 a)) = e :=
  Core.sub_fixed e 1 _ h fun i hi => by
    have : i = 0 := by omega
    subst this
    rfl

private theorem steps_lets : ∀ (n : Nat) (a : Core), Core.Steps ((coreLets n).sub (inst 0 a)) (doubled a n)
  | 0, a => .refl _
  | n + 1, a => by
    have h1 : (coreLets (n + 1)).sub (inst 0 a) = .letE (.cat [a, a]) (coreLets n) := by
      rw [coreLets, Core.sub, up_inst_closed (coreLets_closed n 0)]
      rfl
    rw [h1, ← doubled_in]
    exact (Core.Steps.single (.letE _ _)).trans (steps_lets n _)

/-- Calling `g` doubles its argument `k` times. -/
private def Doubles (k : Nat) (g : Core) : Prop := g.closed 0 ∧ ∀ a : Core, a.closed 0 → Core.Steps (.call g [a]) (doubled a k)

private theorem doubles_one : Doubles 1 (.lam 1 (.cat [.var 0, .var 0])) :=
  ⟨⟨Nat.one_pos, Nat.one_pos, trivial⟩, fun a _ => .single (.beta 1 _ [a] rfl)⟩

private theorem doubles_twice {k : Nat} {g : Core} (h : Doubles k g) :
    Doubles (k + k) (.lam 1 (.call g [.call g [.var 0]])) := by
  have hg : ∀ m, g.closed m := fun m => by
    have := g.closed_ren 0 m (fun i => i) (by omega) h.1
    rwa [Core.ren_fixed g h.1] at this
  refine ⟨⟨hg _, ⟨hg _, Nat.one_pos, trivial⟩, trivial⟩, fun a ha => ?_⟩
  have h1 : (Core.call g [.call g [.var 0]]).sub (instArgs [a]) = .call g [.call g [a]] := by
    have : g.sub (instArgs [a]) = g := Core.sub_fixed g 0 _ h.1 (fun i hi => absurd hi (by omega))
    simp only [Core.sub, Core.subL, this]
    rfl
  have h2 : Core.Steps (.call (.lam 1 (.call g [.call g [.var 0]])) [a]) (.call g [.call g [a]]) := by
    rw [← h1]
    exact .single (.beta 1 _ [a] rfl)
  have h3 : Core.Steps (.call g [.call g [a]]) (.call g [doubled a k]) :=
    Core.Steps.congr (F := fun x => .call g [x]) (fun x y hxy => .callArg g [] x y [] hxy) (h.2 a ha)
  rw [← doubled_add]
  exact (h2.trans h3).trans (h.2 _ (doubled_closed ha k))

private theorem steps_fns : ∀ (n k : Nat) (g : Core), Doubles k g →
    Core.Steps ((coreFns n).sub (inst 0 g)) (doubled (.lit ['a']) (k * 2 ^ n))
  | 0, k, g, h => by
    rw [Nat.pow_zero, Nat.mul_one]
    exact h.2 (.lit ['a']) trivial
  | n + 1, k, g, h => by
    have h1 : (coreFns (n + 1)).sub (inst 0 g) = .letE (.lam 1 (.call g [.call g [.var 0]])) (coreFns n) := by
      have h2 : up 1 (inst 0 g) 1 = g := by
        show (inst 0 g 0).ren (· + 1) = g
        exact Core.ren_fixed g h.1 _
      rw [coreFns, Core.sub, up_inst_closed (coreFns_closed n 0)]
      simp only [Core.sub, Core.subL, h2]
      rfl
    rw [h1, show k * 2 ^ (n + 1) = (k + k) * 2 ^ n by rw [Nat.pow_succ, Nat.add_mul, Nat.mul_comm (2 ^ n) 2, ← Nat.mul_assoc, Nat.mul_comm k 2, Nat.mul_assoc, Nat.two_mul]]
    exact (Core.Steps.single (.letE _ _)).trans (steps_fns n _ _ (doubles_twice h))

/-! ## Their types -/

/-- The typed form of doubled literals. -/
private def IsDoubled : Nat → TE → Prop
  | 0, t => ∃ nm, t = .lit nm ['a']
  | k + 1, t => ∃ nm ty a b, t = .cat nm ty [a, b] ∧ IsDoubled k a ∧ IsDoubled k b

private theorem infer_doubled (n : Nat) : ∀ (k : Nat) (e : NE) (nm : Option Name) (c : TCtx), e.erase = doubled (.lit ['a']) k →
    ∃ te, infer n nm e c = (.ok te, c) ∧ te.ty = .ofStr ['a'] ∧ IsDoubled k te
  | 0, e, nm, c, h => by
    cases e with
    | lit i s =>
      simp only [NE.erase, doubled, Core.lit.injEq] at h
      subst h
      exact ⟨_, rfl, rfl, nm, rfl⟩
    | _ => simp [NE.erase, doubled] at h
  | k + 1, e, nm, c, h => by
    cases e with
    | cat i f r =>
      simp only [NE.erase, doubled, Core.cat.injEq, List.cons.injEq] at h
      obtain ⟨h1, h2⟩ := h
      match r, h2 with
      | [(p, g)], h2 =>
        simp only [NE.eraseP, List.cons.injEq, and_true] at h2
        obtain ⟨ta, ha1, ha2, ha3⟩ := infer_doubled n k f f.info.name c h1
        obtain ⟨tb, hb1, hb2, hb3⟩ := infer_doubled n k g g.info.name { c with unguard := c.unguard ++ [c.vars.length] } h2
        refine ⟨.cat nm (.ofStr ['a']) [ta, tb], ?_, rfl, nm, _, ta, tb, rfl, ha3, hb3⟩
        have hd : (Ty.ofStr ['a']).flast.disjoint (Ty.ofStr ['a']).first = true := rfl
        have hc : (Ty.ofStr ['a']).cat (Ty.ofStr ['a']) = Ty.ofStr ['a'] := rfl
        have hn : (Ty.ofStr ['a']).nullable = false := rfl
        rw [infer, ha1]
        simp only [Inf.bind, ha2, hn, Bool.false_eq_true, if_false, TCtx.withUnguard, inferCat, hb1, hb2, hd, hc, if_true, List.dropLast_concat]
      | [], h2 => simp [NE.eraseP] at h2
      | _ :: _ :: _, h2 => simp [NE.eraseP] at h2
    | _ => simp [NE.erase, doubled] at h

private def wcas : Casing := ⟨some, some⟩

/-- The first `m` levels are in the table. -/
private structure Levels (s : BState) (m : Nat) : Prop where
  len : s.data.length = m
  lit : s.litMap.lookup ['a'] = if m = 0 then none else some 0
  cat : ∀ i, s.catMap.lookup [i, i] = if i + 1 < m then some (i + 1) else none

private theorem Levels.named {s : BState} {m : Nat} (h : Levels s m) (pre : String) (nm : Option Name) :
    ∃ x s', s.newTypeName wcas pre nm = .ok (x, s') ∧ Levels s' m := by
  cases nm with
  | none => exact ⟨_, _, rfl, h⟩
  | some n => exact ⟨_, _, rfl, ⟨h.len, h.lit, h.cat⟩⟩

private theorem parts_ok : ∀ (l : List (Option Name)) (i : Nat) (m : List (String × Nat)), ∃ r, partNames some "part" i m l = .ok r
  | [], _, _ => ⟨_, rfl⟩
  | none :: l, i, m => by
    obtain ⟨r, h⟩ := parts_ok l (i + 1) m
    exact ⟨_, by rw [partNames, h]; rfl⟩
  | some n :: l, i, m => by
    obtain ⟨r, h⟩ := parts_ok l (i + 1) ((n.content.hashed, (m.lookup n.content.hashed).getD 0 + 1) :: m)
    exact ⟨_, by rw [partNames]; simp only; rw [h]; rfl⟩

private theorem gen_doubled : ∀ (k : Nat) (t : TE) (s : BState) (m : Nat), IsDoubled k t → Levels s m →
    ∃ s', gen wcas t s = .ok (k, s') ∧ Levels s' (max m (k + 1))
  | 0, t, s, m, ⟨nm, ht⟩, h => by
    subst ht
    rw [gen, genLit, h.lit]
    by_cases hm : m = 0
    · subst hm
      obtain ⟨x, s', h1, h2⟩ := h.named "Lit" nm
      have hl := h2.len
      simp only [if_true, h1]
      refine ⟨_, by rw [show (0 : Nat) = s'.data.length from hl.symm]; rfl, ?_⟩
      refine ⟨by simp [hl], by simp [hl], fun i => ?_⟩
      have := h2.cat i
      simpa using this
    · simp only [hm, if_false]
      refine ⟨_, rfl, ?_⟩
      rwa [Nat.max_eq_left (by omega)]
  | k + 1, t, s, m, ⟨nm, ty, a, b, ht, ha, hb⟩, h => by
    subst ht
    obtain ⟨s1, h1, h2⟩ := gen_doubled k a s m ha h
    obtain ⟨s2, h3, h4⟩ := gen_doubled k b s1 _ hb h2
    rw [show max (max m (k + 1)) (k + 1) = max m (k + 1) by omega] at h4
    have h5 : gen wcas (.cat nm ty [a, b]) s = genCat wcas nm ([a, b].map TE.name) [k, k] s2 := by
      rw [gen, genL, h1]
      simp only [Except.bind, genL, h3, Except.map]
    rw [h5, genCat, h4.cat]
    by_cases hm : k + 1 < max m (k + 1)
    · simp only [hm, if_true]
      refine ⟨_, rfl, ?_⟩
      rwa [show max m (k + 1 + 1) = max m (k + 1) by omega]
    · obtain ⟨x, s', h6, h7⟩ := h4.named "Cat" nm
      have hM : max m (k + 1) = k + 1 := by omega
      rw [hM] at h7
      have hl := h7.len
      obtain ⟨e, he⟩ : ∃ e, s'.data[k]? = some e := ⟨s'.data[k]'(by omega), List.getElem?_eq_getElem (by omega)⟩
      have h8 : ∃ y, s'.tyNames [k, k] = .ok y := ⟨_, by simp only [BState.tyNames, he, Except.map]; rfl⟩
      obtain ⟨y, h8⟩ := h8
      obtain ⟨r, h9⟩ := parts_ok ([a, b].map TE.name) 0 []
      have h10 : partNames wcas.snake "part" 0 [] ([a, b].map TE.name) = .ok r := h9
      simp only [hm, if_false, h6, Except.bind, h8, h10, Except.map]
      refine ⟨_, by rw [show k + 1 = s'.data.length from hl.symm], ?_⟩
      rw [show max m (k + 1 + 1) = k + 2 by omega]
      refine ⟨by simp [hl], ?_, fun i => ?_⟩
      · have := h7.lit
        simpa using this
      · have hi := h7.cat i
        simp only [List.lookup_cons, hl]
        by_cases hik : i = k
        · subst hik
          simp
        · have : ([i, i] == [k, k]) = false := by simp [hik]
          simp only [this, hi]
          by_cases h11 : i + 1 < k + 1
          · rw [if_pos h11, if_pos (by omega)]
          · rw [if_neg h11, if_neg (by omega)]

/-- Doubled literals compile, to one type for each doubling. -/
private theorem compiled_doubled {e : NE} {k : Nat} (h : e.erase = doubled (.lit ['a']) k) :
    ∃ te s id, Compiled e te s id ∧ s.data.length = k + 1 := by
  obtain ⟨te, h1, _, h3⟩ := infer_doubled 1 k e e.info.name ⟨[], []⟩ h
  obtain ⟨s, h4, h5⟩ := gen_doubled k te {} 0 h3 ⟨rfl, rfl, fun _ => rfl⟩
  exact ⟨te, s, k, ⟨⟨1, by rw [inferTop, h1]⟩, wcas, h4⟩, by rw [h5.len]; omega⟩

private theorem coreLets_letOnly : ∀ n, (coreLets n).letOnly false
  | 0 => trivial
  | n + 1 => ⟨⟨trivial, trivial, trivial⟩, coreLets_letOnly n⟩

/-! ## Sizes of sources -/

theorem setInfo_nodes (i : Info) (e : NE) : (e.setInfo i).erase.nodes = e.erase.nodes := by cases e <;> rfl

theorem Tok.sizeL_concat (a b : List Tok) : Tok.sizeL (a ++ b) = Tok.sizeL a + Tok.sizeL b := by
  induction a with
  | nil => simp [Tok.sizeL]
  | cons t l ih => simp only [List.cons_append, Tok.sizeL, ih]; omega

theorem Conv.bind_ok {α β : Type} {x : Conv α} {f : α → Ctx → Conv β} {b : β} {c' : Ctx} (h : x.bind f = some (.ok b, c')) :
    ∃ a c, x = some (.ok a, c) ∧ f a c = some (.ok b, c') := by
  match x, h with
  | some (.ok a, c), h => exact ⟨a, c, rfl, h⟩

theorem withVariables_ok {α : Type} {c c' : Ctx} {l : List Name} {f : Ctx → Conv α} {a : α} (h : c.withVariables l f = some (.ok a, c')) :
    ∃ c0 c1, f c0 = some (.ok a, c1) := by
  unfold Ctx.withVariables at h
  split at h
  · cases h
  · rename_i r c1 hf
    split at h
    · cases h
    · cases h
      exact ⟨_, _, hf⟩

mutual
theorem term_nodes : ∀ (t : Term) (c c' : Ctx) (e : NE), convTerm t c = some (.ok e, c') → e.erase.nodes + 1 ≤ 2 * Tok.sizeL t.toks
  | .eps _, c, c', e, h => by cases h; exact Nat.le_refl 2
  | .ident i, c, c', e, h => by
    rw [convTerm, convIdent] at h
    split at h
    · cases h
    · cases h; exact Nat.le_refl 2
  | .lit _ s, c, c', e, h => by cases h; exact Nat.le_refl 2
  | .fix _ t, c, c', e, h => by
    rw [convTerm] at h
    obtain ⟨a, c1, h1, h2⟩ := Conv.bind_ok h
    cases h2
    have := term_nodes t c _ a h1
    simp only [NE.erase, Core.nodes, Term.toks, Tok.sizeL, Tok.size]
    omega
  | .parens x, c, c', e, h => by
    rw [convTerm] at h
    have := expr_nodes x c c' e h
    simp only [Term.toks, Tok.sizeL, Tok.size]
    omega
theorem call_nodes : ∀ (x : Call) (c c' : Ctx) (e : NE), convCall x c = some (.ok e, c') → e.erase.nodes + 1 ≤ 2 * Tok.sizeL x.toks
  | .mk _ [], c, c', e, h => by cases h
  | .mk _ (t :: ts), c, c', e, h => by
    rw [convCall] at h
    obtain ⟨a, c1, h1, h2⟩ := Conv.bind_ok h
    obtain ⟨as, c2, h3, h4⟩ := Conv.bind_ok h2
    have h5 := term_nodes t c c1 a h1
    have h6 := terms_nodes ts c1 c2 as h3
    simp only [Call.toks, Term.toksL, Tok.sizeL_concat]
    match as, h4, h6 with
    | [], h4, h6 => cases h4; omega
    | b :: bs, h4, h6 =>
      cases h4
      simp only [NE.erase, Core.nodes]
      simp only [List.length_cons] at h6
      omega
theorem terms_nodes : ∀ (l : List Term) (c c' : Ctx) (es : List NE), convTerms l c = some (.ok es, c') →
    Core.nodesL (NE.eraseL es) + es.length ≤ 2 * Tok.sizeL (Term.toksL l)
  | [], c, c', es, h => by cases h; exact Nat.le_refl 0
  | t :: l, c, c', es, h => by
    rw [convTerms] at h
    obtain ⟨a, c1, h1, h2⟩ := Conv.bind_ok h
    obtain ⟨as, c2, h3, h4⟩ := Conv.bind_ok h2
    cases h4
    have h5 := term_nodes t c c1 a h1
    have h6 := terms_nodes l c1 _ as h3
    simp only [Term.toksL, Tok.sizeL_concat, NE.eraseL, Core.nodesL, List.length_cons]
    omega
theorem cat_nodes : ∀ (x : Cat) (c c' : Ctx) (e : NE), convCat x c = some (.ok e, c') → e.erase.nodes + 1 ≤ 2 * Tok.sizeL x.toks
  | .mk _ [], c, c', e, h => by cases h
  | .mk _ ((x, p) :: l), c, c', e, h => by
    rw [convCat] at h
    obtain ⟨a, c1, h1, h2⟩ := Conv.bind_ok h
    obtain ⟨as, c2, h3, h4⟩ := Conv.bind_ok h2
    have h5 := call_nodes x c c1 a h1
    have h6 := calls_nodes l p c1 c2 as h3
    match l, as, h3, h4, h6 with
    | [], [], h3, h4, h6 => cases h4; simp only [Cat.toks, Call.toksL]; omega
    | [], b :: bs, h3, h4, h6 => cases h3
    | y :: l, [], h3, h4, h6 => cases h4; simp only [Cat.toks, Call.toksL, Tok.sizeL_concat]; omega
    | y :: l, b :: bs, h3, h4, h6 =>
      cases h4
      simp only [List.length_cons] at h6
      simp only [Cat.toks, Call.toksL, Tok.sizeL_concat, NE.erase, Core.nodes, Core.nodesL, Tok.sizeL, Tok.size]
      omega
theorem calls_nodes : ∀ (l : List (Call × Nat)) (p : Nat) (c c' : Ctx) (es : List (Nat × NE)), convCalls p l c = some (.ok es, c') →
    Core.nodesL (NE.eraseP es) + es.length ≤ 2 * Tok.sizeL (Call.toksL l)
  | [], p, c, c', es, h => by cases h; exact Nat.le_refl 0
  | (x, q) :: l, p, c, c', es, h => by
    rw [convCalls] at h
    obtain ⟨a, c1, h1, h2⟩ := Conv.bind_ok h
    obtain ⟨as, c2, h3, h4⟩ := Conv.bind_ok h2
    cases h4
    have h5 := call_nodes x c c1 a h1
    have h6 := calls_nodes l q c1 _ as h3
    simp only [NE.eraseP, Core.nodesL, List.length_cons]
    match l, h6 with
    | [], h6 => simp only [Call.toksL, Tok.sizeL] at h6 ⊢; omega
    | y :: l, h6 => simp only [Call.toksL, Tok.sizeL_concat, Tok.sizeL, Tok.size] at h6 ⊢; omega
theorem labelled_nodes : ∀ (x : Labelled) (c c' : Ctx) (e : NE), convLabelled x c = some (.ok e, c') →
    e.erase.nodes + 1 ≤ 2 * Tok.sizeL x.toks
  | .mk _ y lb, c, c', e, h => by
    rw [convLabelled] at h
    obtain ⟨a, c1, h1, h2⟩ := Conv.bind_ok h
    cases h2
    have h5 := cat_nodes y c _ a h1
    rw [setInfo_nodes]
    cases lb with
    | none => exact h5
    | some i => simp only [Labelled.toks, Tok.sizeL_concat]; omega
theorem alt_nodes : ∀ (x : Alt) (c c' : Ctx) (e : NE), convAlt x c = some (.ok e, c') → e.erase.nodes + 1 ≤ 2 * Tok.sizeL x.toks
  | .mk _ [], c, c', e, h => by cases h
  | .mk _ ((x, p) :: l), c, c', e, h => by
    rw [convAlt] at h
    obtain ⟨a, c1, h1, h2⟩ := Conv.bind_ok h
    obtain ⟨as, c2, h3, h4⟩ := Conv.bind_ok h2
    have h5 := labelled_nodes x c c1 a h1
    have h6 := labelleds_nodes l p c1 c2 as h3
    match l, as, h3, h4, h6 with
    | [], [], h3, h4, h6 => cases h4; simp only [Alt.toks, Labelled.toksL]; omega
    | [], b :: bs, h3, h4, h6 => cases h3
    | y :: l, [], h3, h4, h6 => cases h4; simp only [Alt.toks, Labelled.toksL, Tok.sizeL_concat]; omega
    | y :: l, b :: bs, h3, h4, h6 =>
      cases h4
      simp only [List.length_cons] at h6
      simp only [Alt.toks, Labelled.toksL, Tok.sizeL_concat, NE.erase, Core.nodes, Core.nodesL, Tok.sizeL, Tok.size]
      omega
theorem labelleds_nodes : ∀ (l : List (Labelled × Nat)) (p : Nat) (c c' : Ctx) (es : List (Nat × NE)),
    convLabelleds p l c = some (.ok es, c') → Core.nodesL (NE.eraseP es) + es.length ≤ 2 * Tok.sizeL (Labelled.toksL l)
  | [], p, c, c', es, h => by cases h; exact Nat.le_refl 0
  | (x, q) :: l, p, c, c', es, h => by
    rw [convLabelleds] at h
    obtain ⟨a, c1, h1, h2⟩ := Conv.bind_ok h
    obtain ⟨as, c2, h3, h4⟩ := Conv.bind_ok h2
    cases h4
    have h5 := labelled_nodes x c c1 a h1
    have h6 := labelleds_nodes l q c1 _ as h3
    simp only [NE.eraseP, Core.nodesL, List.length_cons]
    match l, h6 with
    | [], h6 => simp only [Labelled.toksL, Tok.sizeL] at h6 ⊢; omega
    | y :: l, h6 => simp only [Labelled.toksL, Tok.sizeL_concat, Tok.sizeL, Tok.size] at h6 ⊢; omega
theorem expr_nodes : ∀ (x : Expr) (c c' : Ctx) (e : NE), convExpr x c = some (.ok e, c') → e.erase.nodes + 1 ≤ 2 * Tok.sizeL x.toks
  | .alt a, c, c', e, h => by
    rw [convExpr] at h
    exact alt_nodes a c c' e h
  | .lam _ args b, c, c', e, h => by
    rw [convExpr] at h
    obtain ⟨a, c1, h1, h2⟩ := Conv.bind_ok h
    obtain ⟨c2, c3, h3⟩ := withVariables_ok h1
    cases h2
    have := alt_nodes b _ _ _ h3
    simp only [Expr.toks, NE.erase, Core.nodes, Tok.sizeL, Tok.size, Tok.sizeL_concat]
    omega
end

/-- A program has at most twice as many nodes as tokens. -/
theorem stmt_nodes : ∀ (x : Stmt) (c c' : Ctx) (e : NE), convStmt x c = some (.ok e, c') → e.erase.nodes ≤ 2 * Tok.sizeL x.toks
  | .goal _ x, c, c', e, h => by
    rw [convStmt] at h
    obtain ⟨a, c1, h1, h2⟩ := Conv.bind_ok h
    cases h2
    have := expr_nodes x _ _ _ h1
    rw [setInfo_nodes]
    simp only [Stmt.toks, Tok.sizeL, Tok.size, Tok.sizeL_concat]
    omega
  | .letS _ n args x next, c, c', e, h => by
    rw [convStmt] at h
    obtain ⟨a, c1, h1, h2⟩ := Conv.bind_ok h
    dsimp only at h2
    obtain ⟨b, c2, h3, h4⟩ := Conv.bind_ok h2
    cases h4
    have h5 := stmt_nodes next _ _ _ h3
    have h6 : a.erase.nodes ≤ 2 * Tok.sizeL x.toks := by
      cases args with
      | nil =>
        have := expr_nodes x _ _ _ h1
        omega
      | cons i l =>
        rw [convBound] at h1
        · obtain ⟨a', c4, h7, h8⟩ := Conv.bind_ok h1
          obtain ⟨c5, c6, h9⟩ := withVariables_ok h7
          cases h8
          have := expr_nodes x _ _ _ h9
          simp only [NE.erase, Core.nodes]
          omega
        · intro h; cases h
    simp only [Stmt.toks, NE.erase, Core.nodes, NE.setName, setInfo_nodes, Tok.sizeL, Tok.size, Tok.sizeL_concat]
    omega

/-! ## C82 -/

/-- **C82** (bound in terms of the source). -/
theorem C82_source_bound (s : Stmt) (c : Ctx) (n : Nat) (e e' : NE) (hc : convStmt s [] = some (.ok e, c)) (h : reduce n e = .ok e')
    (hl : e.erase.letOnly false) : e'.erase.nodes < 2 ^ (2 * Tok.sizeL s.toks) :=
  Nat.lt_of_lt_of_le (C82_expansion_bound n e e' h hl) (Nat.pow_le_pow_right (by omega) (stmt_nodes s _ _ _ hc))

/-- **C82** (the bound is attained). The program `let x = "a"; let x = x . x; … match x;` with `n` doublings has `7 * n + 8` tokens
and no functions, and its expansion `2 ^ (n + 1) - 1` nodes. It is accepted, and the emitted program has `n + 1` types. -/
theorem C82_lets_exponential (n : Nat) : ∃ e c m e' te s id, Tok.sizeL (doublingLets n).toks = 7 * n + 8 ∧
    convStmt (doublingLets n) [] = some (.ok e, c) ∧ e.erase.letOnly false ∧ reduce m e = .ok e' ∧ e'.erase.nodes = 2 ^ (n + 1) - 1 ∧
    Compiled e' te s id ∧ s.data.length = n + 1 := by
  obtain ⟨e, c, h1, h2⟩ := conv_doublingLets n
  have h3 : Core.Steps e.erase (doubled (.lit ['a']) n) := by
    rw [h2]
    exact (Core.Steps.single (.letE _ _)).trans (steps_lets n _)
  obtain ⟨m, e', h4, h5⟩ := reduces_doubled h3
  obtain ⟨te, s, id, h6, h7⟩ := compiled_doubled h5
  refine ⟨e, c, m, e', te, s, id, doublingLets_size n, h1, ?_, h4, by rw [h5, doubled_nodes], h6, h7⟩
  rw [h2]
  refine ⟨trivial, ?_⟩
  exact coreLets_letOnly n

/-- **C82** (functions). The program `let f x = x . x; let f x = f (f x); … match f "a";` with `n` redefinitions has `9 * n + 12`
tokens, and its expansion `2 ^ (2 ^ n + 1) - 1` nodes. It is accepted, and the emitted program has `2 ^ n + 1` types. -/
theorem C82_functions_doubly_exponential (n : Nat) : ∃ e c m e' te s id, Tok.sizeL (doublingFns n).toks = 9 * n + 12 ∧
    convStmt (doublingFns n) [] = some (.ok e, c) ∧ reduce m e = .ok e' ∧ e'.erase.nodes = 2 ^ (2 ^ n + 1) - 1 ∧
    Compiled e' te s id ∧ s.data.length = 2 ^ n + 1 := by
  obtain ⟨e, c, h1, h2⟩ := conv_doublingFns n
  have h3 : Core.Steps e.erase (doubled (.lit ['a']) (2 ^ n)) := by
    rw [h2]
    have := steps_fns n 1 _ doubles_one
    rw [Nat.one_mul] at this
    exact (Core.Steps.single (.letE _ _)).trans this
  obtain ⟨m, e', h4, h5⟩ := reduces_doubled h3
  obtain ⟨te, s, id, h6, h7⟩ := compiled_doubled h5
  exact ⟨e, c, m, e', te, s, id, doublingFns_size n, h1, h4, by rw [h5, doubled_nodes], h6, h7⟩

end Chomp
