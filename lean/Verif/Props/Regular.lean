import Verif.Props.Finite
import Verif.Gram.Laws
import Verif.Gram.Viable
import Verif.Lower.DistinctFix

/-!
# C97: every regular language can be described

Whatever a deterministic finite automaton accepts is the language of an accepted expression.
-/

namespace Chomp

/-! ## Specification: deterministic finite automata -/

/-- A deterministic finite automaton that reads the characters of `sigma`. -/
structure Dfa (Q : Type) where
  states : List Q
  sigma : List Char
  start : Q
  acc : Q → Bool
  next : Q → Char → Q

/-- The automaton accepts a word from a state. -/
def Dfa.Accepts {Q : Type} (M : Dfa Q) : Q → List Char → Prop
  | q, [] => M.acc q = true
  | q, c :: w => c ∈ M.sigma ∧ M.Accepts (M.next q c) w

/-! ## The grammar of an automaton -/

variable {Q : Type} [DecidableEq Q]

/-- Where a state is in a list. -/
def posOf (q : Q) : List Q → Nat
  | [] => 0
  | x :: l => if x = q then 0 else posOf q l + 1

theorem posOf_get (q : Q) : ∀ {l : List Q}, q ∈ l → l[posOf q l]? = some q
  | x :: l, h => by
    rw [posOf]
    split
    · rename_i e; subst e; rfl
    · rename_i e
      rw [List.getElem?_cons_succ]
      exact posOf_get q ((List.mem_cons.1 h).resolve_left fun h => e h.symm)

/-- A number for a sequence of characters, a different one for each. -/
def pathNum : List Char → Nat
  | [] => 0
  | c :: p => (2 * c.toNat + 1) * 2 ^ pathNum p

/-- A sequence of parts that match the empty string and tell the place `p` in the grammar, so that no two fix
points are alike. -/
def markOf (p : List Char) : List Gram := List.replicate (pathNum p) .eps

/-- The grammar of state `q` below the fix points of the states `V`, `p` being the characters that lead there; `n` bounds the number of
other states. -/
def Dfa.gram (M : Dfa Q) : Nat → List Q → Q → List Char → Gram
  | 0, _, _, _ => .eps
  | n + 1, V, q, p => .fix (.alt ((if M.acc q then [.eps] else []) ++ M.sigma.map fun c =>
      .cat (.lit [c] :: (markOf p ++
        [if M.next q c ∈ q :: V then .var (posOf (M.next q c) (q :: V)) else M.gram n (q :: V) (M.next q c) (c :: p)]))))

/-- What follows the character `c` in state `q`. -/
def Dfa.sub (M : Dfa Q) (n : Nat) (V : List Q) (q : Q) (p : List Char) (c : Char) : Gram :=
  if M.next q c ∈ q :: V then .var (posOf (M.next q c) (q :: V)) else M.gram n (q :: V) (M.next q c) (c :: p)

/-- The body of the fix point of state `q`. -/
def Dfa.body (M : Dfa Q) (n : Nat) (V : List Q) (q : Q) (p : List Char) : Gram :=
  .alt ((if M.acc q then [.eps] else []) ++ M.sigma.map fun c => .cat (.lit [c] :: (markOf p ++ [M.sub n V q p c])))

theorem Dfa.gram_succ (M : Dfa Q) (n : Nat) (V : List Q) (q : Q) (p : List Char) : M.gram (n + 1) V q p = .fix (M.body n V q p) := by
  rw [Dfa.gram]; rfl

theorem markOf_mem {p : List Char} {g : Gram} (h : g ∈ markOf p) : g = .eps := List.eq_of_mem_replicate h

theorem oddPow_inj : ∀ {m n a b : Nat}, (2 * a + 1) * 2 ^ m = (2 * b + 1) * 2 ^ n → m = n ∧ a = b
  | 0, 0, a, b, h => ⟨rfl, by omega⟩
  | 0, n + 1, a, b, h => by
    rw [Nat.pow_succ, ← Nat.mul_assoc, Nat.pow_zero] at h
    omega
  | m + 1, 0, a, b, h => by
    rw [Nat.pow_succ, ← Nat.mul_assoc, Nat.pow_zero] at h
    omega
  | m + 1, n + 1, a, b, h => by
    rw [Nat.pow_succ, ← Nat.mul_assoc, Nat.pow_succ, ← Nat.mul_assoc] at h
    obtain ⟨h1, h2⟩ := oddPow_inj (m := m) (n := n) (a := a) (b := b) (by omega)
    exact ⟨by rw [h1], h2⟩

theorem pathNum_pos (c : Char) (p : List Char) : 0 < pathNum (c :: p) :=
  Nat.mul_pos (by omega) (Nat.pow_pos (by omega))

theorem pathNum_inj : ∀ {p p' : List Char}, pathNum p = pathNum p' → p = p'
  | [], [], _ => rfl
  | [], c :: p', h => absurd h (Nat.ne_of_lt (pathNum_pos c p'))
  | c :: p, [], h => absurd h.symm (Nat.ne_of_lt (pathNum_pos c p))
  | c :: p, c' :: p', h => by
    obtain ⟨h1, h2⟩ := oddPow_inj h
    rw [pathNum_inj h1, Char.ext (UInt32.toNat_inj.1 h2)]

theorem markOf_inj {p p' : List Char} (h : markOf p = markOf p') : p = p' := by
  have := congrArg List.length h
  simp only [markOf, List.length_replicate] at this
  exact pathNum_inj this

theorem langCat_mark (x : Gram) (ρ : Nat → Lang) (w : List Char) : ∀ {l : List Gram}, (∀ g ∈ l, g = .eps) →
    (Gram.langCat (l ++ [x]) ρ w ↔ x.lang ρ w)
  | [], _ => by
    simp only [List.nil_append, Gram.langCat]
    exact ⟨fun ⟨u, v, h1, h2, h3⟩ => by subst h3; rw [h1, List.append_nil]; exact h2, fun h => ⟨w, [], by simp, h, rfl⟩⟩
  | g :: l, h => by
    rw [List.cons_append, Gram.langCat]
    have hg : ∀ u, g.lang ρ u ↔ u = [] := by
      intro u
      rw [h g (by simp)]; simp [Gram.lang]
    simp only [hg]
    rw [← langCat_mark x ρ w (l := l) fun g' hg' => h g' (List.mem_cons_of_mem _ hg')]
    exact ⟨fun ⟨u, v, h1, h2, h3⟩ => by subst h2; rw [h1]; exact h3, fun h => ⟨[], w, rfl, rfl, h⟩⟩

theorem mark_ty {Γ : List Ty} {x : Gram} {σ υ : Ty} {τ : Ty} (hx : HasTyCat Γ τ [x] υ) : ∀ {l : List Gram},
    (∀ g ∈ l, g = .eps) → HasTyCat Γ τ (l ++ [x]) υ
  | [], _ => hx
  | g :: l, h => by
    have hg : HasTy Γ 0 g ⟨true, .empty, .empty⟩ := by
      rw [h g (by simp)]
      exact .eps _ _
    refine .cons _ _ _ _ _ _ hg (fun c _ => by simp) ?_
    rw [Ty.cat_eps]
    exact mark_ty (σ := σ) hx fun g hg => h g (by simp [hg])

/-- The states that have no fix point yet. -/
def Dfa.left (M : Dfa Q) (V : List Q) : Nat := (M.states.filter fun x => decide (x ∉ V)).length

theorem filter_lt {α : Type} {p p' : α → Bool} (h : ∀ x, p' x = true → p x = true) {q : α} (hq : p q = true) (hq' : p' q = false) :
    ∀ {l : List α}, q ∈ l → (l.filter p').length < (l.filter p).length := by
  have hle : ∀ l : List α, (l.filter p').length ≤ (l.filter p).length := by
    intro l
    induction l with
    | nil => simp
    | cons x l ih =>
      rw [List.filter_cons, List.filter_cons]
      cases hx : p' x with
      | true => simp [h x hx, ih]
      | false => cases p x <;> simp <;> omega
  intro l hl
  induction l with
  | nil => cases hl
  | cons x l ih =>
    rw [List.filter_cons, List.filter_cons]
    rcases List.mem_cons.1 hl with rfl | hl
    · have := hle l
      simp [hq, hq']; omega
    · have := ih hl
      cases hx : p' x with
      | true => simp [h x hx]; exact this
      | false => cases p x <;> simp <;> omega

theorem Dfa.left_lt (M : Dfa Q) {V : List Q} {q : Q} (hq : q ∈ M.states) (hV : q ∉ V) : M.left (q :: V) < M.left V := by
  refine filter_lt (fun x h => ?_) (q := q) (by simpa using hV) (by simp) hq
  simp only [List.mem_cons, not_or, decide_eq_true_eq] at h ⊢
  exact h.2

/-! ## Languages -/

theorem langAlt_append : ∀ (l l' : List Gram) (ρ : Nat → Lang) (w : List Char),
    Gram.langAlt (l ++ l') ρ w ↔ Gram.langAlt l ρ w ∨ Gram.langAlt l' ρ w
  | [], l', ρ, w => by simp [Gram.langAlt]
  | g :: l, l', ρ, w => by
    rw [List.cons_append, Gram.langAlt, Gram.langAlt]
    dsimp only
    rw [langAlt_append l l' ρ w, or_assoc]

theorem langAlt_chars (p : List Char) (f : Char → Gram) (ρ : Nat → Lang) (w : List Char) : ∀ cs : List Char,
    Gram.langAlt (cs.map fun c => .cat (.lit [c] :: (markOf p ++ [f c]))) ρ w ↔ ∃ c ∈ cs, ∃ u, w = c :: u ∧ (f c).lang ρ u
  | [] => by simp [Gram.langAlt]
  | c :: cs => by
    rw [List.map_cons, Gram.langAlt]
    dsimp only
    rw [langAlt_chars p f ρ w cs]
    have : (Gram.cat (.lit [c] :: (markOf p ++ [f c]))).lang ρ w ↔ ∃ u, w = c :: u ∧ (f c).lang ρ u := by
      rw [Gram.lang, Gram.langCat]
      simp only [langCat_mark _ _ _ fun _ => markOf_mem, Gram.lang]
      exact ⟨fun ⟨u, v, h1, h2, h3⟩ => ⟨v, by rw [h1, h2]; rfl, h3⟩, fun ⟨v, h1, h3⟩ => ⟨[c], v, h1, rfl, h3⟩⟩
    rw [this]
    simp only [List.mem_cons, exists_eq_or_imp]

theorem Dfa.body_lang (M : Dfa Q) (n : Nat) (V : List Q) (q : Q) (p : List Char) (ρ : Nat → Lang) (w : List Char) :
    (M.body n V q p).lang ρ w ↔ (M.acc q = true ∧ w = []) ∨ ∃ c ∈ M.sigma, ∃ u, w = c :: u ∧ (M.sub n V q p c).lang ρ u := by
  rw [Dfa.body, Gram.lang, langAlt_append, langAlt_chars]
  refine or_congr_left ?_
  split
  · rename_i h
    simp [Gram.langAlt, Gram.lang, h]
  · rename_i h
    simp [Gram.langAlt, h]

theorem Dfa.upper (M : Dfa Q) (hall : ∀ q, q ∈ M.states) : ∀ (n : Nat) (V : List Q) (q : Q) (p : List Char) (ρ : Nat → Lang), M.left V ≤ n → q ∉ V →
    (∀ i v, V[i]? = some v → ∀ w, ρ i w → M.Accepts v w) → ∀ w, (M.gram n V q p).lang ρ w → M.Accepts q w
  | 0, V, q, p, ρ, hn, hq, _, w, _ => by
    have := M.left_lt (hall q) hq
    omega
  | n + 1, V, q, p, ρ, hn, hq, hρ, w, h => by
    have hlt := M.left_lt (hall q) hq
    rw [M.gram_succ, Gram.lang] at h
    refine h (M.Accepts q) fun v hv => ?_
    rw [M.body_lang] at hv
    rcases hv with ⟨h1, rfl⟩ | ⟨c, hc, u, rfl, hu⟩
    · exact h1
    · refine ⟨hc, ?_⟩
      have hρ' : ∀ i v, (q :: V)[i]? = some v → ∀ w, (Lang.push (M.Accepts q) ρ) i w → M.Accepts v w := by
        intro i v hi w hw
        cases i with
        | zero =>
          simp only [List.getElem?_cons_zero, Option.some.injEq] at hi
          subst hi; exact hw
        | succ i => exact hρ i v (by simpa using hi) w hw
      unfold Dfa.sub at hu
      split at hu
      · rename_i hm
        exact hρ' _ _ (posOf_get _ hm) u (by simpa [Gram.lang] using hu)
      · rename_i hm
        exact M.upper hall n (q :: V) _ _ _ (by omega) hm hρ' u hu

theorem Dfa.lower (M : Dfa Q) (hall : ∀ q, q ∈ M.states) : ∀ (n : Nat) (V : List Q) (q : Q) (p : List Char) (ρ : Nat → Lang) (m : Nat), M.left V ≤ n →
    q ∉ V → (∀ i v, V[i]? = some v → ∀ w, w.length ≤ m → M.Accepts v w → ρ i w) →
    ∀ w, w.length ≤ m → M.Accepts q w → (M.gram n V q p).lang ρ w
  | 0, V, q, p, ρ, m, hn, hq, _, w, _, _ => by
    have := M.left_lt (hall q) hq
    omega
  | n + 1, V, q, p, ρ, m, hn, hq, hρ, w, hw, ha => by
    have hlt := M.left_lt (hall q) hq
    rw [M.gram_succ, Gram.lang]
    intro X hX
    have key : ∀ (m' : Nat) (w : List Char), m' ≤ m → w.length ≤ m' → M.Accepts q w → X w := by
      intro m'
      induction m' with
      | zero =>
        intro w _ hw ha
        cases w with
        | nil => exact hX [] ((M.body_lang n V q p _ _).2 (.inl ⟨ha, rfl⟩))
        | cons c u => simp at hw
      | succ m' ih =>
        intro w hm hw ha
        cases w with
        | nil => exact hX [] ((M.body_lang n V q p _ _).2 (.inl ⟨ha, rfl⟩))
        | cons c u =>
          simp only [List.length_cons] at hw
          refine hX _ ((M.body_lang n V q p _ _).2 (.inr ⟨c, ha.1, u, rfl, ?_⟩))
          have hρ' : ∀ i v, (q :: V)[i]? = some v → ∀ w, w.length ≤ m' → M.Accepts v w → (X.push ρ) i w := by
            intro i v hi w hw ha
            cases i with
            | zero =>
              simp only [List.getElem?_cons_zero, Option.some.injEq] at hi
              subst hi; exact ih w (by omega) hw ha
            | succ i => exact hρ i v (by simpa using hi) w (by omega) ha
          unfold Dfa.sub
          split
          · rename_i hm
            rw [Gram.lang]
            exact hρ' _ _ (posOf_get _ hm) u (by omega) ha.2
          · rename_i hm
            exact M.lower hall n (q :: V) _ _ _ m' (by omega) hm hρ' u (by omega) ha.2
    exact key m w (Nat.le_refl _) hw ha

/-! ## Types -/

theorem charSet_of : ∀ l : List Char, ∃ S : CharSet, ∀ c, c ∈ S ↔ c ∈ l
  | [] => ⟨.empty, by simp⟩
  | a :: l => by
    obtain ⟨S, hS⟩ := charSet_of l
    exact ⟨S.insert a, fun c => by simp [hS]⟩

/-- The type of a state. -/
def Dfa.ty (M : Dfa Q) (S : CharSet) (q : Q) : Ty := ⟨M.acc q, S, S⟩

theorem branch_ty {Γ : List Ty} {k : Nat} {c : Char} {g : Gram} {b : Bool} {S : CharSet} (p : List Char) (h : HasTy Γ 0 g ⟨b, S, S⟩) :
    HasTy Γ k (.cat (.lit [c] :: (markOf p ++ [g]))) ⟨false, .ofStr [c], S⟩ := by
  refine .cat _ _ _ _ ⟨false, .ofStr [c], .empty⟩ _ (.lit _ _ [c]) rfl
    (mark_ty (σ := .eps) (.cons _ _ _ _ ⟨b, S, S⟩ _ h (fun x hx => by simp at hx) ?_) fun _ => markOf_mem)
  have : (⟨false, .ofStr [c], .empty⟩ : Ty).cat ⟨b, S, S⟩ = ⟨false, .ofStr [c], S⟩ := by
    refine Ty.ext' ?_ (fun x => ?_) fun x => ?_
    · simp [Ty.cat]
    · simp [Ty.cat]
    · cases b <;> simp [Ty.cat]
  rw [this]
  exact .nil _ _

theorem branches_ty {Γ : List Ty} {k : Nat} {f : Char → Gram} {S : CharSet} (p : List Char) : ∀ (cs : List Char) (τ : Ty), cs.Nodup →
    (∀ c ∈ cs, ∃ b, HasTy Γ 0 (f c) ⟨b, S, S⟩) → (∀ c ∈ cs, c ∉ τ.first) →
    ∃ υ, HasTyAlt Γ k τ (cs.map fun c => .cat (.lit [c] :: (markOf p ++ [f c]))) υ ∧ (υ.nullable = true ↔ τ.nullable = true) ∧
      (∀ x, x ∈ υ.first ↔ x ∈ τ.first ∨ x ∈ cs) ∧ ∀ x, x ∈ υ.flast ↔ x ∈ τ.flast ∨ (cs ≠ [] ∧ x ∈ S)
  | [], τ, _, _, _ => ⟨τ, .nil _ _ _, Iff.rfl, by simp, by simp⟩
  | c :: cs, τ, hn, hf, hd => by
    obtain ⟨b, hb⟩ := hf c (by simp)
    rw [List.nodup_cons] at hn
    obtain ⟨υ, h1, h2, h3, h4⟩ := branches_ty p cs (τ.alt ⟨false, .ofStr [c], S⟩) hn.2 (fun d hd => hf d (by simp [hd]))
      (fun d hd' h => by
        simp only [Ty.alt, CharSet.mem_union, CharSet.mem_ofStr, List.head?_cons, Option.some.injEq] at h
        rcases h with h | h
        · exact hd d (by simp [hd']) h
        · exact hn.1 (h ▸ hd'))
    refine ⟨υ, .cons _ _ _ _ _ _ _ (branch_ty p hb) (by simp) (fun x hx hx' => ?_) h1, ?_, fun x => ?_, fun x => ?_⟩
    · simp only [CharSet.mem_ofStr, List.head?_cons, Option.some.injEq] at hx'
      exact hd c (by simp) (hx' ▸ hx)
    · rw [h2]; simp [Ty.alt]
    · rw [h3]
      simp only [Ty.alt, CharSet.mem_union, CharSet.mem_ofStr, List.head?_cons, Option.some.injEq, List.mem_cons, or_assoc,
        eq_comm (a := c)]
    · rw [h4]
      simp only [Ty.alt, CharSet.mem_union, or_assoc, ne_eq, reduceCtorEq, not_false_eq_true, true_and]
      exact or_congr_right ⟨fun h => h.elim id (·.2), .inl⟩

theorem Dfa.typed (M : Dfa Q) (hall : ∀ q, q ∈ M.states) (hn : M.sigma.Nodup) (hne : M.sigma ≠ []) {S : CharSet}
    (hS : ∀ c, c ∈ S ↔ c ∈ M.sigma) : ∀ (n : Nat) (V : List Q) (q : Q) (p : List Char) (k : Nat), M.left V ≤ n → q ∉ V →
    HasTy (V.map (M.ty S)) k (M.gram n V q p) (M.ty S q)
  | 0, V, q, p, k, hl, hq => by
    have := M.left_lt (hall q) hq
    omega
  | n + 1, V, q, p, k, hl, hq => by
    have hlt := M.left_lt (hall q) hq
    rw [M.gram_succ]
    refine .fix _ _ _ _ ?_
    have hsub : ∀ c, HasTy ((q :: V).map (M.ty S)) 0 (M.sub n V q p c) (M.ty S (M.next q c)) := by
      intro c
      unfold Dfa.sub
      split
      · rename_i hm
        exact .var _ _ _ _ (by rw [List.getElem?_map, posOf_get _ hm]; rfl) (Nat.zero_le _)
      · rename_i hm
        exact M.typed hall hn hne hS n (q :: V) _ _ 0 (by omega) hm
    rw [← List.map_cons, Dfa.body]
    cases ha : M.acc q with
    | true =>
      obtain ⟨υ, h1, h2, h3, h4⟩ := branches_ty (k := k + 1) p M.sigma ⟨true, .empty, .empty⟩ hn (fun c _ => ⟨_, hsub c⟩)
        (fun c _ => by simp)
      have e : υ = M.ty S q := Ty.ext' (by rw [h2]; simp [Dfa.ty, ha]) (fun x => by rw [h3]; simp [Dfa.ty, hS])
        (fun x => by rw [h4]; simp [Dfa.ty, hne])
      rw [← e]
      exact .alt _ _ _ _ _ _ (.eps _ _) h1
    | false =>
      cases hc : M.sigma with
      | nil => exact absurd hc hne
      | cons c cs =>
        rw [hc, List.nodup_cons] at hn
        obtain ⟨υ, h1, h2, h3, h4⟩ := branches_ty (k := k + 1) p cs ⟨false, .ofStr [c], S⟩ hn.2 (fun c _ => ⟨_, hsub c⟩)
          (fun d hd h => by
            simp only [CharSet.mem_ofStr, List.head?_cons, Option.some.injEq] at h
            exact hn.1 (h ▸ hd))
        have e : υ = M.ty S q := Ty.ext' (by rw [h2]; simp [Dfa.ty, ha])
          (fun x => by rw [h3]; simp [Dfa.ty, hS, hc, CharSet.mem_ofStr, eq_comm (a := c)])
          (fun x => by rw [h4]; simp only [Dfa.ty]; exact ⟨fun h => h.elim id (·.2), .inl⟩)
        rw [← e]
        exact .alt _ _ _ _ _ _ (branch_ty p (hsub c)) h1

/-! ## Expressions -/

theorem expr_of_typed (g : Gram) : ∀ {Γ : List Ty} {k : Nat} {τ : Ty}, HasTy Γ k g τ → ∃ e : NE, e.grammar = some g := by
  induction g using Gram.ind with
  | eps => intro Γ k τ _; exact ⟨.eps ⟨none, 0⟩, rfl⟩
  | lit s => intro Γ k τ _; exact ⟨.lit ⟨none, 0⟩ s, rfl⟩
  | var i => intro Γ k τ _; exact ⟨.var ⟨none, 0⟩ i, rfl⟩
  | cat l ih =>
    intro Γ k τ h
    cases h with
    | cat _ _ g l τ' _ h1 h2 h3 =>
      obtain ⟨e, he⟩ := ih g (by simp) h1
      obtain ⟨r, hr⟩ := exprs_of l fun x hx => by
        obtain ⟨υ, hυ⟩ := cat_parts h3 x hx
        exact ih x (by simp [hx]) hυ
      rw [NE.grammar] at he
      exact ⟨.cat ⟨none, 0⟩ e r, by
        simp only [NE.grammar, NE.erase, Core.gram, Core.gramL, he, hr, Option.bind, Option.map_some]⟩
  | alt l ih =>
    intro Γ k τ h
    have hp : ∀ {l : List Gram} {τ σ : Ty}, HasTyAlt Γ k τ l σ → ∀ x ∈ l, ∃ υ, HasTy Γ k x υ := by
      intro l
      induction l with
      | nil => intro _ _ _ x hx; cases hx
      | cons y l ihl =>
        intro τ σ h x hx
        cases h with
        | cons _ _ _ _ _ σ' _ h1 _ _ h4 =>
          rcases List.mem_cons.1 hx with rfl | hx
          · exact ⟨_, h1⟩
          · exact ihl h4 x hx
    cases h with
    | alt _ _ g l τ' _ h1 h2 =>
      obtain ⟨e, he⟩ := ih g (by simp) h1
      obtain ⟨r, hr⟩ := exprs_of l fun x hx => by
        obtain ⟨υ, hυ⟩ := hp h2 x hx
        exact ih x (by simp [hx]) hυ
      rw [NE.grammar] at he
      exact ⟨.alt ⟨none, 0⟩ e r, by
        simp only [NE.grammar, NE.erase, Core.gram, Core.gramL, he, hr, Option.bind, Option.map_some]⟩
  | fix b ih =>
    intro Γ k τ h
    cases h with
    | fix _ _ _ _ h =>
      obtain ⟨e, he⟩ := ih h
      rw [NE.grammar] at he
      exact ⟨.fix ⟨none, 0⟩ (.lam ⟨none, 0⟩ [.newVariable (.spanless "x")] e), by
        simp [NE.grammar, NE.erase, Core.gram, he]⟩

/-! ## All fix points are different -/

/-- A body tells its place. -/
def HasMark (b : Gram) (p : List Char) : Prop := ∃ l c x, b = .alt (l ++ [.cat (.lit [c] :: (markOf p ++ [x]))])

theorem HasMark.inj {b : Gram} {p p' : List Char} (h : HasMark b p) (h' : HasMark b p') : p = p' := by
  obtain ⟨l, c, x, rfl⟩ := h
  obtain ⟨l', c', x', h⟩ := h'
  rw [Gram.alt.injEq] at h
  have h1 := List.append_inj_right' h rfl
  simp only [List.cons.injEq, Gram.cat.injEq, and_true] at h1
  exact markOf_inj (List.append_inj_left' h1.2 rfl)

theorem fixesL_chars (p : List Char) (f : Char → Gram) (cs : List Char) :
    Gram.fixesL (cs.map fun c => .cat (.lit [c] :: (markOf p ++ [f c]))) = cs.flatMap fun c => (f c).fixes := by
  rw [Gram.fixesL_eq, List.flatMap_map]
  congr 1
  funext c
  rw [Gram.fixes, Gram.fixesL, Gram.fixesL_eq, List.flatMap_append]
  have : (markOf p).flatMap Gram.fixes = [] := by
    rw [List.flatMap_eq_nil_iff]
    intro g hg
    rw [markOf_mem hg]; rfl
  rw [this]
  simp [Gram.fixes]

theorem flatMap_nodup (p : List Char) (f : Char → List Gram) : ∀ cs : List Char, cs.Nodup →
    (∀ c ∈ cs, (f c).Nodup ∧ ∀ b ∈ f c, ∃ s, HasMark b (s ++ c :: p)) → (cs.flatMap f).Nodup
  | [], _, _ => by simp
  | c :: cs, hn, h => by
    rw [List.nodup_cons] at hn
    rw [List.flatMap_cons, List.nodup_append]
    refine ⟨(h c (by simp)).1, flatMap_nodup p f cs hn.2 fun d hd => h d (by simp [hd]), fun a ha b hb e => ?_⟩
    subst e
    obtain ⟨d, hd, hb⟩ := List.mem_flatMap.1 hb
    obtain ⟨s, h1⟩ := (h c (by simp)).2 a ha
    obtain ⟨s', h2⟩ := (h d (by simp [hd])).2 a hb
    have := List.append_inj_right' (h1.inj h2) rfl
    rw [List.cons.injEq] at this
    exact hn.1 (this.1 ▸ hd)

theorem Dfa.fixes_nodup (M : Dfa Q) (hn : M.sigma.Nodup) (hne : M.sigma ≠ []) : ∀ (n : Nat) (V : List Q) (q : Q) (p : List Char),
    (M.gram n V q p).fixes.Nodup ∧ ∀ b ∈ (M.gram n V q p).fixes, ∃ s, HasMark b (s ++ p)
  | 0, V, q, p => by simp [Dfa.gram, Gram.fixes]
  | n + 1, V, q, p => by
    have hsub : ∀ c, (M.sub n V q p c).fixes.Nodup ∧ ∀ b ∈ (M.sub n V q p c).fixes, ∃ s, HasMark b (s ++ c :: p) := by
      intro c
      unfold Dfa.sub
      split
      · simp [Gram.fixes]
      · exact M.fixes_nodup hn hne n (q :: V) _ (c :: p)
    have hb : (M.body n V q p).fixes = M.sigma.flatMap fun c => (M.sub n V q p c).fixes := by
      rw [Dfa.body, Gram.fixes, Gram.fixesL_eq, List.flatMap_append, ← Gram.fixesL_eq (M.sigma.map _), fixesL_chars]
      split <;> simp [Gram.fixes]
    have hm : HasMark (M.body n V q p) p := by
      have := List.dropLast_concat_getLast hne
      refine ⟨(if M.acc q then [.eps] else []) ++ M.sigma.dropLast.map fun c => .cat (.lit [c] :: (markOf p ++ [M.sub n V q p c])),
        M.sigma.getLast hne, M.sub n V q p (M.sigma.getLast hne), ?_⟩
      rw [Dfa.body]
      conv => lhs; rw [← this]
      rw [List.map_append, List.append_assoc]
      rfl
    rw [M.gram_succ, Gram.fixes, hb]
    refine ⟨List.nodup_cons.2 ⟨fun h => ?_, flatMap_nodup p _ _ hn fun c _ => hsub c⟩, fun b h => ?_⟩
    · obtain ⟨c, _, h⟩ := List.mem_flatMap.1 h
      obtain ⟨s, h⟩ := (hsub c).2 _ h
      have := congrArg List.length (hm.inj h)
      simp at this; omega
    · rcases List.mem_cons.1 h with rfl | h
      · exact ⟨[], hm⟩
      · obtain ⟨c, _, h⟩ := List.mem_flatMap.1 h
        obtain ⟨s, h⟩ := (hsub c).2 _ h
        exact ⟨s ++ [c], by simpa using h⟩

/-! ## The theorem -/

/-- The parser of an expression with the grammar of the automaton. -/
theorem Dfa.parser_of (M : Dfa Q) (hall : ∀ q, q ∈ M.states) (hn : M.sigma.Nodup) (hne : M.sigma ≠ []) {e : NE}
    (he : e.grammar = some (M.gram (M.left []) [] M.start [])) :
    ∃ te s id, Compiled e te s id ∧ ∀ text, (∃ t, Parses s id text (.ok t)) ↔ M.Accepts M.start text := by
  obtain ⟨S, hS⟩ := charSet_of M.sigma
  have hT := M.typed hall hn hne hS (M.left []) [] M.start [] 0 (Nat.le_refl _) (by simp)
  obtain ⟨te, ht⟩ := (C24_accepts_iff_typable e _ (Nat.le_refl _)).2 ⟨_, _, he, hT⟩
  have hg := C25_language_of_expression _ e te ht _ he
  obtain ⟨id, s, hc⟩ := gen_some _ e te ht
  have hns := noConflict_of_distinct (C23_annotations _ e te ht).scoped (by rw [hg]; exact (M.fixes_nodup hn hne _ _ _ _).1)
  refine ⟨te, s, id, hc, fun w => ?_⟩
  rw [hc.accepts hns, hg]
  exact ⟨M.upper hall _ [] _ _ _ (Nat.le_refl _) (by simp) (fun i v h => by simp at h) w,
    M.lower hall _ [] _ _ _ w.length (Nat.le_refl _) (by simp) (fun i v h => by simp at h) w (Nat.le_refl _)⟩

/-- **C97.** Every regular language has a parser: for every deterministic finite automaton (all its
states listed, with an alphabet of at least one character) there is an expression that type inference accepts and that
is compiled, whose generated parser accepts exactly the words the automaton accepts. -/
theorem C97_regular_languages (M : Dfa Q) (hall : ∀ q, q ∈ M.states) (hn : M.sigma.Nodup) (hne : M.sigma ≠ []) :
    ∃ e te s id, Compiled e te s id ∧ ∀ text, (∃ t, Parses s id text (.ok t)) ↔ M.Accepts M.start text := by
  obtain ⟨S, hS⟩ := charSet_of M.sigma
  have hT := M.typed hall hn hne hS (M.left []) [] M.start [] 0 (Nat.le_refl _) (by simp)
  obtain ⟨e, he⟩ := expr_of_typed _ hT
  exact ⟨e, M.parser_of hall hn hne he⟩

/-- Non-vacuity: an even number of `a`s among `b`s. -/
def evenA : Dfa Bool := ⟨[true, false], ['a', 'b'], true, id, fun q c => if c = 'a' then !q else q⟩

example : ∃ e te s id, Compiled e te s id ∧ ∀ text, (∃ t, Parses s id text (.ok t)) ↔ evenA.Accepts true text :=
  C97_regular_languages evenA (by intro q; cases q <;> decide) (by decide) (by decide)

example : evenA.Accepts true ['a', 'b', 'a'] := ⟨by decide, by decide, by decide, rfl⟩
example : ¬ evenA.Accepts true ['a', 'b'] := fun h => by cases h.2.2

end Chomp
