import Verif.Bench.HandTrait

/-!
# The generic hand-written parsers do what the model on texts does
-/

namespace Chomp

variable {σ α β : Type}

/-- The same error, at a place related by `P`. -/
def ErrRel (P : LineCol → LineCol → Prop) : TakeError → TakeError → Prop
  | .badBranch p c e, .badBranch p' c' e' => P p p' ∧ c = c' ∧ e = e'
  | .badString p g e, .badString p' g' e' => P p p' ∧ g = g' ∧ e = e'
  | .endOfStream p, .endOfStream p' => P p p'
  | _, _ => False

/-- The parser `I` follows the `IterWrapper` states to which `R` relates its states, positions are related by `P`, no state has `L`
characters left, and `κ` grows by at most one with every call. -/
structure LikeIW (I : PImpl σ) (R : σ → IW → Prop) (P : LineCol → LineCol → Prop) (κ : σ → Nat) (L : Nat) : Prop where
  peek : ∀ {x w}, R x w → (I.peek x).1 = w.peek.1 ∧ R (I.peek x).2 w.peek.2
  next : ∀ {x w}, R x w → (I.next x).1 = w.advance.1 ∧ R (I.next x).2 w.advance.2
  pos : ∀ {x w}, R x w → P (I.pos x) w.pos
  cpeek : ∀ x, κ (I.peek x).2 ≤ κ x + 1
  cnext : ∀ x, κ (I.next x).2 ≤ κ x + 1
  len : ∀ {x w}, R x w → w.rem.length < L

/-- The potential: calls so far and `A` for each character left. -/
def phi (κ : σ → Nat) (A : Nat) (x : σ) (w : IW) : Nat := κ x + A * w.rem.length

/-- `g` is like `m`, unless `m` has run out of fuel; the potential afterwards is at most `N` or, after an error, `E`. -/
def SimC (R : σ → IW → Prop) (P : LineCol → LineCol → Prop) (κ : σ → Nat) (A N E : Nat) (m : Res α) (g : ResG σ α) : Prop :=
  m = .oof ∨ match g with
    | .ok a y => ∃ w', m = .ok a w' ∧ R y w' ∧ phi κ A y w' ≤ N
    | .err e y => ∃ e' w', m = .err e' w' ∧ ErrRel P e e' ∧ R y w' ∧ phi κ A y w' ≤ E
    | .panic => m = .panic
    | .oof => False

section
variable {R : σ → IW → Prop} {P : LineCol → LineCol → Prop} {κ : σ → Nat} {A : Nat}

theorem SimC.done {x : σ} {w : IW} {N E : Nat} (a : α) (h : R x w) (hN : phi κ A x w ≤ N) :
    SimC R P κ A N E (.ok a w) (.ok a x) := .inr ⟨w, rfl, h, hN⟩

theorem SimC.fail {x : σ} {w : IW} {N E : Nat} {e e' : TakeError} (he : ErrRel P e e') (h : R x w) (hE : phi κ A x w ≤ E) :
    SimC R P κ A N E (.err e' w : Res α) (.err e x) := .inr ⟨e', w, rfl, he, h, hE⟩

theorem SimC.panic {N E : Nat} : SimC R P κ A N E (.panic : Res α) .panic := .inr rfl

theorem SimC.oof {N E : Nat} {g : ResG σ α} : SimC R P κ A N E (.oof : Res α) g := .inl rfl

theorem SimC.mono {N E N' E' : Nat} {m : Res α} {g : ResG σ α} (h : SimC R P κ A N E m g) (h1 : N ≤ N') (h2 : E ≤ E') :
    SimC R P κ A N' E' m g := by
  rcases h with h | h
  · exact .inl h
  · refine .inr ?_
    cases g with
    | ok a y => obtain ⟨w', h3, h4, h5⟩ := h; exact ⟨w', h3, h4, Nat.le_trans h5 h1⟩
    | err e y => obtain ⟨e', w', h3, h4, h5, h6⟩ := h; exact ⟨e', w', h3, h4, h5, Nat.le_trans h6 h2⟩
    | panic => exact h
    | oof => exact h

theorem SimC.bind {N E N' E' : Nat} {m : Res α} {g : ResG σ α} {f : α → IW → Res β} {f' : α → σ → ResG σ β}
    (h : SimC R P κ A N E m g) (h' : ∀ a y w', R y w' → phi κ A y w' ≤ N → SimC R P κ A N' E' (f a w') (f' a y)) (hE : E ≤ E') :
    SimC R P κ A N' E' (m.bind f) (g.bind f') := by
  rcases h with h | h
  · exact .inl (by rw [h]; rfl)
  · cases g with
    | ok a y => obtain ⟨w', h3, h4, h5⟩ := h; rw [h3]; exact h' a y w' h4 h5
    | err e y => obtain ⟨e', w', h3, h4, h5, h6⟩ := h; rw [h3]; exact .inr ⟨e', w', rfl, h4, h5, Nat.le_trans h6 hE⟩
    | panic => exact .inr (by rw [show m = .panic from h]; rfl)
    | oof => exact h.elim

theorem SimC.map {N E : Nat} {m : Res α} {g : ResG σ α} (f : α → β) (h : SimC R P κ A N E m g) :
    SimC R P κ A N E (m.map f) (g.map f) := by
  rcases h with h | h
  · exact .inl (by rw [h]; rfl)
  · cases g with
    | ok a y => obtain ⟨w', h3, h4, h5⟩ := h; rw [h3]; exact .inr ⟨w', rfl, h4, h5⟩
    | err e y => obtain ⟨e', w', h3, h4, h5, h6⟩ := h; rw [h3]; exact .inr ⟨e', w', rfl, h4, h5, h6⟩
    | panic => exact .inr (by rw [show m = .panic from h]; rfl)
    | oof => exact h.elim

theorem SimC.orPanic {N E : Nat} {o : Option α} {f : α → Res β} {f' : α → ResG σ β}
    (h : ∀ a, o = some a → SimC R P κ A N E (f a) (f' a)) : SimC R P κ A N E (Chomp.orPanic o f) (orPanicG o f') := by
  cases o with
  | none => exact .panic
  | some a => exact h a rfl

variable {I : PImpl σ} {L : Nat}

theorem LikeIW.peek' (hI : LikeIW I R P κ L) {x : σ} {w : IW} (h : R x w) :
    ∃ x', I.peek x = (w.rem.head?, x') ∧ R x' w.peek.2 ∧ phi κ A x' w.peek.2 ≤ phi κ A x w + 1 := by
  obtain ⟨h1, h2⟩ := hI.peek h
  rw [IW.peek_fst] at h1
  refine ⟨_, by rw [← h1], h2, ?_⟩
  have := hI.cpeek x
  unfold phi
  rw [IW.peek_rem]
  omega

theorem LikeIW.next' (hI : LikeIW I R P κ L) {x : σ} {w : IW} (h : R x w) :
    ∃ x', I.next x = (w.rem.head?, x') ∧ R x' w.advance.2 ∧ phi κ A x' w.advance.2 ≤ phi κ A x w + 1 ∧
      (w.rem ≠ [] → phi κ A x' w.advance.2 + A ≤ phi κ A x w + 1) := by
  obtain ⟨h1, h2⟩ := hI.next h
  rw [IW.advance_fst] at h1
  have hc := hI.cnext x
  refine ⟨_, by rw [← h1], h2, ?_, fun hne => ?_⟩
  · unfold phi
    rw [IW.advance_rem]
    have : A * w.rem.tail.length ≤ A * w.rem.length := Nat.mul_le_mul_left _ (by rw [List.length_tail]; omega)
    omega
  · unfold phi
    rw [IW.advance_rem]
    cases hr : w.rem with
    | nil => exact absurd hr hne
    | cons c l =>
      rw [List.tail_cons, List.length_cons, Nat.mul_succ]
      omega

theorem IW.advance_eq' (w : IW) : w.advance = (w.rem.head?, w.advance.2) := by rw [← IW.advance_fst]

theorem consumeGo_simc (hI : LikeIW I R P κ L) (hA : 2 ≤ A) (s : List Char) : ∀ (es : List Char) (n : Nat) (x : σ) (w : IW), R x w →
    SimC R P κ A (phi κ A x w + 2 * es.length - A * es.length) (phi κ A x w + 1) (consumeGo s n es w) (consumeGoG I s n es x)
  | [], n, x, w, h => by
    rw [consumeGo, consumeGoG]
    exact .done _ h (by simp)
  | e :: es, n, x, w, h => by
    obtain ⟨x1, h1, h2, h3⟩ := hI.peek' (A := A) h
    rw [consumeGo, consumeGoG, h1, IW.peek_eq]
    cases hr : w.rem with
    | nil => exact .fail (hI.pos h2) h2 h3
    | cons c l =>
      dsimp only [List.head?_cons]
      by_cases hc : c = e
      · simp only [if_pos hc]
        obtain ⟨x2, h4, h5, h6, h7⟩ := hI.next' (A := A) h2
        have h7 := h7 (by rw [IW.peek_rem, hr]; simp)
        rw [h4]
        refine (consumeGo_simc hI hA s es (n + 1) x2 _ h5).mono ?_ ?_
        · rw [List.length_cons, Nat.mul_succ, Nat.mul_succ]
          omega
        · omega
      · simp only [if_neg hc]
        cases sliceTo s n with
        | none => exact .panic
        | some q => exact .fail ⟨hI.pos h2, rfl, rfl⟩ h2 h3

/-- `consume_str` of one character or more. -/
theorem consumeStr_simc (hI : LikeIW I R P κ L) (hA : 2 ≤ A) (s : List Char) (hs : s ≠ []) {x : σ} {w : IW} (h : R x w) {N E : Nat}
    (hN : phi κ A x w + 2 ≤ N + A) (hE : phi κ A x w + 1 ≤ E) :
    SimC R P κ A N E (consumeStr s w) (consumeStrG I s x) := by
  refine (consumeGo_simc hI hA s s 0 x w h).mono ?_ hE
  cases s with
  | nil => exact absurd rfl hs
  | cons c l =>
    rw [List.length_cons, Nat.mul_succ, Nat.mul_succ]
    have : 2 * l.length ≤ A * l.length := Nat.mul_le_mul_right _ hA
    omega

theorem phi_ge (κ : σ → Nat) (A : Nat) (x : σ) {w : IW} {c : Char} {l : List Char} (h : w.rem = c :: l) : A ≤ phi κ A x w := by
  unfold phi
  rw [h, List.length_cons, Nat.mul_succ]
  omega

/-- `consume_str` of a character that is there. -/
theorem consumeOne_simc (hI : LikeIW I R P κ L) (c : Char) {x : σ} {w : IW} (h : R x w) (hc : w.rem.head? = some c) {N E : Nat}
    (hN : phi κ A x w + 2 ≤ N + A) : SimC R P κ A N E (consumeStr [c] w) (consumeStrG I [c] x) := by
  obtain ⟨x1, h1, h2, h3⟩ := hI.peek' (A := A) h
  obtain ⟨x2, h4, h5, h6, h7⟩ := hI.next' (A := A) h2
  have h7 := h7 (by rw [IW.peek_rem]; rintro h8; rw [h8] at hc; simp at hc)
  unfold consumeStr consumeStrG
  rw [consumeGo, consumeGoG, h1, IW.peek_eq, hc]
  simp only [if_true, h4]
  rw [consumeGo, consumeGoG]
  exact .done _ h5 (by omega)

theorem skip_simc (hI : LikeIW I R P κ L) (hA : 2 ≤ A) (f : Char → Bool) : ∀ (l n : Nat) (x : σ) (w : IW), R x w →
    w.rem.length ≤ n → n < l →
    ∃ x', skipWhileG I f l x = .ok () x' ∧ R x' (skipGo f n w) ∧ phi κ A x' (skipGo f n w) ≤ phi κ A x w + 1
  | 0, n, x, w, h, h1, h2 => by omega
  | l + 1, n, x, w, h, h1, h2 => by
    obtain ⟨x1, h3, h4, h5⟩ := hI.peek' (A := A) h
    rw [skipWhileG, h3]
    cases hr : w.rem with
    | nil =>
      cases n with
      | zero => exact ⟨x1, rfl, by rw [skipGo]; exact h4, by rw [skipGo]; exact h5⟩
      | succ n =>
        rw [skipGo, IW.peek_eq, hr]
        exact ⟨x1, rfl, h4, h5⟩
    | cons c rest =>
      rw [hr, List.length_cons] at h1
      cases n with
      | zero => omega
      | succ n =>
        rw [skipGo, IW.peek_eq, hr]
        dsimp only [List.head?_cons]
        by_cases hf : f c = true
        · simp only [if_pos hf]
          obtain ⟨x2, h6, h7, h8, h9⟩ := hI.next' (A := A) h4
          have h9 := h9 (by rw [IW.peek_rem, hr]; simp)
          rw [h6]
          obtain ⟨x3, h10, h11, h12⟩ := skip_simc hI hA f l n x2 _ h7 (by rw [IW.advance_rem, IW.peek_rem, hr]; simp; omega) (by omega)
          exact ⟨x3, h10, h11, by omega⟩
        · simp only [if_neg hf]
          exact ⟨x1, rfl, h4, h5⟩

theorem SimC.skip (hI : LikeIW I R P κ L) (hA : 2 ≤ A) (f : Char → Bool) {x : σ} {w : IW} (h : R x w) {N E : Nat}
    {k : IW → Res β} {k' : σ → ResG σ β}
    (h' : ∀ y, R y (skipWhile f w) → phi κ A y (skipWhile f w) ≤ phi κ A x w + 1 →
      SimC R P κ A N E (k (skipWhile f w)) (k' y)) :
    SimC R P κ A N E (k (skipWhile f w)) ((skipWhileG I f L x).bind fun _ y => k' y) := by
  obtain ⟨x', h1, h2, h3⟩ := skip_simc (A := A) hI hA f L w.left x w h (by rw [IW.left_eq]; omega)
    (by rw [IW.left_eq]; exact hI.len h)
  rw [h1]
  exact h' x' h2 h3

/-! ## Arithmetic -/

theorem takeNumber_simc (hI : LikeIW I R P κ L) (hA : 3 ≤ A) (m : Ovf) : ∀ (l n : Nat) (out : Option Int) (x : σ) (w : IW), R x w →
    n ≤ l → SimC R P κ A (phi κ A x w + 1) (phi κ A x w + 1) (takeNumberGo m n out w) (takeNumberGoG I m l out x)
  | l, 0, out, x, w, h, h1 => .oof
  | 0, n + 1, out, x, w, h, h1 => by omega
  | l + 1, n + 1, out, x, w, h, h1 => by
    obtain ⟨x1, h3, h4, h5⟩ := hI.peek' (A := A) h
    rw [takeNumberGo, takeNumberGoG, h3, IW.peek_eq]
    cases hr : w.rem with
    | nil =>
      cases out with
      | none => exact .fail (hI.pos h4) h4 h5
      | some v => exact .done _ h4 h5
    | cons c rest =>
      dsimp only [List.head?_cons]
      by_cases hd : c.isDigit = true
      · simp only [if_pos hd]
        refine (consumeOne_simc hI c h4 (by rw [IW.peek_rem, hr]; rfl) (N := phi κ A x w + 3 - A) (E := 0) (by omega)).bind ?_
          (by omega)
        intro _ y w' hy hp
        refine SimC.orPanic fun v _ => SimC.orPanic fun v _ => ?_
        exact (takeNumber_simc hI hA m l n (some v) y w' hy (by omega)).mono (by omega) (by omega)
      · simp only [if_neg hd]
        cases out with
        | none => exact .fail ⟨hI.pos h4, rfl, rfl⟩ h4 h5
        | some v => exact .done _ h4 h5

/-- The five functions of the arithmetic parser, for a given bound on the recursion. -/
theorem arith_simc (hI : LikeIW I R P κ L) (hA : 8 ≤ A) (m : Ovf) : ∀ n : Nat,
    (∀ x w, R x w → SimC R P κ A (phi κ A x w + 3) (phi κ A x w + 3) (takeTerm m n w) (takeTermG I L m n x)) ∧
    (∀ v x w, R x w → SimC R P κ A (phi κ A x w + 1) (phi κ A x w + 1) (productLoop m n v w) (productLoopG I L m n v x)) ∧
    (∀ x w, R x w → SimC R P κ A (phi κ A x w + 4) (phi κ A x w + 4) (takeProduct m n w) (takeProductG I L m n x)) ∧
    (∀ v x w, R x w → SimC R P κ A (phi κ A x w + 1) (phi κ A x w + 1) (exprLoop m n v w) (exprLoopG I L m n v x)) ∧
    (∀ x w, R x w → SimC R P κ A (phi κ A x w + 5) (phi κ A x w + 5) (takeExpr m n w) (takeExprG I L m n x))
  | 0 => by
    refine ⟨?_, ?_, ?_, ?_, ?_⟩ <;> intros <;> simp only [takeTerm, productLoop, takeProduct, exprLoop, takeExpr] <;> exact .oof
  | n + 1 => by
    obtain ⟨iT, iPL, iP, iEL, iE⟩ := arith_simc hI hA m n
    refine ⟨?_, ?_, ?_, ?_, ?_⟩
    · intro x w h
      rw [takeTerm, takeTermG]
      refine SimC.bind (N := phi κ A x w + 2) (E := phi κ A x w + 3) ?_ (fun v y w' hy hp => ?_) (by omega)
      · obtain ⟨x1, h3, h4, h5⟩ := hI.peek' (A := A) h
        rw [h3, IW.peek_eq]
        cases hr : w.rem with
        | nil => exact .fail (hI.pos h4) h4 (by omega)
        | cons c rest =>
          have hd : w.peek.2.rem.head? = some c := by rw [IW.peek_rem, hr]; rfl
          have hge := phi_ge κ A x hr
          dsimp only [List.head?_cons]
          by_cases h1 : c = '-'
          · simp only [if_pos h1]
            subst h1
            refine (consumeOne_simc hI _ h4 hd (N := phi κ A x w + 3 - A) (E := 0) (by omega)).bind ?_ (by omega)
            intro _ y w' hy hp
            refine SimC.skip hI (by omega) _ hy (k := fun w => (takeNumber m w).bind fun x w => orPanic (m.fit (-x)) fun x => .ok x w)
              fun z hz hpz => ?_
            refine (takeNumber_simc hI (by omega) m L _ none z _ hz ?_).bind (fun v y1 w1 hy1 hp1 => ?_) (by omega)
            · rw [IW.left_eq]; exact hI.len hz
            · exact SimC.orPanic fun v _ => .done _ hy1 (by omega)
          · simp only [if_neg h1]
            by_cases h2 : c.isDigit = true
            · simp only [if_pos h2]
              refine (takeNumber_simc hI (by omega) m L _ none x1 _ h4 ?_).mono (by omega) (by omega)
              rw [IW.left_eq]; exact hI.len h4
            · simp only [if_neg h2]
              by_cases h6 : c = '('
              · simp only [if_pos h6]
                subst h6
                refine (consumeOne_simc hI _ h4 hd (N := phi κ A x w + 3 - A) (E := 0) (by omega)).bind ?_ (by omega)
                intro _ y w' hy hp
                refine SimC.skip hI (by omega) _ hy (k := fun w => match takeExpr m n w with
                  | .ok v w => (consumeStr [')'] w).map fun _ => v
                  | .err e w => (consumeStr [')'] w).bind fun _ w => .err e w
                  | .panic => .panic
                  | .oof => .oof) fun z hz hpz => ?_
                have hS := iE z _ hz
                rcases hS with hS | hS
                · rw [hS]; exact .oof
                · cases hg : takeExprG I L m n z with
                  | ok a y1 =>
                    rw [hg] at hS
                    obtain ⟨w1, k1, k2, k3⟩ := hS
                    rw [k1]
                    exact (consumeStr_simc hI (by omega) _ (by simp) k2 (by omega) (by omega)).map _
                  | err e y1 =>
                    rw [hg] at hS
                    obtain ⟨e', w1, k1, k2, k3, k4⟩ := hS
                    rw [k1]
                    exact (consumeStr_simc hI (by omega) _ (by simp) k3 (N := phi κ A x w + 3) (E := phi κ A x w + 3)
                      (by omega) (by omega)).bind (fun _ y2 w2 hy2 hp2 => .fail k2 hy2 (by omega)) (by omega)
                  | panic => rw [hg] at hS; rw [show _ = Res.panic from hS]; exact .panic
                  | oof => rw [hg] at hS; exact hS.elim
              · simp only [if_neg h6]
                exact .fail ⟨hI.pos h4, rfl, rfl⟩ h4 (by omega)
      · exact SimC.skip hI (by omega) _ hy (k := fun w => .ok v w) fun z hz hpz => .done _ hz (by omega)
    · intro v x w h
      rw [productLoop, productLoopG]
      obtain ⟨x1, h3, h4, h5⟩ := hI.peek' (A := A) h
      rw [h3, IW.peek_eq]
      cases hr : w.rem with
      | nil => exact .done _ h4 (by omega)
      | cons c rest =>
        have hd : w.peek.2.rem.head? = some c := by rw [IW.peek_rem, hr]; rfl
        have hge := phi_ge κ A x hr
        dsimp only [List.head?_cons]
        by_cases h1 : c = '*'
        · simp only [if_pos h1]
          subst h1
          refine (consumeOne_simc hI _ h4 hd (N := phi κ A x w + 3 - A) (E := 0) (by omega)).bind ?_ (by omega)
          intro _ y w' hy hp
          refine SimC.skip hI (by omega) _ hy (k := fun w => (takeTerm m n w).bind fun x w => orPanic (m.fit (v * x)) fun out =>
            productLoop m n out w) fun z hz hpz => ?_
          refine (iT z _ hz).bind (fun t y1 w1 hy1 hp1 => SimC.orPanic fun o _ => ?_) (by omega)
          exact (iPL o y1 w1 hy1).mono (by omega) (by omega)
        · simp only [if_neg h1]
          by_cases h2 : c = '/'
          · simp only [if_pos h2]
            subst h2
            refine (consumeOne_simc hI _ h4 hd (N := phi κ A x w + 3 - A) (E := 0) (by omega)).bind ?_ (by omega)
            intro _ y w' hy hp
            refine SimC.skip hI (by omega) _ hy (k := fun w => (takeTerm m n w).bind fun x w => orPanic (divI64 v x) fun out =>
              productLoop m n out w) fun z hz hpz => ?_
            refine (iT z _ hz).bind (fun t y1 w1 hy1 hp1 => SimC.orPanic fun o _ => ?_) (by omega)
            exact (iPL o y1 w1 hy1).mono (by omega) (by omega)
          · simp only [if_neg h2]
            exact .done _ h4 (by omega)
    · intro x w h
      rw [takeProduct, takeProductG]
      exact (iT x w h).bind (fun v y w' hy hp => (iPL v y w' hy).mono (by omega) (by omega)) (by omega)
    · intro v x w h
      rw [exprLoop, exprLoopG]
      obtain ⟨x1, h3, h4, h5⟩ := hI.peek' (A := A) h
      rw [h3, IW.peek_eq]
      cases hr : w.rem with
      | nil => exact .done _ h4 (by omega)
      | cons c rest =>
        have hd : w.peek.2.rem.head? = some c := by rw [IW.peek_rem, hr]; rfl
        have hge := phi_ge κ A x hr
        dsimp only [List.head?_cons]
        by_cases h1 : c = '+'
        · simp only [if_pos h1]
          subst h1
          refine (consumeOne_simc hI _ h4 hd (N := phi κ A x w + 3 - A) (E := 0) (by omega)).bind ?_ (by omega)
          intro _ y w' hy hp
          refine SimC.skip hI (by omega) _ hy (k := fun w => (takeProduct m n w).bind fun x w => orPanic (m.fit (v + x)) fun out =>
            exprLoop m n out w) fun z hz hpz => ?_
          refine (iP z _ hz).bind (fun t y1 w1 hy1 hp1 => SimC.orPanic fun o _ => ?_) (by omega)
          exact (iEL o y1 w1 hy1).mono (by omega) (by omega)
        · simp only [if_neg h1]
          by_cases h2 : c = '-'
          · simp only [if_pos h2]
            subst h2
            refine (consumeOne_simc hI _ h4 hd (N := phi κ A x w + 3 - A) (E := 0) (by omega)).bind ?_ (by omega)
            intro _ y w' hy hp
            refine SimC.skip hI (by omega) _ hy (k := fun w => (takeProduct m n w).bind fun x w => orPanic (m.fit (v - x)) fun out =>
              exprLoop m n out w) fun z hz hpz => ?_
            refine (iP z _ hz).bind (fun t y1 w1 hy1 hp1 => SimC.orPanic fun o _ => ?_) (by omega)
            exact (iEL o y1 w1 hy1).mono (by omega) (by omega)
          · simp only [if_neg h2]
            exact .done _ h4 (by omega)
    · intro x w h
      rw [takeExpr, takeExprG]
      exact (iP x w h).bind (fun v y w' hy hp => (iEL v y w' hy).mono (by omega) (by omega)) (by omega)

/-! ## JSON -/

theorem takeChars_simc (hI : LikeIW I R P κ L) (hA : 1 ≤ A) (set : List Char) : ∀ (k : Nat) (x : σ) (w : IW), R x w →
    SimC R P κ A (phi κ A x w) (phi κ A x w + 1) (takeCharsFrom set k w) (takeCharsFromG I set k x)
  | 0, x, w, h => by
    rw [takeCharsFrom, takeCharsFromG]
    exact .done _ h (Nat.le_refl _)
  | k + 1, x, w, h => by
    obtain ⟨x1, h1, h2, h3, h4⟩ := hI.next' (A := A) h
    rw [takeCharsFrom, takeCharsFromG, h1, IW.advance_eq']
    cases hr : w.rem with
    | nil => exact .fail (hI.pos h2) h2 h3
    | cons c l =>
      have h4 := h4 (by rw [hr]; simp)
      dsimp only [List.head?_cons]
      by_cases hc : set.contains c = true
      · simp only [if_pos hc]
        exact ((takeChars_simc hI hA set k x1 _ h2).mono (by omega) (by omega)).map _
      · simp only [if_neg hc]
        exact .fail ⟨hI.pos h2, rfl, rfl⟩ h2 h3

theorem parseU16_simc (hI : LikeIW I R P κ L) (hA : 1 ≤ A) (m : Ovf) {x : σ} {w : IW} (h : R x w) :
    SimC R P κ A (phi κ A x w) (phi κ A x w + 1) (parseU16 m w) (parseU16G I m x) :=
  (takeChars_simc hI hA jsonHex 4 x w h).bind (fun _ _ _ hy hp => SimC.orPanic fun _ _ => .done _ hy hp) (Nat.le_refl _)

theorem strLoop_simc (hI : LikeIW I R P κ L) (hA : 4 ≤ A) (m : Ovf) : ∀ (l n : Nat) (s : List Char) (x : σ) (w : IW), R x w →
    n ≤ l → SimC R P κ A (phi κ A x w) (phi κ A x w + 1) (strLoop m n s w) (strLoopG I m l s x)
  | l, 0, s, x, w, h, h1 => .oof
  | 0, n + 1, s, x, w, h, h1 => by omega
  | l + 1, n + 1, s, x, w, h, h1 => by
    obtain ⟨x1, h3, h4, h5, h6⟩ := hI.next' (A := A) h
    rw [strLoop, strLoopG, h3, IW.advance_eq']
    cases hr : w.rem with
    | nil => exact .fail (hI.pos h4) h4 h5
    | cons c rest =>
      have h6 := h6 (by rw [hr]; simp)
      have ih := fun s x w h => strLoop_simc hI hA m l n s x w h (by omega)
      dsimp only [List.head?_cons]
      by_cases hq : c = '"'
      · simp only [if_pos hq]
        exact .done _ h4 (by omega)
      · simp only [if_neg hq]
        by_cases hp : jsonPlain c = true
        · simp only [if_pos hp]
          exact (ih _ x1 _ h4).mono (by omega) (by omega)
        · simp only [if_neg hp]
          by_cases hb : c = '\\'
          · simp only [if_pos hb]
            obtain ⟨x2, k3, k4, k5, k6⟩ := hI.next' (A := A) h4
            rw [k3, IW.advance_eq' w.advance.2]
            cases hr2 : w.advance.2.rem with
            | nil => exact .fail (hI.pos k4) k4 (by omega)
            | cons e rest2 =>
              have k6 := k6 (by rw [hr2]; simp)
              dsimp only [List.head?_cons]
              cases hj : jsonEscape e with
              | some y => exact (ih _ x2 _ k4).mono (by omega) (by omega)
              | none =>
                dsimp only
                by_cases hu : e = 'u'
                · simp only [if_pos hu]
                  refine (parseU16_simc hI (by omega) m k4).bind (fun v y w1 hy hpy => ?_) (by omega)
                  refine SimC.bind (N := phi κ A x w) (E := phi κ A x w + 1) ?_ (fun cp z w2 hz hpz => SimC.orPanic fun ch _ =>
                    (ih _ z w2 hz).mono (by omega) (by omega)) (by omega)
                  by_cases hsur : 0xD800 ≤ v ∧ v ≤ 0xDFFF
                  · simp only [if_pos hsur]
                    refine (consumeStr_simc hI (by omega) ['\\', 'u'] (by simp) hy (N := phi κ A x w) (E := phi κ A x w + 1) (by omega)
                      (by omega)).bind (fun _ y1 w3 hy1 hp1 => ?_) (by omega)
                    exact (parseU16_simc hI (by omega) m hy1).bind (fun v y w1 hy hpy => SimC.orPanic fun _ _ => .done _ hy (by omega))
                      (by omega)
                  · simp only [if_neg hsur]
                    exact .done _ hy (by omega)
                · simp only [if_neg hu]
                  exact .panic
          · simp only [if_neg hb]
            exact .panic

theorem takeStr_simc (hI : LikeIW I R P κ L) (hA : 4 ≤ A) (m : Ovf) {x : σ} {w : IW} (h : R x w) :
    SimC R P κ A (phi κ A x w) (phi κ A x w + 1) (jsonTakeStr m w) (jsonTakeStrG I L m x) := by
  unfold jsonTakeStr jsonTakeStrG
  refine (consumeStr_simc hI (by omega) ['"'] (by simp) h (N := phi κ A x w) (E := phi κ A x w + 1) (by omega)
    (by omega)).bind (fun _ y w1 hy hp => ?_) (by omega)
  exact (strLoop_simc hI hA m L _ [] y w1 hy (by rw [IW.left_eq]; exact hI.len hy)).mono (by omega) (by omega)

theorem numLoop_simc (hI : LikeIW I R P κ L) (hA : 2 ≤ A) : ∀ (l n : Nat) (s : List Char) (x : σ) (w : IW), R x w →
    n ≤ l → SimC R P κ A (phi κ A x w + 1) (phi κ A x w + 1) (numLoop n s w) (numLoopG I l s x)
  | l, 0, s, x, w, h, h1 => .oof
  | 0, n + 1, s, x, w, h, h1 => by omega
  | l + 1, n + 1, s, x, w, h, h1 => by
    obtain ⟨x1, h3, h4, h5⟩ := hI.peek' (A := A) h
    rw [numLoop, numLoopG, h3, IW.peek_eq]
    cases hr : w.rem with
    | nil => exact .done _ h4 h5
    | cons c rest =>
      dsimp only [List.head?_cons]
      by_cases hd : numChar c = true
      · simp only [if_pos hd]
        obtain ⟨x2, k3, k4, k5, k6⟩ := hI.next' (A := A) h4
        have k6 := k6 (by rw [IW.peek_rem, hr]; simp)
        rw [k3, IW.peek_rem, hr]
        dsimp only [List.head?_cons]
        exact (numLoop_simc hI hA l n _ x2 _ k4 (by omega)).mono (by omega) (by omega)
      · simp only [if_neg hd]
        exact .done _ h4 h5

theorem takeNum_simc (hI : LikeIW I R P κ L) (hA : 2 ≤ A) (F : F64) {x : σ} {w : IW} (h : R x w) :
    SimC R P κ A (phi κ A x w + 1) (phi κ A x w + 1) (takeNum F w) (takeNumG I L F x) := by
  obtain ⟨x1, h3, h4, h5, h6⟩ := hI.next' (A := A) h
  rw [takeNum, takeNumG, h3, IW.advance_eq']
  cases hr : w.rem with
  | nil => exact .panic
  | cons c rest =>
    have h6 := h6 (by rw [hr]; simp)
    dsimp only [List.head?_cons]
    exact (numLoop_simc hI hA L _ [c] x1 _ h4 (by rw [IW.left_eq]; exact hI.len h4)).bind
      (fun v y w1 hy hp => SimC.orPanic fun _ _ => .done _ hy (by omega)) (by omega)

/-- The same result of an item. -/
def ItemRel (P : LineCol → LineCol → Prop) : Except TakeError α → Except TakeError α → Prop
  | .ok a, .ok b => a = b
  | .error e, .error e' => ErrRel P e e'
  | _, _ => False

/-- `g` is like `m`: after an item either a separator has been consumed, or the stop character is next. -/
def SimI (R : σ → IW → Prop) (P : LineCol → LineCol → Prop) (κ : σ → Nat) (A : Nat) (stop : Char) (B : Nat)
    (m : IterOut α) (g : IterOutG σ α) : Prop :=
  m = .oof ∨ match g with
    | .done y => ∃ w', m = .done w' ∧ R y w' ∧ phi κ A y w' ≤ B
    | .item r y => ∃ r' w', m = .item r' w' ∧ ItemRel P r r' ∧ R y w' ∧ phi κ A y w' ≤ B + 2 ∧
        ((∃ a, r = .ok a) → phi κ A y w' + A ≤ B + 3 ∨ w'.rem.head? = some stop ∧ phi κ A y w' ≤ B + 1)
    | .panic => m = .panic
    | .oof => False

theorem iterAfter_simi (hI : LikeIW I R P κ L) (hA : 1 ≤ A) (cfg : IterCfg) {res res' : Except TakeError α} (hres : ItemRel P res res')
    {x : σ} {w : IW} (h : R x w) (B : Nat) (hB : phi κ A x w ≤ B) :
    SimI R P κ A cfg.stop B (iterAfter cfg res' w) (iterAfterG I cfg res x) := by
  obtain ⟨x1, h3, h4, h5⟩ := hI.peek' (A := A) h
  rw [iterAfter, iterAfterG, h3, IW.peek_eq]
  cases hr : w.rem with
  | nil => exact .inr ⟨_, _, rfl, hI.pos h4, h4, by omega, fun ⟨a, ha⟩ => by cases ha⟩
  | cons c rest =>
    dsimp only [List.head?_cons]
    by_cases hc : c = cfg.sep
    · rw [if_pos hc, if_pos hc]
      obtain ⟨x2, k3, k4, k5, k6⟩ := hI.next' (A := A) h4
      have k6 := k6 (by rw [IW.peek_rem, hr]; simp)
      rw [k3, IW.peek_rem, hr]
      simp only [List.head?_cons, if_true]
      obtain ⟨x3, j3, j4, j5⟩ := hI.peek' (A := A) k4
      rw [j3, IW.peek_eq]
      cases hr2 : w.peek.2.advance.2.rem with
      | nil => exact .inr ⟨_, _, rfl, hI.pos j4, j4, by omega, fun ⟨a, ha⟩ => by cases ha⟩
      | cons c2 rest2 =>
        dsimp only [List.head?_cons]
        by_cases hf : cfg.first.contains c2 = true
        · simp only [if_pos hf]
          exact .inr ⟨_, _, rfl, hres, j4, by omega, fun _ => .inl (by omega)⟩
        · simp only [if_neg hf]
          exact .inr ⟨_, _, rfl, ⟨hI.pos j4, rfl, rfl⟩, j4, by omega, fun ⟨a, ha⟩ => by cases ha⟩
    · simp only [if_neg hc]
      by_cases hs : c = cfg.stop
      · simp only [if_pos hs]
        exact .inr ⟨_, _, rfl, hres, h4, by omega, fun _ => .inr ⟨by rw [IW.peek_rem, hr, hs]; rfl, by omega⟩⟩
      · simp only [if_neg hs]
        exact .inr ⟨_, _, rfl, ⟨hI.pos h4, rfl, rfl⟩, h4, by omega, fun ⟨a, ha⟩ => by cases ha⟩

theorem iterNext_simi (hI : LikeIW I R P κ L) (hA : 1 ≤ A) (cfg : IterCfg) {V : Nat} {f : IW → Res α} {g : σ → ResG σ α}
    (hf : ∀ x w, R x w → SimC R P κ A (phi κ A x w + V) (phi κ A x w + V) (f w) (g x)) {x : σ} {w : IW} (h : R x w) :
    SimI R P κ A cfg.stop (phi κ A x w + 1 + V) (iterNext cfg f w) (iterNextG I cfg g x) ∧
    (w.rem.head? = some cfg.stop → ∃ y w', iterNext cfg f w = .done w' ∧ iterNextG I cfg g x = .done y ∧ R y w' ∧
      phi κ A y w' ≤ phi κ A x w + 1) := by
  obtain ⟨x1, h3, h4, h5⟩ := hI.peek' (A := A) h
  rw [iterNext, iterNextG, h3, IW.peek_eq]
  cases hr : w.rem with
  | nil => exact ⟨.inr ⟨_, rfl, h4, by omega⟩, fun h => by cases h⟩
  | cons c rest =>
    dsimp only [List.head?_cons]
    by_cases hc : c = cfg.stop
    · simp only [if_pos hc]
      exact ⟨.inr ⟨_, rfl, h4, by omega⟩, fun _ => ⟨_, _, rfl, rfl, h4, h5⟩⟩
    · simp only [if_neg hc]
      refine ⟨?_, fun h => absurd (Option.some.inj h) hc⟩
      rcases hf x1 _ h4 with hS | hS
      · rw [hS]; exact .inl rfl
      · cases hg : g x1 with
        | ok a y =>
          rw [hg] at hS
          obtain ⟨w1, k1, k2, k3⟩ := hS
          rw [k1]
          exact iterAfter_simi hI hA cfg (res := .ok a) (res' := .ok a) rfl k2 _ (by omega)
        | err e y =>
          rw [hg] at hS
          obtain ⟨e', w1, k1, k2, k3, k4⟩ := hS
          rw [k1]
          exact iterAfter_simi hI hA cfg (res := .error e) (res' := .error e') k2 k3 _ (by omega)
        | panic => rw [hg] at hS; rw [show _ = Res.panic from hS]; exact .inr rfl
        | oof => rw [hg] at hS; exact hS.elim

theorem collect_simc (hI : LikeIW I R P κ L) (cfg : IterCfg) {V : Nat} (hA : V + 4 ≤ A) {f : IW → Res α} {g : σ → ResG σ α}
    (hf : ∀ x w, R x w → SimC R P κ A (phi κ A x w + V) (phi κ A x w + V) (f w) (g x)) : ∀ (l n : Nat) (x : σ) (w : IW), R x w →
    n ≤ l → SimC R P κ A (phi κ A x w + V + 3) (phi κ A x w + V + 3) (collectIter cfg f n w) (collectIterG I cfg g l x) ∧
      (w.rem.head? = some cfg.stop →
        SimC R P κ A (phi κ A x w + 1) (phi κ A x w + 1) (collectIter cfg f n w) (collectIterG I cfg g l x))
  | l, 0, x, w, h, h1 => ⟨.oof, fun _ => .oof⟩
  | 0, n + 1, x, w, h, h1 => by omega
  | l + 1, n + 1, x, w, h, h1 => by
    have ih := fun x w h => collect_simc hI cfg hA hf l n x w h (by omega)
    obtain ⟨hN, hS⟩ := iterNext_simi (A := A) hI (by omega) cfg hf h
    rw [collectIter, collectIterG]
    refine ⟨?_, fun hst => ?_⟩
    · rcases hN with hN | hN
      · rw [hN]; exact .oof
      · cases hg : iterNextG I cfg g x with
        | done y =>
          rw [hg] at hN
          obtain ⟨w1, k1, k2, k3⟩ := hN
          rw [k1]
          exact .done _ k2 (by omega)
        | item r y =>
          rw [hg] at hN
          obtain ⟨r', w1, k1, k2, k3, k4, k5⟩ := hN
          rw [k1]
          cases r with
          | error e =>
            cases r' with
            | error e' => exact .fail k2 k3 (by omega)
            | ok b => exact k2.elim
          | ok a =>
            cases r' with
            | error e' => exact k2.elim
            | ok b =>
              have k2 : a = b := k2
              subst k2
              dsimp only
              obtain ⟨i1, i2⟩ := ih y w1 k3
              rcases k5 ⟨a, rfl⟩ with k6 | ⟨k6, k7⟩
              · exact (i1.mono (by omega) (by omega)).map _
              · exact ((i2 k6).mono (by omega) (by omega)).map _
        | panic => rw [hg] at hN; rw [show _ = IterOut.panic from hN]; exact .panic
        | oof => rw [hg] at hN; exact hN.elim
    · obtain ⟨y, w1, k1, k2, k3, k4⟩ := hS hst
      rw [k1, k2]
      exact .done _ k3 k4

theorem member_simc (hI : LikeIW I R P κ L) (hA : 4 ≤ A) (m : Ovf) {f : IW → Res α} {g : σ → ResG σ α}
    (hf : ∀ x w, R x w → SimC R P κ A (phi κ A x w + 4) (phi κ A x w + 4) (f w) (g x)) (x : σ) (w : IW) (h : R x w) :
    SimC R P κ A (phi κ A x w + 4) (phi κ A x w + 4) (takeMember m f w) (takeMemberG I L m g x) := by
  refine SimC.skip hI (by omega) _ h (k := fun w => (jsonTakeStr m w).bind fun key w =>
    (consumeStr [':'] (jsonSkipWs w)).bind fun _ w => (f w).map fun v => (key, v)) fun y hy hp => ?_
  refine (takeStr_simc hI hA m hy).bind (fun key z w1 hz hpz => ?_) (by omega)
  refine SimC.skip hI (by omega) _ hz (k := fun w => (consumeStr [':'] w).bind fun _ w => (f w).map fun v => (key, v))
    fun y1 hy1 hp1 => ?_
  refine (consumeStr_simc hI (by omega) [':'] (by simp) hy1 (N := phi κ A x w + 4 - A) (E := phi κ A x w + 4) (by omega)
    (by omega)).bind (fun _ y2 w2 hy2 hp2 => ?_) (by omega)
  exact ((hf y2 w2 hy2).mono (by omega) (by omega)).map _

theorem branch_simc (hI : LikeIW I R P κ L) (hA : 9 ≤ A) (F : F64) (m : Ovf) {f : IW → Res (JValue F)} {g : σ → ResG σ (JValue F)}
    (hf : ∀ x w, R x w → SimC R P κ A (phi κ A x w + 4) (phi κ A x w + 4) (f w) (g x)) (c : Char) (x : σ) (w : IW) (h : R x w)
    (hc : w.rem.head? = some c) :
    SimC R P κ A (phi κ A x w + 1) (phi κ A x w + 1) (jsonBranch F m f c w) (jsonBranchG I L F m g c x) := by
  have hge : A ≤ phi κ A x w := by
    cases hr : w.rem with
    | nil => rw [hr] at hc; simp at hc
    | cons c l => exact phi_ge κ A x hr
  have hle := hI.len h
  unfold jsonBranch jsonBranchG
  by_cases h1 : c = 'n'
  · simp only [if_pos h1]
    exact (consumeStr_simc hI (by omega) _ (by decide) h (by omega) (by omega)).map _
  simp only [if_neg h1]
  by_cases h2 : c = 't'
  · simp only [if_pos h2]
    exact (consumeStr_simc hI (by omega) _ (by decide) h (by omega) (by omega)).map _
  simp only [if_neg h2]
  by_cases h3 : c = 'f'
  · simp only [if_pos h3]
    exact (consumeStr_simc hI (by omega) _ (by decide) h (by omega) (by omega)).map _
  simp only [if_neg h3]
  by_cases h4 : (c.isDigit || c == '-') = true
  · simp only [if_pos h4]
    exact (takeNum_simc hI (by omega) F h).map _
  simp only [if_neg h4]
  by_cases h5 : c = '"'
  · simp only [if_pos h5]
    exact ((takeStr_simc hI (by omega) m h).mono (by omega) (by omega)).map _
  simp only [if_neg h5]
  by_cases h6 : c = '['
  · simp only [if_pos h6]
    subst h6
    refine (consumeOne_simc hI _ h hc (N := phi κ A x w + 2 - A) (E := 0) (by omega)).bind (fun _ y w1 hy hp => ?_) (by omega)
    refine (collect_simc (V := 4) hI arrayCfg (by omega) hf L _ y w1 hy (by rw [IW.left_eq]; exact hI.len hy)).1.bind
      (fun l z w2 hz hpz => ?_) (by omega)
    exact (consumeStr_simc hI (by omega) _ (by simp) hz (by omega) (by omega)).map _
  simp only [if_neg h6]
  by_cases h7 : c = '{'
  · simp only [if_pos h7]
    subst h7
    refine (consumeOne_simc hI _ h hc (N := phi κ A x w + 2 - A) (E := 0) (by omega)).bind (fun _ y w1 hy hp => ?_) (by omega)
    refine (collect_simc (V := 4) hI objectCfg (by omega) (member_simc hI (by omega) m hf) L _ y w1 hy
      (by rw [IW.left_eq]; exact hI.len hy)).1.bind (fun l z w2 hz hpz => ?_) (by omega)
    exact (consumeStr_simc hI (by omega) _ (by simp) hz (by omega) (by omega)).map _
  simp only [if_neg h7]
  exact .fail ⟨hI.pos h, rfl, rfl⟩ h (by omega)

theorem json_simc (hI : LikeIW I R P κ L) (hA : 9 ≤ A) (F : F64) (m : Ovf) : ∀ (n : Nat) (x : σ) (w : IW), R x w →
    SimC R P κ A (phi κ A x w + 4) (phi κ A x w + 4) (takeJson F m n w) (takeJsonG I L F m n x)
  | 0, x, w, h => .oof
  | n + 1, x, w, h => by
    have ih := json_simc hI hA F m n
    rw [takeJson, takeJsonG]
    refine SimC.bind (N := phi κ A x w + 3) (E := phi κ A x w + 3) ?_ (fun v y w' hy hp => ?_) (by omega)
    · refine SimC.skip hI (by omega) _ h (k := fun w => match w.peek with
        | (none, w) => .err (.endOfStream w.pos) w
        | (some c, w) => jsonBranch F m (takeJson F m n) c w) fun z hz hpz => ?_
      obtain ⟨x1, h3, h4, h5⟩ := hI.peek' (A := A) hz
      rw [h3, IW.peek_eq]
      cases hr : (skipWhile (jsonWs.contains ·) w).rem with
      | nil => exact .fail (hI.pos h4) h4 (by omega)
      | cons c rest =>
        exact (branch_simc hI hA F m ih c x1 _ h4 (by rw [IW.peek_rem, hr]; rfl)).mono (by omega) (by omega)
    · exact SimC.skip hI (by omega) _ hy (k := fun w => .ok v w) fun z hz hpz => .done _ hz (by omega)

/-! ## Whole parses -/

/-- The same result, errors at places related by `P`. -/
def ResRel (P : LineCol → LineCol → Prop) : Except ParseError α → ParseRes α → Prop
  | .ok a, .ok b => a = b
  | .error (.take e), .err (.take e') => ErrRel P e e'
  | .error (.inputContinues p), .err (.inputContinues p') => P p p'
  | _, _ => False

theorem parseEnd_simc (hI : LikeIW I R P κ L) {f : IW → Res α} {g : σ → ResG σ α} {x : σ} {w : IW} {N : Nat}
    (h : SimC R P κ A N N (f w) (g x)) (hne : f w ≠ .oof) :
    match parseEndG I g x with
    | .done r y => ResRel P r (parseWith f w) ∧ κ y ≤ N + 1
    | .panic => parseWith f w = .panic
    | .oof => False := by
  rcases h with h | h
  · exact absurd h hne
  · unfold parseEndG parseWith
    cases hg : g x with
    | ok a y =>
      rw [hg] at h
      obtain ⟨w1, h1, h2, h3⟩ := h
      rw [h1]
      obtain ⟨y1, k1, k2, k3⟩ := hI.peek' (A := A) h2
      have hk : κ y1 ≤ N + 1 := by
        unfold phi at h3 k3
        omega
      dsimp only
      rw [k1, IW.peek_eq]
      cases hr : w1.rem with
      | nil => exact ⟨rfl, hk⟩
      | cons c l => exact ⟨hI.pos k2, hk⟩
    | err e y =>
      rw [hg] at h
      obtain ⟨e', w1, h1, h2, h3, h4⟩ := h
      rw [h1]
      exact ⟨h2, by unfold phi at h4; omega⟩
    | panic => rw [hg] at h; rw [show _ = Res.panic from h]
    | oof => rw [hg] at h; exact h.elim

end

end Chomp
