import Verif.Props.Order

/-!
# C21: when reduction returns a result, returns an error, and runs for ever

The order in which the reducer contracts calls and lets, one contraction after the other.
-/

namespace Chomp

/-! ## Specification -/

/-- The next contraction: calls and lets outside of functions, what is called before the call, parts from left to right (a part only when
those before it are finished); the function below a fix point is entered. -/
inductive Core.Next : Core → Core → Prop
  | beta (n : Nat) (b : Core) (args : List Core) : args.length = n → Next (.call (.lam n b) args) (b.sub (instArgs args))
  | letE (b c : Core) : Next (.letE b c) (c.sub (inst 0 b))
  | callOn (o o' : Core) (args : List Core) : Next o o' → Next (.call o args) (.call o' args)
  | cat (pre : List Core) (e e' : Core) (post : List Core) : (∀ x ∈ pre, x.settled) → Next e e' →
      Next (.cat (pre ++ e :: post)) (.cat (pre ++ e' :: post))
  | alt (pre : List Core) (e e' : Core) (post : List Core) : (∀ x ∈ pre, x.settled) → Next e e' →
      Next (.alt (pre ++ e :: post)) (.alt (pre ++ e' :: post))
  | fix (b b' : Core) : Next b b' → Next (.fix b) (.fix b')
  | fixLam (n : Nat) (c c' : Core) : Next c c' → Next (.fix (.lam n c)) (.fix (.lam n c'))

inductive Core.Nexts : Core → Core → Prop
  | refl (e : Core) : Nexts e e
  | head {a b c : Core} : Core.Next a b → Nexts b c → Nexts a c

/-- The next thing to be done is a call that cannot be contracted: of something finished that is no function, or of a function with another
number of parameters.  `Blocked c e`: this call is `c`. -/
inductive Core.Blocked : Core → Core → Prop
  | notFunction (o : Core) (args : List Core) : o.settled → (∀ n b, o ≠ .lam n b) → Blocked (.call o args) (.call o args)
  | argCount (n : Nat) (b : Core) (args : List Core) : n ≠ args.length → Blocked (.call (.lam n b) args) (.call (.lam n b) args)
  | callOn (c o : Core) (args : List Core) : Blocked c o → Blocked c (.call o args)
  | cat (c : Core) (pre : List Core) (e : Core) (post : List Core) : (∀ x ∈ pre, x.settled) → Blocked c e → Blocked c (.cat (pre ++ e :: post))
  | alt (c : Core) (pre : List Core) (e : Core) (post : List Core) : (∀ x ∈ pre, x.settled) → Blocked c e → Blocked c (.alt (pre ++ e :: post))
  | fix (c b : Core) : Blocked c b → Blocked c (.fix b)
  | fixLam (c : Core) (n : Nat) (b : Core) : Blocked c b → Blocked c (.fix (.lam n b))

/-! ## The order is an order of contractions, and deterministic -/

theorem Core.Next.step {a b : Core} (h : Core.Next a b) : Core.Step a b := by
  induction h with
  | beta n b args hl => exact .beta n b args hl
  | letE b c => exact .letE b c
  | callOn o o' args _ ih => exact .callOn _ _ _ ih
  | cat pre e e' post _ _ ih => exact .cat _ _ _ _ ih
  | alt pre e e' post _ _ ih => exact .alt _ _ _ _ ih
  | fix b b' _ ih => exact .fix _ _ ih
  | fixLam n c c' _ ih => exact .fix _ _ (.lam _ _ _ ih)

theorem settled_fix_iff {b : Core} : (Core.fix b).settled ↔ (∃ n c, b = .lam n c ∧ c.settled) ∨ ((∀ n c, b ≠ .lam n c) ∧ b.settled) := by
  cases b with
  | lam n b => exact ⟨fun h => .inl ⟨n, b, rfl, h⟩, by rintro (⟨_, _, ⟨⟩, h⟩ | ⟨h, _⟩) <;> first | exact h | exact absurd rfl (h _ _)⟩
  | _ => simp [Core.settled]

theorem Core.Next.not_settled {a b : Core} (h : Core.Next a b) : ¬ a.settled := by
  induction h with
  | beta n b args hl => simp [Core.settled]
  | letE b c => simp [Core.settled]
  | callOn o o' args _ ih => simp [Core.settled]
  | cat pre e e' post _ _ ih =>
    rw [Core.settled, Core.settledL_iff]
    exact fun hs => ih (hs e (by simp))
  | alt pre e e' post _ _ ih =>
    rw [Core.settled, Core.settledL_iff]
    exact fun hs => ih (hs e (by simp))
  | fix b b' h ih =>
    rw [settled_fix_iff]
    rintro (⟨n, c, rfl, _⟩ | ⟨_, hs⟩)
    · cases h
    · exact ih hs
  | fixLam n c c' h ih => exact fun hs => ih hs

theorem Core.Blocked.not_settled {c e : Core} (h : Core.Blocked c e) : ¬ e.settled := by
  induction h with
  | notFunction | argCount | callOn => simp [Core.settled]
  | cat c pre e post _ _ ih =>
    rw [Core.settled, Core.settledL_iff]
    exact fun hs => ih (hs e (by simp))
  | alt c pre e post _ _ ih =>
    rw [Core.settled, Core.settledL_iff]
    exact fun hs => ih (hs e (by simp))
  | fix c b h ih =>
    rw [settled_fix_iff]
    rintro (⟨n, c, rfl, _⟩ | ⟨_, hs⟩)
    · cases h
    · exact ih hs
  | fixLam c n b h ih => exact fun hs => ih hs

/-- Where the finished parts end. -/
theorem first_unsettled : ∀ {pre pre' : List Core} {e e' : Core} {post post' : List Core}, (∀ x ∈ pre, x.settled) → (∀ x ∈ pre', x.settled) →
    ¬ e.settled → ¬ e'.settled → pre ++ e :: post = pre' ++ e' :: post' → pre = pre' ∧ e = e' ∧ post = post'
  | [], [], _, _, _, _, _, _, _, _, h => by simpa using h
  | [], a :: pre', e, e', _, _, _, h2, h3, _, h => by
    simp only [List.nil_append, List.cons_append, List.cons.injEq] at h
    exact absurd (h2 a (by simp)) (h.1 ▸ h3)
  | a :: pre, [], e, e', _, _, h1, _, _, h4, h => by
    simp only [List.nil_append, List.cons_append, List.cons.injEq] at h
    exact absurd (h1 a (by simp)) (h.1.symm ▸ h4)
  | a :: pre, b :: pre', e, e', _, _, h1, h2, h3, h4, h => by
    simp only [List.cons_append, List.cons.injEq] at h
    obtain ⟨r1, r2, r3⟩ := first_unsettled (fun x hx => h1 x (by simp [hx])) (fun x hx => h2 x (by simp [hx])) h3 h4 h.2
    exact ⟨by rw [h.1, r1], r2, r3⟩

theorem Core.Next.unique {a b : Core} (h : Core.Next a b) : ∀ {b' : Core}, Core.Next a b' → b = b' := by
  induction h with
  | beta n b args hl =>
    intro b' h'
    cases h' with
    | beta => rfl
    | callOn _ _ _ h' => cases h'
  | letE b c => intro b' h'; cases h'; rfl
  | callOn o o' args h ih =>
    intro b' h'
    cases h' with
    | beta => cases h
    | callOn _ _ _ h' => rw [ih h']
  | cat pre e e' post hp h ih =>
    intro b' h'
    generalize hl : pre ++ e :: post = l at h'
    cases h' with
    | cat pre2 e2 e2' post2 hp2 h2 =>
      obtain ⟨rfl, rfl, rfl⟩ := first_unsettled hp hp2 h.not_settled h2.not_settled hl
      rw [ih h2]
  | alt pre e e' post hp h ih =>
    intro b' h'
    generalize hl : pre ++ e :: post = l at h'
    cases h' with
    | alt pre2 e2 e2' post2 hp2 h2 =>
      obtain ⟨rfl, rfl, rfl⟩ := first_unsettled hp hp2 h.not_settled h2.not_settled hl
      rw [ih h2]
  | fix b b2 h ih =>
    intro b' h'
    cases h' with
    | fix _ _ h' => rw [ih h']
    | fixLam _ _ _ h' => cases h
  | fixLam n c c' h ih =>
    intro b' h'
    cases h' with
    | fix _ _ h' => cases h'
    | fixLam _ _ _ h' => rw [ih h']

theorem Core.Blocked.no_next {c e : Core} (h : Core.Blocked c e) : ∀ {b : Core}, ¬ Core.Next e b := by
  induction h with
  | notFunction o args hs hl =>
    intro b h'
    cases h' with
    | beta => exact hl _ _ rfl
    | callOn _ _ _ h' => exact h'.not_settled hs
  | argCount n b args hn =>
    intro b h'
    cases h' with
    | beta _ _ _ hl => exact hn hl.symm
    | callOn _ _ _ h' => cases h'
  | callOn c o args h ih =>
    intro b h'
    cases h' with
    | beta => cases h
    | callOn _ _ _ h' => exact ih h'
  | cat c pre e post hp h ih =>
    intro b h'
    generalize hl : pre ++ e :: post = l at h'
    cases h' with
    | cat pre2 e2 e2' post2 hp2 h2 =>
      obtain ⟨rfl, rfl, rfl⟩ := first_unsettled hp hp2 h.not_settled h2.not_settled hl
      exact ih h2
  | alt c pre e post hp h ih =>
    intro b h'
    generalize hl : pre ++ e :: post = l at h'
    cases h' with
    | alt pre2 e2 e2' post2 hp2 h2 =>
      obtain ⟨rfl, rfl, rfl⟩ := first_unsettled hp hp2 h.not_settled h2.not_settled hl
      exact ih h2
  | fix c b h ih =>
    intro b' h'
    cases h' with
    | fix _ _ h' => exact ih h'
    | fixLam _ _ _ h' => cases h
  | fixLam c n b h ih =>
    intro b' h'
    cases h' with
    | fix _ _ h' => cases h'
    | fixLam _ _ _ h' => exact ih h'

/-- Either finished, or blocked, or there is a next contraction. -/
def Core.Goes (e : Core) : Prop := e.settled ∨ (∃ e', Core.Next e e') ∨ ∃ c, Core.Blocked c e

theorem goes_list {l : List Core} (h : ∀ e ∈ l, e.Goes) : (∀ e ∈ l, e.settled) ∨ ∃ pre e post, l = pre ++ e :: post ∧ (∀ x ∈ pre, x.settled) ∧
    ((∃ e', Core.Next e e') ∨ ∃ c, Core.Blocked c e) := by
  induction l with
  | nil => exact .inl (by simp)
  | cons a l ih =>
    rcases h a (by simp) with ha | ha
    · rcases ih fun e he => h e (by simp [he]) with hl | ⟨pre, e, post, rfl, h1, h2⟩
      · exact .inl (by simpa using ⟨ha, hl⟩)
      · exact .inr ⟨a :: pre, e, post, rfl, by simpa using ⟨ha, h1⟩, h2⟩
    · exact .inr ⟨[], a, l, rfl, by simp, ha⟩

theorem Core.goes' (e : Core) : e.Goes ∧ ∀ n b, e = .lam n b → b.Goes := by
  induction e using Core.ind with
  | eps => exact ⟨.inl trivial, by simp⟩
  | lit s => exact ⟨.inl trivial, by simp⟩
  | var k => exact ⟨.inl trivial, by simp⟩
  | lam n b ih => exact ⟨.inl trivial, by rintro _ _ ⟨⟩; exact ih.1⟩
  | letE b c => exact ⟨.inr (.inl ⟨_, .letE b c⟩), by simp⟩
  | cat l ih =>
    refine ⟨?_, by simp⟩
    rcases goes_list fun e he => (ih e he).1 with hl | ⟨pre, e, post, rfl, h1, ⟨e', h2⟩ | ⟨c, h2⟩⟩
    · exact .inl (by rw [Core.settled, Core.settledL_iff]; exact hl)
    · exact .inr (.inl ⟨_, .cat _ _ _ _ h1 h2⟩)
    · exact .inr (.inr ⟨_, .cat _ _ _ _ h1 h2⟩)
  | alt l ih =>
    refine ⟨?_, by simp⟩
    rcases goes_list fun e he => (ih e he).1 with hl | ⟨pre, e, post, rfl, h1, ⟨e', h2⟩ | ⟨c, h2⟩⟩
    · exact .inl (by rw [Core.settled, Core.settledL_iff]; exact hl)
    · exact .inr (.inl ⟨_, .alt _ _ _ _ h1 h2⟩)
    · exact .inr (.inr ⟨_, .alt _ _ _ _ h1 h2⟩)
  | fix b ih =>
    refine ⟨?_, by simp⟩
    by_cases hb : ∃ n c, b = .lam n c
    · obtain ⟨n, c, rfl⟩ := hb
      rcases ih.2 n c rfl with h | ⟨e', h⟩ | ⟨d, h⟩
      · exact .inl h
      · exact .inr (.inl ⟨_, .fixLam _ _ _ h⟩)
      · exact .inr (.inr ⟨_, .fixLam _ _ _ h⟩)
    · rcases ih.1 with h | ⟨e', h⟩ | ⟨d, h⟩
      · exact .inl (settled_fix h fun k c hk => hb ⟨k, c, hk⟩)
      · exact .inr (.inl ⟨_, .fix _ _ h⟩)
      · exact .inr (.inr ⟨_, .fix _ _ h⟩)
  | call o args iho _ =>
    refine ⟨?_, by simp⟩
    rcases iho.1 with h | ⟨e', h⟩ | ⟨d, h⟩
    · by_cases hb : ∃ n c, o = .lam n c
      · obtain ⟨n, c, rfl⟩ := hb
        by_cases hn : args.length = n
        · exact .inr (.inl ⟨_, .beta _ _ _ hn⟩)
        · exact .inr (.inr ⟨_, .argCount _ _ _ (Ne.symm hn)⟩)
      · exact .inr (.inr ⟨_, .notFunction _ _ h fun n b hk => hb ⟨n, b, hk⟩⟩)
    · exact .inr (.inl ⟨_, .callOn _ _ _ h⟩)
    · exact .inr (.inr ⟨_, .callOn _ _ _ h⟩)

theorem Core.goes (e : Core) : e.Goes := e.goes'.1

/-! ## The reducer follows the order -/

theorem Core.Nexts.trans {a b c : Core} (h : Core.Nexts a b) (h' : Core.Nexts b c) : Core.Nexts a c := by
  induction h with
  | refl => exact h'
  | head h _ ih => exact .head h (ih h')

theorem Core.Nexts.congr {F : Core → Core} (hF : ∀ a b, Core.Next a b → Core.Next (F a) (F b)) {a b : Core} (h : Core.Nexts a b) :
    Core.Nexts (F a) (F b) := by
  induction h with
  | refl => exact .refl _
  | head h _ ih => exact .head (hF _ _ h) ih

theorem Core.Nexts.single {a b : Core} (h : Core.Next a b) : Core.Nexts a b := .head h (.refl _)

theorem Core.Nexts.list {F : List Core → Core}
    (hF : ∀ pre a b post, (∀ x ∈ pre, x.settled) → Core.Next a b → Core.Next (F (pre ++ a :: post)) (F (pre ++ b :: post))) {l l' : List Core}
    (h : All2 (fun a b => Core.Nexts a b ∧ b.settled) l l') : ∀ (post pre : List Core), (∀ x ∈ pre, x.settled) →
    Core.Nexts (F (pre ++ (l ++ post))) (F (pre ++ (l' ++ post))) := by
  induction h with
  | nil => intro post pre _; exact .refl _
  | @cons a b l l' hab _ ih =>
    intro post pre hp
    have h1 : Core.Nexts (F (pre ++ a :: (l ++ post))) (F (pre ++ b :: (l ++ post))) :=
      Core.Nexts.congr (F := fun x => F (pre ++ x :: (l ++ post))) (fun x y hxy => hF pre x y _ hp hxy) hab.1
    have h2 := ih post (pre ++ [b]) (by
      intro x hx
      rcases List.mem_append.1 hx with hx | hx
      · exact hp x hx
      · rw [List.mem_singleton.1 hx]; exact hab.2)
    simp only [List.append_assoc, List.cons_append, List.nil_append] at h2 ⊢
    exact h1.trans h2

theorem reduceC_nexts (n : Nat) : ∀ e e', reduceC n e = .ok e' → Core.Nexts e e' := by
  induction n with
  | zero => intro e e' h; cases h
  | succ n ih =>
    intro e e' h
    cases e with
    | eps => cases h; exact .refl _
    | lit s => cases h; exact .refl _
    | var k => cases h; exact .refl _
    | lam k b => cases h; exact .refl _
    | cat l =>
      obtain ⟨l', h1, h2⟩ := Out.bind_ok h
      cases h2
      have := Core.Nexts.list (F := Core.cat) (fun p a b q hp h => .cat p a b q hp h)
        ((mapO_ok h1).imp fun a b hab => ⟨ih a b hab, reduceC_settled _ _ _ hab⟩) [] [] (by simp)
      simpa using this
    | alt l =>
      obtain ⟨l', h1, h2⟩ := Out.bind_ok h
      cases h2
      have := Core.Nexts.list (F := Core.alt) (fun p a b q hp h => .alt p a b q hp h)
        ((mapO_ok h1).imp fun a b hab => ⟨ih a b hab, reduceC_settled _ _ _ hab⟩) [] [] (by simp)
      simpa using this
    | fix b =>
      obtain ⟨b', h1, h2⟩ := Out.bind_ok h
      have hb := Core.Nexts.congr (F := Core.fix) (fun a b h => .fix a b h) (ih _ _ h1)
      cases b' with
      | lam k c =>
        obtain ⟨c', h3, h4⟩ := Out.bind_ok h2
        cases h4
        exact hb.trans (Core.Nexts.congr (F := fun c => Core.fix (.lam k c)) (fun a b h => .fixLam _ _ _ h) (ih _ _ h3))
      | _ => cases h2; exact hb
    | call on args =>
      obtain ⟨on', h1, h2⟩ := Out.bind_ok h
      have ho := Core.Nexts.congr (F := fun o => Core.call o args) (fun a b h => .callOn a b args h) (ih _ _ h1)
      cases on' with
      | lam k body =>
        by_cases hk : k = args.length
        · simp only [hk, ne_eq, not_true, if_false] at h2
          subst hk
          exact (ho.trans (.single (.beta _ _ _ rfl))).trans (ih _ _ h2)
        · simp [hk] at h2
      | _ => cases h2
    | letE b c => exact (Core.Nexts.single (.letE b c)).trans (ih _ _ h)

theorem All2.right_settled {n : Nat} {l l' : List Core} (h : All2 (fun a b => reduceC n a = .ok b) l l') : ∀ x ∈ l', x.settled := by
  induction h with
  | nil => simp
  | cons hab _ ih =>
    intro x hx
    rcases List.mem_cons.1 hx with rfl | hx
    · exact reduceC_settled _ _ _ hab
    · exact ih x hx

theorem reduceC_blocked (n : Nat) : ∀ (e : Core) (x : CErr), reduceC n e = .err x → ∃ e1 c, Core.Nexts e e1 ∧ Core.Blocked c e1 ∧ x.Names c := by
  induction n with
  | zero => intro e x h; cases h
  | succ n ih =>
    intro e x h
    have parts (F : List Core → Core)
        (hN : ∀ pre a b post, (∀ x ∈ pre, x.settled) → Core.Next a b → Core.Next (F (pre ++ a :: post)) (F (pre ++ b :: post)))
        (hB : ∀ c pre e post, (∀ x ∈ pre, x.settled) → Core.Blocked c e → Core.Blocked c (F (pre ++ e :: post))) (l : List Core)
        (h : mapO (reduceC n) l = .err x) : ∃ e1 c, Core.Nexts (F l) e1 ∧ Core.Blocked c e1 ∧ x.Names c := by
      obtain ⟨pre, e, post, pre', rfl, h2, h3⟩ := mapO_err h
      obtain ⟨e1, c, h4, h5, h6⟩ := ih _ _ h2
      have hs := h3.right_settled
      have s1 := Core.Nexts.list hN (h3.imp fun a b hab => ⟨reduceC_nexts _ a b hab, reduceC_settled _ _ _ hab⟩) (e :: post) [] (by simp)
      have s2 : Core.Nexts (F (pre' ++ e :: post)) (F (pre' ++ e1 :: post)) :=
        Core.Nexts.congr (F := fun x => F (pre' ++ x :: post)) (fun a b hab => hN _ _ _ _ hs hab) h4
      exact ⟨_, c, s1.trans s2, hB _ _ _ _ hs h5, h6⟩
    cases e with
    | eps => cases h
    | lit s => cases h
    | var k => cases h
    | lam k b => cases h
    | cat l =>
      rw [reduceC] at h
      rcases Out.bind_err h with h | ⟨a, _, h⟩
      · exact parts Core.cat (fun p a b q hp h => .cat p a b q hp h) (fun c p e q hp h => .cat c p e q hp h) l h
      · cases h
    | alt l =>
      rw [reduceC] at h
      rcases Out.bind_err h with h | ⟨a, _, h⟩
      · exact parts Core.alt (fun p a b q hp h => .alt p a b q hp h) (fun c p e q hp h => .alt c p e q hp h) l h
      · cases h
    | fix b =>
      rw [reduceC] at h
      rcases Out.bind_err h with h | ⟨b', hb, h⟩
      · obtain ⟨e1, c, h3, h4, h5⟩ := ih _ _ h
        exact ⟨_, c, Core.Nexts.congr (F := Core.fix) (fun a b h => .fix a b h) h3, .fix _ _ h4, h5⟩
      · cases b' with
        | lam k d =>
          rcases Out.bind_err h with h | ⟨d', hd, h⟩
          · obtain ⟨e1, c, h3, h4, h5⟩ := ih _ _ h
            refine ⟨.fix (.lam k e1), c, ?_, .fixLam _ _ _ h4, h5⟩
            exact (Core.Nexts.congr (F := Core.fix) (fun a b h => .fix a b h) (reduceC_nexts _ _ _ hb)).trans
              (Core.Nexts.congr (F := fun d => Core.fix (.lam k d)) (fun a b h => .fixLam _ _ _ h) h3)
          · cases h
        | _ => cases h
    | call o args =>
      rw [reduceC] at h
      rcases Out.bind_err h with h | ⟨o', ho, h⟩
      · obtain ⟨e1, c, h3, h4, h5⟩ := ih _ _ h
        exact ⟨_, c, Core.Nexts.congr (F := fun o => Core.call o args) (fun a b h => .callOn a b args h) h3, .callOn _ _ _ h4, h5⟩
      · have hs := Core.Nexts.congr (F := fun o => Core.call o args) (fun a b h => .callOn a b args h) (reduceC_nexts _ _ _ ho)
        cases o' with
        | lam k body =>
          simp only at h
          split at h
          · rename_i hk
            cases h
            exact ⟨_, _, hs, .argCount _ _ _ hk, ⟨_, _, rfl, hk⟩, rfl⟩
          · rename_i hk
            have hk : args.length = k := (Decidable.not_not.1 hk).symm
            obtain ⟨e1, c, h3, h4, h5⟩ := ih _ _ h
            exact ⟨e1, c, (hs.trans (.single (.beta _ _ _ hk))).trans h3, h4, h5⟩
        | _ =>
          cases h
          have := reduceC_settled _ _ _ ho
          exact ⟨_, _, hs, .notFunction _ _ this (by simp), this, by simp, _, rfl⟩
    | letE b c =>
      obtain ⟨e1, d, h3, h4, h5⟩ := ih _ _ h
      exact ⟨e1, d, (Core.Nexts.single (.letE b c)).trans h3, h4, h5⟩

/-! ## The order leads to what the reducer returns -/

theorem Core.Nexts.same {a b c : Core} (h : Core.Nexts a b) (h' : Core.Nexts a c) (hb : ∀ x, ¬ Core.Next b x) (hc : ∀ x, ¬ Core.Next c x) :
    b = c := by
  induction h with
  | refl =>
    cases h' with
    | refl => rfl
    | head h _ => exact absurd h (hb _)
  | head h _ ih =>
    cases h' with
    | refl => exact absurd h (hc _)
    | head h2 h3 =>
      cases h.unique h2
      exact ih h3 hb

theorem Core.settled_no_next {a : Core} (h : a.settled) : ∀ x, ¬ Core.Next a x := fun _ hx => hx.not_settled h

theorem reduceC_of_settled {a : Core} (h : a.settled) : ∃ n, reduceC n a = .ok a := by
  obtain ⟨n, v, hv, _⟩ := reduceC_std (.refl a) h
  have := (Core.Nexts.refl a).same (reduceC_nexts _ _ _ hv) (Core.settled_no_next h) (Core.settled_no_next (reduceC_settled _ _ _ hv))
  exact ⟨n, by rw [hv, ← this]⟩

/-- Every finite evaluation in this order is carried out by the reducer. -/
theorem reduceC_of_nexts {a b : Core} (h : Core.Nexts a b) (hb : b.settled) : ∃ n, reduceC n a = .ok b := by
  have hs : Core.Steps a b := by
    clear hb
    induction h with
    | refl => exact .refl _
    | head h _ ih => exact (Core.Steps.single h.step).trans ih
  obtain ⟨n, v, hv, _⟩ := reduceC_std hs hb
  have := h.same (reduceC_nexts _ _ _ hv) (Core.settled_no_next hb) (Core.settled_no_next (reduceC_settled _ _ _ hv))
  exact ⟨n, by rw [hv, ← this]⟩

/-- A run that never ends. -/
def Core.Endless (e : Core) : Prop := ∃ f : Nat → Core, f 0 = e ∧ ∀ i, Core.Next (f i) (f (i + 1))

theorem endless_nexts {f : Nat → Core} (hf : ∀ i, Core.Next (f i) (f (i + 1))) {a b : Core} (h : Core.Nexts a b) :
    ∀ i, f i = a → ∃ j, f j = b := by
  induction h with
  | refl => intro i hi; exact ⟨i, hi⟩
  | head h _ ih =>
    intro i hi
    exact ih (i + 1) ((hi ▸ hf i).unique h)

theorem Core.Endless.no_end {e v : Core} (h : e.Endless) (hv : Core.Nexts e v) : ∃ x, Core.Next v x := by
  obtain ⟨f, rfl, hf⟩ := h
  obtain ⟨j, rfl⟩ := endless_nexts hf hv 0 rfl
  exact ⟨_, hf j⟩

theorem Out.bind_finer {ε α β : Type} {x : Out ε α} {f g : α → Out ε β} (h : ∀ a, x = .ok a → f a ≠ .oof → g a = f a) (hx : x.bind f ≠ .oof) :
    x.bind g = x.bind f := by
  cases x with
  | ok a => exact h a rfl hx
  | _ => rfl

theorem Out.bind_first {ε α β : Type} {x : Out ε α} {f : α → Out ε β} (hx : x.bind f ≠ .oof) : x ≠ .oof := by
  rintro rfl
  exact hx rfl

theorem mapO_finer {f g : Core → Out CErr Core} {l l' : List Core} (h : All2 (fun a b => f b ≠ .oof → g a = f b) l l')
    (hl : mapO f l' ≠ .oof) : mapO g l = mapO f l' := by
  induction h with
  | nil => rfl
  | @cons a b l l' hab _ ih =>
    simp only [mapO] at hl ⊢
    rw [hab (Out.bind_first hl)]
    refine Out.bind_finer (fun y hy hne => ?_) hl
    rw [ih (Out.bind_first hne)]

theorem All2.refl' {α : Type} {R : α → α → Prop} : ∀ {l : List α}, (∀ a ∈ l, R a a) → All2 R l l
  | [], _ => .nil
  | a :: _, h => .cons (h a (by simp)) (All2.refl' fun b hb => h b (by simp [hb]))

theorem All2.middle {α : Type} {R : α → α → Prop} {pre post : List α} {a b : α} (h : ∀ x, R x x) (hab : R a b) :
    All2 R (pre ++ a :: post) (pre ++ b :: post) := by
  induction pre with
  | nil => exact .cons hab (.refl' fun x _ => h x)
  | cons x pre ih => exact .cons (h x) ih

/-- Whatever the reducer returns after the next contraction, it returns before it. -/
theorem reduceC_before {a b : Core} (h : Core.Next a b) : ∀ k, reduceC k b ≠ .oof → ∃ m, k ≤ m ∧ reduceC m a = reduceC k b := by
  have parts (F : List Core → Core) (hF : ∀ n l, reduceC (n + 1) (F l) = (mapO (reduceC n) l).bind fun l => .ok (F l)) (pre post : List Core) (e e' : Core)
      (ih : ∀ k, reduceC k e' ≠ .oof → ∃ m, k ≤ m ∧ reduceC m e = reduceC k e') (k : Nat) (hk : reduceC k (F (pre ++ e' :: post)) ≠ .oof) :
      ∃ m, k ≤ m ∧ reduceC m (F (pre ++ e :: post)) = reduceC k (F (pre ++ e' :: post)) := by
    cases k with
    | zero => exact absurd rfl hk
    | succ k =>
      rw [hF] at hk ⊢
      by_cases he : reduceC k e' = .oof
      · -- the part before is in trouble
        refine ⟨k + 1, Nat.le_refl _, ?_⟩
        rw [hF, mapO_finer (f := reduceC k) (g := reduceC k) (All2.middle (fun x _ => rfl) fun hn => absurd he hn) (Out.bind_first hk)]
      · obtain ⟨m, hm, hme⟩ := ih k he
        refine ⟨m + 1, by omega, ?_⟩
        rw [hF, mapO_finer (f := reduceC k) (g := reduceC m) (All2.middle (fun x hx => reduceC_mono hm x hx) fun _ => hme) (Out.bind_first hk)]
  induction h with
  | beta n b args hl =>
    intro k hk
    refine ⟨k + 2, by omega, ?_⟩
    simp only [reduceC, Out.bind, hl, ne_eq, not_true, if_false]
    exact reduceC_mono (Nat.le_succ k) _ hk
  | letE b c => intro k hk; exact ⟨k + 1, by omega, rfl⟩
  | callOn o o' args _ ih =>
    intro k hk
    cases k with
    | zero => exact absurd rfl hk
    | succ k =>
      rw [reduceC] at hk ⊢
      obtain ⟨m, hm, hme⟩ := ih k (Out.bind_first hk)
      refine ⟨m + 1, by omega, ?_⟩
      rw [reduceC, hme]
      refine Out.bind_finer (fun y hy hne => ?_) hk
      cases y with
      | lam n body =>
        simp only at hne ⊢
        split
        · rfl
        · rename_i hn
          rw [if_neg hn] at hne
          exact reduceC_mono hm _ hne
      | _ => rfl
  | cat pre e e' post _ _ ih => exact parts Core.cat (fun _ _ => rfl) pre post e e' ih
  | alt pre e e' post _ _ ih => exact parts Core.alt (fun _ _ => rfl) pre post e e' ih
  | fix b b' _ ih =>
    intro k hk
    cases k with
    | zero => exact absurd rfl hk
    | succ k =>
      rw [reduceC] at hk ⊢
      obtain ⟨m, hm, hme⟩ := ih k (Out.bind_first hk)
      refine ⟨m + 1, by omega, ?_⟩
      rw [reduceC, hme]
      refine Out.bind_finer (fun y hy hne => ?_) hk
      cases y with
      | lam n body =>
        simp only at hne ⊢
        rw [reduceC_mono hm _ (Out.bind_first hne)]
      | _ => rfl
  | fixLam n c c' _ ih =>
    intro k hk
    match k with
    | 0 => exact absurd rfl hk
    | 1 => exact absurd rfl hk
    | k + 2 =>
      rw [reduceC, reduceC] at hk ⊢
      simp only [Out.bind] at hk ⊢
      obtain ⟨m, hm, hme⟩ := ih (k + 1) (Out.bind_first (f := fun c => .ok (Core.fix (.lam n c))) hk)
      match m, hm with
      | m + 1, hm => exact ⟨m + 2, by omega, by rw [reduceC, reduceC]; simp only [Out.bind]; rw [hme]⟩

theorem reduceC_before_all {a b : Core} (h : Core.Nexts a b) : ∀ k, reduceC k b ≠ .oof → ∃ m, reduceC m a = reduceC k b := by
  induction h with
  | refl => intro k _; exact ⟨k, rfl⟩
  | head h _ ih =>
    intro k hk
    obtain ⟨m, hm⟩ := ih k hk
    obtain ⟨m', _, hm'⟩ := reduceC_before h m (by rw [hm]; exact hk)
    exact ⟨m', hm'.trans hm⟩

theorem mapO_settled {pre : List Core} (h : ∀ x ∈ pre, x.settled) : ∃ n, ∀ m, n ≤ m → mapO (reduceC m) pre = .ok pre := by
  induction pre with
  | nil => exact ⟨0, fun _ _ => rfl⟩
  | cons a pre ih =>
    obtain ⟨n, hn⟩ := ih fun x hx => h x (by simp [hx])
    obtain ⟨k, hk⟩ := reduceC_of_settled (h a (by simp))
    refine ⟨max n k, fun m hm => ?_⟩
    rw [mapO, reduceC_mono_ok (by omega) hk]
    simp only [Out.bind]
    rw [hn m (by omega)]

theorem mapO_app_err {f : Core → Out CErr Core} {pre post : List Core} {e : Core} {x : CErr} {pre' : List Core} (hp : mapO f pre = .ok pre') (he : f e = .err x) :
    mapO f (pre ++ e :: post) = .err x := by
  induction pre generalizing pre' with
  | nil => rw [List.nil_append, mapO, he]; rfl
  | cons a pre ih =>
    rw [mapO] at hp
    obtain ⟨b, h1, h2⟩ := Out.bind_ok hp
    obtain ⟨l, h3, _⟩ := Out.bind_ok h2
    rw [List.cons_append, mapO, h1]
    simp only [Out.bind]
    rw [ih h3]

/-- A blocked expression is an error. -/
theorem reduceC_of_blocked {c e : Core} (h : Core.Blocked c e) : ∃ n x, reduceC n e = .err x ∧ x.Names c := by
  have parts (F : List Core → Core) (hF : ∀ n l, reduceC (n + 1) (F l) = (mapO (reduceC n) l).bind fun l => .ok (F l)) (c : Core) (pre post : List Core) (e : Core)
      (hp : ∀ x ∈ pre, x.settled) (ih : ∃ n x, reduceC n e = .err x ∧ x.Names c) :
      ∃ n x, reduceC n (F (pre ++ e :: post)) = .err x ∧ x.Names c := by
    obtain ⟨n, x, h1, h2⟩ := ih
    obtain ⟨k, hk⟩ := mapO_settled hp
    refine ⟨max n k + 1, x, ?_, h2⟩
    rw [hF, mapO_app_err (hk _ (by omega)) (by rw [reduceC_mono (Nat.le_max_left n k) e (by rw [h1]; simp), h1])]
    rfl
  induction h with
  | notFunction o args hs hl =>
    obtain ⟨n, hn⟩ := reduceC_of_settled hs
    refine ⟨n + 1, .callNotAFunction o, ?_, hs, hl, args, rfl⟩
    rw [reduceC, hn]
    cases o <;> first | rfl | exact absurd rfl (hl _ _)
  | argCount n b args hn =>
    exact ⟨2, .wrongArgCount (.lam n b) args, by simp [reduceC, Out.bind, hn], ⟨n, b, rfl, hn⟩, rfl⟩
  | callOn c o args _ ih =>
    obtain ⟨n, x, h1, h2⟩ := ih
    exact ⟨n + 1, x, by rw [reduceC, h1]; rfl, h2⟩
  | cat c pre e post hp _ ih => exact parts Core.cat (fun _ _ => rfl) c pre post e hp ih
  | alt c pre e post hp _ ih => exact parts Core.alt (fun _ _ => rfl) c pre post e hp ih
  | fix c b _ ih =>
    obtain ⟨n, x, h1, h2⟩ := ih
    exact ⟨n + 1, x, by rw [reduceC, h1]; rfl, h2⟩
  | fixLam c n b _ ih =>
    obtain ⟨k, x, h1, h2⟩ := ih
    match k, h1 with
    | k + 1, h1 =>
      refine ⟨k + 2, x, ?_, h2⟩
      rw [reduceC, reduceC]
      simp only [Out.bind]
      rw [h1]

theorem no_return_next {e : Core} (h : ∀ n, reduceC n e = .oof) : ∃ e', Core.Next e e' ∧ ∀ n, reduceC n e' = .oof := by
  rcases e.goes with hs | ⟨e', he⟩ | ⟨c, hc⟩
  · obtain ⟨n, hn⟩ := reduceC_of_settled hs
    rw [h n] at hn
    cases hn
  · refine ⟨e', he, fun n => Classical.byContradiction fun hn => ?_⟩
    obtain ⟨m, _, hm⟩ := reduceC_before he n hn
    rw [h m] at hm
    exact hn hm.symm
  · obtain ⟨n, x, hn, _⟩ := reduceC_of_blocked hc
    rw [h n] at hn
    cases hn

theorem endless_of_no_return {e : Core} (h : ∀ n, reduceC n e = .oof) : e.Endless := by
  let T := { e : Core // ∀ n, reduceC n e = .oof }
  let nx : T → T := fun t => ⟨Classical.choose (no_return_next t.2), (Classical.choose_spec (no_return_next t.2)).2⟩
  let f : Nat → T := fun i => Nat.rec ⟨e, h⟩ (fun _ t => nx t) i
  exact ⟨fun i => (f i).1, rfl, fun i => (Classical.choose_spec (no_return_next (f i).2)).1⟩

/-! ## Theorems -/

/-- **C21** (exactly when it succeeds). The reducer returns a result exactly if contracting, in its order, ends; and then the result is what
is left. -/
theorem C21_result_iff (e : NE) (v : Core) : (∃ n e', reduce n e = .ok e' ∧ e'.erase = v) ↔ Core.Nexts e.erase v ∧ v.settled := by
  constructor
  · rintro ⟨n, e', h, rfl⟩
    exact ⟨reduceC_nexts n _ _ (reduce_ok_erase h), C18_reduced_settled n e e' h⟩
  · rintro ⟨h, hv⟩
    obtain ⟨n, hn⟩ := reduceC_of_nexts h hv
    rw [← erase_reduce] at hn
    cases hr : reduce n e with
    | ok e' => rw [hr] at hn; cases hn; exact ⟨n, e', hr, rfl⟩
    | _ => rw [hr] at hn; cases hn

/-- What an error says about the call at which evaluation stops. -/
def RErr.About (x : RErr) (c : Core) : Prop :=
  match x with
  | .callNotAFunction on _ => (∀ n b, on.erase ≠ .lam n b) ∧ ∃ args, c = .call on.erase args
  | .wrongArgCount l args _ => (∃ n b, l.erase = .lam n b ∧ n ≠ args.length) ∧ c = .call l.erase (args.map NE.erase)

/-- **C21** (errors). If the reducer returns an error, then contracting, in its order, arrives at a call that is the next thing to do and cannot be
contracted, and the error is about this call. -/
theorem C21_error_blocked (n : Nat) (e : NE) (x : RErr) (h : reduce n e = .err x) :
    ∃ e1 c, Core.Nexts e.erase e1 ∧ Core.Blocked c e1 ∧ x.About c := by
  have h1 : reduceC n e.erase = .err x.erase := by rw [← erase_reduce, h]; rfl
  obtain ⟨e1, c, h2, h3, h4⟩ := reduceC_blocked n _ _ h1
  refine ⟨e1, c, h2, h3, ?_⟩
  cases x with
  | callNotAFunction on sp => exact h4.2
  | wrongArgCount l args sp =>
    obtain ⟨⟨n, b, h5, h6⟩, h7⟩ := h4
    exact ⟨⟨n, b, h5, by simpa using h6⟩, h7⟩

/-- **C21** (exactly when it fails). The reducer returns an error exactly if contracting, in its order, arrives at a call that is the next
thing to do and cannot be contracted. -/
theorem C21_error_iff (e : NE) : (∃ n x, reduce n e = .err x) ↔ ∃ e1 c, Core.Nexts e.erase e1 ∧ Core.Blocked c e1 := by
  constructor
  · rintro ⟨n, x, h⟩
    obtain ⟨e1, c, h1, h2, _⟩ := C21_error_blocked n e x h
    exact ⟨e1, c, h1, h2⟩
  · rintro ⟨e1, c, h1, h2⟩
    obtain ⟨n, x, h3, h4⟩ := reduceC_of_blocked h2
    obtain ⟨m, hm⟩ := reduceC_before_all h1 n (by rw [h3]; simp)
    rw [h3, ← erase_reduce] at hm
    cases hr : reduce m e with
    | err y => exact ⟨m, y, hr⟩
    | _ => rw [hr] at hm; cases hm

/-- **C21** (exactly when it does not return). The reducer runs for ever exactly if contracting, in its order, never ends. -/
theorem C21_diverges_iff (e : NE) : (∀ n, reduce n e = .oof) ↔ e.erase.Endless := by
  constructor
  · intro h
    refine endless_of_no_return fun n => ?_
    rw [← erase_reduce, h n]
    rfl
  · intro h n
    cases hr : reduce n e with
    | oof => rfl
    | ok e' =>
      obtain ⟨x, hx⟩ := h.no_end (reduceC_nexts n _ _ (reduce_ok_erase hr))
      exact absurd (C18_reduced_settled n e e' hr) hx.not_settled
    | err x =>
      obtain ⟨e1, c, h1, h2, _⟩ := C21_error_blocked n e x hr
      obtain ⟨y, hy⟩ := h.no_end h1
      exact absurd hy h2.no_next
    | panic => exact absurd (by rw [← erase_reduce, hr]; rfl : reduceC n e.erase = .panic) (reduceC_no_panic n _)

/-- **C21.** There is at most one next contraction, and none in finished or blocked expressions: every expression evaluates to one result, or
is blocked at one call, or is evaluated for ever. -/
theorem C21_next_unique {a b b' : Core} (h : Core.Next a b) (h' : Core.Next a b') : b = b' ∧ ¬ a.settled ∧ ¬ ∃ c, Core.Blocked c a :=
  ⟨h.unique h', h.not_settled, fun ⟨_, hc⟩ => hc.no_next h⟩

/-- `let w x = x x; match w w;` runs for ever. -/
example : omegaProg.erase.Endless := (C21_diverges_iff _).1 C21_reduction_can_diverge

/-- `match "a" . ("b" "c")` is blocked at the call of `"b"`. -/
example : Core.Blocked (.call (.lit ['b']) [.lit ['c']]) (.cat [.lit ['a'], .call (.lit ['b']) [.lit ['c']]]) :=
  .cat _ [.lit ['a']] _ [] (by simp [Core.settled]) (.notFunction _ _ trivial (by simp))

end Chomp
