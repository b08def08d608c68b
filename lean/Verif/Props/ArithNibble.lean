import Verif.Bench.ArithNibble
import Verif.Grammars.Inv

/-! # C47: the two arithmetic parsers agree -/

namespace Chomp

attribute [local irreducible] Ovf.fit InI64 divI64

/-! ## Every value of the type `Ast` is the tree of an expression -/

theorem digitTree_surj {t : Tree} (h : AV 18 t) : ∃ d, t = digitTree d := by
  obtain ⟨k, b, t', rfl, h1, h2⟩ := inv_alt (tys := []) (l := [8, 9, 10, 11, 12, 13, 14, 15, 16, 17]) rfl h
  match k, h1 with
  | 0, h1 => cases h1; cases inv_lit rfl h2; exact ⟨0, rfl⟩
  | 1, h1 => cases h1; cases inv_lit rfl h2; exact ⟨1, rfl⟩
  | 2, h1 => cases h1; cases inv_lit rfl h2; exact ⟨2, rfl⟩
  | 3, h1 => cases h1; cases inv_lit rfl h2; exact ⟨3, rfl⟩
  | 4, h1 => cases h1; cases inv_lit rfl h2; exact ⟨4, rfl⟩
  | 5, h1 => cases h1; cases inv_lit rfl h2; exact ⟨5, rfl⟩
  | 6, h1 => cases h1; cases inv_lit rfl h2; exact ⟨6, rfl⟩
  | 7, h1 => cases h1; cases inv_lit rfl h2; exact ⟨7, rfl⟩
  | 8, h1 => cases h1; cases inv_lit rfl h2; exact ⟨8, rfl⟩
  | 9, h1 => cases h1; cases inv_lit rfl h2; exact ⟨9, rfl⟩

theorem numTree_surj {i j k e b : Nat} (h1 : tableStep arithTable i = .alias j) (h2 : tableStep arithTable j = .cat [18, k])
    (h3 : tableStep arithTable k = .alt [] [e, b]) (h4 : tableStep arithTable e = .eps) (h5 : tableStep arithTable b = .box i)
    (t : Tree) (h : AV i t) : ∃ d r, t = numTree d r := by
  obtain ⟨x, y, ht, hx, hy⟩ := inv_cat2 h2 (inv_alias h1 h)
  obtain ⟨d, rfl⟩ := digitTree_surj hx
  rcases inv_alt2 h3 hy with ⟨z, rfl, hz⟩ | ⟨z, rfl, hz⟩
  · cases inv_eps h4 hz
    exact ⟨d, [], ht⟩
  · obtain ⟨u, rfl, hu⟩ := inv_box h5 hz
    obtain ⟨d', r, rfl⟩ := numTree_surj h1 h2 h3 h4 h5 u hu
    exact ⟨d, d' :: r, ht⟩
termination_by sizeOf t
decreasing_by subst ht; simp; omega

theorem plusTree_surj (t : Tree) (h : AV 25 t) : ∃ n, t = plusTree n := by
  obtain ⟨x, y, ht, hx, hy⟩ := inv_cat2 (a := 1) (b := 28) rfl (inv_alias (a := 29) rfl h)
  cases inv_lit rfl hx
  rcases inv_alt2 (tys := []) (a := 26) (b := 27) rfl hy with ⟨z, rfl, hz⟩ | ⟨z, rfl, hz⟩
  · cases inv_eps rfl hz
    exact ⟨0, ht⟩
  · obtain ⟨u, rfl, hu⟩ := inv_box (a := 25) rfl hz
    obtain ⟨n, rfl⟩ := plusTree_surj u hu
    exact ⟨n + 1, ht⟩
termination_by sizeOf t
decreasing_by subst ht; simp; omega

theorem wsTree_surj {i e : Nat} (h : tableStep arithTable i = .alt [] [e, 25]) (he : tableStep arithTable e = .eps)
    {t : Tree} (hv : AV i t) : ∃ n, t = wsTree n := by
  rcases inv_alt2 h hv with ⟨z, rfl, hz⟩ | ⟨z, rfl, hz⟩
  · cases inv_eps he hz
    exact ⟨0, rfl⟩
  · obtain ⟨n, rfl⟩ := plusTree_surj z hz
    exact ⟨n + 1, rfl⟩

mutual
theorem termTree_surj (t : Tree) (h : AV 46 t) : ∃ x : ATerm, t = x.tree := by
  obtain ⟨x, y, ht, hx, hy⟩ := inv_cat2 (a := 43) (b := 45) rfl h
  obtain ⟨sp, rfl⟩ := wsTree_surj (e := 44) rfl rfl hy
  rcases inv_alt3 (tys := []) (a := 7) (b := 36) (c := 42) rfl hx with ⟨z, rfl, hz⟩ | ⟨z, rfl, hz⟩ | ⟨z, rfl, hz⟩
  · obtain ⟨d, r, rfl⟩ := numTree_surj (i := 7) (j := 22) (k := 21) (e := 19) (b := 20) rfl rfl rfl rfl rfl z hz
    exact ⟨.pos ⟨d, r⟩ sp, ht⟩
  · obtain ⟨a, b, c, rfl, ha, hb, hc⟩ := inv_cat3 (a := 23) (b := 30) (c := 31) rfl hz
    cases inv_lit rfl ha
    obtain ⟨sp1, rfl⟩ := wsTree_surj (e := 24) rfl rfl hb
    obtain ⟨d, r, rfl⟩ := numTree_surj (i := 31) (j := 35) (k := 34) (e := 32) (b := 33) rfl rfl rfl rfl rfl c hc
    exact ⟨.neg sp1 ⟨d, r⟩ sp, ht⟩
  · obtain ⟨a, b, c, d, rfl, ha, hb, hc, hd⟩ := inv_cat4 (a := 37) (b := 39) (c := 40) (d := 41) rfl hz
    cases inv_lit rfl ha
    cases inv_lit rfl hd
    obtain ⟨sp1, rfl⟩ := wsTree_surj (e := 38) rfl rfl hb
    obtain ⟨u, rfl, hu⟩ := inv_box (a := 4) rfl hc
    obtain ⟨e, rfl⟩ := sumTree_surj u (inv_alias (a := 5) rfl hu)
    exact ⟨.paren sp1 e sp, ht⟩
termination_by sizeOf t
decreasing_by all_goals subst ht; simp; omega
theorem prodOpt_surj (t : Tree) (h : AV 55 t) (p : AProd) : ∃ p' : AProd, p.tree t = p'.tree (.alt 0 .eps) := by
  rcases inv_alt2 (tys := []) (a := 47) (b := 54) rfl h with ⟨z, ht, hz⟩ | ⟨z, ht, hz⟩
  · cases inv_eps rfl hz
    exact ⟨p, by rw [ht]⟩
  · obtain ⟨a, b, c, rfl, ha, hb, hc⟩ := inv_cat3 (a := 50) (b := 52) (c := 53) rfl hz
    obtain ⟨sp, rfl⟩ := wsTree_surj (e := 51) rfl rfl hb
    obtain ⟨u, rfl, hu⟩ := inv_box (a := 6) rfl hc
    obtain ⟨x, o, rfl, hx, ho⟩ := inv_cat2 (a := 46) (b := 55) rfl (inv_alias (a := 56) rfl hu)
    obtain ⟨r, hr⟩ := termTree_surj x hx
    rcases inv_alt2 (tys := []) (a := 48) (b := 49) rfl ha with ⟨v, hv1, hv⟩ | ⟨v, hv1, hv⟩
    · cases inv_lit rfl hv
      obtain ⟨p', h'⟩ := prodOpt_surj o ho (.mul p sp r)
      exact ⟨p', by rw [ht, hr, hv1, ← h']; rfl⟩
    · cases inv_lit rfl hv
      obtain ⟨p', h'⟩ := prodOpt_surj o ho (.div p sp r)
      exact ⟨p', by rw [ht, hr, hv1, ← h']; rfl⟩
termination_by sizeOf t
decreasing_by all_goals subst ht; simp; omega
theorem prodTree_surj (t : Tree) (h : AV 6 t) : ∃ p : AProd, t = p.tree (.alt 0 .eps) := by
  obtain ⟨x, o, ht, hx, ho⟩ := inv_cat2 (a := 46) (b := 55) rfl (inv_alias (a := 56) rfl h)
  obtain ⟨r, hr⟩ := termTree_surj x hx
  obtain ⟨p', h'⟩ := prodOpt_surj o ho (.term r)
  exact ⟨p', by rw [ht, hr, ← h']; rfl⟩
termination_by sizeOf t
decreasing_by all_goals subst ht; simp; omega
theorem sumOpt_surj (t : Tree) (h : AV 64 t) (p : ASum) : ∃ p' : ASum, p.tree t = p'.tree (.alt 0 .eps) := by
  rcases inv_alt2 (tys := []) (a := 57) (b := 63) rfl h with ⟨z, ht, hz⟩ | ⟨z, ht, hz⟩
  · cases inv_eps rfl hz
    exact ⟨p, by rw [ht]⟩
  · obtain ⟨a, b, c, rfl, ha, hb, hc⟩ := inv_cat3 (a := 59) (b := 61) (c := 62) rfl hz
    obtain ⟨sp, rfl⟩ := wsTree_surj (e := 60) rfl rfl hb
    obtain ⟨u, rfl, hu⟩ := inv_box (a := 5) rfl hc
    obtain ⟨x, o, rfl, hx, ho⟩ := inv_cat2 (a := 6) (b := 64) rfl (inv_alias (a := 65) rfl hu)
    obtain ⟨r, hr⟩ := prodTree_surj x hx
    rcases inv_alt2 (tys := []) (a := 58) (b := 23) rfl ha with ⟨v, hv1, hv⟩ | ⟨v, hv1, hv⟩
    · cases inv_lit rfl hv
      obtain ⟨p', h'⟩ := sumOpt_surj o ho (.add p sp r)
      exact ⟨p', by rw [ht, hr, hv1, ← h']; rfl⟩
    · cases inv_lit rfl hv
      obtain ⟨p', h'⟩ := sumOpt_surj o ho (.sub p sp r)
      exact ⟨p', by rw [ht, hr, hv1, ← h']; rfl⟩
termination_by sizeOf t
decreasing_by all_goals subst ht; simp; omega
theorem sumTree_surj (t : Tree) (h : AV 5 t) : ∃ p : ASum, t = p.tree (.alt 0 .eps) := by
  obtain ⟨x, o, ht, hx, ho⟩ := inv_cat2 (a := 6) (b := 64) rfl (inv_alias (a := 65) rfl h)
  obtain ⟨r, hr⟩ := prodTree_surj x hx
  obtain ⟨p', h'⟩ := sumOpt_surj o ho (.prod r)
  exact ⟨p', by rw [ht, hr, ← h']; rfl⟩
termination_by sizeOf t
decreasing_by all_goals subst ht; simp; omega
end

theorem inputTree_surj (t : Tree) (h : AV 0 t) : ∃ i : AInput, t = i.tree := by
  rcases inv_alt2 (tys := []) (a := 3) (b := 4) rfl (inv_alias (a := 66) rfl h) with ⟨z, ht, hz⟩ | ⟨z, ht, hz⟩
  · obtain ⟨a, b, rfl, ha, hb⟩ := inv_cat2 (a := 1) (b := 2) rfl hz
    cases inv_lit rfl ha
    obtain ⟨u, rfl, hu⟩ := inv_box (a := 0) rfl hb
    obtain ⟨⟨n, e⟩, hi⟩ := inputTree_surj u hu
    exact ⟨⟨n + 1, e⟩, by rw [ht, hi]; rfl⟩
  · obtain ⟨e, rfl⟩ := sumTree_surj z (inv_alias (a := 5) rfl hz)
    exact ⟨⟨0, e⟩, ht⟩
termination_by sizeOf t
decreasing_by subst ht; simp; omega

/-! ## The value of the tree of an expression -/

mutual
/-- The value of an expression where numbers that do not fit are errors in every build. -/
def ATerm.strict (m : Ovf) : ATerm → Option Int
  | .pos n _ => Ovf.checked.fit n.val
  | .neg _ n _ => (Ovf.checked.fit n.val).bind fun v => m.fit (-v)
  | .paren _ e _ => e.strict m
def AProd.strict (m : Ovf) : AProd → Option Int
  | .term t => t.strict m
  | .mul l _ r => bin (fun a b => m.fit (a * b)) (l.strict m) (r.strict m)
  | .div l _ r => bin divI64 (l.strict m) (r.strict m)
def ASum.strict (m : Ovf) : ASum → Option Int
  | .prod p => p.strict m
  | .add l _ r => bin (fun a b => m.fit (a + b)) (l.strict m) (r.strict m)
  | .sub l _ r => bin (fun a b => m.fit (a - b)) (l.strict m) (r.strict m)
end

mutual
theorem ATerm.strict_checked : ∀ t : ATerm, t.strict .checked = t.eval .checked
  | .pos n _ => rfl
  | .neg _ n _ => rfl
  | .paren _ e _ => by rw [ATerm.strict, ATerm.eval, ASum.strict_checked e]
theorem AProd.strict_checked : ∀ t : AProd, t.strict .checked = t.eval .checked
  | .term t => by rw [AProd.strict, AProd.eval, ATerm.strict_checked t]
  | .mul l _ r => by rw [AProd.strict, AProd.eval, AProd.strict_checked l, ATerm.strict_checked r]
  | .div l _ r => by rw [AProd.strict, AProd.eval, AProd.strict_checked l, ATerm.strict_checked r]
theorem ASum.strict_checked : ∀ t : ASum, t.strict .checked = t.eval .checked
  | .prod t => by rw [ASum.strict, ASum.eval, AProd.strict_checked t]
  | .add l _ r => by rw [ASum.strict, ASum.eval, ASum.strict_checked l, AProd.strict_checked r]
  | .sub l _ r => by rw [ASum.strict, ASum.eval, ASum.strict_checked l, AProd.strict_checked r]
end

section
attribute [local semireducible] Ovf.fit
theorem Ovf.fit_of_checked {m : Ovf} {x v : Int} (h : Ovf.checked.fit x = some v) : m.fit x = some v := by
  by_cases hx : InI64 x
  · rw [Ovf.fit_checked_pos hx] at h
    rw [Ovf.fit.eq_def, if_pos hx]
    exact h
  · rw [Ovf.fit_checked_neg hx] at h
    cases h
end

theorem bin_mono {f : Int → Int → Option Int} {a b a' b' : Option Int} {v : Int} (ha : ∀ x, a = some x → a' = some x)
    (hb : ∀ x, b = some x → b' = some x) (h : bin f a b = some v) : bin f a' b' = some v := by
  obtain ⟨x, y, h1, h2, h3⟩ := bin_some h
  rw [ha x h1, hb y h2]
  exact h3

mutual
theorem ATerm.eval_of_strict (m : Ovf) : ∀ (t : ATerm) (v : Int), t.strict m = some v → t.eval m = some v
  | .pos n _, v, h => by rw [ATerm.strict] at h; rw [ATerm.eval]; exact Ovf.fit_of_checked h
  | .neg _ n _, v, h => by
    rw [ATerm.strict] at h
    rw [ATerm.eval]
    cases ho : Ovf.checked.fit n.val with
    | none => rw [ho] at h; cases h
    | some x => rw [ho] at h; rw [Ovf.fit_of_checked ho]; exact h
  | .paren _ e _, v, h => by rw [ATerm.strict] at h; rw [ATerm.eval]; exact ASum.eval_of_strict m e v h
theorem AProd.eval_of_strict (m : Ovf) : ∀ (t : AProd) (v : Int), t.strict m = some v → t.eval m = some v
  | .term t, v, h => by rw [AProd.strict] at h; rw [AProd.eval]; exact ATerm.eval_of_strict m t v h
  | .mul l _ r, v, h => by
    rw [AProd.strict] at h; rw [AProd.eval]
    exact bin_mono (AProd.eval_of_strict m l) (ATerm.eval_of_strict m r) h
  | .div l _ r, v, h => by
    rw [AProd.strict] at h; rw [AProd.eval]
    exact bin_mono (AProd.eval_of_strict m l) (ATerm.eval_of_strict m r) h
theorem ASum.eval_of_strict (m : Ovf) : ∀ (t : ASum) (v : Int), t.strict m = some v → t.eval m = some v
  | .prod t, v, h => by rw [ASum.strict] at h; rw [ASum.eval]; exact AProd.eval_of_strict m t v h
  | .add l _ r, v, h => by
    rw [ASum.strict] at h; rw [ASum.eval]
    exact bin_mono (ASum.eval_of_strict m l) (AProd.eval_of_strict m r) h
  | .sub l _ r, v, h => by
    rw [ASum.strict] at h; rw [ASum.eval]
    exact bin_mono (ASum.eval_of_strict m l) (AProd.eval_of_strict m r) h
end

theorem digits_fold : ∀ (l : List (Fin 10)) (a : Nat), (l.map digitChar).foldl (fun a c => a * 10 + digitVal c) a =
    l.foldl (fun a d => a * 10 + d.val) a
  | [], _ => rfl
  | d :: l, a => by
    rw [List.map_cons, List.foldl_cons, List.foldl_cons, digitVal_digitChar, digits_fold l]

theorem digits_all (l : List (Fin 10)) : (l.map digitChar).all Char.isDigit = true := by
  rw [List.all_eq_true]
  intro c hc
  obtain ⟨d, -, rfl⟩ := List.mem_map.1 hc
  exact digitChar_isDigit d

theorem parseI64_digits (d : Fin 10) (r : List (Fin 10)) :
    parseI64 ((d :: r).map digitChar) = Ovf.checked.fit (decimal (d :: r) : Nat) := by
  have h1 : digitChar d ≠ '-' := by revert d; decide
  have h2 : digitChar d ≠ '+' := by revert d; decide
  have h3 := digits_all (d :: r)
  have h4 := digits_fold (d :: r) 0
  rw [List.map_cons] at h3 h4 ⊢
  unfold parseI64
  split
  · rename_i heq; injection heq with e _; exact absurd e h1
  · rename_i heq; injection heq with e _; exact absurd e h2
  · simp only [h3]
    simp only [List.isEmpty_cons, Bool.not_true, Bool.or_self, Bool.false_eq_true, if_false]
    rw [h4]
    show (if InI64 (decimal (d :: r) : Nat) then _ else _) = _
    split
    · rw [Ovf.fit_checked_pos ‹_›]; rfl
    · rw [Ovf.fit_checked_neg ‹_›]

theorem valNumber_numTree (n : Numeral) : valNumber (numTree n.first n.rest) = Ovf.checked.fit n.val := by
  rw [valNumber, numTree_display, parseI64_digits]
  rfl

mutual
theorem ATerm.tree_val (m : Ovf) : ∀ t : ATerm, valTerm m t.tree = t.strict m
  | .pos n sp => by rw [ATerm.tree, valTerm, valNumber_numTree, ATerm.strict]
  | .neg sp1 n sp => by rw [ATerm.tree, valTerm, valNumber_numTree, ATerm.strict]
  | .paren sp1 e sp => by
    rw [ATerm.tree, valTerm, ATerm.strict, ASum.tree_val m e]
    simp [foldSum]
theorem AProd.tree_val (m : Ovf) : ∀ (p : AProd) (o : Tree), valProd m (p.tree o) = (p.strict m).bind fun acc => foldProd m o acc
  | .term t, o => by rw [AProd.tree, valProd, ATerm.tree_val m t, AProd.strict]
  | .mul l sp r, o => by
    rw [AProd.tree, AProd.tree_val m l, AProd.strict]
    cases l.strict m <;> simp [foldProd, ATerm.tree_val m r, bin, Option.bind_assoc]
  | .div l sp r, o => by
    rw [AProd.tree, AProd.tree_val m l, AProd.strict]
    cases l.strict m <;> simp [foldProd, ATerm.tree_val m r, bin, Option.bind_assoc]
theorem ASum.tree_val (m : Ovf) : ∀ (p : ASum) (o : Tree), valArith m (p.tree o) = (p.strict m).bind fun acc => foldSum m o acc
  | .prod t, o => by
    rw [ASum.tree, valArith, AProd.tree_val m t, ASum.strict]
    simp [foldProd]
  | .add l sp r, o => by
    rw [ASum.tree, ASum.tree_val m l, ASum.strict]
    cases l.strict m <;> simp [foldSum, foldProd, AProd.tree_val m r, bin, Option.bind_assoc]
  | .sub l sp r, o => by
    rw [ASum.tree, ASum.tree_val m l, ASum.strict]
    cases l.strict m <;> simp [foldSum, foldProd, AProd.tree_val m r, bin, Option.bind_assoc]
end

theorem AInput.tree_val (m : Ovf) (i : AInput) : valAst m i.tree = i.sum.strict m := by
  obtain ⟨sp, e⟩ := i
  unfold AInput.tree
  simp only
  induction sp with
  | zero =>
    rw [inputTree, valAst, ASum.tree_val]
    simp [foldSum]
  | succ n ih => rw [inputTree, valAst, ih]

/-! ## Theorems -/

theorem generated_iff {st : BState} (h : Generates arithToks st) (text : List Char) (t : Tree) :
    Parses st 0 text (.ok t) ↔ ∃ i : AInput, i.text = text ∧ t = i.tree := by
  rw [((generates_table arith_compiled).2 st h).2.1]
  constructor
  · rintro ⟨hv, rfl⟩
    obtain ⟨i, rfl⟩ := inputTree_surj t hv
    exact ⟨i, i.tree_display.symm, rfl⟩
  · rintro ⟨i, rfl, rfl⟩
    exact ⟨inputTree_value _ _, i.tree_display⟩

/-- **C47.** In builds that check for overflow, evaluating the tree of the generated parser gives `v` exactly when the
hand-written parser returns `v`. -/
theorem C47_values_agree (st : BState) (h : Generates arithToks st) (text : List Char) (v : Int) :
    (∃ t, Parses st 0 text (.ok t) ∧ valAst .checked t = some v) ↔ HandParses .checked text (.ok v) := by
  rw [C46_value]
  constructor
  · rintro ⟨t, hp, hv⟩
    obtain ⟨i, rfl, rfl⟩ := (generated_iff h _ _).1 hp
    rw [AInput.tree_val, ASum.strict_checked] at hv
    exact ⟨i, rfl, hv⟩
  · rintro ⟨i, rfl, hv⟩
    exact ⟨i.tree, (generated_iff h _ _).2 ⟨i, rfl, rfl⟩, by rw [AInput.tree_val, ASum.strict_checked, hv]⟩

/-- **C47** (syntax). The generated parser accepts exactly the texts of expressions and returns an error on all
others; so it returns an error on every text on which the hand-written parser returns one, in all builds. -/
theorem C47_syntax_agrees (st : BState) (h : Generates arithToks st) (text : List Char) :
    ((∃ t, Parses st 0 text (.ok t)) ↔ ∃ i : AInput, i.text = text) ∧
    ((∃ err, Parses st 0 text (.err err)) ↔ ¬ ∃ i : AInput, i.text = text) ∧
    ∀ m e, HandParses m text (.err e) → ∃ err, Parses st 0 text (.err err) := by
  have h1 : (∃ t, Parses st 0 text (.ok t)) ↔ ∃ i : AInput, i.text = text := by
    constructor
    · rintro ⟨t, hp⟩
      obtain ⟨i, h1, -⟩ := (generated_iff h _ _).1 hp
      exact ⟨i, h1⟩
    · rintro ⟨i, hi⟩
      exact ⟨i.tree, (generated_iff h _ _).2 ⟨i, hi, rfl⟩⟩
  have h2 : (∃ err, Parses st 0 text (.err err)) ↔ ¬ ∃ i : AInput, i.text = text := by
    rw [← h1]
    constructor
    · rintro ⟨err, he⟩ ⟨t, ht⟩
      cases he.unique ht
    · intro hn
      exact (((generates_table arith_compiled).2 st h).2.2 text).resolve_left hn
  refine ⟨h1, h2, fun m e he => h2.2 ?_⟩
  rintro ⟨i, rfl⟩
  have := (handParses_of_text m i).unique he
  cases ho : i.sum.eval m <;> rw [ho] at this <;> cases this

/-- **C47** (arithmetic errors). In builds that check for overflow, if evaluating the tree panics, so does the
hand-written parser. -/
theorem C47_panics_agree (st : BState) (h : Generates arithToks st) (text : List Char) (t : Tree)
    (hp : Parses st 0 text (.ok t)) (hv : valAst .checked t = none) : HandParses .checked text .panic := by
  obtain ⟨i, rfl, rfl⟩ := (generated_iff h _ _).1 hp
  rw [AInput.tree_val, ASum.strict_checked] at hv
  exact C46_arithmetic_error _ i hv

/-- **C47** (builds without overflow checks). There too a value computed from the tree is the value the hand-written
parser returns. -/
theorem C47_wrapping_partial (st : BState) (h : Generates arithToks st) (m : Ovf) (text : List Char) (t : Tree) (v : Int)
    (hp : Parses st 0 text (.ok t)) (hv : valAst m t = some v) : HandParses m text (.ok v) := by
  obtain ⟨i, rfl, rfl⟩ := (generated_iff h _ _).1 hp
  rw [AInput.tree_val] at hv
  exact (C46_value _ _ _).2 ⟨i, rfl, ASum.eval_of_strict m _ _ hv⟩

/-- A number that does not fit in an `i64`. -/
def exBig : AInput := ⟨0, .prod (.term (.pos ⟨9, [2, 2, 3, 3, 7, 2, 0, 3, 6, 8, 5, 4, 7, 7, 5, 8, 0, 8]⟩ 0))⟩

/-- **C47** (the converse fails in builds without overflow checks): on a number that does not fit, the hand-written parser
returns a wrapped value while the evaluation of the tree panics. -/
theorem C47_wrapping_counterexample (st : BState) (h : Generates arithToks st) :
    ∃ text t, HandParses .wrapping text (.ok (-9223372036854775808)) ∧ Parses st 0 text (.ok t) ∧ valAst .wrapping t = none := by
  refine ⟨exBig.text, exBig.tree, (C46_value _ _ _).2 ⟨exBig, rfl, ?_⟩, (generated_iff h _ _).2 ⟨exBig, rfl, rfl⟩, ?_⟩
  · decide +kernel
  · rw [AInput.tree_val]
    decide +kernel

/-- The hypothesis is met: the compiler generates a parser for the grammar. -/
example : ∃ st, Generates arithToks st := (generates_table arith_compiled).1
example (st : BState) (h : Generates arithToks st) : ∃ t, Parses st 0 " 8 - (-7 / 2) * 3 - 10".toList (.ok t) ∧
    valAst .checked t = some 7 :=
  (C47_values_agree st h _ _).2 ((C46_value _ _ _).2 ⟨exArith, by decide +kernel, by decide +kernel⟩)
example : " 8 - (-7 / 2) * 3 - 10".toList = exArith.tree.display := by decide +kernel
/-- The hand-written parser panics where the generated parser finds the syntax error. -/
example : HandParses .checked "1/0+)".toList .panic := ⟨by simp, 100, by decide +kernel⟩

end Chomp
