import Verif.Bench.JsonNibble
import Verif.Props.Json

/-! # The values of the type `Ast` generated for JSON are the trees of documents -/

namespace Chomp

/-- The values of type `i` of the generated JSON parser. -/
abbrev JV (i : Nat) (t : Tree) : Prop := Value (tableStep jsonTable) i t

/-- The texts of type `i` of the generated JSON parser. -/
def JW (i : Nat) (l : List Char) : Prop := ∃ t, JV i t ∧ t.text = l

section
variable {i a b c : Nat} {l : List Char}

theorem jw_lit {s : List Char} (h : tableStep jsonTable i = .lit s) : JW i l ↔ l = s := by
  constructor
  · rintro ⟨t, h1, rfl⟩
    rw [inv_lit h h1]; rfl
  · rintro rfl
    exact ⟨_, val_lit h, rfl⟩
theorem jw_eps (h : tableStep jsonTable i = .eps) : JW i l ↔ l = [] := by
  constructor
  · rintro ⟨t, h1, rfl⟩
    rw [inv_eps h h1]; rfl
  · rintro rfl
    exact ⟨_, val_eps h, rfl⟩
theorem jw_alias (h : tableStep jsonTable i = .alias a) : JW i l ↔ JW a l := by
  constructor
  · rintro ⟨t, h1, rfl⟩
    exact ⟨t, inv_alias h h1, rfl⟩
  · rintro ⟨t, h1, rfl⟩
    exact ⟨t, val_alias h h1, rfl⟩
theorem jw_cat2 (h : tableStep jsonTable i = .cat [a, b]) : JW i l ↔ ∃ u v, l = u ++ v ∧ JW a u ∧ JW b v := by
  constructor
  · rintro ⟨t, h1, rfl⟩
    obtain ⟨x, y, rfl, hx, hy⟩ := inv_cat2 h h1
    exact ⟨_, _, by simp [Tree.text, Tree.textL], ⟨x, hx, rfl⟩, y, hy, rfl⟩
  · rintro ⟨_, _, rfl, ⟨x, hx, rfl⟩, y, hy, rfl⟩
    exact ⟨_, val_cat2 h hx hy, by simp [Tree.text, Tree.textL]⟩
theorem jw_cat3 (h : tableStep jsonTable i = .cat [a, b, c]) :
    JW i l ↔ ∃ u v w, l = u ++ v ++ w ∧ JW a u ∧ JW b v ∧ JW c w := by
  constructor
  · rintro ⟨t, h1, rfl⟩
    obtain ⟨x, y, z, rfl, hx, hy, hz⟩ := inv_cat3 h h1
    exact ⟨_, _, _, by simp [Tree.text, Tree.textL], ⟨x, hx, rfl⟩, ⟨y, hy, rfl⟩, z, hz, rfl⟩
  · rintro ⟨_, _, _, rfl, ⟨x, hx, rfl⟩, ⟨y, hy, rfl⟩, z, hz, rfl⟩
    exact ⟨_, val_cat3 h hx hy hz, by simp [Tree.text, Tree.textL]⟩
theorem jw_alt2 (h : tableStep jsonTable i = .alt [] [a, b]) : JW i l ↔ JW a l ∨ JW b l := by
  constructor
  · rintro ⟨t, h1, rfl⟩
    rcases inv_alt2 h h1 with ⟨x, rfl, hx⟩ | ⟨x, rfl, hx⟩
    · exact .inl ⟨x, hx, rfl⟩
    · exact .inr ⟨x, hx, rfl⟩
  · rintro (⟨x, hx, rfl⟩ | ⟨x, hx, rfl⟩)
    · exact ⟨_, val_alt h (n := 0) rfl hx, rfl⟩
    · exact ⟨_, val_alt h (n := 1) rfl hx, rfl⟩
theorem jw_enum {cs : List Char} (h : isEnum jsonTable i cs = true) : JW i l ↔ ∃ c, l = [c] ∧ c ∈ cs := by
  constructor
  · rintro ⟨t, h1, rfl⟩
    obtain ⟨k, rfl⟩ := (isEnum_iff h t).1 h1
    exact ⟨k.char, rfl, by unfold Pick.char; exact List.getElem_mem _⟩
  · rintro ⟨c, rfl, hc⟩
    obtain ⟨k, hk, rfl⟩ := List.getElem_of_mem hc
    exact ⟨Pick.tree (cs := cs) ⟨k, hk⟩, (isEnum_iff h _).2 ⟨_, rfl⟩, rfl⟩

/-- `star iter`, where the texts of `iter` are single characters. -/
theorem jw_star {j e s : Nat} {P : Char → Prop} (ha : ∀ l, JW a l ↔ ∃ c, l = [c] ∧ P c) (h1 : tableStep jsonTable i = .alias j)
    (h2 : tableStep jsonTable j = .alt [] [e, s]) (h3 : tableStep jsonTable e = .eps) (h4 : tableStep jsonTable s = .cat [a, b])
    (h5 : tableStep jsonTable b = .box i) (l : List Char) : JW i l ↔ ∀ c ∈ l, P c := by
  constructor
  · rintro ⟨t, h, rfl⟩
    have go : ∀ (n : Nat) (t : Tree), sizeOf t ≤ n → JV i t → ∀ c ∈ t.text, P c := by
      intro n
      induction n with
      | zero => intro t hn; cases t <;> simp at hn
      | succ n ih =>
        intro t hn h
        rcases inv_alt2 h2 (inv_alias h1 h) with ⟨x, rfl, hx⟩ | ⟨x, rfl, hx⟩
        · rw [inv_eps h3 hx]; intro c hc; cases hc
        · obtain ⟨y, z, rfl, hy, hz⟩ := inv_cat2 h4 hx
          obtain ⟨u, rfl, hu⟩ := inv_box h5 hz
          obtain ⟨c, hc, hp⟩ := (ha _).1 ⟨y, hy, rfl⟩
          have := ih u (by simp at hn; omega) hu
          intro x hx
          simp only [Tree.text, Tree.textL, hc, List.append_nil, List.singleton_append, List.mem_cons] at hx
          rcases hx with rfl | hx
          · exact hp
          · exact this x hx
    exact go _ t (Nat.le_refl _) h
  · induction l with
    | nil => intro _; exact ⟨_, val_alias h1 (val_alt h2 (n := 0) rfl (val_eps h3)), rfl⟩
    | cons c l ih =>
      intro h
      obtain ⟨t, ht, rfl⟩ := ih fun x hx => h x (by simp [hx])
      obtain ⟨x, hx, hx'⟩ := (ha [c]).2 ⟨c, rfl, h c (by simp)⟩
      exact ⟨_, val_alias h1 (val_alt h2 (n := 1) rfl (val_cat2 h4 hx (val_box h5 ht))), by simp [Tree.text, Tree.textL, hx']⟩

/-- `plus iter`, where the texts of `iter` are single characters. -/
theorem jw_plus {j e o : Nat} {P : Char → Prop} (ha : ∀ l, JW a l ↔ ∃ c, l = [c] ∧ P c) (h1 : tableStep jsonTable i = .alias j)
    (h2 : tableStep jsonTable j = .cat [a, o]) (h3 : tableStep jsonTable o = .alt [] [e, b]) (h4 : tableStep jsonTable e = .eps)
    (h5 : tableStep jsonTable b = .box i) (l : List Char) : JW i l ↔ l ≠ [] ∧ ∀ c ∈ l, P c := by
  constructor
  · rintro ⟨t, h, rfl⟩
    have go : ∀ (n : Nat) (t : Tree), sizeOf t ≤ n → JV i t → t.text ≠ [] ∧ ∀ c ∈ t.text, P c := by
      intro n
      induction n with
      | zero => intro t hn; cases t <;> simp at hn
      | succ n ih =>
        intro t hn h
        obtain ⟨y, z, rfl, hy, hz⟩ := inv_cat2 h2 (inv_alias h1 h)
        obtain ⟨c, hc, hp⟩ := (ha _).1 ⟨y, hy, rfl⟩
        rcases inv_alt2 h3 hz with ⟨x, rfl, hx⟩ | ⟨x, rfl, hx⟩
        · rw [inv_eps h4 hx]
          simp [Tree.text, Tree.textL, hc, hp]
        · obtain ⟨u, rfl, hu⟩ := inv_box h5 hx
          have := ih u (by simp at hn; omega) hu
          simp only [Tree.text, Tree.textL, hc, List.append_nil, List.singleton_append, List.mem_cons]
          refine ⟨by simp, ?_⟩
          rintro x (rfl | hx)
          · exact hp
          · exact this.2 x hx
    exact go _ t (Nat.le_refl _) h
  · rintro ⟨hne, h⟩
    cases l with
    | nil => exact absurd rfl hne
    | cons c l =>
      clear hne
      induction l generalizing c with
      | nil =>
        obtain ⟨x, hx, hx'⟩ := (ha [c]).2 ⟨c, rfl, h c (by simp)⟩
        exact ⟨_, val_alias h1 (val_cat2 h2 hx (val_alt h3 (n := 0) rfl (val_eps h4))), by simp [Tree.text, Tree.textL, hx']⟩
      | cons d l ih =>
        obtain ⟨x, hx, hx'⟩ := (ha [c]).2 ⟨c, rfl, h c (by simp)⟩
        obtain ⟨t, ht, ht'⟩ := ih d fun x hx => h x (by simp at hx ⊢; exact .inr hx)
        exact ⟨_, val_alias h1 (val_cat2 h2 hx (val_alt h3 (n := 1) rfl (val_box h5 ht))), by simp [Tree.text, Tree.textL, hx', ht']⟩
end

/-! ## White space and numbers -/

theorem jw_wsChar (l : List Char) : JW 5 l ↔ ∃ c, l = [c] ∧ (c = ' ' ∨ c = '\t' ∨ c = '\n' ∨ c = '\r') := by
  rw [jw_enum (cs := [' ', '\t', '\n', '\r']) (by decide +kernel)]
  simp

theorem jw_ws (l : List Char) : JW 154 l ↔ IsWs l :=
  jw_star (a := 5) (j := 158) (e := 155) (s := 157) (b := 156) jw_wsChar rfl rfl rfl rfl rfl l

theorem digit19_mem {c : Char} : c ∈ "123456789".toList ↔ c.isDigit = true ∧ c ≠ '0' := by
  constructor
  · revert c; decide
  · rintro ⟨h1, h2⟩
    simp only [Char.isDigit, Bool.and_eq_true, decide_eq_true_eq] at h1
    have h3 : c.toNat ≠ 48 := fun h => h2 (Char.toNat_inj.1 h)
    have h4 : 48 ≤ c.toNat ∧ c.toNat ≤ 57 := ⟨UInt32.le_iff_toNat_le.1 h1.1, UInt32.le_iff_toNat_le.1 h1.2⟩
    have h5 : ∃ n : Fin 10, n.val ≠ 0 ∧ c = Char.ofNat (48 + n.val) := by
      refine ⟨⟨c.toNat - 48, by omega⟩, by simp; omega, ?_⟩
      have : 48 + (c.toNat - 48) = c.toNat := by omega
      simp only [this, Char.ofNat_toNat]
    obtain ⟨n, hn, rfl⟩ := h5
    revert n
    decide

theorem jw_digit19 (l : List Char) : JW 22 l ↔ ∃ c, l = [c] ∧ c.isDigit = true ∧ c ≠ '0' := by
  rw [jw_enum (cs := "123456789".toList) (by decide +kernel)]
  simp only [digit19_mem]

theorem jw_digit (l : List Char) : JW 25 l ↔ ∃ c, l = [c] ∧ c.isDigit = true := by
  rw [jw_alt2 (a := 12) (b := 22) rfl, jw_lit (s := ['0']) rfl, jw_digit19]
  constructor
  · rintro (rfl | ⟨c, rfl, h, _⟩)
    · exact ⟨'0', rfl, by decide⟩
    · exact ⟨c, rfl, h⟩
  · rintro ⟨c, rfl, h⟩
    by_cases hc : c = '0'
    · exact .inl (by rw [hc])
    · exact .inr ⟨c, rfl, h, hc⟩

theorem jw_digits (l : List Char) : JW 33 l ↔ IsDigits l :=
  jw_plus (a := 25) (j := 37) (o := 36) (e := 34) (b := 35) jw_digit rfl rfl rfl rfl rfl l

theorem jw_int (l : List Char) : JW 30 l ↔ l = ['0'] ∨ IsDigits l ∧ l.head? ≠ some '0' := by
  rw [jw_alt2 (a := 12) (b := 29) rfl, jw_lit (s := ['0']) rfl, jw_cat2 (a := 22) (b := 23) rfl]
  refine or_congr Iff.rfl ?_
  constructor
  · rintro ⟨u, v, rfl, h1, h2⟩
    obtain ⟨c, rfl, h3, h4⟩ := (jw_digit19 u).1 h1
    rw [jw_star (a := 25) (j := 28) (e := 24) (s := 27) (b := 26) jw_digit rfl rfl rfl rfl rfl v] at h2
    refine ⟨⟨by simp, ?_⟩, by simpa using h4⟩
    intro x hx
    simp only [List.singleton_append, List.mem_cons] at hx
    rcases hx with rfl | hx
    · exact h3
    · exact h2 x hx
  · rintro ⟨⟨h1, h2⟩, h3⟩
    cases l with
    | nil => exact absurd rfl h1
    | cons c l =>
      refine ⟨[c], l, rfl, (jw_digit19 _).2 ⟨c, rfl, h2 c (by simp), by simpa using h3⟩, ?_⟩
      rw [jw_star (a := 25) (j := 28) (e := 24) (s := 27) (b := 26) jw_digit rfl rfl rfl rfl rfl l]
      exact fun x hx => h2 x (by simp [hx])

theorem jw_frac {i e : Nat} (h : tableStep jsonTable i = .alt [] [e, 38]) (he : tableStep jsonTable e = .eps) (l : List Char) :
    JW i l ↔ l = [] ∨ ∃ d, l = '.' :: d ∧ IsDigits d := by
  rw [jw_alt2 h, jw_eps he, jw_cat2 (a := 32) (b := 33) rfl]
  refine or_congr Iff.rfl ⟨?_, ?_⟩
  · rintro ⟨u, v, rfl, h1, h2⟩
    rw [jw_lit (s := ['.']) rfl] at h1
    subst h1
    exact ⟨v, rfl, (jw_digits v).1 h2⟩
  · rintro ⟨d, rfl, h⟩
    exact ⟨['.'], d, rfl, (jw_lit rfl).2 rfl, (jw_digits d).2 h⟩

theorem jw_sign {i e : Nat} (h : tableStep jsonTable i = .alt [] [e, 47]) (he : tableStep jsonTable e = .eps) (l : List Char) :
    JW i l ↔ l = [] ∨ l = ['+'] ∨ l = ['-'] := by
  rw [jw_alt2 h, jw_eps he, jw_alt2 (a := 45) (b := 46) rfl, jw_lit (s := ['+']) rfl, jw_lit (s := ['-']) rfl]

theorem jw_exp {i e o p q : Nat} (h : tableStep jsonTable i = .alt [] [e, o]) (he : tableStep jsonTable e = .eps)
    (ho : tableStep jsonTable o = .cat [43, p, 33]) (hp : tableStep jsonTable p = .alt [] [q, 47]) (hq : tableStep jsonTable q = .eps)
    (l : List Char) : JW i l ↔ l = [] ∨ ∃ e s d, l = e :: s ++ d ∧ (e = 'e' ∨ e = 'E') ∧ (s = [] ∨ s = ['+'] ∨ s = ['-']) ∧ IsDigits d := by
  rw [jw_alt2 h, jw_eps he, jw_cat3 ho]
  refine or_congr Iff.rfl ⟨?_, ?_⟩
  · rintro ⟨u, v, w, rfl, h1, h2, h3⟩
    rw [jw_alt2 (a := 41) (b := 42) rfl, jw_lit (s := ['e']) rfl, jw_lit (s := ['E']) rfl] at h1
    rw [jw_sign hp hq] at h2
    rw [jw_digits] at h3
    rcases h1 with rfl | rfl
    · exact ⟨'e', v, w, rfl, .inl rfl, h2, h3⟩
    · exact ⟨'E', v, w, rfl, .inr rfl, h2, h3⟩
  · rintro ⟨e, s, d, rfl, h1, h2, h3⟩
    refine ⟨[e], s, d, rfl, ?_, (jw_sign hp hq s).2 h2, (jw_digits d).2 h3⟩
    rw [jw_alt2 (a := 41) (b := 42) rfl, jw_lit (s := ['e']) rfl, jw_lit (s := ['E']) rfl]
    rcases h1 with rfl | rfl
    · exact .inl rfl
    · exact .inr rfl

/-- The texts of numbers are those of RFC 8259. -/
theorem jw_number (l : List Char) : JW 61 l ↔ IsJsonNumber l := by
  rw [jw_alt2 (a := 51) (b := 60) rfl, jw_cat3 (a := 30) (b := 39) (c := 50) rfl, jw_cat2 (a := 46) (b := 59) rfl]
  constructor
  · rintro (⟨u, v, w, rfl, h1, h2, h3⟩ | ⟨s, x, rfl, h0, h4⟩)
    · rw [jw_int] at h1
      rw [jw_frac (e := 31) rfl rfl] at h2
      rw [jw_exp (e := 40) (o := 49) (p := 48) (q := 44) rfl rfl rfl rfl rfl] at h3
      exact .mk [] u v w (.inl rfl) h1 h2 h3
    · rw [jw_lit (s := ['-']) rfl] at h0
      subst h0
      rw [jw_cat3 (a := 30) (b := 53) (c := 58) rfl] at h4
      obtain ⟨u, v, w, rfl, h1, h2, h3⟩ := h4
      rw [jw_int] at h1
      rw [jw_frac (e := 52) rfl rfl] at h2
      rw [jw_exp (e := 54) (o := 57) (p := 56) (q := 55) rfl rfl rfl rfl rfl] at h3
      have := IsJsonNumber.mk ['-'] u v w (.inr rfl) h1 h2 h3
      simpa using this
  · rintro ⟨s, u, v, w, hs, h1, h2, h3⟩
    rcases hs with rfl | rfl
    · exact .inl ⟨u, v, w, by simp, (jw_int u).2 h1, (jw_frac (e := 31) rfl rfl v).2 h2,
        (jw_exp (e := 40) (o := 49) (p := 48) (q := 44) rfl rfl rfl rfl rfl w).2 h3⟩
    · refine .inr ⟨['-'], u ++ v ++ w, by simp, (jw_lit rfl).2 rfl, ?_⟩
      rw [jw_cat3 (a := 30) (b := 53) (c := 58) rfl]
      exact ⟨u, v, w, rfl, (jw_int u).2 h1, (jw_frac (e := 52) rfl rfl v).2 h2,
        (jw_exp (e := 54) (o := 57) (p := 56) (q := 55) rfl rfl rfl rfl rfl w).2 h3⟩

/-! ## Strings -/

/-- The characters that can follow a backslash. -/
def jsonEscChars : List Char := ['"', '\\', '/', 'b', 'f', 'n', 'r', 't']

/-- The characters of strings in the generated parser: those of RFC 8259, but unescaped only ASCII. -/
def JChar.Ascii : JChar → Prop
  | .lit c => JChar.Ok (.lit c) ∧ c.toNat ≤ 0x7E
  | c => c.Ok

/-- `t` is the `Char1` of `x`. -/
inductive CharTree : JChar → Tree → Prop
  | lit (k : Pick plainChars) : CharTree (.lit k.char) (.alt 0 k.tree)
  | esc (k : Pick jsonEscChars) : CharTree (.esc k.char) (.alt 1 (.cat [.lit ['\\'], .alt 0 k.tree]))
  | uni (a b c d : Pick hexChars) : CharTree (.uni a.char b.char c.char d.char)
      (.alt 1 (.cat [.lit ['\\'], .alt 1 (.cat [.lit ['u'], a.tree, b.tree, c.tree, d.tree])]))

theorem jplain (t : Tree) : JV 142 t ↔ ∃ k : Pick plainChars, t = k.tree := isEnum_iff (by decide +kernel) t
theorem jesc (t : Tree) : JV 144 t ↔ ∃ k : Pick jsonEscChars, t = k.tree := isEnum_iff (by decide +kernel) t
theorem jhex (t : Tree) : JV 145 t ↔ ∃ k : Pick hexChars, t = k.tree := isEnum_iff (by decide +kernel) t

theorem val_cat5 {tbl : List (String × NodeF Nat × List String)} {i a b c d e : Nat} {x y z u v : Tree}
    (h : tableStep tbl i = .cat [a, b, c, d, e]) (hx : Value (tableStep tbl) a x)
    (hy : Value (tableStep tbl) b y) (hz : Value (tableStep tbl) c z) (hu : Value (tableStep tbl) d u) (hv : Value (tableStep tbl) e v) :
    Value (tableStep tbl) i (.cat [x, y, z, u, v]) :=
  .cat _ _ _ h (.cons _ _ _ _ hx (.cons _ _ _ _ hy (.cons _ _ _ _ hz (.cons _ _ _ _ hu (.cons _ _ _ _ hv .nil)))))
theorem val_cat6 {tbl : List (String × NodeF Nat × List String)} {i a b c d e f : Nat} {x y z u v w : Tree}
    (h : tableStep tbl i = .cat [a, b, c, d, e, f]) (hx : Value (tableStep tbl) a x)
    (hy : Value (tableStep tbl) b y) (hz : Value (tableStep tbl) c z) (hu : Value (tableStep tbl) d u) (hv : Value (tableStep tbl) e v)
    (hw : Value (tableStep tbl) f w) : Value (tableStep tbl) i (.cat [x, y, z, u, v, w]) :=
  .cat _ _ _ h (.cons _ _ _ _ hx (.cons _ _ _ _ hy (.cons _ _ _ _ hz (.cons _ _ _ _ hu (.cons _ _ _ _ hv (.cons _ _ _ _ hw .nil))))))

theorem charTree_val {x : JChar} {t : Tree} (h : CharTree x t) : JV 149 t := by
  cases h with
  | lit k => exact val_alt (tys := []) (l := [142, 148]) (n := 0) rfl rfl ((jplain _).2 ⟨k, rfl⟩)
  | esc k =>
    exact val_alt (tys := []) (l := [142, 148]) (n := 1) rfl rfl (val_cat2 (a := 143) (b := 147) rfl (val_lit rfl)
      (val_alt (tys := []) (l := [144, 146]) (n := 0) rfl rfl ((jesc _).2 ⟨k, rfl⟩)))
  | uni a b c d =>
    exact val_alt (tys := []) (l := [142, 148]) (n := 1) rfl rfl (val_cat2 (a := 143) (b := 147) rfl (val_lit rfl)
      (val_alt (tys := []) (l := [144, 146]) (n := 1) rfl rfl (val_cat5 (a := 132) (b := 145) (c := 145) (d := 145) (e := 145) rfl (val_lit rfl)
        ((jhex _).2 ⟨a, rfl⟩) ((jhex _).2 ⟨b, rfl⟩) ((jhex _).2 ⟨c, rfl⟩) ((jhex _).2 ⟨d, rfl⟩))))

theorem charTree_surj {t : Tree} (h : JV 149 t) : ∃ x, CharTree x t := by
  rcases inv_alt2 (tys := []) (a := 142) (b := 148) rfl h with ⟨y, rfl, hy⟩ | ⟨y, rfl, hy⟩
  · obtain ⟨k, rfl⟩ := (jplain _).1 hy
    exact ⟨_, .lit k⟩
  · obtain ⟨u, v, rfl, hu, hv⟩ := inv_cat2 (a := 143) (b := 147) rfl hy
    cases inv_lit rfl hu
    rcases inv_alt2 (tys := []) (a := 144) (b := 146) rfl hv with ⟨z, rfl, hz⟩ | ⟨z, rfl, hz⟩
    · obtain ⟨k, rfl⟩ := (jesc _).1 hz
      exact ⟨_, .esc k⟩
    · obtain ⟨p, a, b, c, d, rfl, hp, ha, hb, hc, hd⟩ := inv_cat5 (a := 132) (b := 145) (c := 145) (d := 145) (e := 145) rfl hz
      cases inv_lit rfl hp
      obtain ⟨a, rfl⟩ := (jhex _).1 ha
      obtain ⟨b, rfl⟩ := (jhex _).1 hb
      obtain ⟨c, rfl⟩ := (jhex _).1 hc
      obtain ⟨d, rfl⟩ := (jhex _).1 hd
      exact ⟨_, .uni a b c d⟩

theorem charTree_text {x : JChar} {t : Tree} (h : CharTree x t) : t.text = x.text := by
  cases h <;> simp [Tree.text, Tree.textL, Pick.tree, JChar.text]

theorem plain_ok : ∀ k : Pick plainChars, JChar.Ascii (.lit k.char) := by
  have : ∀ k : Pick plainChars, (0x20 ≤ k.char.toNat ∧ k.char ≠ '"' ∧ k.char ≠ '\\') ∧ k.char.toNat ≤ 0x7E := by decide +kernel
  exact this

theorem hex_ok : ∀ k : Pick hexChars, hexVal k.char = some (hexVal16 k) ∧ hexDigit? k.char = some (hexVal16 k) ∧ hexVal16 k < 16 := by
  decide +kernel

theorem charTree_ok {x : JChar} {t : Tree} (h : CharTree x t) : x.Ascii := by
  cases h with
  | lit k => exact plain_ok k
  | esc k =>
    show k.char ∈ jsonEscChars
    unfold Pick.char
    exact List.getElem_mem _
  | uni a b c d =>
    show ∀ x ∈ [a.char, b.char, c.char, d.char], (hexVal x).isSome
    intro x hx
    simp only [List.mem_cons, List.not_mem_nil, or_false] at hx
    rcases hx with rfl | rfl | rfl | rfl <;> rw [(hex_ok _).1] <;> rfl

theorem pick_of_mem {cs : List Char} {c : Char} (h : c ∈ cs) : ∃ k : Pick cs, k.char = c := by
  obtain ⟨k, hk, rfl⟩ := List.getElem_of_mem h
  exact ⟨⟨k, hk⟩, rfl⟩

theorem plain_mem {c : Char} (h : JChar.Ascii (.lit c)) : c ∈ plainChars := by
  obtain ⟨⟨h1, h2, h3⟩, h4⟩ := h
  have : ∃ n : Fin 127, c = Char.ofNat n.val := ⟨⟨c.toNat, by omega⟩, by simp⟩
  obtain ⟨n, rfl⟩ := this
  revert n
  decide +kernel

theorem hex_mem {c : Char} (h : (hexVal c).isSome) : c ∈ hexChars := by
  have hlt : c.toNat < 128 := by
    unfold hexVal at h
    split at h
    · rename_i h'
      have := UInt32.le_iff_toNat_le.1 h'.2
      show c.val.toNat < 128
      have h9 : ('9' : Char).val.toNat = 57 := rfl
      omega
    · split at h
      · rename_i h'
        have := UInt32.le_iff_toNat_le.1 h'.2
        show c.val.toNat < 128
        have h9 : ('f' : Char).val.toNat = 102 := rfl
        omega
      · split at h
        · rename_i h'
          have := UInt32.le_iff_toNat_le.1 h'.2
          show c.val.toNat < 128
          have h9 : ('F' : Char).val.toNat = 70 := rfl
          omega
        · cases h
  have : ∃ n : Fin 128, c = Char.ofNat n.val := ⟨⟨c.toNat, hlt⟩, by simp⟩
  obtain ⟨n, rfl⟩ := this
  revert n
  decide +kernel

theorem charTree_exists {x : JChar} (h : x.Ascii) : ∃ t, CharTree x t := by
  cases x with
  | lit c =>
    obtain ⟨k, rfl⟩ := pick_of_mem (plain_mem h)
    exact ⟨_, .lit k⟩
  | esc c =>
    obtain ⟨k, rfl⟩ := pick_of_mem (cs := jsonEscChars) h
    exact ⟨_, .esc k⟩
  | uni a b c d =>
    have h' : ∀ x ∈ [a, b, c, d], (hexVal x).isSome := h
    obtain ⟨a, rfl⟩ := pick_of_mem (hex_mem (h' a (by simp)))
    obtain ⟨b, rfl⟩ := pick_of_mem (hex_mem (h' b (by simp)))
    obtain ⟨c, rfl⟩ := pick_of_mem (hex_mem (h' c (by simp)))
    obtain ⟨d, rfl⟩ := pick_of_mem (hex_mem (h' d (by simp)))
    exact ⟨_, .uni a b c d⟩

theorem pick_toChar {cs : List Char} (k : Pick cs) : k.tree.toChar = some k.char := rfl

theorem njUnit_tree (a b c d : Pick hexChars) (x : Tree) :
    njUnit (.cat [x, a.tree, b.tree, c.tree, d.tree]) = some (unitOf a.char b.char c.char d.char) := by
  obtain ⟨a1, a2, a3⟩ := hex_ok a
  obtain ⟨b1, b2, b3⟩ := hex_ok b
  obtain ⟨c1, c2, c3⟩ := hex_ok c
  obtain ⟨d1, d2, d3⟩ := hex_ok d
  simp only [njUnit, pick_toChar, Option.bind_some, u16FromHex, hexFold, a2, b2, c2, d2, List.isEmpty_cons, Bool.false_eq_true,
    if_false, unitOf, a1, b1, c1, d1, Option.getD_some]
  rw [if_pos (by omega)]
  simp

theorem unitOf_lt (a b c d : Pick hexChars) : unitOf a.char b.char c.char d.char < 65536 := by
  obtain ⟨a1, a2, a3⟩ := hex_ok a
  obtain ⟨b1, b2, b3⟩ := hex_ok b
  obtain ⟨c1, c2, c3⟩ := hex_ok c
  obtain ⟨d1, d2, d3⟩ := hex_ok d
  simp only [unitOf, a1, b1, c1, d1, Option.getD_some]
  omega

theorem njAscii_tree : ∀ k : Pick jsonEscChars, njAscii k.val = some (escapeValue k.char) := by decide +kernel

theorem njSurrogate_iff (n : Nat) : njSurrogate n = true ↔ IsHigh n ∨ IsLow n := by
  simp only [njSurrogate, Bool.and_eq_true, decide_eq_true_eq, IsHigh, IsLow]
  omega

theorem charOfU32_unit {n : Nat} (h : n < 65536) (hs : ¬ (IsHigh n ∨ IsLow n)) : charOfU32 n = some (Char.ofNat n) := by
  unfold charOfU32
  rw [if_pos]
  simp only [IsHigh, IsLow] at hs
  omega

theorem decodePair_spec (u v : Nat) (hu : IsHigh u ∨ IsLow u) (hv : IsHigh v ∨ IsLow v) :
    (decodePair u v).bind charOfU32 = if IsHigh u ∧ IsLow v then some (Char.ofNat (pairValue u v))
      else if IsLow u ∧ IsHigh v then some (Char.ofNat (pairValue v u)) else none := by
  have key : ∀ x y, IsHigh x → IsLow y → charOfU32 (pairValue x y) = some (Char.ofNat (pairValue x y)) := by
    intro x y hx hy
    obtain ⟨_, _, _, c, h1, h2⟩ := C48_pair x y hx hy
    rw [h1, ← h2, Char.ofNat_toNat]
  by_cases c1 : IsHigh u ∧ IsLow v
  · rw [if_pos c1, (C48_pair u v c1.1 c1.2).1, Option.bind_some, key u v c1.1 c1.2]
  · rw [if_neg c1]
    by_cases c2 : IsLow u ∧ IsHigh v
    · rw [if_pos c2, (C48_pair v u c2.2 c2.1).2.1, Option.bind_some, key v u c2.2 c2.1]
    · rw [if_neg c2, (C48_panics u v).2 (fun h => h.elim c1 c2)]
      rfl

theorem njDecode_tree : ∀ (s : List JChar) (ts : List Tree), All2 CharTree s ts → njDecode ts = decodeJson true s
  | [], _, h => by cases h; rfl
  | x :: s, _, h => by
    cases h with
    | cons h1 h2 =>
      have ih := njDecode_tree s _ h2
      cases h1 with
      | lit k => simp only [njDecode, pick_toChar, Option.bind_some, decodeJson, ih]
      | esc k =>
        show (njAscii k.val).bind _ = _
        rw [njAscii_tree]
        simp only [Option.bind_some, decodeJson, ih]
      | uni a b c d =>
        rename_i ts
        simp only [njDecode, njUnit_tree, Option.bind_some]
        have hlt := unitOf_lt a b c d
        generalize hu : unitOf a.char b.char c.char d.char = u at hlt
        cases s with
        | nil =>
          cases h2
          simp only [decodeJson, hu]
          by_cases hs : IsHigh u ∨ IsLow u
          · rw [if_pos ((njSurrogate_iff u).2 hs), if_pos hs]
          · rw [if_neg (fun h => hs ((njSurrogate_iff u).1 h)), if_neg hs, charOfU32_unit hlt hs]
            rfl
        | cons y r =>
          by_cases hs : IsHigh u ∨ IsLow u
          · rw [if_pos ((njSurrogate_iff u).2 hs)]
            cases h2 with
            | cons h3 h4 =>
              cases h3 with
              | lit k => simp only [decodeJson, hu, if_pos hs]
              | esc k => simp only [decodeJson, hu, if_pos hs]
              | uni a' b' c' d' =>
                have ih' := njDecode_tree r _ h4
                simp only [njUnit_tree, Option.bind_some, decodeJson, hu, if_pos hs]
                generalize unitOf a'.char b'.char c'.char d'.char = v
                by_cases hv : IsHigh v ∨ IsLow v
                · rw [if_pos ((njSurrogate_iff v).2 hv), decodePair_spec u v hs hv]
                  by_cases c1 : IsHigh u ∧ IsLow v
                  · rw [if_pos c1, if_pos c1, Option.bind_some, ih']
                  · rw [if_neg c1, if_neg c1]
                    by_cases c2 : IsLow u ∧ IsHigh v
                    · rw [if_pos c2, if_pos ⟨trivial, c2⟩, Option.bind_some, ih']
                    · rw [if_neg c2, if_neg (fun h => c2 h.2)]
                      rfl
                · rw [if_neg (fun h => hv ((njSurrogate_iff v).1 h))]
                  rw [if_neg (fun h => hv (.inr h.2)), if_neg (fun h => hv (.inl h.2.2))]
          · rw [if_neg (fun h => hs ((njSurrogate_iff u).1 h)), charOfU32_unit hlt hs, Option.bind_some, ih]
            cases y <;> simp only [decodeJson, hu, if_neg hs]

/-- The `Star2` of some characters. -/
def starTree : List Tree → Tree
  | [] => .alt 0 .eps
  | t :: l => .alt 1 (.cat [t, .box (starTree l)])

theorem njStar_tree : ∀ l : List Tree, njStar (starTree l) = l
  | [] => rfl
  | t :: l => by simp only [starTree, njStar, njStar_tree l]

theorem star_val : ∀ {l : List Tree}, (∀ t ∈ l, JV 149 t) → JV 63 (starTree l)
  | [], _ => val_alias (a := 152) rfl (val_alt (tys := []) (l := [64, 151]) (n := 0) rfl rfl (val_eps rfl))
  | t :: l, h => val_alias (a := 152) rfl (val_alt (tys := []) (l := [64, 151]) (n := 1) rfl rfl
      (val_cat2 (a := 149) (b := 150) rfl (h t (by simp)) (val_box (a := 63) rfl (star_val fun x hx => h x (by simp [hx])))))

theorem star_surj (t : Tree) (h : JV 63 t) : ∃ l, t = starTree l ∧ ∀ x ∈ l, JV 149 x := by
  rcases inv_alt2 (tys := []) (a := 64) (b := 151) rfl (inv_alias (a := 152) rfl h) with ⟨x, ht, hx⟩ | ⟨x, ht, hx⟩
  · cases inv_eps rfl hx
    exact ⟨[], ht, by simp⟩
  · obtain ⟨y, z, rfl, hy, hz⟩ := inv_cat2 (a := 149) (b := 150) rfl hx
    obtain ⟨u, rfl, hu⟩ := inv_box (a := 63) rfl hz
    obtain ⟨l, rfl, hl⟩ := star_surj u hu
    refine ⟨y :: l, ht, ?_⟩
    intro x hx
    rcases List.mem_cons.1 hx with rfl | hx
    · exact hy
    · exact hl x hx
termination_by sizeOf t
decreasing_by subst ht; simp; omega

theorem chars_exist : ∀ {s : List JChar}, (∀ c ∈ s, c.Ascii) → ∃ l, All2 CharTree s l
  | [], _ => ⟨[], .nil⟩
  | c :: s, h => by
    obtain ⟨l, hl⟩ := chars_exist (s := s) fun x hx => h x (by simp [hx])
    obtain ⟨t, ht⟩ := charTree_exists (h c (by simp))
    exact ⟨t :: l, .cons ht hl⟩

theorem chars_surj : ∀ {l : List Tree}, (∀ t ∈ l, JV 149 t) → ∃ s, All2 CharTree s l
  | [], _ => ⟨[], .nil⟩
  | t :: l, h => by
    obtain ⟨s, hs⟩ := chars_surj (l := l) fun x hx => h x (by simp [hx])
    obtain ⟨c, hc⟩ := charTree_surj (h t (by simp))
    exact ⟨c :: s, .cons hc hs⟩

theorem chars_ok : ∀ {s : List JChar} {l : List Tree}, All2 CharTree s l →
    (∀ c ∈ s, c.Ascii) ∧ (∀ t ∈ l, JV 149 t) ∧ (starTree l).text = JChar.textL s
  | _, _, .nil => ⟨by simp, by simp, rfl⟩
  | _, _, .cons (a := c) (b := t) h1 h2 => by
    obtain ⟨i1, i2, i3⟩ := chars_ok h2
    refine ⟨?_, ?_, ?_⟩
    · intro x hx
      rcases List.mem_cons.1 hx with rfl | hx
      · exact charTree_ok h1
      · exact i1 x hx
    · intro x hx
      rcases List.mem_cons.1 hx with rfl | hx
      · exact charTree_val h1
      · exact i2 x hx
    · simp only [starTree, Tree.text, Tree.textL, i3, charTree_text h1, JChar.textL, List.map_cons, List.flatten_cons, List.append_nil]

/-- Strings, and what they are converted to. -/
theorem string_exists {s : List JChar} (h : ∀ c ∈ s, c.Ascii) :
    ∃ t, JV 153 t ∧ t.text = '"' :: JChar.textL s ++ ['"'] ∧ njString t = decodeJson true s := by
  obtain ⟨l, hl⟩ := chars_exist h
  obtain ⟨_, h2, h3⟩ := chars_ok hl
  refine ⟨.cat [.lit ['"'], starTree l, .lit ['"']], val_cat3 (a := 62) (b := 63) (c := 62) rfl (val_lit rfl) (star_val h2) (val_lit rfl), ?_, ?_⟩
  · simp [Tree.text, Tree.textL, h3]
  · simp only [njString, njStar_tree, njDecode_tree s l hl]

theorem string_surj {t : Tree} (h : JV 153 t) :
    ∃ s, (∀ c ∈ s, JChar.Ascii c) ∧ t.text = '"' :: JChar.textL s ++ ['"'] ∧ njString t = decodeJson true s := by
  obtain ⟨x, y, z, rfl, hx, hy, hz⟩ := inv_cat3 (a := 62) (b := 63) (c := 62) rfl h
  cases inv_lit rfl hx
  cases inv_lit rfl hz
  obtain ⟨l, rfl, hl⟩ := star_surj y hy
  obtain ⟨s, hs⟩ := chars_surj hl
  obtain ⟨h1, _, h3⟩ := chars_ok hs
  refine ⟨s, h1, ?_, ?_⟩
  · simp [Tree.text, Tree.textL, h3]
  · simp only [njString, njStar_tree, njDecode_tree s l hs]

end Chomp
