import Verif.Auto.Ast
import Verif.Grammars.Inv

/-! # The values of the type `Ast` generated from nibble's own grammar are the trees of programs -/

namespace Chomp

/-- The values of type `i` of the parser generated from nibble's own grammar. -/
abbrev UV (i : Nat) (t : Tree) : Prop := Value (tableStep autoTable) i t

/-- Type `i` is an enum of literals of one character each. -/
def isEnum (tbl : List (String × NodeF Nat × List String)) (i : Nat) (cs : List Char) : Bool :=
  match tableStep tbl i with
  | .alt _ l => l.map (tableStep tbl) == cs.map fun c => .lit [c]
  | _ => false

theorem isEnum_iff {tbl : List (String × NodeF Nat × List String)} {i : Nat} {cs : List Char} (h : isEnum tbl i cs = true)
    (t : Tree) : Value (tableStep tbl) i t ↔ ∃ k : Pick cs, t = k.tree := by
  rw [value_iff]
  unfold isEnum at h
  split at h
  · rename_i tys l hl
    rw [hl]
    have hm : l.map (tableStep tbl) = cs.map fun c => NodeF.lit [c] := by simpa using h
    have hlen : l.length = cs.length := by simpa using congrArg List.length hm
    have hget : ∀ (k : Nat) (h1 : k < l.length) (h2 : k < cs.length), tableStep tbl l[k] = .lit [cs[k]] := by
      intro k h1 h2
      have := congrArg (·[k]?) hm
      simpa [List.getElem?_map, List.getElem?_eq_getElem, h1, h2] using this
    constructor
    · rintro ⟨k, b, t', rfl, h1, h2⟩
      have hk : k < l.length := (List.getElem?_eq_some_iff.1 h1).1
      have hb : l[k] = b := (List.getElem?_eq_some_iff.1 h1).2
      subst hb
      have := inv_lit (hget k hk (hlen ▸ hk)) h2
      subst this
      exact ⟨⟨k, hlen ▸ hk⟩, rfl⟩
    · rintro ⟨k, rfl⟩
      have hk : k.val < l.length := by rw [hlen]; exact k.isLt
      exact ⟨k.val, l[k.val], _, rfl, List.getElem?_eq_getElem hk, .lit _ _ (hget k.val hk k.isLt)⟩
  · cases h

theorem wsPick (t : Tree) : UV 12 t ↔ ∃ k : Pick wsChars, t = k.tree := isEnum_iff (by decide +kernel) t
theorem startPick (t : Tree) : UV 75 t ↔ ∃ k : Pick startChars, t = k.tree := isEnum_iff (by decide +kernel) t
theorem plainPick (t : Tree) : UV 141 t ↔ ∃ k : Pick plainChars, t = k.tree := isEnum_iff (by decide +kernel) t
theorem asciiPick (t : Tree) : UV 143 t ↔ ∃ k : Pick asciiChars, t = k.tree := isEnum_iff (by decide +kernel) t
theorem octPick (t : Tree) : UV 144 t ↔ ∃ k : Pick octChars, t = k.tree := isEnum_iff (by decide +kernel) t
theorem hexPick (t : Tree) : UV 145 t ↔ ∃ k : Pick hexChars, t = k.tree := isEnum_iff (by decide +kernel) t

section
variable {tbl : List (String × NodeF Nat × List String)} {i a b c d e f g h' k l : Nat} {t : Tree}

theorem inv_cat5 (h : tableStep tbl i = .cat [a, b, c, d, e]) (hv : Value (tableStep tbl) i t) :
    ∃ x y z u v, t = .cat [x, y, z, u, v] ∧ Value (tableStep tbl) a x ∧ Value (tableStep tbl) b y ∧
      Value (tableStep tbl) c z ∧ Value (tableStep tbl) d u ∧ Value (tableStep tbl) e v := by
  rw [value_iff, h] at hv
  obtain ⟨ts, rfl, hv⟩ := hv
  simp only [valueL_cons, valueL_nil] at hv
  obtain ⟨x, _, rfl, hx, y, _, rfl, hy, z, _, rfl, hz, u, _, rfl, hu, v, _, rfl, hv, rfl⟩ := hv
  exact ⟨x, y, z, u, v, rfl, hx, hy, hz, hu, hv⟩
theorem inv_cat6 (h : tableStep tbl i = .cat [a, b, c, d, e, f]) (hv : Value (tableStep tbl) i t) :
    ∃ x y z u v w, t = .cat [x, y, z, u, v, w] ∧ Value (tableStep tbl) a x ∧ Value (tableStep tbl) b y ∧
      Value (tableStep tbl) c z ∧ Value (tableStep tbl) d u ∧ Value (tableStep tbl) e v ∧ Value (tableStep tbl) f w := by
  rw [value_iff, h] at hv
  obtain ⟨ts, rfl, hv⟩ := hv
  simp only [valueL_cons, valueL_nil] at hv
  obtain ⟨x, _, rfl, hx, y, _, rfl, hy, z, _, rfl, hz, u, _, rfl, hu, v, _, rfl, hv, w, _, rfl, hw, rfl⟩ := hv
  exact ⟨x, y, z, u, v, w, rfl, hx, hy, hz, hu, hv, hw⟩
theorem inv_cat9 (h : tableStep tbl i = .cat [a, b, c, d, e, f, g, k, l]) (hv : Value (tableStep tbl) i t) :
    ∃ x y z u v w x' y' z', t = .cat [x, y, z, u, v, w, x', y', z'] ∧ Value (tableStep tbl) a x ∧ Value (tableStep tbl) b y ∧
      Value (tableStep tbl) c z ∧ Value (tableStep tbl) d u ∧ Value (tableStep tbl) e v ∧ Value (tableStep tbl) f w ∧
      Value (tableStep tbl) g x' ∧ Value (tableStep tbl) k y' ∧ Value (tableStep tbl) l z' := by
  rw [value_iff, h] at hv
  obtain ⟨ts, rfl, hv⟩ := hv
  simp only [valueL_cons, valueL_nil] at hv
  obtain ⟨x, _, rfl, hx, y, _, rfl, hy, z, _, rfl, hz, u, _, rfl, hu, v, _, rfl, hv, w, _, rfl, hw, x', _, rfl, hx', y', _, rfl, hy',
    z', _, rfl, hz', rfl⟩ := hv
  exact ⟨x, y, z, u, v, w, x', y', z', rfl, hx, hy, hz, hu, hv, hw, hx', hy', hz'⟩

theorem val_alt {tys : List Ty} {l : List Nat} {n : Nat} (h : tableStep tbl i = .alt tys l) (hn : l[n]? = some a)
    (ht : Value (tableStep tbl) a t) : Value (tableStep tbl) i (.alt n t) := .alt _ _ _ _ _ _ h hn ht
theorem val_alias (h : tableStep tbl i = .alias a) (ht : Value (tableStep tbl) a t) : Value (tableStep tbl) i t := .alias _ _ _ h ht
theorem val_box (h : tableStep tbl i = .box a) (ht : Value (tableStep tbl) a t) : Value (tableStep tbl) i (.box t) := .box _ _ _ h ht
theorem val_lit {s : List Char} (h : tableStep tbl i = .lit s) : Value (tableStep tbl) i (.lit s) := .lit _ _ h
theorem val_eps (h : tableStep tbl i = .eps) : Value (tableStep tbl) i .eps := .eps _ h

/-- Types such as `plus iter`: `i = !(/x/ iter . (_ | x))`. -/
theorem plusT_surj {α : Type} {F : α → Tree} {it j o e' b' : Nat} (hF : ∀ t, Value (tableStep tbl) it t → ∃ x, t = F x)
    (h1 : tableStep tbl i = .alias j) (h2 : tableStep tbl j = .cat [it, o]) (h3 : tableStep tbl o = .alt [] [e', b'])
    (h4 : tableStep tbl e' = .eps) (h5 : tableStep tbl b' = .box i) (t : Tree) (h : Value (tableStep tbl) i t) :
    ∃ x l, t = plusT F x l := by
  obtain ⟨x, y, ht, hx, hy⟩ := inv_cat2 h2 (inv_alias h1 h)
  obtain ⟨d, rfl⟩ := hF x hx
  rcases inv_alt2 h3 hy with ⟨z, rfl, hz⟩ | ⟨z, rfl, hz⟩
  · cases inv_eps h4 hz
    exact ⟨d, [], ht⟩
  · obtain ⟨u, rfl, hu⟩ := inv_box h5 hz
    obtain ⟨d', r, rfl⟩ := plusT_surj hF h1 h2 h3 h4 h5 u hu
    exact ⟨d, d' :: r, ht⟩
termination_by sizeOf t
decreasing_by subst ht; simp; omega

theorem plusT_val {α : Type} {F : α → Tree} {it j o e' b' : Nat} (hF : ∀ x, Value (tableStep tbl) it (F x))
    (h1 : tableStep tbl i = .alias j) (h2 : tableStep tbl j = .cat [it, o]) (h3 : tableStep tbl o = .alt [] [e', b'])
    (h4 : tableStep tbl e' = .eps) (h5 : tableStep tbl b' = .box i) :
    ∀ (l : List α) (x : α), Value (tableStep tbl) i (plusT F x l)
  | [], x => val_alias h1 (val_cat2 h2 (hF x) (val_alt h3 (n := 0) rfl (val_eps h4)))
  | y :: l, x =>
    val_alias h1 (val_cat2 h2 (hF x) (val_alt h3 (n := 1) rfl (val_box h5 (plusT_val hF h1 h2 h3 h4 h5 l y))))

theorem starT_surj {α : Type} {F : α → Tree} {e' j : Nat} (hF : ∀ t, Value (tableStep tbl) j t → ∃ x l, t = plusT F x l)
    (h3 : tableStep tbl i = .alt [] [e', j]) (h4 : tableStep tbl e' = .eps) {t : Tree} (h : Value (tableStep tbl) i t) :
    ∃ l, t = starT F l := by
  rcases inv_alt2 h3 h with ⟨z, rfl, hz⟩ | ⟨z, rfl, hz⟩
  · cases inv_eps h4 hz
    exact ⟨[], rfl⟩
  · obtain ⟨x, l, rfl⟩ := hF z hz
    exact ⟨x :: l, rfl⟩

theorem starT_val {α : Type} {F : α → Tree} {e' j : Nat} (hF : ∀ l x, Value (tableStep tbl) j (plusT F x l))
    (h3 : tableStep tbl i = .alt [] [e', j]) (h4 : tableStep tbl e' = .eps) : ∀ l, Value (tableStep tbl) i (starT F l)
  | [] => val_alt h3 (n := 0) rfl (val_eps h4)
  | x :: l => val_alt h3 (n := 1) rfl (hF l x)
end

/-! ## White space -/

theorem ws_surj (t : Tree) (h : UV 17 t) : ∃ (w : Pick wsChars) (ws : Blank), t = plusT Pick.tree w ws :=
  plusT_surj (it := 12) (j := 21) (o := 20) (e' := 18) (b' := 19) (fun t => (wsPick t).1) rfl rfl rfl rfl rfl t h
theorem ws_val (ws : Blank) (w : Pick wsChars) : UV 17 (plusT Pick.tree w ws) :=
  plusT_val (it := 12) (j := 21) (o := 20) (e' := 18) (b' := 19) (fun k => (wsPick _).2 ⟨k, rfl⟩) rfl rfl rfl rfl rfl ws w
theorem ows_surj {i e : Nat} (h : tableStep autoTable i = .alt [] [e, 17]) (he : tableStep autoTable e = .eps) {t : Tree}
    (hv : UV i t) : ∃ b : Blank, t = b.tree := starT_surj ws_surj h he hv
theorem ows_val {i e : Nat} (h : tableStep autoTable i = .alt [] [e, 17]) (he : tableStep autoTable e = .eps) (b : Blank) :
    UV i b.tree := starT_val ws_val h he b

/-! ## Identifiers -/

/-- The type of the characters after the first. -/
theorem cont_step : tableStep autoTable 89 = .alt [] [75, 78, 79, 80, 81, 82, 83, 84, 85, 86, 87, 88] := rfl

theorem otherPick : (([78, 79, 80, 81, 82, 83, 84, 85, 86, 87, 88] : List Nat).map (tableStep autoTable) ==
    otherChars.map fun c => .lit [c]) = true := by decide +kernel

theorem otherPick_get (k : Pick otherChars) :
    ∃ b, ([75, 78, 79, 80, 81, 82, 83, 84, 85, 86, 87, 88] : List Nat)[k.val + 1]? = some b ∧
      tableStep autoTable b = .lit [k.char] := by
  have hm := congrArg (·[k.val]?) (by simpa using otherPick :
    ([78, 79, 80, 81, 82, 83, 84, 85, 86, 87, 88] : List Nat).map (tableStep autoTable) = otherChars.map fun c => .lit [c])
  rw [List.getElem?_cons_succ]
  simp only [List.getElem?_map] at hm
  rw [List.getElem?_eq_getElem k.isLt] at hm
  cases hb : ([78, 79, 80, 81, 82, 83, 84, 85, 86, 87, 88] : List Nat)[k.val]? with
  | none => rw [hb] at hm; cases hm
  | some b =>
    rw [hb] at hm
    exact ⟨b, rfl, by simpa [Pick.char] using hm⟩

theorem cont_val : ∀ k : UCont, UV 89 k.tree
  | .start k => val_alt cont_step (n := 0) rfl ((startPick _).2 ⟨k, rfl⟩)
  | .other k => by
    obtain ⟨b, h1, h2⟩ := otherPick_get k
    exact val_alt cont_step h1 (val_lit h2)

theorem cont_surj (t : Tree) (h : UV 89 t) : ∃ k : UCont, t = k.tree := by
  obtain ⟨k, b, t', rfl, h1, h2⟩ := inv_alt cont_step h
  match k, h1 with
  | 0, h1 =>
    cases h1
    obtain ⟨k, rfl⟩ := (startPick _).1 h2
    exact ⟨.start k, rfl⟩
  | k + 1, h1 =>
    have hk : k < otherChars.length := by
      have := (List.getElem?_eq_some_iff.1 h1).1
      have h3 : otherChars.length = 11 := by decide
      simp at this
      omega
    obtain ⟨b', h3, h4⟩ := otherPick_get ⟨k, hk⟩
    rw [h1] at h3
    cases h3
    have := inv_lit h4 h2
    subst this
    exact ⟨.other ⟨k, hk⟩, rfl⟩

theorem conts_surj (t : Tree) (h : UV 77 t) : ∃ x l, t = plusT UCont.tree x l :=
  plusT_surj (it := 89) (j := 93) (o := 92) (e' := 90) (b' := 91) cont_surj rfl rfl rfl rfl rfl t h
theorem conts_val (l : List UCont) (x : UCont) : UV 77 (plusT UCont.tree x l) :=
  plusT_val (it := 89) (j := 93) (o := 92) (e' := 90) (b' := 91) cont_val rfl rfl rfl rfl rfl l x

theorem uident_surj {i j e : Nat} (h : tableStep autoTable i = .cat [75, j]) (hj : tableStep autoTable j = .alt [] [e, 77])
    (he : tableStep autoTable e = .eps) {t : Tree} (hv : UV i t) : ∃ x : UIdent, t = x.tree := by
  obtain ⟨x, y, rfl, hx, hy⟩ := inv_cat2 h hv
  obtain ⟨k, rfl⟩ := (startPick _).1 hx
  obtain ⟨l, rfl⟩ := starT_surj conts_surj hj he hy
  exact ⟨⟨k, l⟩, rfl⟩
theorem uident_val {i j e : Nat} (h : tableStep autoTable i = .cat [75, j]) (hj : tableStep autoTable j = .alt [] [e, 77])
    (he : tableStep autoTable e = .eps) (x : UIdent) : UV i x.tree :=
  val_cat2 h ((startPick _).2 ⟨_, rfl⟩) (starT_val conts_val hj he x.rest)

/-! ## Literals -/

/-- `bot` matches no string, and its type has no values. -/
theorem bot_empty (t : Tree) (h : UV 154 t) : False := by
  obtain ⟨x, y, ht, _, hy⟩ := inv_cat2 (a := 23) (b := 155) rfl (inv_alias (a := 156) rfl h)
  obtain ⟨u, rfl, hu⟩ := inv_box (a := 154) rfl hy
  exact bot_empty u hu
termination_by sizeOf t
decreasing_by subst ht; simp; omega

/-- Up to `n + 1` hexadecimal digits. -/
def upTo : Nat → Nat
  | 0 => 158
  | 1 => 160
  | 2 => 162
  | 3 => 164
  | 4 => 166
  | _ => 168

theorem hexs_surj {i j e b n : Nat} (h : tableStep autoTable i = .cat [145, j]) (hj : tableStep autoTable j = .alt [] [e, b])
    (he : tableStep autoTable e = .eps) (hb : ∀ t, UV b t → ∃ d ds, t = hexT d ds ∧ ds.length + 1 ≤ n) (t : Tree) (hv : UV i t) :
    ∃ d ds, t = hexT d ds ∧ ds.length + 1 ≤ n + 1 := by
  obtain ⟨x, y, rfl, hx, hy⟩ := inv_cat2 h hv
  obtain ⟨d, rfl⟩ := (hexPick _).1 hx
  rcases inv_alt2 hj hy with ⟨z, rfl, hz⟩ | ⟨z, rfl, hz⟩
  · cases inv_eps he hz
    exact ⟨d, [], rfl, by simp⟩
  · obtain ⟨d', ds, rfl, hl⟩ := hb z hz
    exact ⟨d, d' :: ds, rfl, by simp; omega⟩

theorem hexs_val {i j e b n : Nat} (h : tableStep autoTable i = .cat [145, j]) (hj : tableStep autoTable j = .alt [] [e, b])
    (he : tableStep autoTable e = .eps) (hb : ∀ d ds, ds.length + 1 ≤ n → UV b (hexT d ds)) :
    ∀ d ds, ds.length + 1 ≤ n + 1 → UV i (hexT d ds)
  | d, [], _ => val_cat2 h ((hexPick _).2 ⟨d, rfl⟩) (val_alt hj (n := 0) rfl (val_eps he))
  | d, d' :: ds, hl =>
    val_cat2 h ((hexPick _).2 ⟨d, rfl⟩) (val_alt hj (n := 1) rfl (hb d' ds (by simp at hl; omega)))

theorem upTo_surj (t : Tree) (hv : UV 168 t) : ∃ d ds, t = hexT d ds ∧ ds.length ≤ 5 := by
  obtain ⟨d, ds, h1, h2⟩ :=
    hexs_surj (j := 167) (e := 148) rfl rfl rfl (hexs_surj (j := 165) (e := 149) rfl rfl rfl (hexs_surj (j := 163) (e := 150) rfl rfl rfl
      (hexs_surj (j := 161) (e := 151) rfl rfl rfl (hexs_surj (j := 159) (e := 152) rfl rfl rfl
        (hexs_surj (j := 157) (e := 153) (n := 0) rfl rfl rfl fun t h => (bot_empty t h).elim))))) t hv
  exact ⟨d, ds, h1, by omega⟩
theorem upTo_val (d : Pick hexChars) (ds : List (Pick hexChars)) (h : ds.length ≤ 5) : UV 168 (hexT d ds) :=
  hexs_val (j := 167) (e := 148) rfl rfl rfl (hexs_val (j := 165) (e := 149) rfl rfl rfl (hexs_val (j := 163) (e := 150) rfl rfl rfl
    (hexs_val (j := 161) (e := 151) rfl rfl rfl (hexs_val (j := 159) (e := 152) rfl rfl rfl
      (hexs_val (j := 157) (e := 153) (b := 154) (n := 0) rfl rfl rfl fun d ds h => by omega))))) d ds (by omega)

theorem uchar_surj (t : Tree) (h : UV 172 t) : ∃ c : UChar, t = c.tree := by
  rcases inv_alt2 (tys := []) (a := 141) (b := 171) rfl h with ⟨z, rfl, hz⟩ | ⟨z, rfl, hz⟩
  · obtain ⟨k, rfl⟩ := (plainPick _).1 hz
    exact ⟨.plain k, rfl⟩
  · obtain ⟨x, y, rfl, hx, hy⟩ := inv_cat2 (a := 142) (b := 170) rfl hz
    cases inv_lit rfl hx
    rcases inv_alt3 (tys := []) (a := 143) (b := 146) (c := 169) rfl hy with ⟨z', rfl, hz'⟩ | ⟨z', rfl, hz'⟩ | ⟨z', rfl, hz'⟩
    · obtain ⟨k, rfl⟩ := (asciiPick _).1 hz'
      exact ⟨.ascii k, rfl⟩
    · obtain ⟨a, b, c, rfl, ha, hb, hc⟩ := inv_cat3 (a := 46) (b := 144) (c := 145) rfl hz'
      cases inv_lit rfl ha
      obtain ⟨o, rfl⟩ := (octPick _).1 hb
      obtain ⟨k, rfl⟩ := (hexPick _).1 hc
      exact ⟨.byte o k, rfl⟩
    · obtain ⟨a, b, c, rfl, ha, hb, hc⟩ := inv_cat3 (a := 147) (b := 168) (c := 139) rfl hz'
      cases inv_lit rfl ha
      cases inv_lit rfl hc
      obtain ⟨d, ds, rfl, hl⟩ := upTo_surj _ hb
      exact ⟨.unicode d ds hl, rfl⟩

theorem uchar_val : ∀ c : UChar, UV 172 c.tree
  | .plain k => val_alt (tys := []) (l := [141, 171]) (n := 0) rfl rfl ((plainPick _).2 ⟨k, rfl⟩)
  | .ascii k => val_alt (tys := []) (l := [141, 171]) (n := 1) rfl rfl (val_cat2 (a := 142) (b := 170) rfl (val_lit rfl)
      (val_alt (tys := []) (l := [143, 146, 169]) (n := 0) rfl rfl ((asciiPick _).2 ⟨k, rfl⟩)))
  | .byte o k => val_alt (tys := []) (l := [141, 171]) (n := 1) rfl rfl (val_cat2 (a := 142) (b := 170) rfl (val_lit rfl)
      (val_alt (tys := []) (l := [143, 146, 169]) (n := 1) rfl rfl
        (val_cat3 (a := 46) (b := 144) (c := 145) rfl (val_lit rfl) ((octPick _).2 ⟨o, rfl⟩) ((hexPick _).2 ⟨k, rfl⟩))))
  | .unicode d ds hl => val_alt (tys := []) (l := [141, 171]) (n := 1) rfl rfl (val_cat2 (a := 142) (b := 170) rfl (val_lit rfl)
      (val_alt (tys := []) (l := [143, 146, 169]) (n := 2) rfl rfl
        (val_cat3 (a := 147) (b := 168) (c := 139) rfl (val_lit rfl) (upTo_val d ds hl) (val_lit rfl))))

theorem contents_surj (t : Tree) (h : UV 112 t) : ∃ c r, t = plusT UChar.tree c r :=
  plusT_surj (it := 172) (j := 176) (o := 175) (e' := 173) (b' := 174) uchar_surj rfl rfl rfl rfl rfl t h
theorem contents_val (r : List UChar) (c : UChar) : UV 112 (plusT UChar.tree c r) :=
  plusT_val (it := 172) (j := 176) (o := 175) (e' := 173) (b' := 174) uchar_val rfl rfl rfl rfl rfl r c

/-! ## Every value is the tree of a program -/

theorem names_surj (t : Tree) (h : UV 22 t) : ∃ n : UNames, t = n.tree := by
  obtain ⟨x, y, ht, hx, hy⟩ := inv_cat2 (a := 95) (b := 101) rfl (inv_alias (a := 102) rfl h)
  obtain ⟨i, rfl⟩ := uident_surj (j := 94) (e := 76) rfl rfl rfl hx
  rcases inv_alt2 (tys := []) (a := 96) (b := 100) rfl hy with ⟨z, rfl, hz⟩ | ⟨z, rfl, hz⟩
  · cases inv_eps rfl hz
    exact ⟨.one i, ht⟩
  · obtain ⟨a, b, rfl, ha, hb⟩ := inv_cat2 (a := 17) (b := 99) rfl hz
    obtain ⟨w, ws, rfl⟩ := ws_surj a ha
    rcases inv_alt2 (tys := []) (a := 97) (b := 98) rfl hb with ⟨z', rfl, hz'⟩ | ⟨z', rfl, hz'⟩
    · cases inv_eps rfl hz'
      exact ⟨.trail i w ws, ht⟩
    · obtain ⟨u, rfl, hu⟩ := inv_box (a := 22) rfl hz'
      obtain ⟨r, rfl⟩ := names_surj u hu
      exact ⟨.more i w ws r, ht⟩
termination_by sizeOf t
decreasing_by subst ht; simp; omega

theorem names_val : ∀ n : UNames, UV 22 n.tree
  | .one i => val_alias (a := 102) rfl (val_cat2 (a := 95) (b := 101) rfl (uident_val (j := 94) (e := 76) rfl rfl rfl i)
      (val_alt (tys := []) (l := [96, 100]) (n := 0) rfl rfl (val_eps rfl)))
  | .trail i w ws => val_alias (a := 102) rfl (val_cat2 (a := 95) (b := 101) rfl (uident_val (j := 94) (e := 76) rfl rfl rfl i)
      (val_alt (tys := []) (l := [96, 100]) (n := 1) rfl rfl (val_cat2 (a := 17) (b := 99) rfl (ws_val ws w)
        (val_alt (tys := []) (l := [97, 98]) (n := 0) rfl rfl (val_eps rfl)))))
  | .more i w ws r => val_alias (a := 102) rfl (val_cat2 (a := 95) (b := 101) rfl (uident_val (j := 94) (e := 76) rfl rfl rfl i)
      (val_alt (tys := []) (l := [96, 100]) (n := 1) rfl rfl (val_cat2 (a := 17) (b := 99) rfl (ws_val ws w)
        (val_alt (tys := []) (l := [97, 98]) (n := 1) rfl rfl (val_box (a := 22) rfl (names_val r))))))

mutual
theorem uterm_surj (t : Tree) (h : UV 110 t) : ∃ x : UTerm, t = x.tree := by
  obtain ⟨k, b, t', ht, h1, h2⟩ := inv_alt (tys := []) (l := [78, 177, 181, 185, 188]) rfl (inv_alias (a := 189) rfl h)
  match k, h1 with
  | 0, h1 =>
    cases h1
    cases inv_lit rfl h2
    exact ⟨.eps, ht⟩
  | 1, h1 =>
    cases h1
    obtain ⟨a, b, c, rfl, ha, hb, hc⟩ := inv_cat3 (a := 111) (b := 112) (c := 111) rfl h2
    cases inv_lit rfl ha
    cases inv_lit rfl hc
    obtain ⟨c, r, rfl⟩ := contents_surj b hb
    exact ⟨.lit c r, ht⟩
  | 2, h1 =>
    cases h1
    obtain ⟨a, b, c, d, rfl, ha, hb, hc, hd⟩ := inv_cat4 (a := 119) (b := 179) (c := 180) (d := 120) rfl h2
    cases inv_lit rfl ha
    cases inv_lit rfl hd
    obtain ⟨ws, rfl⟩ := ows_surj (e := 178) rfl rfl hb
    obtain ⟨u, rfl, hu⟩ := inv_box (a := 106) rfl hc
    obtain ⟨e, rfl⟩ := uexpr_surj u hu
    exact ⟨.parens ws e, ht⟩
  | 3, h1 =>
    cases h1
    obtain ⟨a, b, c, rfl, ha, hb, hc⟩ := inv_cat3 (a := 113) (b := 183) (c := 184) rfl h2
    cases inv_lit rfl ha
    obtain ⟨ws, rfl⟩ := ows_surj (e := 182) rfl rfl hb
    obtain ⟨u, rfl, hu⟩ := inv_box (a := 110) rfl hc
    obtain ⟨e, rfl⟩ := uterm_surj u hu
    exact ⟨.fix ws e, ht⟩
  | 4, h1 =>
    cases h1
    obtain ⟨i, rfl⟩ := uident_surj (j := 187) (e := 186) rfl rfl rfl h2
    exact ⟨.var i, ht⟩
termination_by sizeOf t
decreasing_by all_goals subst ht; simp; omega
theorem ucall_surj (t : Tree) (h : UV 109 t) : ∃ x : UCall, t = x.tree := by
  obtain ⟨x, y, ht, hx, hy⟩ := inv_cat2 (a := 110) (b := 195) rfl (inv_alias (a := 196) rfl h)
  obtain ⟨i, hi⟩ := uterm_surj x hx
  rcases inv_alt2 (tys := []) (a := 190) (b := 194) rfl hy with ⟨z, rfl, hz⟩ | ⟨z, rfl, hz⟩
  · cases inv_eps rfl hz
    exact ⟨.one i, by rw [ht, hi]; rfl⟩
  · obtain ⟨a, b, rfl, ha, hb⟩ := inv_cat2 (a := 17) (b := 193) rfl hz
    obtain ⟨w, ws, rfl⟩ := ws_surj a ha
    rcases inv_alt2 (tys := []) (a := 191) (b := 192) rfl hb with ⟨z', rfl, hz'⟩ | ⟨z', rfl, hz'⟩
    · cases inv_eps rfl hz'
      exact ⟨.trail i w ws, by rw [ht, hi]; rfl⟩
    · obtain ⟨u, rfl, hu⟩ := inv_box (a := 109) rfl hz'
      obtain ⟨r, hr⟩ := ucall_surj u hu
      exact ⟨.more i w ws r, by rw [ht, hi, hr]; rfl⟩
termination_by sizeOf t
decreasing_by all_goals subst ht; simp; omega
theorem ucat_surj (t : Tree) (h : UV 108 t) : ∃ x : UCat, t = x.tree := by
  obtain ⟨x, y, ht, hx, hy⟩ := inv_cat2 (a := 109) (b := 202) rfl (inv_alias (a := 203) rfl h)
  obtain ⟨i, hi⟩ := ucall_surj x hx
  rcases inv_alt2 (tys := []) (a := 197) (b := 201) rfl hy with ⟨z, rfl, hz⟩ | ⟨z, rfl, hz⟩
  · cases inv_eps rfl hz
    exact ⟨.one i, by rw [ht, hi]; rfl⟩
  · obtain ⟨a, b, c, rfl, ha, hb, hc⟩ := inv_cat3 (a := 125) (b := 199) (c := 200) rfl hz
    cases inv_lit rfl ha
    obtain ⟨ws, rfl⟩ := ows_surj (e := 198) rfl rfl hb
    obtain ⟨u, rfl, hu⟩ := inv_box (a := 108) rfl hc
    obtain ⟨r, hr⟩ := ucat_surj u hu
    exact ⟨.more i ws r, by rw [ht, hi, hr]; rfl⟩
termination_by sizeOf t
decreasing_by all_goals subst ht; simp; omega
theorem ulabelled_surj (t : Tree) (h : UV 214 t) : ∃ x : ULabelled, t = x.tree := by
  obtain ⟨x, y, ht, hx, hy⟩ := inv_cat2 (a := 108) (b := 213) rfl h
  obtain ⟨i, hi⟩ := ucat_surj x hx
  rcases inv_alt2 (tys := []) (a := 204) (b := 212) rfl hy with ⟨z, rfl, hz⟩ | ⟨z, rfl, hz⟩
  · cases inv_eps rfl hz
    exact ⟨.plain i, by rw [ht, hi]; rfl⟩
  · obtain ⟨a, b, c, d, rfl, ha, hb, hc, hd⟩ := inv_cat4 (a := 127) (b := 206) (c := 209) (d := 211) rfl hz
    cases inv_lit rfl ha
    obtain ⟨ws, rfl⟩ := ows_surj (e := 205) rfl rfl hb
    obtain ⟨l, rfl⟩ := uident_surj (j := 208) (e := 207) rfl rfl rfl hc
    obtain ⟨ws', rfl⟩ := ows_surj (e := 210) rfl rfl hd
    exact ⟨.label i ws l ws', by rw [ht, hi]; rfl⟩
termination_by sizeOf t
decreasing_by all_goals subst ht; simp; omega
theorem ualt_surj (t : Tree) (h : UV 107 t) : ∃ x : UAlt, t = x.tree := by
  obtain ⟨x, y, ht, hx, hy⟩ := inv_cat2 (a := 214) (b := 220) rfl (inv_alias (a := 221) rfl h)
  obtain ⟨i, hi⟩ := ulabelled_surj x hx
  rcases inv_alt2 (tys := []) (a := 215) (b := 219) rfl hy with ⟨z, rfl, hz⟩ | ⟨z, rfl, hz⟩
  · cases inv_eps rfl hz
    exact ⟨.one i, by rw [ht, hi]; rfl⟩
  · obtain ⟨a, b, c, rfl, ha, hb, hc⟩ := inv_cat3 (a := 138) (b := 217) (c := 218) rfl hz
    cases inv_lit rfl ha
    obtain ⟨ws, rfl⟩ := ows_surj (e := 216) rfl rfl hb
    obtain ⟨u, rfl, hu⟩ := inv_box (a := 107) rfl hc
    obtain ⟨r, hr⟩ := ualt_surj u hu
    exact ⟨.more i ws r, by rw [ht, hi, hr]; rfl⟩
termination_by sizeOf t
decreasing_by all_goals subst ht; simp; omega
theorem uexpr_surj (t : Tree) (h : UV 106 t) : ∃ x : UExpr, t = x.tree := by
  rcases inv_alt2 (tys := []) (a := 107) (b := 226) rfl (inv_alias (a := 227) rfl h) with ⟨z, ht, hz⟩ | ⟨z, ht, hz⟩
  · obtain ⟨a, ha⟩ := ualt_surj z hz
    exact ⟨.alt a, by rw [ht, ha]; rfl⟩
  · obtain ⟨a, b, c, d, e, f, rfl, ha, hb, hc, hd, he, hf⟩ :=
      inv_cat6 (a := 126) (b := 223) (c := 22) (d := 126) (e := 225) (f := 107) rfl hz
    cases inv_lit rfl ha
    cases inv_lit rfl hd
    obtain ⟨ws, rfl⟩ := ows_surj (e := 222) rfl rfl hb
    obtain ⟨ws', rfl⟩ := ows_surj (e := 224) rfl rfl he
    obtain ⟨n, rfl⟩ := names_surj c hc
    obtain ⟨x, hx⟩ := ualt_surj f hf
    exact ⟨.lam ws n ws' x, by rw [ht, hx]; rfl⟩
termination_by sizeOf t
decreasing_by all_goals subst ht; simp <;> omega
end

theorem ustmt_surj (t : Tree) (h : UV 15 t) : ∃ x : UStmt, t = x.tree := by
  rcases inv_alt2 (tys := []) (a := 231) (b := 235) rfl (inv_alias (a := 236) rfl h) with ⟨z, ht, hz⟩ | ⟨z, ht, hz⟩
  · obtain ⟨a, b, c, d, e, f, g, k, l, rfl, ha, hb, hc, hd, he, hf, hg, hk, hl⟩ :=
      inv_cat9 (a := 16) (b := 17) (c := 22) (d := 103) (e := 105) (f := 106) (g := 128) (k := 229) (l := 230) rfl hz
    cases inv_lit rfl ha
    cases inv_lit rfl hd
    cases inv_lit rfl hg
    obtain ⟨w, ws, rfl⟩ := ws_surj b hb
    obtain ⟨n, rfl⟩ := names_surj c hc
    obtain ⟨ws1, rfl⟩ := ows_surj (e := 104) rfl rfl he
    obtain ⟨ws2, rfl⟩ := ows_surj (e := 228) rfl rfl hk
    obtain ⟨x, rfl⟩ := uexpr_surj f hf
    obtain ⟨u, rfl, hu⟩ := inv_box (a := 15) rfl hl
    obtain ⟨s, hs⟩ := ustmt_surj u hu
    exact ⟨.letS w ws n ws1 x ws2 s, by rw [ht, hs]; rfl⟩
  · obtain ⟨a, b, c, d, e, rfl, ha, hb, hc, hd, he⟩ := inv_cat5 (a := 232) (b := 17) (c := 106) (d := 128) (e := 234) rfl hz
    cases inv_lit rfl ha
    cases inv_lit rfl hd
    obtain ⟨w, ws, rfl⟩ := ws_surj b hb
    obtain ⟨ws', rfl⟩ := ows_surj (e := 233) rfl rfl he
    obtain ⟨x, rfl⟩ := uexpr_surj c hc
    exact ⟨.goal w ws x ws', ht⟩
termination_by sizeOf t
decreasing_by subst ht; simp; omega

theorem uprog_surj (t : Tree) (h : UV 0 t) : ∃ p : UProg, t = p.tree := by
  rcases inv_alt2 (tys := []) (a := 14) (b := 15) rfl (inv_alias (a := 237) rfl h) with ⟨z, ht, hz⟩ | ⟨z, ht, hz⟩
  · obtain ⟨a, b, rfl, ha, hb⟩ := inv_cat2 (a := 12) (b := 13) rfl hz
    obtain ⟨k, rfl⟩ := (wsPick _).1 ha
    obtain ⟨u, rfl, hu⟩ := inv_box (a := 0) rfl hb
    obtain ⟨⟨ws, s⟩, hp⟩ := uprog_surj u hu
    exact ⟨⟨k :: ws, s⟩, by rw [ht, hp]; rfl⟩
  · obtain ⟨s, rfl⟩ := ustmt_surj z hz
    exact ⟨⟨[], s⟩, ht⟩
termination_by sizeOf t
decreasing_by subst ht; simp; omega

/-! ## The trees of programs are values -/

mutual
theorem uterm_val : ∀ x : UTerm, UV 110 x.tree
  | .eps => val_alias (a := 189) rfl (val_alt (tys := []) (l := [78, 177, 181, 185, 188]) (n := 0) rfl rfl (val_lit rfl))
  | .lit c r => val_alias (a := 189) rfl (val_alt (tys := []) (l := [78, 177, 181, 185, 188]) (n := 1) rfl rfl
      (val_cat3 (a := 111) (b := 112) (c := 111) rfl (val_lit rfl) (contents_val r c) (val_lit rfl)))
  | .parens ws e => val_alias (a := 189) rfl (val_alt (tys := []) (l := [78, 177, 181, 185, 188]) (n := 2) rfl rfl
      (val_cat4 (a := 119) (b := 179) (c := 180) (d := 120) rfl (val_lit rfl) (ows_val (e := 178) rfl rfl ws)
        (val_box (a := 106) rfl (uexpr_val e)) (val_lit rfl)))
  | .fix ws t => val_alias (a := 189) rfl (val_alt (tys := []) (l := [78, 177, 181, 185, 188]) (n := 3) rfl rfl
      (val_cat3 (a := 113) (b := 183) (c := 184) rfl (val_lit rfl) (ows_val (e := 182) rfl rfl ws)
        (val_box (a := 110) rfl (uterm_val t))))
  | .var i => val_alias (a := 189) rfl (val_alt (tys := []) (l := [78, 177, 181, 185, 188]) (n := 4) rfl rfl
      (uident_val (j := 187) (e := 186) rfl rfl rfl i))
theorem ucall_val : ∀ x : UCall, UV 109 x.tree
  | .one t => val_alias (a := 196) rfl (val_cat2 (a := 110) (b := 195) rfl (uterm_val t)
      (val_alt (tys := []) (l := [190, 194]) (n := 0) rfl rfl (val_eps rfl)))
  | .trail t w ws => val_alias (a := 196) rfl (val_cat2 (a := 110) (b := 195) rfl (uterm_val t)
      (val_alt (tys := []) (l := [190, 194]) (n := 1) rfl rfl (val_cat2 (a := 17) (b := 193) rfl (ws_val ws w)
        (val_alt (tys := []) (l := [191, 192]) (n := 0) rfl rfl (val_eps rfl)))))
  | .more t w ws r => val_alias (a := 196) rfl (val_cat2 (a := 110) (b := 195) rfl (uterm_val t)
      (val_alt (tys := []) (l := [190, 194]) (n := 1) rfl rfl (val_cat2 (a := 17) (b := 193) rfl (ws_val ws w)
        (val_alt (tys := []) (l := [191, 192]) (n := 1) rfl rfl (val_box (a := 109) rfl (ucall_val r))))))
theorem ucat_val : ∀ x : UCat, UV 108 x.tree
  | .one t => val_alias (a := 203) rfl (val_cat2 (a := 109) (b := 202) rfl (ucall_val t)
      (val_alt (tys := []) (l := [197, 201]) (n := 0) rfl rfl (val_eps rfl)))
  | .more t ws r => val_alias (a := 203) rfl (val_cat2 (a := 109) (b := 202) rfl (ucall_val t)
      (val_alt (tys := []) (l := [197, 201]) (n := 1) rfl rfl (val_cat3 (a := 125) (b := 199) (c := 200) rfl (val_lit rfl)
        (ows_val (e := 198) rfl rfl ws) (val_box (a := 108) rfl (ucat_val r)))))
theorem ulabelled_val : ∀ x : ULabelled, UV 214 x.tree
  | .plain t => val_cat2 (a := 108) (b := 213) rfl (ucat_val t)
      (val_alt (tys := []) (l := [204, 212]) (n := 0) rfl rfl (val_eps rfl))
  | .label t ws i ws' => val_cat2 (a := 108) (b := 213) rfl (ucat_val t)
      (val_alt (tys := []) (l := [204, 212]) (n := 1) rfl rfl
        (val_cat4 (a := 127) (b := 206) (c := 209) (d := 211) rfl (val_lit rfl) (ows_val (e := 205) rfl rfl ws)
          (uident_val (j := 208) (e := 207) rfl rfl rfl i) (ows_val (e := 210) rfl rfl ws')))
theorem ualt_val : ∀ x : UAlt, UV 107 x.tree
  | .one t => val_alias (a := 221) rfl (val_cat2 (a := 214) (b := 220) rfl (ulabelled_val t)
      (val_alt (tys := []) (l := [215, 219]) (n := 0) rfl rfl (val_eps rfl)))
  | .more t ws r => val_alias (a := 221) rfl (val_cat2 (a := 214) (b := 220) rfl (ulabelled_val t)
      (val_alt (tys := []) (l := [215, 219]) (n := 1) rfl rfl (val_cat3 (a := 138) (b := 217) (c := 218) rfl (val_lit rfl)
        (ows_val (e := 216) rfl rfl ws) (val_box (a := 107) rfl (ualt_val r)))))
theorem uexpr_val : ∀ x : UExpr, UV 106 x.tree
  | .alt a => val_alias (a := 227) rfl (val_alt (tys := []) (l := [107, 226]) (n := 0) rfl rfl (ualt_val a))
  | .lam ws n ws' a => val_alias (a := 227) rfl (val_alt (tys := []) (l := [107, 226]) (n := 1) rfl rfl
      (.cat 226 [126, 223, 22, 126, 225, 107] _ rfl (.cons _ _ _ _ (val_lit rfl) (.cons _ _ _ _ (ows_val (e := 222) rfl rfl ws)
        (.cons _ _ _ _ (names_val n) (.cons _ _ _ _ (val_lit rfl) (.cons _ _ _ _ (ows_val (e := 224) rfl rfl ws')
          (.cons _ _ _ _ (ualt_val a) .nil))))))))
end

theorem ustmt_val : ∀ x : UStmt, UV 15 x.tree
  | .goal w ws e ws' => val_alias (a := 236) rfl (val_alt (tys := []) (l := [231, 235]) (n := 1) rfl rfl
      (.cat 235 [232, 17, 106, 128, 234] _ rfl (.cons _ _ _ _ (val_lit rfl) (.cons _ _ _ _ (ws_val ws w)
        (.cons _ _ _ _ (uexpr_val e) (.cons _ _ _ _ (val_lit rfl) (.cons _ _ _ _ (ows_val (e := 233) rfl rfl ws') .nil)))))))
  | .letS w ws n ws1 e ws2 s => val_alias (a := 236) rfl (val_alt (tys := []) (l := [231, 235]) (n := 0) rfl rfl
      (.cat 231 [16, 17, 22, 103, 105, 106, 128, 229, 230] _ rfl (.cons _ _ _ _ (val_lit rfl) (.cons _ _ _ _ (ws_val ws w)
        (.cons _ _ _ _ (names_val n) (.cons _ _ _ _ (val_lit rfl) (.cons _ _ _ _ (ows_val (e := 104) rfl rfl ws1)
          (.cons _ _ _ _ (uexpr_val e) (.cons _ _ _ _ (val_lit rfl) (.cons _ _ _ _ (ows_val (e := 228) rfl rfl ws2)
            (.cons _ _ _ _ (val_box (a := 15) rfl (ustmt_val s)) .nil)))))))))))

theorem skip_val (s : UStmt) : ∀ ws : Blank, UV 0 (skipT s.tree ws)
  | [] => val_alias (a := 237) rfl (val_alt (tys := []) (l := [14, 15]) (n := 1) rfl rfl (ustmt_val s))
  | w :: ws => val_alias (a := 237) rfl (val_alt (tys := []) (l := [14, 15]) (n := 0) rfl rfl
      (val_cat2 (a := 12) (b := 13) rfl ((wsPick _).2 ⟨w, rfl⟩) (val_box (a := 0) rfl (skip_val s ws))))

theorem uprog_val (p : UProg) : UV 0 p.tree := skip_val p.stmt p.ws

/-- The values of the type `Ast` are the trees of programs. -/
theorem uprog_iff (t : Tree) : UV 0 t ↔ ∃ p : UProg, t = p.tree :=
  ⟨uprog_surj t, fun ⟨p, h⟩ => h ▸ uprog_val p⟩

end Chomp
