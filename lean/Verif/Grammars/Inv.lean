import Verif.Grammars.Compiled

/-! # Inversion of the typing of values, for concrete tables -/

namespace Chomp

variable {tbl : List (String × NodeF Nat × List String)} {i a b c d e : Nat} {t : Tree} {tys : List Ty}

theorem inv_eps (h : tableStep tbl i = .eps) (hv : Value (tableStep tbl) i t) : t = .eps := by
  rw [value_iff, h] at hv; exact hv
theorem inv_lit {s : List Char} (h : tableStep tbl i = .lit s) (hv : Value (tableStep tbl) i t) : t = .lit s := by
  rw [value_iff, h] at hv; exact hv
theorem inv_alias (h : tableStep tbl i = .alias a) (hv : Value (tableStep tbl) i t) : Value (tableStep tbl) a t := by
  rw [value_iff, h] at hv; exact hv
theorem inv_box (h : tableStep tbl i = .box a) (hv : Value (tableStep tbl) i t) :
    ∃ t', t = .box t' ∧ Value (tableStep tbl) a t' := by
  rw [value_iff, h] at hv; exact hv
theorem inv_alt {l : List Nat} (h : tableStep tbl i = .alt tys l) (hv : Value (tableStep tbl) i t) :
    ∃ k b t', t = .alt k t' ∧ l[k]? = some b ∧ Value (tableStep tbl) b t' := by
  rw [value_iff, h] at hv; exact hv
theorem inv_alt2 (h : tableStep tbl i = .alt tys [a, b]) (hv : Value (tableStep tbl) i t) :
    (∃ x, t = .alt 0 x ∧ Value (tableStep tbl) a x) ∨ ∃ x, t = .alt 1 x ∧ Value (tableStep tbl) b x := by
  obtain ⟨k, y, t', rfl, h1, h2⟩ := inv_alt h hv
  match k, h1 with
  | 0, h1 => cases h1; exact .inl ⟨_, rfl, h2⟩
  | 1, h1 => cases h1; exact .inr ⟨_, rfl, h2⟩
theorem inv_alt3 (h : tableStep tbl i = .alt tys [a, b, c]) (hv : Value (tableStep tbl) i t) :
    (∃ x, t = .alt 0 x ∧ Value (tableStep tbl) a x) ∨ (∃ x, t = .alt 1 x ∧ Value (tableStep tbl) b x) ∨
      ∃ x, t = .alt 2 x ∧ Value (tableStep tbl) c x := by
  obtain ⟨k, y, t', rfl, h1, h2⟩ := inv_alt h hv
  match k, h1 with
  | 0, h1 => cases h1; exact .inl ⟨_, rfl, h2⟩
  | 1, h1 => cases h1; exact .inr (.inl ⟨_, rfl, h2⟩)
  | 2, h1 => cases h1; exact .inr (.inr ⟨_, rfl, h2⟩)
theorem inv_cat2 (h : tableStep tbl i = .cat [a, b]) (hv : Value (tableStep tbl) i t) :
    ∃ x y, t = .cat [x, y] ∧ Value (tableStep tbl) a x ∧ Value (tableStep tbl) b y := by
  rw [value_iff, h] at hv
  obtain ⟨ts, rfl, hv⟩ := hv
  simp only [valueL_cons, valueL_nil] at hv
  obtain ⟨x, _, rfl, hx, y, _, rfl, hy, rfl⟩ := hv
  exact ⟨x, y, rfl, hx, hy⟩
theorem inv_cat3 (h : tableStep tbl i = .cat [a, b, c]) (hv : Value (tableStep tbl) i t) :
    ∃ x y z, t = .cat [x, y, z] ∧ Value (tableStep tbl) a x ∧ Value (tableStep tbl) b y ∧ Value (tableStep tbl) c z := by
  rw [value_iff, h] at hv
  obtain ⟨ts, rfl, hv⟩ := hv
  simp only [valueL_cons, valueL_nil] at hv
  obtain ⟨x, _, rfl, hx, y, _, rfl, hy, z, _, rfl, hz, rfl⟩ := hv
  exact ⟨x, y, z, rfl, hx, hy, hz⟩
theorem inv_cat4 (h : tableStep tbl i = .cat [a, b, c, d]) (hv : Value (tableStep tbl) i t) :
    ∃ x y z u, t = .cat [x, y, z, u] ∧ Value (tableStep tbl) a x ∧ Value (tableStep tbl) b y ∧
      Value (tableStep tbl) c z ∧ Value (tableStep tbl) d u := by
  rw [value_iff, h] at hv
  obtain ⟨ts, rfl, hv⟩ := hv
  simp only [valueL_cons, valueL_nil] at hv
  obtain ⟨x, _, rfl, hx, y, _, rfl, hy, z, _, rfl, hz, u, _, rfl, hu, rfl⟩ := hv
  exact ⟨x, y, z, u, rfl, hx, hy, hz, hu⟩

theorem val_cat2 {x y : Tree} (h : tableStep tbl i = .cat [a, b]) (hx : Value (tableStep tbl) a x)
    (hy : Value (tableStep tbl) b y) : Value (tableStep tbl) i (.cat [x, y]) :=
  .cat _ _ _ h (.cons _ _ _ _ hx (.cons _ _ _ _ hy .nil))
theorem val_cat3 {x y z : Tree} (h : tableStep tbl i = .cat [a, b, c]) (hx : Value (tableStep tbl) a x)
    (hy : Value (tableStep tbl) b y) (hz : Value (tableStep tbl) c z) : Value (tableStep tbl) i (.cat [x, y, z]) :=
  .cat _ _ _ h (.cons _ _ _ _ hx (.cons _ _ _ _ hy (.cons _ _ _ _ hz .nil)))
theorem val_cat4 {x y z u : Tree} (h : tableStep tbl i = .cat [a, b, c, d]) (hx : Value (tableStep tbl) a x)
    (hy : Value (tableStep tbl) b y) (hz : Value (tableStep tbl) c z) (hu : Value (tableStep tbl) d u) :
    Value (tableStep tbl) i (.cat [x, y, z, u]) :=
  .cat _ _ _ h (.cons _ _ _ _ hx (.cons _ _ _ _ hy (.cons _ _ _ _ hz (.cons _ _ _ _ hu .nil))))

end Chomp
