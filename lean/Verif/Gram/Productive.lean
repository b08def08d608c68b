import Verif.Gram.Viable

/-!
# A check for grammars in which every fix point matches something

C55 and C76 assume that every fix point of the grammar matches some text (`Gram.NoEmptyParts`); here is a computable test for it.
-/

namespace Chomp

mutual
/-- Whether a grammar matches anything; `σ` says which of the free variables do. -/
def Gram.inhab : Gram → List Bool → Bool
  | .eps, _ => true
  | .lit _, _ => true
  | .cat l, σ => Gram.inhabCat l σ
  | .alt l, σ => Gram.inhabAlt l σ
  | .fix b, σ => b.inhab (false :: σ)
  | .var k, σ => σ[k]?.getD false
/-- Whether all of the grammars match something. -/
def Gram.inhabCat : List Gram → List Bool → Bool
  | [], _ => true
  | g :: l, σ => g.inhab σ && Gram.inhabCat l σ
/-- Whether one of the grammars matches something. -/
def Gram.inhabAlt : List Gram → List Bool → Bool
  | [], _ => false
  | g :: l, σ => g.inhab σ || Gram.inhabAlt l σ
end

mutual
/-- Whether all fix points in a grammar match something. -/
def Gram.productive : Gram → List Bool → Bool
  | .eps, _ => true
  | .lit _, _ => true
  | .cat l, σ => Gram.productiveL l σ
  | .alt l, σ => Gram.productiveL l σ
  | .fix b, σ => b.inhab (false :: σ) && b.productive (true :: σ)
  | .var _, _ => true
/-- Whether all fix points in the grammars match something. -/
def Gram.productiveL : List Gram → List Bool → Bool
  | [], _ => true
  | g :: l, σ => g.productive σ && Gram.productiveL l σ
end

mutual
theorem Gram.lang_mono : ∀ (g : Gram) {ρ ρ' : Nat → Lang}, (∀ k w, ρ k w → ρ' k w) → ∀ w, g.lang ρ w → g.lang ρ' w
  | .eps, _, _, _, w, h => h
  | .lit _, _, _, _, w, h => h
  | .cat l, _, _, hρ, w, h => Gram.langCat_mono l hρ w h
  | .alt l, _, _, hρ, w, h => Gram.langAlt_mono l hρ w h
  | .fix b, _, _, hρ, w, h => fun X hX => h X fun v hv => hX v (Gram.lang_mono b (fun k w hw => by
      cases k with
      | zero => exact hw
      | succ k => exact hρ k w hw) v hv)
  | .var k, _, _, hρ, w, h => hρ k w h
theorem Gram.langCat_mono : ∀ (l : List Gram) {ρ ρ' : Nat → Lang}, (∀ k w, ρ k w → ρ' k w) →
    ∀ w, Gram.langCat l ρ w → Gram.langCat l ρ' w
  | [], _, _, _, _, h => h
  | g :: l, _, _, hρ, _, ⟨u, v, e, h1, h2⟩ => ⟨u, v, e, g.lang_mono hρ u h1, Gram.langCat_mono l hρ v h2⟩
theorem Gram.langAlt_mono : ∀ (l : List Gram) {ρ ρ' : Nat → Lang}, (∀ k w, ρ k w → ρ' k w) →
    ∀ w, Gram.langAlt l ρ w → Gram.langAlt l ρ' w
  | [], _, _, _, _, h => h
  | g :: l, _, _, hρ, w, h => h.imp (g.lang_mono hρ w) (Gram.langAlt_mono l hρ w)
end

/-- `σ` says which of the languages `ρ` are not empty. -/
def Tells (σ : List Bool) (ρ : Nat → Lang) : Prop := ∀ k, σ[k]?.getD false = true ↔ ∃ w, ρ k w

theorem Tells.push {σ : List Bool} {ρ : Nat → Lang} (h : Tells σ ρ) {b : Bool} {X : Lang} (hb : b = true ↔ ∃ w, X w) :
    Tells (b :: σ) (X.push ρ) := by
  intro k
  cases k with
  | zero => exact hb
  | succ k => exact h k

theorem Tells.empty {σ : List Bool} {ρ : Nat → Lang} (h : Tells σ ρ) : Tells (false :: σ) (Lang.push (fun _ => False) ρ) :=
  h.push ⟨fun h => (by cases h), fun ⟨_, h⟩ => h.elim⟩

mutual
theorem Gram.inhab_iff : ∀ (g : Gram) {σ : List Bool} {ρ : Nat → Lang}, Tells σ ρ → (g.inhab σ = true ↔ ∃ w, g.lang ρ w)
  | .eps, _, _, _ => ⟨fun _ => ⟨[], rfl⟩, fun _ => rfl⟩
  | .lit s, _, _, _ => ⟨fun _ => ⟨s, rfl⟩, fun _ => rfl⟩
  | .cat l, _, _, h => Gram.inhabCat_iff l h
  | .alt l, _, _, h => Gram.inhabAlt_iff l h
  | .var k, _, _, h => h k
  | .fix b, σ, ρ, h => by
    have hb := Gram.inhab_iff b h.empty
    rw [Gram.inhab, hb]
    constructor
    · rintro ⟨w, hw⟩
      exact ⟨w, fun X hX => hX w (b.lang_mono (fun k v hv => by
        cases k with
        | zero => exact hv.elim
        | succ k => exact hv) w hw)⟩
    · rintro ⟨w, hw⟩
      apply Classical.byContradiction
      intro hn
      exact hw (fun _ => False) fun v hv => hn ⟨v, hv⟩
theorem Gram.inhabCat_iff : ∀ (l : List Gram) {σ : List Bool} {ρ : Nat → Lang}, Tells σ ρ →
    (Gram.inhabCat l σ = true ↔ ∃ w, Gram.langCat l ρ w)
  | [], _, _, _ => ⟨fun _ => ⟨[], rfl⟩, fun _ => rfl⟩
  | g :: l, _, _, h => by
    rw [Gram.inhabCat, Bool.and_eq_true, g.inhab_iff h, Gram.inhabCat_iff l h]
    exact ⟨fun ⟨⟨u, hu⟩, v, hv⟩ => ⟨u ++ v, u, v, rfl, hu, hv⟩, fun ⟨_, u, v, _, hu, hv⟩ => ⟨⟨u, hu⟩, v, hv⟩⟩
theorem Gram.inhabAlt_iff : ∀ (l : List Gram) {σ : List Bool} {ρ : Nat → Lang}, Tells σ ρ →
    (Gram.inhabAlt l σ = true ↔ ∃ w, Gram.langAlt l ρ w)
  | [], _, _, _ => ⟨fun h => (by cases h), fun ⟨_, h⟩ => h.elim⟩
  | g :: l, _, _, h => by
    rw [Gram.inhabAlt, Bool.or_eq_true, g.inhab_iff h, Gram.inhabAlt_iff l h]
    exact ⟨fun h => h.elim (fun ⟨w, h⟩ => ⟨w, .inl h⟩) (fun ⟨w, h⟩ => ⟨w, .inr h⟩),
      fun ⟨w, h⟩ => h.elim (fun h => .inl ⟨w, h⟩) (fun h => .inr ⟨w, h⟩)⟩
end

mutual
theorem Gram.productive_iff : ∀ (g : Gram) {σ : List Bool} {ρ : Nat → Lang}, Tells σ ρ → (g.productive σ = true ↔ g.NoEmpty ρ)
  | .eps, _, _, _ => by simp [Gram.productive, Gram.NoEmpty]
  | .lit _, _, _, _ => by simp [Gram.productive, Gram.NoEmpty]
  | .var _, _, _, _ => by simp [Gram.productive, Gram.NoEmpty]
  | .cat l, _, _, h => Gram.productiveL_iff l h
  | .alt l, _, _, h => Gram.productiveL_iff l h
  | .fix b, σ, ρ, h => by
    have h1 : b.inhab (false :: σ) = true ↔ ∃ w, (Gram.fix b).lang ρ w := (Gram.fix b).inhab_iff h
    rw [Gram.productive, Bool.and_eq_true, Gram.NoEmpty, h1]
    constructor
    · rintro ⟨h2, h3⟩
      exact ⟨h2, (b.productive_iff (h.push ⟨fun _ => h2, fun _ => rfl⟩)).1 h3⟩
    · rintro ⟨h2, h3⟩
      exact ⟨h2, (b.productive_iff (h.push ⟨fun _ => h2, fun _ => rfl⟩)).2 h3⟩
theorem Gram.productiveL_iff : ∀ (l : List Gram) {σ : List Bool} {ρ : Nat → Lang}, Tells σ ρ →
    (Gram.productiveL l σ = true ↔ Gram.NoEmptyL l ρ)
  | [], _, _, _ => by simp [Gram.productiveL, Gram.NoEmptyL]
  | g :: l, _, _, h => by rw [Gram.productiveL, Bool.and_eq_true, Gram.NoEmptyL, g.productive_iff h, Gram.productiveL_iff l h]
end

/-- The check is right. -/
theorem Gram.productive_iff_noEmptyParts (g : Gram) : g.productive [] = true ↔ g.NoEmptyParts :=
  g.productive_iff fun k => by simp

end Chomp
