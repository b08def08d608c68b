/-!
# Names: `/repo/src/chomp/name.rs`

`proc_macro2::Ident` is modelled as a raw flag (`r#` prefix), its symbol and its span.  Spans are
natural numbers; `0` is `Span::call_site()`.
-/

namespace Chomp

/-- `src/chomp/name.rs:11-15`: `Content`. -/
inductive Content where
  | spanned (raw : Bool) (sym : String) (span : Nat)
  | spanless (s : String)
deriving DecidableEq, Repr

/-- `src/chomp/name.rs:61-70`: `PartialEq for Content`.  Two identifiers are equal if symbol and
rawness agree (their spans are ignored by `proc_macro2`); `unraw` drops the raw flag. -/
def Content.eqv : Content → Content → Bool
  | .spanned r s _, .spanned r' s' _ => r == r' && s == s'
  | .spanned _ s _, .spanless s' => s == s'
  | .spanless s, .spanned _ s' _ => s' == s
  | .spanless s, .spanless s' => s == s'

/-- `src/chomp/name.rs:83-90`: the string that `Hash for Content` feeds to the hasher. -/
def Content.hashed : Content → String
  | .spanned _ s _ => s
  | .spanless s => s

/-- `src/chomp/name.rs:17-24`: `Spanned for Content`. -/
def Content.span : Content → Nat
  | .spanned _ _ sp => sp
  | .spanless _ => 0

/-- `src/chomp/name.rs:113-118`: `Kind`. -/
inductive Kind where
  | label | letK | variable
deriving DecidableEq, Repr

/-- `src/chomp/name.rs:120-135`: `PartialOrd for Kind`, as the result of `partial_cmp`. -/
def Kind.cmp : Kind → Kind → Ordering
  | .label, .label | .letK, .letK | .variable, .variable => .eq
  | .label, .letK | .label, .variable | .letK, .variable => .gt
  | .letK, .label | .variable, .label | .variable, .letK => .lt

/-- `this.kind >= that.kind`. -/
def Kind.ge (a b : Kind) : Bool := a.cmp b != .lt

/-- `src/chomp/name.rs:137-141`: `Name` (content and kind). -/
structure Name where
  content : Content
  kind : Kind
deriving DecidableEq, Repr

/-- `src/chomp/name.rs:137`: the derived `PartialEq for Name`. -/
def Name.eqv (a b : Name) : Bool := a.content.eqv b.content && a.kind == b.kind

/-- `src/chomp/name.rs:144-149`: `Name::new_variable`. -/
def Name.newVariable (c : Content) : Name := ⟨c, .variable⟩
/-- `src/chomp/name.rs:151-156`: `Name::new_let`. -/
def Name.newLet (c : Content) : Name := ⟨c, .letK⟩
/-- `src/chomp/name.rs:158-163`: `Name::new_label`. -/
def Name.newLabel (c : Content) : Name := ⟨c, .label⟩

/-- `src/chomp/name.rs:164-176`: `Name::merge`. -/
def Name.merge : Option Name → Option Name → Option Name
  | none, that => that
  | some this, none => some this
  | some this, some that => if this.kind.ge that.kind then some this else some that

/-- `src/chomp/name.rs:178-180`: `Name::merge_all`. -/
def Name.mergeAll (l : List (Option Name)) : Option Name := l.foldl Name.merge none

end Chomp
