import Verif.Auto.Model

/-!
# Concrete syntax of nibble programs as autonibble accepts them

A small description, independent of the generated parser, of the texts of programs: `UProg.text`; which nibble syntax tree
(`Nibble/Model.lean`) such a program stands for: `UProg.stmt`; and how it is represented by the generated types:
`UProg.tree`.
-/

namespace Chomp

/-- White space of Rust (`Pattern_White_Space`). -/
def wsChars : List Char :=
  [Char.ofNat 9, Char.ofNat 10, Char.ofNat 11, Char.ofNat 12, Char.ofNat 13, ' ', Char.ofNat 0x85, Char.ofNat 0x200e,
   Char.ofNat 0x200f, Char.ofNat 0x2028, Char.ofNat 0x2029]
/-- Characters that can start an identifier. -/
def startChars : List Char := "abcdefghijklmnopqrstuvwxyzABCDEFGHIJKLMNOPQRSTUVWXYZ".toList
/-- Further characters that can occur in an identifier. -/
def otherChars : List Char := "_0123456789".toList
/-- Characters that stand for themselves in a literal: printable ASCII characters except `"` and `\`. -/
def plainChars : List Char :=
  " !#$%&'()*+,-./0123456789:;<=>?@ABCDEFGHIJKLMNOPQRSTUVWXYZ[]^_`abcdefghijklmnopqrstuvwxyz{|}~".toList
/-- Characters that can follow a backslash. -/
def asciiChars : List Char := ['"', '\'', 'n', 'r', 't', '\\', '0']
/-- What they stand for. -/
def asciiVals : List Char := ['"', '\'', '\n', '\r', '\t', '\\', Char.ofNat 0]
/-- Octal digits. -/
def octChars : List Char := "01234567".toList
/-- Hexadecimal digits. -/
def hexChars : List Char := "0123456789abcdefABCDEF".toList

/-- A character of a list. -/
abbrev Pick (cs : List Char) := Fin cs.length

/-- The character. -/
def Pick.char {cs : List Char} (k : Pick cs) : Char := cs[k]

/-- White space, possibly empty. -/
abbrev Blank := List (Pick wsChars)

/-- The text of white space. -/
def Blank.text (b : Blank) : List Char := b.map Pick.char

/-- The second or a later character of an identifier. -/
inductive UCont where
  | start (k : Pick startChars)
  | other (k : Pick otherChars)

def UCont.char : UCont → Char
  | .start k => k.char
  | .other k => k.char

/-- An identifier. -/
structure UIdent where
  first : Pick startChars
  rest : List UCont

def UIdent.text (i : UIdent) : List Char := i.first.char :: i.rest.map UCont.char

/-- A character in a literal, as written. -/
inductive UChar where
  | plain (k : Pick plainChars)
  | ascii (k : Pick asciiChars)
  | byte (o : Pick octChars) (h : Pick hexChars)
  | unicode (d : Pick hexChars) (ds : List (Pick hexChars)) (h : ds.length ≤ 5)

def UChar.text : UChar → List Char
  | .plain k => [k.char]
  | .ascii k => ['\\', k.char]
  | .byte o h => ['\\', 'x', o.char, h.char]
  | .unicode d ds _ => ['\\', 'u', '{'] ++ (d :: ds).map Pick.char ++ ['}']

/-- The value of a hexadecimal digit. -/
def hexVal16 (k : Pick hexChars) : Nat := if k.val < 16 then k.val else k.val - 6

/-- The number written by hexadecimal digits. -/
def hexNum (ds : List (Pick hexChars)) : Nat := ds.foldl (fun a d => a * 16 + hexVal16 d) 0

/-- The character it denotes (`The Rust Reference`, ASCII escapes, byte escapes and Unicode escapes); `none` if the number
is no Unicode scalar value. -/
def UChar.denotes : UChar → Option Char
  | .plain k => some k.char
  | .ascii k => asciiVals[k.val]?
  | .byte o h => some (Char.ofNat (o.val * 16 + hexVal16 h))
  | .unicode d ds _ => if (hexNum (d :: ds)).isValidChar then some (Char.ofNat (hexNum (d :: ds))) else none

mutual
/-- A term. -/
inductive UTerm where
  | eps
  | lit (first : UChar) (rest : List UChar)
  | parens (ws : Blank) (e : UExpr)
  | fix (ws : Blank) (t : UTerm)
  | var (i : UIdent)
/-- Terms separated by white space, which may also follow the last one. -/
inductive UCall where
  | one (t : UTerm)
  | trail (t : UTerm) (w : Pick wsChars) (ws : Blank)
  | more (t : UTerm) (w : Pick wsChars) (ws : Blank) (rest : UCall)
/-- Calls separated by dots. -/
inductive UCat where
  | one (x : UCall)
  | more (x : UCall) (ws : Blank) (rest : UCat)
/-- A concatenation with an optional label. -/
inductive ULabelled where
  | plain (x : UCat)
  | label (x : UCat) (ws : Blank) (i : UIdent) (ws' : Blank)
/-- Labelled concatenations separated by bars. -/
inductive UAlt where
  | one (x : ULabelled)
  | more (x : ULabelled) (ws : Blank) (rest : UAlt)
/-- Identifiers separated by white space, which may also follow the last one. -/
inductive UNames where
  | one (i : UIdent)
  | trail (i : UIdent) (w : Pick wsChars) (ws : Blank)
  | more (i : UIdent) (w : Pick wsChars) (ws : Blank) (rest : UNames)
/-- An expression. -/
inductive UExpr where
  | alt (a : UAlt)
  | lam (ws : Blank) (args : UNames) (ws' : Blank) (a : UAlt)
end

/-- A statement. -/
inductive UStmt where
  | goal (w : Pick wsChars) (ws : Blank) (e : UExpr) (ws' : Blank)
  | letS (w : Pick wsChars) (ws : Blank) (names : UNames) (ws1 : Blank) (e : UExpr) (ws2 : Blank) (next : UStmt)

/-- A program: white space and a statement. -/
structure UProg where
  ws : Blank
  stmt : UStmt

/-! ## Text -/

def UNames.text : UNames → List Char
  | .one i => i.text
  | .trail i w ws => i.text ++ w.char :: ws.text
  | .more i w ws r => i.text ++ w.char :: (ws.text ++ r.text)

mutual
def UTerm.text : UTerm → List Char
  | .eps => ['_']
  | .lit c r => '"' :: ((c :: r).flatMap UChar.text ++ ['"'])
  | .parens ws e => '(' :: (ws.text ++ (e.text ++ [')']))
  | .fix ws t => '!' :: (ws.text ++ t.text)
  | .var i => i.text
def UCall.text : UCall → List Char
  | .one t => t.text
  | .trail t w ws => t.text ++ w.char :: ws.text
  | .more t w ws r => t.text ++ w.char :: (ws.text ++ r.text)
def UCat.text : UCat → List Char
  | .one x => x.text
  | .more x ws r => x.text ++ '.' :: (ws.text ++ r.text)
def ULabelled.text : ULabelled → List Char
  | .plain x => x.text
  | .label x ws i ws' => x.text ++ ':' :: (ws.text ++ (i.text ++ ws'.text))
def UAlt.text : UAlt → List Char
  | .one x => x.text
  | .more x ws r => x.text ++ '|' :: (ws.text ++ r.text)
def UExpr.text : UExpr → List Char
  | .alt a => a.text
  | .lam ws args ws' a => '/' :: (ws.text ++ (args.text ++ '/' :: (ws'.text ++ a.text)))
end

def UStmt.text : UStmt → List Char
  | .goal w ws e ws' => "match".toList ++ w.char :: (ws.text ++ (e.text ++ ';' :: ws'.text))
  | .letS w ws names ws1 e ws2 next =>
    "let".toList ++ w.char :: (ws.text ++ (names.text ++ '=' :: (ws1.text ++ (e.text ++ ';' :: (ws2.text ++ next.text)))))

def UProg.text (p : UProg) : List Char := p.ws.text ++ p.stmt.text

/-! ## The nibble syntax tree -/

/-- The identifier. -/
def UIdent.ident (i : UIdent) : Ident := ⟨false, String.ofList i.text, 0⟩

def UNames.idents : UNames → List Ident
  | .one i => [i.ident]
  | .trail i _ _ => [i.ident]
  | .more i _ _ r => i.ident :: r.idents

/-- The characters of a literal; where an escape denotes none, the choice made here does not matter. -/
def UChar.val (c : UChar) : Char := c.denotes.getD ' '

mutual
def UTerm.term : UTerm → Term
  | .eps => .eps 0
  | .lit c r => .lit 0 ((c :: r).map UChar.val)
  | .parens _ e => .parens e.expr
  | .fix _ t => .fix 0 t.term
  | .var i => .ident i.ident
def UCall.terms : UCall → List Term
  | .one t => [t.term]
  | .trail t _ _ => [t.term]
  | .more t _ _ r => t.term :: r.terms
def UCat.calls : UCat → List (Call × Nat)
  | .one x => [(.mk 0 x.terms, 0)]
  | .more x _ r => (.mk 0 x.terms, 0) :: r.calls
def ULabelled.labelled : ULabelled → Labelled
  | .plain x => .mk 0 (.mk 0 x.calls) none
  | .label x _ i _ => .mk 0 (.mk 0 x.calls) (some i.ident)
def UAlt.labelleds : UAlt → List (Labelled × Nat)
  | .one x => [(x.labelled, 0)]
  | .more x _ r => (x.labelled, 0) :: r.labelleds
def UExpr.expr : UExpr → Expr
  | .alt a => .alt (.mk 0 a.labelleds)
  | .lam _ args _ a => .lam 0 args.idents (.mk 0 a.labelleds)
end

def UStmt.abs : UStmt → Stmt
  | .goal _ _ e _ => .goal 0 e.expr
  | .letS _ _ names _ e _ next =>
    .letS 0 (names.idents.headD ⟨false, "", 0⟩) names.idents.tail e.expr next.abs

/-! All escapes denote characters. -/

mutual
def UTerm.ok : UTerm → Bool
  | .eps => true
  | .lit c r => (c :: r).all fun c => c.denotes.isSome
  | .parens _ e => e.ok
  | .fix _ t => t.ok
  | .var _ => true
def UCall.ok : UCall → Bool
  | .one t => t.ok
  | .trail t _ _ => t.ok
  | .more t _ _ r => t.ok && r.ok
def UCat.ok : UCat → Bool
  | .one x => x.ok
  | .more x _ r => x.ok && r.ok
def ULabelled.ok : ULabelled → Bool
  | .plain x => x.ok
  | .label x _ _ _ => x.ok
def UAlt.ok : UAlt → Bool
  | .one x => x.ok
  | .more x _ r => x.ok && r.ok
def UExpr.ok : UExpr → Bool
  | .alt a => a.ok
  | .lam _ _ _ a => a.ok
end

def UStmt.ok : UStmt → Bool
  | .goal _ _ e _ => e.ok
  | .letS _ _ _ _ e _ next => e.ok && next.ok

/-! ## The tree -/

/-- A value of an enum of literals of one character. -/
def Pick.tree {cs : List Char} (k : Pick cs) : Tree := .alt k.val (.lit [k.char])

/-- A value of `plus iter`. -/
def plusT {α : Type} (f : α → Tree) : α → List α → Tree
  | a, [] => .cat [f a, .alt 0 .eps]
  | a, b :: l => .cat [f a, .alt 1 (.box (plusT f b l))]

/-- A value of `ows`, or `star iter`. -/
def starT {α : Type} (f : α → Tree) : List α → Tree
  | [] => .alt 0 .eps
  | a :: l => .alt 1 (plusT f a l)

def Blank.tree (b : Blank) : Tree := starT Pick.tree b

def UCont.tree : UCont → Tree
  | .start k => .alt 0 k.tree
  | .other k => .alt (k.val + 1) (.lit [k.char])

def UIdent.tree (i : UIdent) : Tree := .cat [i.first.tree, starT UCont.tree i.rest]

/-- A value of `up_to hex_digit n`. -/
def hexT : Pick hexChars → List (Pick hexChars) → Tree
  | d, [] => .cat [d.tree, .alt 0 .eps]
  | d, d' :: l => .cat [d.tree, .alt 1 (hexT d' l)]

def UChar.tree : UChar → Tree
  | .plain k => .alt 0 k.tree
  | .ascii k => .alt 1 (.cat [.lit ['\\'], .alt 0 k.tree])
  | .byte o h => .alt 1 (.cat [.lit ['\\'], .alt 1 (.cat [.lit ['x'], o.tree, h.tree])])
  | .unicode d ds _ => .alt 1 (.cat [.lit ['\\'], .alt 2 (.cat [.lit ['u', '{'], hexT d ds, .lit ['}']])])

def UNames.tree : UNames → Tree
  | .one i => .cat [i.tree, .alt 0 .eps]
  | .trail i w ws => .cat [i.tree, .alt 1 (.cat [plusT Pick.tree w ws, .alt 0 .eps])]
  | .more i w ws r => .cat [i.tree, .alt 1 (.cat [plusT Pick.tree w ws, .alt 1 (.box r.tree)])]

mutual
def UTerm.tree : UTerm → Tree
  | .eps => .alt 0 (.lit ['_'])
  | .lit c r => .alt 1 (.cat [.lit ['"'], plusT UChar.tree c r, .lit ['"']])
  | .parens ws e => .alt 2 (.cat [.lit ['('], ws.tree, .box e.tree, .lit [')']])
  | .fix ws t => .alt 3 (.cat [.lit ['!'], ws.tree, .box t.tree])
  | .var i => .alt 4 i.tree
def UCall.tree : UCall → Tree
  | .one t => .cat [t.tree, .alt 0 .eps]
  | .trail t w ws => .cat [t.tree, .alt 1 (.cat [plusT Pick.tree w ws, .alt 0 .eps])]
  | .more t w ws r => .cat [t.tree, .alt 1 (.cat [plusT Pick.tree w ws, .alt 1 (.box r.tree)])]
def UCat.tree : UCat → Tree
  | .one x => .cat [x.tree, .alt 0 .eps]
  | .more x ws r => .cat [x.tree, .alt 1 (.cat [.lit ['.'], ws.tree, .box r.tree])]
def ULabelled.tree : ULabelled → Tree
  | .plain x => .cat [x.tree, .alt 0 .eps]
  | .label x ws i ws' => .cat [x.tree, .alt 1 (.cat [.lit [':'], ws.tree, i.tree, ws'.tree])]
def UAlt.tree : UAlt → Tree
  | .one x => .cat [x.tree, .alt 0 .eps]
  | .more x ws r => .cat [x.tree, .alt 1 (.cat [.lit ['|'], ws.tree, .box r.tree])]
def UExpr.tree : UExpr → Tree
  | .alt a => .alt 0 a.tree
  | .lam ws args ws' a => .alt 1 (.cat [.lit ['/'], ws.tree, args.tree, .lit ['/'], ws'.tree, a.tree])
end

def UStmt.tree : UStmt → Tree
  | .goal w ws e ws' => .alt 1 (.cat [.lit "match".toList, plusT Pick.tree w ws, e.tree, .lit [';'], ws'.tree])
  | .letS w ws names ws1 e ws2 next => .alt 0 (.cat [.lit "let".toList, plusT Pick.tree w ws, names.tree, .lit ['='], ws1.tree,
      e.tree, .lit [';'], ws2.tree, .box next.tree])

/-- Leading white space and a statement. -/
def skipT (s : Tree) : Blank → Tree
  | [] => .alt 1 s
  | w :: ws => .alt 0 (.cat [w.tree, .box (skipT s ws)])

def UProg.tree (p : UProg) : Tree := skipT p.stmt.tree p.ws

/-! ## The text of the tree -/

theorem Pick.tree_display {cs : List Char} (k : Pick cs) : k.tree.display = [k.char] := by simp [Pick.tree, Tree.display]

theorem plusT_display {α : Type} {f : α → Tree} {g : α → List Char} (h : ∀ a, (f a).display = g a) :
    ∀ (l : List α) (a : α), (plusT f a l).display = (a :: l).flatMap g
  | [], a => by simp [plusT, Tree.display, Tree.displayL, h]
  | b :: l, a => by simp [plusT, Tree.display, Tree.displayL, h, plusT_display h l b]

theorem starT_display {α : Type} {f : α → Tree} {g : α → List Char} (h : ∀ a, (f a).display = g a) :
    ∀ l : List α, (starT f l).display = l.flatMap g
  | [] => by simp [starT, Tree.display]
  | a :: l => by simp [starT, Tree.display, plusT_display h l a]

theorem flatMap_single {α β : Type} (f : α → β) : ∀ l : List α, l.flatMap (fun a => [f a]) = l.map f
  | [] => rfl
  | a :: l => by simp [flatMap_single f l]

theorem Blank.tree_display (b : Blank) : b.tree.display = b.text := by
  rw [Blank.tree, starT_display (g := fun k => [k.char]) Pick.tree_display, flatMap_single]
  rfl

theorem plusWs_display (w : Pick wsChars) (ws : Blank) : (plusT Pick.tree w ws).display = w.char :: ws.text := by
  rw [plusT_display (g := fun k => [k.char]) Pick.tree_display, flatMap_single]
  rfl

theorem UCont.tree_display : ∀ k : UCont, k.tree.display = [k.char]
  | .start k => by simp [UCont.tree, UCont.char, Tree.display, Pick.tree_display]
  | .other k => by simp [UCont.tree, UCont.char, Tree.display]

theorem UIdent.tree_display (i : UIdent) : i.tree.display = i.text := by
  simp [UIdent.tree, UIdent.text, Tree.display, Tree.displayL, Pick.tree_display,
    starT_display (g := fun k : UCont => [k.char]) UCont.tree_display, flatMap_single]

theorem hexT_display : ∀ (l : List (Pick hexChars)) (d : Pick hexChars), (hexT d l).display = (d :: l).map Pick.char
  | [], d => by simp [hexT, Tree.display, Tree.displayL, Pick.tree_display]
  | d' :: l, d => by simp [hexT, Tree.display, Tree.displayL, Pick.tree_display, hexT_display l d']

theorem UChar.tree_display : ∀ c : UChar, c.tree.display = c.text
  | .plain k => by simp [UChar.tree, UChar.text, Tree.display, Pick.tree_display]
  | .ascii k => by simp [UChar.tree, UChar.text, Tree.display, Tree.displayL, Pick.tree_display]
  | .byte o h => by simp [UChar.tree, UChar.text, Tree.display, Tree.displayL, Pick.tree_display]
  | .unicode d ds _ => by simp [UChar.tree, UChar.text, Tree.display, Tree.displayL, hexT_display]

theorem UNames.tree_display : ∀ n : UNames, n.tree.display = n.text
  | .one i => by simp [UNames.tree, UNames.text, Tree.display, Tree.displayL, UIdent.tree_display]
  | .trail i w ws => by simp [UNames.tree, UNames.text, Tree.display, Tree.displayL, UIdent.tree_display, plusWs_display]
  | .more i w ws r => by
    simp [UNames.tree, UNames.text, Tree.display, Tree.displayL, UIdent.tree_display, plusWs_display, UNames.tree_display r]

mutual
theorem UTerm.tree_display : ∀ t : UTerm, t.tree.display = t.text
  | .eps => by simp [UTerm.tree, UTerm.text, Tree.display]
  | .lit c r => by simp [UTerm.tree, UTerm.text, Tree.display, Tree.displayL, plusT_display UChar.tree_display]
  | .parens ws e => by simp [UTerm.tree, UTerm.text, Tree.display, Tree.displayL, Blank.tree_display, UExpr.tree_display e]
  | .fix ws t => by simp [UTerm.tree, UTerm.text, Tree.display, Tree.displayL, Blank.tree_display, UTerm.tree_display t]
  | .var i => by simp [UTerm.tree, UTerm.text, Tree.display, UIdent.tree_display]
theorem UCall.tree_display : ∀ x : UCall, x.tree.display = x.text
  | .one t => by simp [UCall.tree, UCall.text, Tree.display, Tree.displayL, UTerm.tree_display t]
  | .trail t w ws => by simp [UCall.tree, UCall.text, Tree.display, Tree.displayL, UTerm.tree_display t, plusWs_display]
  | .more t w ws r => by
    simp [UCall.tree, UCall.text, Tree.display, Tree.displayL, UTerm.tree_display t, plusWs_display, UCall.tree_display r]
theorem UCat.tree_display : ∀ x : UCat, x.tree.display = x.text
  | .one t => by simp [UCat.tree, UCat.text, Tree.display, Tree.displayL, UCall.tree_display t]
  | .more t ws r => by
    simp [UCat.tree, UCat.text, Tree.display, Tree.displayL, UCall.tree_display t, Blank.tree_display, UCat.tree_display r]
theorem ULabelled.tree_display : ∀ x : ULabelled, x.tree.display = x.text
  | .plain t => by simp [ULabelled.tree, ULabelled.text, Tree.display, Tree.displayL, UCat.tree_display t]
  | .label t ws i ws' => by
    simp [ULabelled.tree, ULabelled.text, Tree.display, Tree.displayL, UCat.tree_display t, Blank.tree_display, UIdent.tree_display]
theorem UAlt.tree_display : ∀ x : UAlt, x.tree.display = x.text
  | .one t => by simp [UAlt.tree, UAlt.text, Tree.display, Tree.displayL, ULabelled.tree_display t]
  | .more t ws r => by
    simp [UAlt.tree, UAlt.text, Tree.display, Tree.displayL, ULabelled.tree_display t, Blank.tree_display, UAlt.tree_display r]
theorem UExpr.tree_display : ∀ x : UExpr, x.tree.display = x.text
  | .alt a => by simp [UExpr.tree, UExpr.text, Tree.display, UAlt.tree_display a]
  | .lam ws args ws' a => by
    simp [UExpr.tree, UExpr.text, Tree.display, Tree.displayL, UAlt.tree_display a, Blank.tree_display, UNames.tree_display]
end

theorem UStmt.tree_display : ∀ s : UStmt, s.tree.display = s.text
  | .goal w ws e ws' => by
    simp [UStmt.tree, UStmt.text, Tree.display, Tree.displayL, plusWs_display, UExpr.tree_display, Blank.tree_display]
  | .letS w ws names ws1 e ws2 next => by
    simp [UStmt.tree, UStmt.text, Tree.display, Tree.displayL, plusWs_display, UExpr.tree_display, Blank.tree_display,
      UNames.tree_display, UStmt.tree_display next]

theorem skipT_display (s : Tree) : ∀ b : Blank, (skipT s b).display = b.text ++ s.display
  | [] => by simp [skipT, Tree.display, Blank.text]
  | w :: ws => by simp [skipT, Tree.display, Tree.displayL, Pick.tree_display, skipT_display s ws, Blank.text]

theorem UProg.tree_display (p : UProg) : p.tree.display = p.text := by
  rw [UProg.tree, skipT_display, UStmt.tree_display]
  rfl

end Chomp
