import Verif.Grammars.ArithTable
import Verif.Props.Arith

/-!
# Evaluation of the trees of the generated arithmetic parser: `/repo/chomp-bench/src/arith/nibble.rs`

Values of the generated types are trees: a struct is the list of its fields, an enum the index of the
variant and its content, `Box` the boxed value; a type alias has the values of the aliased type.
`none` is a panic.  A tree that is not of the type of the argument of the conversion also gives `none`:
such arguments do not exist in Rust.
-/

namespace Chomp

/-- `i64::from_str` (standard library): an optional sign and ASCII digits, in the range of `i64`; `none` is an
error. -/
def parseI64 (s : List Char) : Option Int :=
  let p : Bool × List Char := match s with
    | '-' :: r => (true, r)
    | '+' :: r => (false, r)
    | r => (false, r)
  if p.2.isEmpty || !p.2.all Char.isDigit then none
  else
    let v : Nat := p.2.foldl (fun a c => a * 10 + digitVal c) 0
    let x : Int := if p.1 then -v else v
    if InI64 x then some x else none

/-- `chomp-bench/src/arith/nibble.rs:72-82`: `From<Pos1>` and `From<Number1>`, `p.to_string().parse().unwrap()`. -/
def valNumber (t : Tree) : Option Int := parseI64 t.display

mutual
/-- `chomp-bench/src/arith/nibble.rs:62-70`: `From<Term1>`.  Fields of `Term1`: `raw_term1`, `ws1`; variants of
`RawTerm1`: `Pos1`, `Neg1`, `Parens1`; fields of `Neg1`: `part1`, `ws1`, `number1`; fields of `Parens1`: `part1`,
`ws1`, `expr1` (boxed), `part4`. -/
def valTerm (m : Ovf) : Tree → Option Int
  | .cat [.alt 0 n, _] => valNumber n
  | .cat [.alt 1 (.cat [_, _, n]), _] => (valNumber n).bind fun v => m.fit (-v)
  | .cat [.alt 2 (.cat [_, _, .box e, _]), _] => valArith m e
  | _ => none
/-- `chomp-bench/src/arith/nibble.rs:48-60`: `From<Prod1>`.  Fields of `Prod1`: `term1`, `opt1`. -/
def valProd (m : Ovf) : Tree → Option Int
  | .cat [t, o] => (valTerm m t).bind fun acc => foldProd m o acc
  | _ => none
/-- `chomp-bench/src/arith/nibble.rs:50-57,99-112`: `p.opt1.into_iter().fold(acc, ..)` with the iterator `Opt4`.
Variants of `Opt4`: `None1`, `Some1`; fields of its content: `p1`, `ws1`, `list1` (boxed `Prod1`); variants of `P1`:
`Branch1` (`*`), `Branch2` (`/`). -/
def foldProd (m : Ovf) : Tree → Int → Option Int
  | .alt 0 _, acc => some acc
  | .alt 1 (.cat [.alt p _, _, .box (.cat [t, o])]), acc =>
    (valTerm m t).bind fun v =>
      (match p with
        | 0 => m.fit (acc * v)
        | 1 => divI64 acc v
        | _ => none).bind fun acc => foldProd m o acc
  | _, _ => none
/-- `chomp-bench/src/arith/nibble.rs:35-46`: `From<Arith1>`.  Fields of `Arith1`: `prod1`, `opt1`. -/
def valArith (m : Ovf) : Tree → Option Int
  | .cat [p, o] => (valProd m p).bind fun acc => foldSum m o acc
  | _ => none
/-- `chomp-bench/src/arith/nibble.rs:37-43,84-97`: `a.opt1.into_iter().fold(acc, ..)` with the iterator `Opt5`.
Variants of `P2`: `Branch1` (`+`), `Branch2` (`-`). -/
def foldSum (m : Ovf) : Tree → Int → Option Int
  | .alt 0 _, acc => some acc
  | .alt 1 (.cat [.alt p _, _, .box (.cat [t, o])]), acc =>
    (valProd m t).bind fun v =>
      (match p with
        | 0 => m.fit (acc + v)
        | 1 => m.fit (acc - v)
        | _ => none).bind fun acc => foldSum m o acc
  | _, _ => none
end

/-- `chomp-bench/src/arith/nibble.rs:24-33`: `From<Ast>`, the value of a parsed expression.  Variants of `Ast`: `Branch1`,
whose content has the fields `part1` and `rec1` (boxed), and `Branch2`. -/
def valAst (m : Ovf) : Tree → Option Int
  | .alt 0 (.cat [_, .box t]) => valAst m t
  | .alt 1 t => valArith m t
  | _ => none

/-! The names that the Rust code uses are those of the table at the positions used above. -/

/-- The fields or variants of a type of a table, through type aliases (one level suffices here). -/
def namesOf (tbl : List (String × NodeF Nat × List String)) (i : Nat) : List String :=
  match tbl[i]? with
  | some (_, .alias j, _) => match tbl[j]? with
    | some (_, _, l) => l
    | none => []
  | some (_, _, l) => l
  | none => []

example : namesOf arithTable 0 = ["Branch1", "Branch2"] ∧ namesOf arithTable 3 = ["part1", "rec1"] ∧
    namesOf arithTable 5 = ["prod1", "opt1"] ∧ namesOf arithTable 6 = ["term1", "opt1"] ∧
    namesOf arithTable 46 = ["raw_term1", "ws1"] ∧ namesOf arithTable 43 = ["Pos1", "Neg1", "Parens1"] ∧
    namesOf arithTable 36 = ["part1", "ws1", "number1"] ∧ namesOf arithTable 42 = ["part1", "ws1", "expr1", "part4"] ∧
    namesOf arithTable 55 = ["None1", "Some1"] ∧ namesOf arithTable 54 = ["p1", "ws1", "list1"] ∧
    namesOf arithTable 64 = ["None1", "Some1"] ∧ namesOf arithTable 63 = ["p1", "ws1", "list1"] ∧
    ([0, 5, 6, 7, 31, 43, 46, 50, 55, 59, 64].map fun i => arithTable[i]?.map (·.1)) =
      ["Ast1", "Arith1", "Prod1", "Pos1", "Number1", "RawTerm1", "Term1", "P1", "Opt4", "P2", "Opt5"].map some := by
  decide

/-! ## The tree of an expression -/

/-- The tree of a digit. -/
def digitTree (d : Fin 10) : Tree := .alt d.val (.lit [digitChar d])

/-- The tree of a number (`plus digit`). -/
def numTree (d : Fin 10) : List (Fin 10) → Tree
  | [] => .cat [digitTree d, .alt 0 .eps]
  | d' :: r => .cat [digitTree d, .alt 1 (.box (numTree d' r))]

/-- The tree of one or more spaces (`plus " "`). -/
def plusTree : Nat → Tree
  | 0 => .cat [.lit [' '], .alt 0 .eps]
  | n + 1 => .cat [.lit [' '], .alt 1 (.box (plusTree n))]

/-- The tree of `star " "`. -/
def wsTree : Nat → Tree
  | 0 => .alt 0 .eps
  | n + 1 => .alt 1 (plusTree n)

mutual
def ATerm.tree : ATerm → Tree
  | .pos n sp => .cat [.alt 0 (numTree n.first n.rest), wsTree sp]
  | .neg sp1 n sp => .cat [.alt 1 (.cat [.lit ['-'], wsTree sp1, numTree n.first n.rest]), wsTree sp]
  | .paren sp1 e sp => .cat [.alt 2 (.cat [.lit ['('], wsTree sp1, .box (e.tree (.alt 0 .eps)), .lit [')']]), wsTree sp]
/-- The tree of a product followed by further factors. -/
def AProd.tree : AProd → Tree → Tree
  | .term t, o => .cat [t.tree, o]
  | .mul l sp r, o => l.tree (.alt 1 (.cat [.alt 0 (.lit ['*']), wsTree sp, .box (.cat [r.tree, o])]))
  | .div l sp r, o => l.tree (.alt 1 (.cat [.alt 1 (.lit ['/']), wsTree sp, .box (.cat [r.tree, o])]))
/-- The tree of a sum followed by further summands. -/
def ASum.tree : ASum → Tree → Tree
  | .prod p, o => .cat [p.tree (.alt 0 .eps), o]
  | .add l sp r, o => l.tree (.alt 1 (.cat [.alt 0 (.lit ['+']), wsTree sp, .box (.cat [r.tree (.alt 0 .eps), o])]))
  | .sub l sp r, o => l.tree (.alt 1 (.cat [.alt 1 (.lit ['-']), wsTree sp, .box (.cat [r.tree (.alt 0 .eps), o])]))
end

/-- The tree of leading spaces and a sum. -/
def inputTree (e : ASum) : Nat → Tree
  | 0 => .alt 1 (e.tree (.alt 0 .eps))
  | n + 1 => .alt 0 (.cat [.lit [' '], .box (inputTree e n)])

def AInput.tree (i : AInput) : Tree := inputTree i.sum i.sp

/-! ## Text -/

theorem numTree_display : ∀ (r : List (Fin 10)) (d : Fin 10), (numTree d r).display = (d :: r).map digitChar
  | [], d => by simp [numTree, digitTree, Tree.display, Tree.displayL]
  | d' :: r, d => by
    have := numTree_display r d'
    simp [numTree, digitTree, Tree.display, Tree.displayL, this]

theorem plusTree_display : ∀ n, (plusTree n).display = spaces (n + 1)
  | 0 => by simp [plusTree, Tree.display, Tree.displayL, spaces]
  | n + 1 => by
    have := plusTree_display n
    simp only [plusTree, Tree.display, Tree.displayL, this, spaces, List.append_nil]
    rfl

theorem wsTree_display : ∀ n, (wsTree n).display = spaces n
  | 0 => by simp [wsTree, Tree.display, spaces]
  | n + 1 => by simp [wsTree, Tree.display, plusTree_display]

mutual
theorem ATerm.tree_display : ∀ t : ATerm, t.tree.display = t.text
  | .pos n sp => by simp [ATerm.tree, ATerm.text, Tree.display, Tree.displayL, numTree_display, wsTree_display, Numeral.text]
  | .neg sp1 n sp => by
    simp [ATerm.tree, ATerm.text, Tree.display, Tree.displayL, numTree_display, wsTree_display, Numeral.text]
  | .paren sp1 e sp => by
    have := ASum.tree_display e (.alt 0 .eps)
    simp [ATerm.tree, ATerm.text, Tree.display, Tree.displayL, wsTree_display, this]
theorem AProd.tree_display : ∀ (p : AProd) (o : Tree), (p.tree o).display = p.text ++ o.display
  | .term t, o => by simp [AProd.tree, AProd.text, Tree.display, Tree.displayL, ATerm.tree_display t]
  | .mul l sp r, o => by
    simp [AProd.tree, AProd.text, Tree.display, Tree.displayL, AProd.tree_display l, ATerm.tree_display r, wsTree_display]
  | .div l sp r, o => by
    simp [AProd.tree, AProd.text, Tree.display, Tree.displayL, AProd.tree_display l, ATerm.tree_display r, wsTree_display]
theorem ASum.tree_display : ∀ (p : ASum) (o : Tree), (p.tree o).display = p.text ++ o.display
  | .prod t, o => by simp [ASum.tree, ASum.text, Tree.display, Tree.displayL, AProd.tree_display t]
  | .add l sp r, o => by
    simp [ASum.tree, ASum.text, Tree.display, Tree.displayL, ASum.tree_display l, AProd.tree_display r, wsTree_display]
  | .sub l sp r, o => by
    simp [ASum.tree, ASum.text, Tree.display, Tree.displayL, ASum.tree_display l, AProd.tree_display r, wsTree_display]
end

theorem AInput.tree_display (i : AInput) : i.tree.display = i.text := by
  obtain ⟨sp, e⟩ := i
  unfold AInput.tree AInput.text
  simp only
  induction sp with
  | zero => simp [inputTree, Tree.display, ASum.tree_display, spaces]
  | succ n ih => simp [inputTree, Tree.display, Tree.displayL, ih, spaces, List.replicate_succ]

/-! ## Type -/

abbrev AV (i : Nat) (t : Tree) : Prop := Value (tableStep arithTable) i t

theorem digitTree_value (d : Fin 10) : AV 18 (digitTree d) := by
  refine .alt 18 [] [8, 9, 10, 11, 12, 13, 14, 15, 16, 17] d.val (8 + d.val) _ rfl ?_ (.lit _ _ ?_)
  · revert d; decide
  · revert d; decide

theorem numTree_value {i j k e b : Nat} (h1 : tableStep arithTable i = .alias j) (h2 : tableStep arithTable j = .cat [18, k])
    (h3 : tableStep arithTable k = .alt [] [e, b]) (h4 : tableStep arithTable e = .eps) (h5 : tableStep arithTable b = .box i) :
    ∀ (r : List (Fin 10)) (d : Fin 10), AV i (numTree d r)
  | [], d => .alias _ _ _ h1 (.cat _ _ _ h2 (.cons _ _ _ _ (digitTree_value d) (.cons _ _ _ _ (.alt _ _ _ 0 e _ h3 rfl (.eps _ h4)) .nil)))
  | d' :: r, d => .alias _ _ _ h1 (.cat _ _ _ h2 (.cons _ _ _ _ (digitTree_value d) (.cons _ _ _ _
      (.alt _ _ _ 1 b _ h3 rfl (.box _ _ _ h5 (numTree_value h1 h2 h3 h4 h5 r d'))) .nil)))

theorem plusTree_value : ∀ n, AV 25 (plusTree n)
  | 0 => .alias _ 29 _ rfl (.cat _ [1, 28] _ rfl (.cons _ _ _ _ (.lit _ _ rfl) (.cons _ _ _ _ (.alt _ [] [26, 27] 0 26 _ rfl rfl (.eps _ rfl)) .nil)))
  | n + 1 => .alias _ 29 _ rfl (.cat _ [1, 28] _ rfl (.cons _ _ _ _ (.lit _ _ rfl) (.cons _ _ _ _
      (.alt _ [] [26, 27] 1 27 _ rfl rfl (.box _ 25 _ rfl (plusTree_value n))) .nil)))

theorem wsTree_value {i e : Nat} (h : tableStep arithTable i = .alt [] [e, 25]) (he : tableStep arithTable e = .eps) :
    ∀ n, AV i (wsTree n)
  | 0 => .alt _ _ _ 0 e _ h rfl (.eps _ he)
  | n + 1 => .alt _ _ _ 1 25 _ h rfl (plusTree_value n)

theorem optNone_value {i e : Nat} {l : List Nat} (h : tableStep arithTable i = .alt [] (e :: l)) (he : tableStep arithTable e = .eps) :
    AV i (.alt 0 .eps) := .alt _ _ _ 0 e _ h rfl (.eps _ he)

mutual
theorem ATerm.tree_value : ∀ t : ATerm, AV 46 t.tree
  | .pos n sp => .cat _ [43, 45] _ rfl (.cons _ _ _ _
      (.alt _ [] [7, 36, 42] 0 7 _ rfl rfl (numTree_value (i := 7) (j := 22) (k := 21) (e := 19) (b := 20) rfl rfl rfl rfl rfl _ _))
      (.cons _ _ _ _ (wsTree_value (e := 44) rfl rfl _) .nil))
  | .neg sp1 n sp => .cat _ [43, 45] _ rfl (.cons _ _ _ _
      (.alt _ [] [7, 36, 42] 1 36 _ rfl rfl (.cat _ [23, 30, 31] _ rfl (.cons _ _ _ _ (.lit _ _ rfl)
        (.cons _ _ _ _ (wsTree_value (e := 24) rfl rfl _) (.cons _ _ _ _
          (numTree_value (i := 31) (j := 35) (k := 34) (e := 32) (b := 33) rfl rfl rfl rfl rfl _ _) .nil)))))
      (.cons _ _ _ _ (wsTree_value (e := 44) rfl rfl _) .nil))
  | .paren sp1 e sp => .cat _ [43, 45] _ rfl (.cons _ _ _ _
      (.alt _ [] [7, 36, 42] 2 42 _ rfl rfl (.cat _ [37, 39, 40, 41] _ rfl (.cons _ _ _ _ (.lit _ _ rfl)
        (.cons _ _ _ _ (wsTree_value (e := 38) rfl rfl _) (.cons _ _ _ _
          (.box _ 4 _ rfl (.alias _ 5 _ rfl (ASum.tree_value e _ (optNone_value (e := 57) rfl rfl))))
          (.cons _ _ _ _ (.lit _ _ rfl) .nil))))))
      (.cons _ _ _ _ (wsTree_value (e := 44) rfl rfl _) .nil))
theorem AProd.tree_value : ∀ (p : AProd) (o : Tree), AV 55 o → AV 6 (p.tree o)
  | .term t, o, ho => .alias _ 56 _ rfl (.cat _ [46, 55] _ rfl (.cons _ _ _ _ (ATerm.tree_value t) (.cons _ _ _ _ ho .nil)))
  | .mul l sp r, o, ho => AProd.tree_value l _ (.alt _ [] [47, 54] 1 54 _ rfl rfl (.cat _ [50, 52, 53] _ rfl (.cons _ _ _ _
      (.alt _ [] [48, 49] 0 48 _ rfl rfl (.lit _ _ rfl)) (.cons _ _ _ _ (wsTree_value (e := 51) rfl rfl _) (.cons _ _ _ _
        (.box _ 6 _ rfl (.alias _ 56 _ rfl (.cat _ [46, 55] _ rfl (.cons _ _ _ _ (ATerm.tree_value r) (.cons _ _ _ _ ho .nil))))) .nil)))))
  | .div l sp r, o, ho => AProd.tree_value l _ (.alt _ [] [47, 54] 1 54 _ rfl rfl (.cat _ [50, 52, 53] _ rfl (.cons _ _ _ _
      (.alt _ [] [48, 49] 1 49 _ rfl rfl (.lit _ _ rfl)) (.cons _ _ _ _ (wsTree_value (e := 51) rfl rfl _) (.cons _ _ _ _
        (.box _ 6 _ rfl (.alias _ 56 _ rfl (.cat _ [46, 55] _ rfl (.cons _ _ _ _ (ATerm.tree_value r) (.cons _ _ _ _ ho .nil))))) .nil)))))
theorem ASum.tree_value : ∀ (p : ASum) (o : Tree), AV 64 o → AV 5 (p.tree o)
  | .prod t, o, ho => .alias _ 65 _ rfl (.cat _ [6, 64] _ rfl (.cons _ _ _ _ (AProd.tree_value t _ (optNone_value (e := 47) rfl rfl))
      (.cons _ _ _ _ ho .nil)))
  | .add l sp r, o, ho => ASum.tree_value l _ (.alt _ [] [57, 63] 1 63 _ rfl rfl (.cat _ [59, 61, 62] _ rfl (.cons _ _ _ _
      (.alt _ [] [58, 23] 0 58 _ rfl rfl (.lit _ _ rfl)) (.cons _ _ _ _ (wsTree_value (e := 60) rfl rfl _) (.cons _ _ _ _
        (.box _ 5 _ rfl (.alias _ 65 _ rfl (.cat _ [6, 64] _ rfl (.cons _ _ _ _ (AProd.tree_value r _ (optNone_value (e := 47) rfl rfl))
          (.cons _ _ _ _ ho .nil))))) .nil)))))
  | .sub l sp r, o, ho => ASum.tree_value l _ (.alt _ [] [57, 63] 1 63 _ rfl rfl (.cat _ [59, 61, 62] _ rfl (.cons _ _ _ _
      (.alt _ [] [58, 23] 1 23 _ rfl rfl (.lit _ _ rfl)) (.cons _ _ _ _ (wsTree_value (e := 60) rfl rfl _) (.cons _ _ _ _
        (.box _ 5 _ rfl (.alias _ 65 _ rfl (.cat _ [6, 64] _ rfl (.cons _ _ _ _ (AProd.tree_value r _ (optNone_value (e := 47) rfl rfl))
          (.cons _ _ _ _ ho .nil))))) .nil)))))
end

theorem inputTree_value (e : ASum) : ∀ n, AV 0 (inputTree e n)
  | 0 => .alias _ 66 _ rfl (.alt _ [] [3, 4] 1 4 _ rfl rfl (.alias _ 5 _ rfl (ASum.tree_value e _ (optNone_value (e := 57) rfl rfl))))
  | n + 1 => .alias _ 66 _ rfl (.alt _ [] [3, 4] 0 3 _ rfl rfl (.cat _ [1, 2] _ rfl (.cons _ _ _ _ (.lit _ _ rfl)
      (.cons _ _ _ _ (.box _ 0 _ rfl (inputTree_value e n)) .nil))))

end Chomp
