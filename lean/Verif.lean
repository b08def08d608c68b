import Verif.Chewed.Model
import Verif.Chewed.Lemmas
import Verif.Ast.Name
import Verif.Ast.Model
import Verif.Ast.Core
import Verif.Ast.CoreLemmas
import Verif.Ast.Lemmas
import Verif.Ast.ReduceLemmas
import Verif.Ast.Simple
import Verif.Nibble.Model
import Verif.Nibble.Spec
import Verif.Nibble.Lemmas
import Verif.Nibble.StmtLemmas
import Verif.Props.Chewed
import Verif.Props.Name
import Verif.Props.Ast
import Verif.Props.Nibble
import Verif.Props.NodeNames
import Verif.Typed.CharSet
import Verif.Typed.Model
import Verif.Gram.Spec
import Verif.Gram.Lemmas
import Verif.Lower.Runtime
import Verif.Lower.Ref
import Verif.Typed.Lemmas
import Verif.Typed.Total
import Verif.Gram.Left
import Verif.Gram.Meaning
import Verif.Props.Typed
import Verif.Lower.RunLemmas
import Verif.Lower.Bound
import Verif.Lower.Cost
import Verif.Lower.Model
import Verif.Lower.Sim
import Verif.Lower.Faithful
import Verif.Lower.Values
import Verif.Props.Parser
import Verif.Lower.Table
import Verif.Lower.Reach
import Verif.Lower.TableProps
import Verif.Lower.NameLemmas
import Verif.Props.Codegen
import Verif.Ast.Denote
import Verif.Props.EndToEnd
import Verif.Nibble.Syntax
import Verif.Props.Syntax
import Verif.Bench.Arith
import Verif.Bench.ArithSpec
import Verif.Bench.ArithLemmas
import Verif.Bench.ArithParse
import Verif.Props.Arith
import Verif.Grammars.Compiled
import Verif.Grammars.ArithToks
import Verif.Grammars.ArithTable
import Verif.Grammars.JsonToks
import Verif.Grammars.JsonTable
import Verif.Grammars.AutoToks
import Verif.Bench.ArithNibble
import Verif.Grammars.Inv
import Verif.Props.ArithNibble
import Verif.Bench.Json
import Verif.Bench.JsonSpec
import Verif.Bench.JsonLemmas
import Verif.Bench.JsonParse
import Verif.Props.Json
import Verif.Typed.Local
import Verif.Grammars.Reify
import Verif.Grammars.AutoReduced
import Verif.Grammars.AutoTyped
import Verif.Grammars.AutoTable
import Verif.Grammars.AutoCompiled
import Verif.Auto.Model
import Verif.Auto.Ast
import Verif.Auto.Values
import Verif.Auto.Lex
import Verif.Auto.Agree
import Verif.Props.Auto
import Verif.Ast.Provenance
import Verif.Gram.Viable
import Verif.Gram.Exact
import Verif.Props.Errors
import Verif.Props.Viable
import Verif.Bench.JsonNibble
import Verif.Bench.JsonTrees
import Verif.Bench.JsonDocs
import Verif.Bench.JsonUnique
import Verif.Props.JsonNibble
import Verif.Gram.Conflict
import Verif.Props.Conflict
import Verif.Ast.Standard
import Verif.Props.Order
import Verif.Ast.Spans
import Verif.Props.Spans
import Verif.Props.Outline
import Verif.Bench.Lalr
import Verif.Bench.ArithLalr
import Verif.Props.ArithLalr
import Verif.Bench.JsonLalr
import Verif.Props.JsonLalr
import Verif.Props.ConvErrors
import Verif.Lower.Rust
import Verif.Lower.RustTable
import Verif.Lower.RustLemmas
import Verif.Lower.RustValues
import Verif.Props.Emitted
import Verif.Chewed.Text
import Verif.Driver.Text
import Verif.Driver.Model
import Verif.Typed.Nameless
import Verif.Props.Text
import Verif.Props.Quote
import Verif.Props.UnitTests
import Verif.Gram.Productive
import Verif.Props.Earliest
import Verif.Props.Driver
import Verif.Grammars.TestTexts
import Verif.Grammars.TestTyped
import Verif.Props.TestsBuilt
import Verif.Props.Tests
import Verif.Props.EqvLaws
import Verif.Props.Equal
import Verif.Ast.Refactor
import Verif.Gram.Laws
import Verif.Props.Laws
import Verif.Ast.Confluence
import Verif.Props.Inline
import Verif.Props.Parts
import Verif.Props.Alpha
import Verif.Ast.FirstOrder
import Verif.Ast.Uses
import Verif.Props.Returns
import Verif.Lower.Hash
import Verif.Auto.Names
import Verif.Props.Hash
import Verif.Props.Size
import Verif.Props.Munch
import Verif.Lower.Trait
import Verif.Props.Stream
import Verif.Ast.Swap
import Verif.Gram.Swap
import Verif.Props.Replace
import Verif.Props.ChewedExact
import Verif.Props.JsonExact
import Verif.Ast.Display
import Verif.Props.Shown
import Verif.Props.Stepwise
import Verif.Props.FixExact
import Verif.Props.NameExact
import Verif.Props.Sharing
import Verif.Props.Cost
import Verif.Props.ArithExact
import Verif.Lower.Sys
import Verif.Lower.SysRun
import Verif.Lower.SysExact
import Verif.Lower.TableTy
import Verif.Lower.TableGen
import Verif.Lower.TableWf
import Verif.Props.Shared
import Verif.Props.AlphaShared
import Verif.Props.JsonAgree
import Verif.Props.OwnVars
import Verif.Props.Expand
import Verif.Props.SharedExact
import Verif.Lower.Tokens
import Verif.Lower.TokenRead
import Verif.Lower.TokenLemmas
import Verif.Lower.TokenBackend
import Verif.Lower.TokenSim
import Verif.Lower.TokenExact
import Verif.Props.Tokens
import Verif.Props.TokenNames
import Verif.Props.TokenDriver
import Verif.Nibble.Spanned
import Verif.Nibble.Scan
import Verif.Nibble.ScanSim
import Verif.Nibble.SkimSim
import Verif.Nibble.SpannedSim
import Verif.Props.SynErrors
import Verif.Props.SynPlaces
import Verif.Lower.First
import Verif.Props.FirstFix
import Verif.Props.LeftAll
import Verif.Lower.Heck
import Verif.Props.Heck
import Verif.Bench.ArithErr
import Verif.Props.ArithErr
import Verif.Bench.JsonErr
import Verif.Props.JsonErr
import Verif.Props.ChewedErr
import Verif.Bench.HandTrait
import Verif.Bench.HandSim
import Verif.Bench.JsonDepth
import Verif.Props.HandTrait
import Verif.Props.AutoAll
import Verif.Props.AutoLayout
import Verif.Props.ArithLayout
import Verif.Props.Streams
import Verif.Props.JsonLayout
import Verif.Props.Determinism
import Verif.Props.Finite
import Verif.Props.Regular
import Verif.Props.RegExp
import Verif.Props.Written
import Verif.Props.WrittenExact
