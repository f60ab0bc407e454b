import Verif.Model.Lexer
import Verif.Model.Slr
import Verif.Props.Iter
import Verif.Props.PeekIter
import Verif.Props.Charset
import Verif.Props.Sim
import Verif.Props.GrammarBuild
import Verif.Props.HexRuns
import Verif.Props.Item
import Verif.Props.Tokenizer
import Verif.Props.RegexParser
import Verif.Props.Compile
import Verif.Props.Blowup
import Verif.Props.Bounds
import Verif.Props.Builder
import Verif.Props.Matching
import Verif.Props.Exact
import Verif.Props.EndMarker
import Verif.Props.Ends
import Verif.Props.LexStream
import Verif.Props.Lexing
import Verif.Props.Scanning
import Verif.Props.FirstFollow
import Verif.Props.Automaton
import Verif.Props.Duplicates
import Verif.Props.Dot
import Verif.Props.Table
import Verif.Props.NfaDot
import Verif.Props.Parse
import Verif.Props.Pointers
import Verif.Props.Epsilon
import Verif.Props.ParseText
import Verif.Props.Escapes
import Verif.Props.Lexemes
import Verif.Props.RegexError
import Verif.Props.RegexMessage
import Verif.Props.Memory
import Verif.Props.RuleOrder
import Verif.Props.Unreachable
import Verif.Props.Machine
import Verif.Props.Panics
import Verif.Props.Cycle
import Verif.Props.TextMachine
import Verif.Props.Trim
import Verif.Proofs.Sentence
import Verif.Props.ErrorAt
import Verif.Props.Language
import Verif.Spec.Rename
import Verif.Proofs.Rename
import Verif.Props.Rename
import Verif.Spec.RegexUses
import Verif.Proofs.Cut
import Verif.Proofs.Uses
import Verif.Props.Local
import Verif.Props.Lossless
import Verif.Props.Example
import Verif.Model.ExampleAb
import Verif.Props.ExampleAb
import Verif.Tests
import Verif.Model.Effects
import Verif.Spec.Effects
import Verif.Spec.Words
import Verif.Proofs.Effects
import Verif.Proofs.EffectLog
import Verif.Proofs.Words
import Verif.Props.Effects
import Verif.Props.Words
import Verif.Props.Size
import Verif.Props.StaysEnded
import Verif.Props.Replace
import Verif.Props.Rewrite
import Verif.Props.Orders
import Verif.Props.CallCount
import Verif.Props.Caught
import Verif.Props.Depth
import Verif.Props.Reads
import Verif.Props.FirstWork
import Verif.Props.StackSize
import Verif.Props.ParseEffects
import Verif.Props.Instances
import Verif.Props.Several
import Verif.Props.WholeText
import Verif.Props.RegexAccept
import Verif.Props.WordsBack
import Verif.Props.Payload
import Verif.Props.Compose
import Verif.Props.Bar
import Verif.Props.MoreRules
import Verif.Props.Kinds
import Verif.Props.Unknown
import Verif.Props.OnlyKinds
import Verif.Props.Overflow
import Verif.Props.Printed
import Verif.Props.PrintedParser
import Verif.Props.OverflowParse
import Verif.Props.Regular
import Verif.Props.ContextFree
import Verif.Props.RegularTokens
import Verif.Props.Simple
import Verif.Props.Operators
import Verif.Props.Plugged
import Verif.Props.Predictive
import Verif.Props.Named
import Verif.Props.ReadBack
import Verif.Props.Debug
import Verif.Props.Names
import Verif.Props.FirstChar
import Verif.Props.Quoted
import Verif.Props.Blanks
import Verif.Props.TwoAhead
import Verif.Props.InTime
import Verif.Props.Nested
import Verif.Props.Strings
import Verif.Props.Json
import Verif.Props.FewRuns
import Verif.Props.Work
import Verif.Props.ParseWork
import Verif.Props.ManyRuns
import Verif.Props.ManyWork
import Verif.Props.Unambiguous
import Verif.Props.IfElse
import Verif.Props.Palindromes
import Verif.Props.BothSides
import Verif.Props.ItemSets
import Verif.Props.Closed
import Verif.Props.Comments
import Verif.Props.Choice
import Verif.Props.TwoCounts
import Verif.Props.ThreeCounts
import Verif.Props.Copies
import Verif.Props.Places
import Verif.Props.Announced
import Verif.Props.Merged
import Verif.Props.Clean
import Verif.Props.Height
import Verif.Props.LowStack
import Verif.Props.Recursion
import Verif.Props.Spine
