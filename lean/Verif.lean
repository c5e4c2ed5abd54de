import Verif.Model.Base
import Verif.Model.Bench
import Verif.Model.Channel
import Verif.Model.Count
import Verif.Model.Display
import Verif.Model.Dot
import Verif.Model.Driver
import Verif.Model.Files
import Verif.Model.Fmt
import Verif.Model.FmtMain
import Verif.Model.GCtx
import Verif.Model.Infer
import Verif.Model.Inline
import Verif.Model.Kernel
import Verif.Model.Lex
import Verif.Model.Library
import Verif.Model.Log
import Verif.Model.Main
import Verif.Model.Make
import Verif.Model.Monad
import Verif.Model.Parse
import Verif.Model.Process
import Verif.Model.Raw
import Verif.Model.Reduce
import Verif.Model.Share
import Verif.Model.Subst
import Verif.Model.Symbols
import Verif.Model.Syntax
import Verif.Model.Text
import Verif.Model.Web
import Verif.Spec.Arith
import Verif.Spec.Bench
import Verif.Spec.Candidate
import Verif.Spec.Confluence
import Verif.Spec.Consistent
import Verif.Spec.Conv
import Verif.Spec.Correct
import Verif.Spec.Count
import Verif.Spec.Display
import Verif.Spec.Dot
import Verif.Spec.Eta
import Verif.Spec.Fib
import Verif.Spec.Grammar
import Verif.Spec.Head
import Verif.Spec.History
import Verif.Spec.Inline
import Verif.Spec.Layout
import Verif.Spec.Levels
import Verif.Spec.Lex
import Verif.Spec.Library
import Verif.Spec.Limited
import Verif.Spec.Log
import Verif.Spec.Logic
import Verif.Spec.Make
import Verif.Spec.Nat
import Verif.Spec.Normal
import Verif.Spec.Normalising
import Verif.Spec.Overlap
import Verif.Spec.Path
import Verif.Spec.Print
import Verif.Spec.Program
import Verif.Spec.Proper
import Verif.Spec.Raw
import Verif.Spec.Reading
import Verif.Spec.Red
import Verif.Spec.Scope
import Verif.Spec.Share
import Verif.Spec.Structural
import Verif.Spec.Symbols
import Verif.Spec.Tm
import Verif.Spec.Tokens
import Verif.Spec.Typing
import Verif.Spec.Unending
import Verif.Spec.Viable
import Verif.Spec.Web
import Verif.Spec.WellFormed
import Verif.Spec.Whnf
import Verif.Proofs.Adequacy
import Verif.Proofs.Arith
import Verif.Proofs.ArithEnds
import Verif.Proofs.Bench
import Verif.Proofs.BenchRun
import Verif.Proofs.BenchText
import Verif.Proofs.BenchType
import Verif.Proofs.Beq
import Verif.Proofs.Bidir
import Verif.Proofs.Candidate
import Verif.Proofs.Channel
import Verif.Proofs.Comment
import Verif.Proofs.Complete
import Verif.Proofs.Computed
import Verif.Proofs.Consistent
import Verif.Proofs.ConvLemmas
import Verif.Proofs.Correct
import Verif.Proofs.CorrectProgram
import Verif.Proofs.Delivered
import Verif.Proofs.Delivery
import Verif.Proofs.Display
import Verif.Proofs.Driver
import Verif.Proofs.Drops
import Verif.Proofs.Eta
import Verif.Proofs.EtaApart
import Verif.Proofs.FmtMain
import Verif.Proofs.Ghost
import Verif.Proofs.Grammar
import Verif.Proofs.GrammarComplete
import Verif.Proofs.Halts
import Verif.Proofs.Head
import Verif.Proofs.HeadMachine
import Verif.Proofs.Heap
import Verif.Proofs.Inline
import Verif.Proofs.Known
import Verif.Proofs.KnownDriver
import Verif.Proofs.Levels
import Verif.Proofs.Lex
import Verif.Proofs.LexAppend
import Verif.Proofs.LexSymb
import Verif.Proofs.Library
import Verif.Proofs.Like
import Verif.Proofs.Limited
import Verif.Proofs.Log
import Verif.Proofs.Logic
import Verif.Proofs.LogicEnds
import Verif.Proofs.Machine
import Verif.Proofs.MagicEnds
import Verif.Proofs.Make
import Verif.Proofs.NoErr
import Verif.Proofs.Normal
import Verif.Proofs.Orthogonal
import Verif.Proofs.Overlap
import Verif.Proofs.Panic
import Verif.Proofs.Parallel
import Verif.Proofs.ParseAuto
import Verif.Proofs.ParseClean
import Verif.Proofs.ParseInv
import Verif.Proofs.ParseLines
import Verif.Proofs.Parsed
import Verif.Proofs.Path
import Verif.Proofs.Preserve
import Verif.Proofs.Print
import Verif.Proofs.Process
import Verif.Proofs.Program
import Verif.Proofs.Raw
import Verif.Proofs.Readback
import Verif.Proofs.Reading
import Verif.Proofs.RedLemmas
import Verif.Proofs.Reducible
import Verif.Proofs.Refuse
import Verif.Proofs.SameCmd
import Verif.Proofs.Scope
import Verif.Proofs.Share
import Verif.Proofs.Sim
import Verif.Proofs.SimConv
import Verif.Proofs.SimDriver
import Verif.Proofs.SimEval
import Verif.Proofs.SimInfer
import Verif.Proofs.Stable
import Verif.Proofs.Static
import Verif.Proofs.StaticNormal
import Verif.Proofs.StaticProgram
import Verif.Proofs.StaticText
import Verif.Proofs.Strict
import Verif.Proofs.StrictDriver
import Verif.Proofs.StrictGrammar
import Verif.Proofs.Structural
import Verif.Proofs.SubstEq
import Verif.Proofs.Symbols
import Verif.Proofs.Terminate
import Verif.Proofs.TerminateDriver
import Verif.Proofs.TerminateEta
import Verif.Proofs.TerminateInfer
import Verif.Proofs.TextGrammar
import Verif.Proofs.TmLemmas
import Verif.Proofs.Tokens
import Verif.Proofs.TokensB
import Verif.Proofs.Trav
import Verif.Proofs.Unending
import Verif.Proofs.Viable
import Verif.Proofs.ViableKind
import Verif.Proofs.ViableText
import Verif.Proofs.WeakNormal
import Verif.Proofs.Web
import Verif.Proofs.WhnfLemmas
import Verif.Proofs.Wp
import Verif.Props.Arith
import Verif.Props.Bench
import Verif.Props.Channel
import Verif.Props.Complete
import Verif.Props.Computed
import Verif.Props.Confluence
import Verif.Props.Consistent
import Verif.Props.Context
import Verif.Props.Correct
import Verif.Props.Count
import Verif.Props.Delivery
import Verif.Props.Directed
import Verif.Props.Display
import Verif.Props.Dot
import Verif.Props.Eta
import Verif.Props.EtaCorrect
import Verif.Props.Eval
import Verif.Props.Fib
import Verif.Props.Fmt
import Verif.Props.FmtMain
import Verif.Props.Grammar
import Verif.Props.HeadNormal
import Verif.Props.Indep
import Verif.Props.Inline
import Verif.Props.Library
import Verif.Props.Limited
import Verif.Props.Log
import Verif.Props.Logic
import Verif.Props.Make
import Verif.Props.Panic
import Verif.Props.Parallel
import Verif.Props.Parse
import Verif.Props.Path
import Verif.Props.Process
import Verif.Props.Program
import Verif.Props.Raw
import Verif.Props.Refuse
import Verif.Props.Reprint
import Verif.Props.Scope
import Verif.Props.Session
import Verif.Props.Share
import Verif.Props.Strict
import Verif.Props.Structural
import Verif.Props.Symbols
import Verif.Props.Terminate
import Verif.Props.Typing
import Verif.Props.Unending
import Verif.Props.Viable
import Verif.Props.Web
import Verif.Props.Whnf
