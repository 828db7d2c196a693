import Verif.Props.Construct
import Verif.Props.Transform
import Verif.Props.Algebra
import Verif.Props.Running
import Verif.Props.Scanner
import Verif.Props.Glue
import Verif.Props.Io
import Verif.Props.Simple
import Verif.Props.Slow
import Verif.Props.Edit
import Verif.Props.Encoding
import Verif.Props.PatternCases
import Verif.Props.Easy
import Verif.Props.Approx
import Verif.Props.Count
import Verif.Props.HalfFinal
import Verif.Props.Capture
import Verif.Props.LoadedIo
import Verif.Props.CountCtor
import Verif.Props.Brackets
import Verif.Props.AdvCount
import Verif.Props.Greedy
import Verif.Props.GreedyCases
import Verif.Props.CaptureGroup
import Verif.Props.CaptureGroupCases
import Verif.Props.CaptureLeftmost
import Verif.Props.CaptureLeftmostCases
import Verif.Props.CapturePreferred
import Verif.Props.CapturePreferredCases
import Verif.Props.CaptureIo
import Verif.Props.Lifetime
import Verif.Props.EasyCopy
import Verif.Props.SlowLifetime
import Verif.Props.Debug
import Verif.Props.CountLifetime
import Verif.Props.FsmProgram
import Verif.Props.HalfFinalState
import Verif.Props.LexerSession
import Verif.Props.GlueRests
import Verif.Props.Inline
import Verif.Props.InlineCases
import Verif.Props.Stream
import Verif.Props.Samples
import Verif.Props.ParserStack
import Verif.Props.Validator
import Verif.Props.Singleton
import Verif.Props.Any
import Verif.Props.FileMap
