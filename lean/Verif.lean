import Verif.Props.Values
import Verif.Props.Equal
import Verif.Props.Strings
import Verif.Props.Maps
import Verif.Props.Containers
import Verif.Props.GCBase
import Verif.Props.GC
import Verif.Props.GCLive
import Verif.Props.GCReclaim
import Verif.Props.Reader
import Verif.Props.Ident
import Verif.Props.ListLib
import Verif.Props.Hash
import Verif.Props.Shuffle
import Verif.Props.Peg
import Verif.Props.Sxml
import Verif.Props.Unify
import Verif.Props.Chan
import Verif.Props.VM
import Verif.Props.Import
import Verif.Props.Macro
import Verif.Props.Quasi
import Verif.Props.Match
import Verif.Props.Func
import Verif.Props.Names
import Verif.Props.Interp
import Verif.Props.Kanren
import Verif.Props.Net
import Verif.Props.Io
import Verif.Props.Os
import Verif.Props.Infer
import Verif.Props.TypeCheck
import Verif.Props.Loop
import Verif.Props.Tls
import Verif.Props.Md
import Verif.Props.Parallel
import Verif.Props.Code
import Verif.Props.Source
import Verif.Props.Segments
import Verif.Props.Heap
import Verif.Props.Trace
import Verif.Props.Script
import Verif.Props.Optimised
import Verif.Props.Load
import Verif.Props.Json
import Verif.Props.Repl
import Verif.Conform
import Verif.Props.Cml
import Verif.Props.HashNum
import Verif.Props.Async
import Verif.Props.Monad
import Verif.Props.Record
import Verif.Props.Compile
import Verif.Props.CompileLive
import Verif.Props.CompileRun
import Verif.Props.Alloc
import Verif.Props.Peval
import Verif.Props.Buffer
import Verif.Props.Files
import Verif.Props.Register
import Verif.Props.Reify
import Verif.Props.TypeRules
import Verif.Props.TraceWrap
import Verif.Props.Expand
import Verif.Props.ParallelMem
import Verif.Props.Twice
import Verif.Props.Growable
import Verif.Props.Sockets
import Verif.Props.Watch
import Verif.Props.AsyncSys
import Verif.Props.Pace
import Verif.Props.Status
import Verif.Props.TraceThreads
import Verif.Props.InternThreads
import Verif.Props.Checked
import Verif.Props.Pointer
import Verif.Props.Kinds
import Verif.Props.Packages
import Verif.Props.Forall
import Verif.Props.Export
import Verif.Props.Fold
import Verif.Props.Events
import Verif.Props.Continuation
import Verif.Props.SourceCases
import Verif.Props.Shift
import Verif.Props.Registry
import Verif.Props.GenName
import Verif.Props.MapCost
import Verif.Props.Arrow
