import Verif.Base
import Verif.Re
import Verif.Regexes
import Verif.Types
import Verif.Ast
import Verif.Nom
import Verif.Keys
import Verif.Grammar
import Verif.Api
import Verif.Values
import Verif.Cli
import Verif.Conformance
import Verif.Spec.Syntax
import Verif.Lemmas.Re
import Verif.Lemmas.Lang
import Verif.Lemmas.Eff
import Verif.Lemmas.Lex
import Verif.Lemmas.First
import Verif.Lemmas.Gram
import Verif.Lemmas.Doc
import Verif.Lemmas.Heap
import Verif.Lemmas.Map
import Verif.Lemmas.Inv
import Verif.Lemmas.Tree
import Verif.Spec.Edit
import Verif.Lemmas.Set
import Verif.Lemmas.Conv
import Verif.Lemmas.Rebuild
import Verif.Lemmas.Parse
import Verif.Lemmas.Count
import Verif.Lemmas.Place
import Verif.Lemmas.Witness
import Verif.Props.Parse
import Verif.Lemmas.Document
import Verif.Lemmas.Edit
import Verif.Lemmas.Num
import Verif.Lemmas.Flat
import Verif.Lemmas.Template
import Verif.Spec.Session
import Verif.Lemmas.Sets
import Verif.Lemmas.Session
import Verif.Props.Edit
import Verif.Spec.Path
import Verif.Spec.Entries
import Verif.Lemmas.Path
import Verif.Lemmas.Ctx
import Verif.Lemmas.Entries
import Verif.Lemmas.Table
import Verif.Lemmas.Tab
import Verif.Lemmas.Total
import Verif.Lemmas.Header
import Verif.Lemmas.Lines
import Verif.Lemmas.Errs
import Verif.Lemmas.DocErrs
import Verif.Spec.Issues
import Verif.Lemmas.Fresh
import Verif.Props.Doc
import Verif.Spec.Text
import Verif.Spec.Calendar
import Verif.Lemmas.Det
import Verif.Lemmas.Strings
import Verif.Lemmas.Dates
import Verif.Lemmas.Scalars
import Verif.Spec.Strict
import Verif.Lemmas.Fwd
import Verif.Lemmas.FwdVal
import Verif.Lemmas.FwdDoc
import Verif.Spec.Content
import Verif.Lemmas.Content
import Verif.Lemmas.Read
import Verif.Props.Values
import Verif.Props.Keys
import Verif.Props.Tool
import Verif.Props.Under
import Verif.Props.Read
import Verif.Lemmas.Parts
import Verif.Props.Parts
import Verif.Spec.Tables
import Verif.Lemmas.Exact
import Verif.Lemmas.Chain
import Verif.Lemmas.Sections
import Verif.Lemmas.Simulate
import Verif.Lemmas.Answers
import Verif.Lemmas.Walk
import Verif.Props.Tables
import Verif.Spec.Print
import Verif.Lemmas.Print
import Verif.Props.Print
import Verif.Spec.Tool
import Verif.Lemmas.Tool
import Verif.Props.Says
import Verif.Spec.Assign
import Verif.Lemmas.Assign
import Verif.Props.Assign
import Verif.Spec.Bad
import Verif.Spec.Valid
import Verif.Spec.Results
import Verif.Spec.Values
import Verif.Spec.Lines
import Verif.Spec.Layout
import Verif.Spec.Spell
import Verif.Lemmas.Bad
import Verif.Lemmas.Valid
import Verif.Lemmas.Layout
import Verif.Lemmas.Spell
import Verif.Lemmas.ForAssign
import Verif.Lemmas.Quiet
import Verif.Lemmas.Census
import Verif.Lemmas.ForBad
import Verif.Lemmas.ForDoc
import Verif.Lemmas.ForKeys
import Verif.Lemmas.ForParse
import Verif.Lemmas.ForRead
import Verif.Lemmas.ForSays
import Verif.Lemmas.ForTables
import Verif.Lemmas.ForTool
import Verif.Lemmas.Field
import Verif.Props.Field
import Verif.Lemmas.ForValues
import Verif.Props.Bad
import Verif.Lemmas.Twin
import Verif.Lemmas.Reread
import Verif.Props.Again
import Verif.Lemmas.Reads
import Verif.Props.Reads
import Verif.Main
import Verif.Spec.Batch
import Verif.Lemmas.Batch
import Verif.Props.Batch
import Verif.Spec.History
import Verif.Lemmas.Reach
import Verif.Lemmas.Links
import Verif.Lemmas.Hist
import Verif.Lemmas.HistRead
import Verif.Lemmas.HistSet
import Verif.Lemmas.HistAll
import Verif.Lemmas.Tidy
import Verif.Lemmas.TidyDoc
import Verif.Lemmas.TidyHist
import Verif.Lemmas.HistWalk
import Verif.Lemmas.Frame
import Verif.Lemmas.Commute
import Verif.Props.History
import Verif.Props.Commute
import Verif.Lemmas.Clean
import Verif.Lemmas.Refuse
import Verif.Spec.Accept
import Verif.Lemmas.Accept
import Verif.Props.Accept
import Verif.Spec.Report
import Verif.Lemmas.Report
import Verif.Props.Report
import Verif.Spec.Line
import Verif.Lemmas.Line
import Verif.Props.Line
import Verif.Props.Lost
import Verif.Spec.Message
import Verif.Lemmas.Message
import Verif.Props.Message
import Verif.Spec.Stop
import Verif.Lemmas.Stop
import Verif.Props.Stop
import Verif.Shared
import Verif.Spec.Shared
import Verif.Lemmas.Shared
import Verif.Props.Shared
import Verif.Refused
import Verif.Spec.Refused
import Verif.Lemmas.Refused
import Verif.Props.Refused
import Verif.Lemmas.Anytime
import Verif.Props.Anytime
import Verif.Equal
import Verif.Spec.Equal
import Verif.Lemmas.Equal
import Verif.Props.Equal
import Verif.Lemmas.Stay
import Verif.Lemmas.Grow
import Verif.Props.Grow
import Verif.Float
import Verif.Spec.Float
import Verif.Lemmas.Float
import Verif.Props.Float
import Verif.Disk
import Verif.Spec.Disk
import Verif.Lemmas.Disk
import Verif.Props.Disk
import Verif.Spec.Taken
import Verif.Lemmas.Longest
import Verif.Lemmas.TakenVal
import Verif.Lemmas.TakenDoc
import Verif.Lemmas.TakenBack
import Verif.Lemmas.TakenOne
import Verif.Lemmas.TakenStop
import Verif.Props.Taken
import Verif.Props.Crash
import Verif.Props.Spots
import Verif.Props.Wall
import Verif.Props.Turned
import Verif.Props.Leak
import Verif.Props.Opens
import Verif.Props.Source
import Verif.Props.Children
import Verif.Props.Order
import Verif.Props.Sitting
import Verif.Props.Several
