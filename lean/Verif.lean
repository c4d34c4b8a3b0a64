import Verif.Model.Api
import Verif.Model.Float64
import Verif.Lemmas.Lines
import Verif.Lemmas.Build
import Verif.Lemmas.Equiv
import Verif.Lemmas.RoundTrip
import Verif.Lemmas.Float64
import Verif.Lemmas.DecodeAll
import Verif.Lemmas.Fuel
import Verif.Lemmas.Canon
import Verif.Lemmas.DecodeValue
import Verif.Lemmas.ExpandBasic
import Verif.Lemmas.NumGrammar
import Verif.Lemmas.Dec
import Verif.Props.RoundTrip
import Verif.Props.Tokens
import Verif.Props.Events
import Verif.Lemmas.Output
import Verif.Props.Output
import Verif.Props.HeaderDefects
import Verif.Props.Strict
import Verif.Props.Unread
import Verif.Props.Replacer
import Verif.Props.AsyncEncode
import Verif.Props.AsyncDecode
import Verif.Props.Cells
import Verif.Props.Arrays
import Verif.Spec.Paths
import Verif.Spec.Expansion
import Verif.Lemmas.FoldKeys
import Verif.Lemmas.ExpandFresh
import Verif.Lemmas.ExpandMerge
import Verif.Lemmas.FoldExpand
import Verif.Lemmas.FoldLeaves
import Verif.Lemmas.FoldShape
import Verif.Lemmas.FoldOff
import Verif.Props.Fold
import Verif.Lemmas.ExpandSpec
import Verif.Lemmas.ExpandLeaves
import Verif.Lemmas.ExpandDepth
import Verif.Lemmas.EventsInj
import Verif.Props.Expand
import Verif.Lemmas.AsyncIndent
import Verif.Model.JsonText
import Verif.Model.JsonRead
import Verif.Spec.JsonText
import Verif.Spec.JsonNum
import Verif.Lemmas.JsonRead
import Verif.Lemmas.JsonPrint
import Verif.Lemmas.JsonFloat64
import Verif.Lemmas.JsonLayout
import Verif.Props.JsonOutput
import Verif.Model.Host
import Verif.Model.Cli
import Verif.Spec.Host
import Verif.Spec.Cli
import Verif.Lemmas.Host
import Verif.Lemmas.Cli
import Verif.Props.Host
import Verif.Props.Cli
import Verif.Spec.LineEnds
import Verif.Lemmas.Pad
import Verif.Lemmas.PadSim
import Verif.Lemmas.PadScan
import Verif.Lemmas.CrlfWrite
import Verif.Props.LineEnds
import Verif.Model.Wasm
import Verif.Spec.Options
import Verif.Lemmas.Unlimited
import Verif.Props.Options
import Verif.Model.Utf8
import Verif.Lemmas.Utf8
import Verif.Lemmas.Utf8Parse
import Verif.Lemmas.Utf8Decode
import Verif.Spec.Utf8
import Verif.Props.Utf8
import Verif.Spec.Layout
import Verif.Lemmas.Ident
import Verif.Lemmas.Layout
import Verif.Props.Layout
import Verif.Model.FileOutput
import Verif.Spec.Files
import Verif.Lemmas.FileOutput
import Verif.Props.FileOutput
import Verif.Spec.Grammar
import Verif.Lemmas.GrammarHeader
import Verif.Lemmas.GrammarScan
import Verif.Lemmas.GrammarLeaves
import Verif.Lemmas.GrammarArrays
import Verif.Lemmas.GrammarSound
import Verif.Lemmas.GrammarComplete
import Verif.Lemmas.GrammarRoot
import Verif.Props.Grammar
import Verif.Spec.Resources
import Verif.Lemmas.Resources
import Verif.Lemmas.ResourcesSize
import Verif.Lemmas.ResourcesTable
import Verif.Props.Resources
import Verif.Spec.Faults
import Verif.Spec.Complaints
import Verif.Spec.Conflicts
import Verif.Model.Message
import Verif.Lemmas.FaultLeaves
import Verif.Lemmas.FaultArrays
import Verif.Lemmas.FaultSound
import Verif.Lemmas.FaultComplete
import Verif.Lemmas.FaultRoot
import Verif.Lemmas.Complaints
import Verif.Lemmas.Conflicts
import Verif.Lemmas.Message
import Verif.Props.Diagnostics
import Verif.Model.Stderr
import Verif.Spec.Stderr
import Verif.Lemmas.Percent
import Verif.Lemmas.Stderr
import Verif.Props.Stderr
import Verif.Spec.Size
import Verif.Lemmas.Size
import Verif.Lemmas.SizeBound
import Verif.Props.Size
import Verif.Spec.Hurdles
import Verif.Lemmas.Hurdles
import Verif.Props.ExpandExact
import Verif.Spec.Incremental
import Verif.Lemmas.Incremental
import Verif.Lemmas.IncrementalAgree
import Verif.Props.Incremental
import Verif.Spec.WhiteSpace
import Verif.Spec.Numbers
import Verif.Model.Numbers
import Verif.Lemmas.Rounding
import Verif.Lemmas.Shortest
import Verif.Lemmas.Integers
import Verif.Spec.Shallow
import Verif.Lemmas.Shallow
import Verif.Lemmas.Reindent
import Verif.Lemmas.ShallowText
import Verif.Lemmas.ShallowRows
import Verif.Props.Reindent
import Verif.Props.Numbers
import Verif.Spec.EventLanguage
import Verif.Lemmas.EventLanguage
import Verif.Props.EventLanguage
import Verif.Props.Delimiters
import Verif.Spec.Cut
import Verif.Lemmas.Cut
import Verif.Props.Cut
import Verif.Spec.Join
import Verif.Lemmas.Join
import Verif.Lemmas.JoinText
import Verif.Props.Join
import Verif.Spec.Diff
import Verif.Lemmas.Diff
import Verif.Props.Diff
import Verif.Lemmas.CapHeader
import Verif.Lemmas.Runs
import Verif.Lemmas.Outcome
import Verif.Lemmas.ShapeExact
import Verif.Props.Survive
import Verif.Lemmas.SafeText
import Verif.Lemmas.Declarable
import Verif.Props.Range
import Verif.Props.Frames
import Verif.Lemmas.Steps
import Verif.Lemmas.StepsPairs
import Verif.Spec.Steps
import Verif.Props.Steps
import Verif.Model.EncFrames
import Verif.Lemmas.EncFrames
import Verif.Lemmas.EncFramesMono
import Verif.Lemmas.Copies
import Verif.Spec.EncFrames
import Verif.Lemmas.CopiesExact
import Verif.Lemmas.LastWinsHeight
import Verif.Props.EncFrames
import Verif.Props.Copies
import Verif.Model.ExpandFrames
import Verif.Lemmas.ExpandFrames
import Verif.Lemmas.ExpandFramesMono
import Verif.Lemmas.ExpandSteps
import Verif.Lemmas.ExpandStepsExact
import Verif.Props.ExpandFrames
import Verif.Lemmas.EquivInv
import Verif.Lemmas.OutcomeFold
import Verif.Lemmas.FoldLevels
import Verif.Props.SurviveExpand
import Verif.Spec.Held
import Verif.Lemmas.Held
import Verif.Lemmas.HeldDecode
import Verif.Props.Held
import Verif.Spec.Draft
import Verif.Lemmas.Draft
import Verif.Lemmas.DraftRead
import Verif.Lemmas.DraftLayout
import Verif.Props.Draft
import Verif.Spec.Salvage
import Verif.Lemmas.Salvage
import Verif.Props.Salvage
import Verif.Spec.Script
import Verif.Lemmas.ScriptText
import Verif.Lemmas.Script
import Verif.Props.Script
import Verif.Model.JsonFrames
import Verif.Lemmas.JsonFrames
import Verif.Lemmas.JsonFramesCost
import Verif.Lemmas.JsonReserve
import Verif.Props.JsonFrames
import Verif.Spec.HashOrder
import Verif.Lemmas.HashOrder
import Verif.Props.HashOrder
import Verif.Model.Compares
import Verif.Spec.Compares
import Verif.Lemmas.Compares
import Verif.Lemmas.ComparesExact
import Verif.Props.Compares
import Verif.Model.LineCopies
import Verif.Spec.LineCopies
import Verif.Lemmas.LineCopies
import Verif.Lemmas.LineCopiesBound
import Verif.Lemmas.LineCopiesRanks
import Verif.Lemmas.LineCopiesExact
import Verif.Lemmas.LineCopiesLeast
import Verif.Props.LineCopies
import Verif.Spec.Mark
import Verif.Lemmas.Mark
import Verif.Props.Mark
import Verif.Spec.Nest
import Verif.Lemmas.Nest
import Verif.Props.Nest
import Verif.Spec.Misread
import Verif.Lemmas.Misread
import Verif.Props.Misread
import Verif.Spec.Redact
import Verif.Lemmas.Redact
import Verif.Props.Redact
import Verif.Model.Passes
import Verif.Lemmas.Passes
import Verif.Lemmas.PassesBound
import Verif.Lemmas.PassesCharge
import Verif.Lemmas.PassesScan
import Verif.Props.Passes
import Verif.Model.PathCopies
import Verif.Spec.PathCopies
import Verif.Lemmas.PathCopies
import Verif.Lemmas.PathCopiesExact
import Verif.Props.PathCopies
import Verif.Model.Writes
import Verif.Lemmas.Writes
import Verif.Lemmas.WritesRun
import Verif.Props.Writes
import Verif.Spec.Retry
import Verif.Model.Panicking
import Verif.Lemmas.Retry
import Verif.Props.Retry
import Verif.Spec.LayoutMeans
import Verif.Lemmas.LayoutMeans
import Verif.Lemmas.FoldedKeys
import Verif.Lemmas.ExpandKeys
import Verif.Props.Folded
import Verif.Spec.LineCount
import Verif.Model.LineEstimate
import Verif.Lemmas.LineCount
import Verif.Props.LineCount
import Verif.Spec.Joined
import Verif.Lemmas.Joined
import Verif.Lemmas.JoinedNormal
import Verif.Props.Joined
import Verif.Spec.Levels
import Verif.Lemmas.QuotedText
import Verif.Lemmas.Levels
import Verif.Lemmas.Deepest
import Verif.Props.RangeExpand
import Verif.Model.ConvFrames
import Verif.Spec.ConvFrames
import Verif.Lemmas.ConvFrames
import Verif.Lemmas.ReplacerFrames
import Verif.Lemmas.ReplacerStack
import Verif.Lemmas.ReplacerCost
import Verif.Props.ConvFrames
import Verif.Spec.Quotes
import Verif.Lemmas.MergeAssoc
import Verif.Lemmas.MergeLevels
import Verif.Lemmas.Quotes
import Verif.Props.JoinExpanded
import Verif.Spec.Reordered
import Verif.Lemmas.Accord
import Verif.Lemmas.Reordered
import Verif.Props.Reordered
import Verif.Spec.Clashes
import Verif.Lemmas.Clashes
import Verif.Props.Clashes
import Verif.Spec.Origin
import Verif.Lemmas.Origin
import Verif.Props.Origin
import Verif.Lemmas.Override
import Verif.Props.Override
import Verif.Spec.Shards
import Verif.Lemmas.Shards
import Verif.Props.Shards
import Verif.Lemmas.FoldSize
import Verif.Props.FoldSize
import Verif.Spec.Compact
import Verif.Lemmas.Compact
import Verif.Props.Compact
import Verif.Spec.DelimiterCost
import Verif.Lemmas.DelimiterCost
import Verif.Props.DelimiterCost
import Verif.Spec.IndentCost
import Verif.Lemmas.IndentCost
import Verif.Props.IndentCost
import Verif.Spec.Mentions
import Verif.Lemmas.Mentions
import Verif.Props.Mentions
import Verif.Lemmas.Invented
import Verif.Props.Invented
import Verif.Spec.Readings
import Verif.Lemmas.Readings
import Verif.Props.Readings
import Verif.Lemmas.Spelled
import Verif.Props.Spelled
import Verif.Spec.Sequence
import Verif.Lemmas.Sequence
import Verif.Lemmas.SequencePaths
import Verif.Props.Sequence
import Verif.Props.SequenceSize
import Verif.Tests.DecodeFixtures
import Verif.Tests.EncodeFixtures
import Verif.Tests.Units
