import Verif.Conformance.Bindings
import Verif.Conformance.Coalesce
import Verif.Conformance.Store
import Verif.Conformance.Units
import Verif.F64.Basic
import Verif.F64.Error
import Verif.F64.Lemmas
import Verif.F64.Sqrt
import Verif.Lemmas.Arena
import Verif.Lemmas.BetterHits
import Verif.Lemmas.Bins
import Verif.Lemmas.BuilderEntry
import Verif.Lemmas.Bytes
import Verif.Lemmas.Coalesce
import Verif.Lemmas.CoalesceBest
import Verif.Lemmas.CoalesceLoop
import Verif.Lemmas.CoalesceMulti
import Verif.Lemmas.CoalesceNested
import Verif.Lemmas.CoalesceOrder
import Verif.Lemmas.CoalesceRelev
import Verif.Lemmas.Copy
import Verif.Lemmas.Crowded
import Verif.Lemmas.Distance
import Verif.Lemmas.Dominates
import Verif.Lemmas.Encode
import Verif.Lemmas.EndToEnd
import Verif.Lemmas.Entries
import Verif.Lemmas.Finish
import Verif.Lemmas.FinishCongr
import Verif.Lemmas.FirstBest
import Verif.Lemmas.Format
import Verif.Lemmas.Ground
import Verif.Lemmas.GroupBy
import Verif.Lemmas.HMap
import Verif.Lemmas.Heap
import Verif.Lemmas.History
import Verif.Lemmas.KMerge
import Verif.Lemmas.Keys
import Verif.Lemmas.LangWord
import Verif.Lemmas.Layout
import Verif.Lemmas.MovedHits
import Verif.Lemmas.NoPanic
import Verif.Lemmas.NotWorse
import Verif.Lemmas.Order
import Verif.Lemmas.Outdone
import Verif.Lemmas.PmBins
import Verif.Lemmas.Provenance
import Verif.Lemmas.Query
import Verif.Lemmas.QueryAny
import Verif.Lemmas.QueryExact
import Verif.Lemmas.QueryIds
import Verif.Lemmas.QueryOrder
import Verif.Lemmas.Regroup
import Verif.Lemmas.Relax
import Verif.Lemmas.Row
import Verif.Lemmas.SMap
import Verif.Lemmas.SameAnswers
import Verif.Lemmas.SameBox
import Verif.Lemmas.Scoredist
import Verif.Lemmas.Shapes
import Verif.Lemmas.SingleAgree
import Verif.Lemmas.SingleFull
import Verif.Lemmas.SingleLoop
import Verif.Lemmas.Spatial
import Verif.Lemmas.StableSort
import Verif.Lemmas.Stack
import Verif.Lemmas.StackCount
import Verif.Lemmas.StackKeep
import Verif.Lemmas.StackOnce
import Verif.Lemmas.StackPath
import Verif.Lemmas.StackValue
import Verif.Lemmas.StepOrder
import Verif.Lemmas.StepPossible
import Verif.Lemmas.Tools
import Verif.Lemmas.TreeAlone
import Verif.Lemmas.TreeBound
import Verif.Lemmas.TreeComplete
import Verif.Lemmas.TreeExact
import Verif.Lemmas.TreeFill
import Verif.Lemmas.TreeGenuine
import Verif.Lemmas.TreeOnce
import Verif.Lemmas.TreeOpen
import Verif.Lemmas.TreeQuota
import Verif.Lemmas.TreeRound
import Verif.Lemmas.TreeServed
import Verif.Lemmas.WrittenBytes
import Verif.Lemmas.ZOrder
import Verif.Model.Bfs
import Verif.Model.Builder
import Verif.Model.Bytes
import Verif.Model.Coalesce
import Verif.Model.Common
import Verif.Model.Format
import Verif.Model.HMap
import Verif.Model.Heap
import Verif.Model.Native
import Verif.Model.NativeCoalesce
import Verif.Model.NativeResults
import Verif.Model.Parallel
import Verif.Model.Phrase
import Verif.Model.Prepare
import Verif.Model.Queue
import Verif.Model.SMap
import Verif.Model.Spatial
import Verif.Model.SpatialReads
import Verif.Model.Stack
import Verif.Model.Store
import Verif.Model.Tools
import Verif.Model.TreeCoalesce
import Verif.Props.Above
import Verif.Props.Agree
import Verif.Props.AgreeMulti
import Verif.Props.Alone
import Verif.Props.AnyScore
import Verif.Props.Arena
import Verif.Props.Bfs
import Verif.Props.Bins
import Verif.Props.Boxes
import Verif.Props.Builder
import Verif.Props.Coalesce
import Verif.Props.Collapse
import Verif.Props.Copy
import Verif.Props.Crowd
import Verif.Props.Debug
import Verif.Props.Directory
import Verif.Props.Distance
import Verif.Props.EarlyStop
import Verif.Props.EndToEnd
import Verif.Props.Exact
import Verif.Props.Exchange
import Verif.Props.Exclude
import Verif.Props.Failed
import Verif.Props.Format
import Verif.Props.Found
import Verif.Props.Frame
import Verif.Props.FrameSearch
import Verif.Props.FullList
import Verif.Props.Ground
import Verif.Props.GroupBy
import Verif.Props.Growth
import Verif.Props.Index
import Verif.Props.Keys
import Verif.Props.LangHelper
import Verif.Props.Languages
import Verif.Props.LanguagesSearch
import Verif.Props.Layout
import Verif.Props.Lookups
import Verif.Props.Made
import Verif.Props.Monotone
import Verif.Props.Motion
import Verif.Props.Native
import Verif.Props.NativeCoalesce
import Verif.Props.NativeResults
import Verif.Props.NativeStore
import Verif.Props.Nearby
import Verif.Props.NearbyQuery
import Verif.Props.Nested
import Verif.Props.NoPanic
import Verif.Props.NotWorth
import Verif.Props.Once
import Verif.Props.Parallel
import Verif.Props.Parts
import Verif.Props.Point
import Verif.Props.Prepare
import Verif.Props.Provenance
import Verif.Props.Query
import Verif.Props.QueryOrder
import Verif.Props.Queue
import Verif.Props.Quotas
import Verif.Props.Readings
import Verif.Props.Rebuild
import Verif.Props.Rekeyed
import Verif.Props.Relabel
import Verif.Props.RelatedJs
import Verif.Props.Relax
import Verif.Props.Rename
import Verif.Props.RenameSearch
import Verif.Props.Renumber
import Verif.Props.ReplacedJs
import Verif.Props.Respace
import Verif.Props.ResultRanges
import Verif.Props.Retype
import Verif.Props.SameBox
import Verif.Props.Share
import Verif.Props.Shift
import Verif.Props.Single
import Verif.Props.Spatial
import Verif.Props.SpatialReads
import Verif.Props.Stack
import Verif.Props.StackBest
import Verif.Props.StackNoPanic
import Verif.Props.StackOrder
import Verif.Props.StepOrder
import Verif.Props.Tools
import Verif.Props.TreeCoalesce
import Verif.Props.TreeComplete
import Verif.Props.Tuned
import Verif.Props.TunedJs
import Verif.Props.Weights
import Verif.Props.Wider
import Verif.Props.Zoom
import Verif.Spec.Above
import Verif.Spec.Agree
import Verif.Spec.Best
import Verif.Spec.Bfs
import Verif.Spec.Boxes
import Verif.Spec.Builder
import Verif.Spec.Coalesce
import Verif.Spec.Collapse
import Verif.Spec.Directory
import Verif.Spec.EndToEnd
import Verif.Spec.Exact
import Verif.Spec.Exchange
import Verif.Spec.Exclude
import Verif.Spec.Failed
import Verif.Spec.Found
import Verif.Spec.Frame
import Verif.Spec.Ground
import Verif.Spec.GroupBy
import Verif.Spec.Growth
import Verif.Spec.History
import Verif.Spec.Index
import Verif.Spec.Languages
import Verif.Spec.Layout
import Verif.Spec.Lookups
import Verif.Spec.Monotone
import Verif.Spec.Motion
import Verif.Spec.Native
import Verif.Spec.NativeCoalesce
import Verif.Spec.Nearby
import Verif.Spec.Nested
import Verif.Spec.NoPanic
import Verif.Spec.NotWorse
import Verif.Spec.Once
import Verif.Spec.Parts
import Verif.Spec.Point
import Verif.Spec.Prepare
import Verif.Spec.Provenance
import Verif.Spec.Query
import Verif.Spec.Readings
import Verif.Spec.Rekeyed
import Verif.Spec.Relabel
import Verif.Spec.Rename
import Verif.Spec.Renumber
import Verif.Spec.Respace
import Verif.Spec.Retype
import Verif.Spec.SameAnswers
import Verif.Spec.SameBox
import Verif.Spec.Share
import Verif.Spec.Shift
import Verif.Spec.Single
import Verif.Spec.Stack
import Verif.Spec.StackBest
import Verif.Spec.StepOrder
import Verif.Spec.TreeCoalesce
import Verif.Spec.TreeComplete
import Verif.Spec.Tuned
import Verif.Spec.Weights
import Verif.Spec.Wider
