import Verif.Props.Transforms
import Verif.Props.Pack
import Verif.Props.Params
import Verif.Props.Subtokenizer
import Verif.Props.TokenProbAlign
import Verif.Props.GatedDag
import Verif.Props.PackedDag
import Verif.Props.Convert
import Verif.Props.Dual
import Verif.Props.Pipeline
import Verif.Props.Constraint
import Verif.Props.Edit
import Verif.Props.Selection
import Verif.Props.StackParser
import Verif.Props.Desugar
import Verif.Props.Codec
import Verif.Props.PseudoParser
import Verif.Props.ParserTools
import Verif.Props.PrefixBaselines
import Verif.Props.CallSequence
import Verif.Props.System
import Verif.Props.Solution
import Verif.Props.Runner
import Verif.Props.EditSequence
import Verif.Props.MatchGroups
import Verif.Props.UncertaintyBaselines
import Verif.Props.Truncation
import Verif.Props.Docstrings
import Verif.Model.Rounded
import Verif.Model.Rounding64
import Verif.Lemmas.Rounding64
import Verif.Model.Float64
import Verif.Spec.Rounded
import Verif.Lemmas.RoundedRelax
import Verif.Lemmas.RoundedTables
import Verif.Lemmas.RoundedPaths
import Verif.Lemmas.RoundedError
import Verif.Props.Rounded
import Verif.Model.RoundedDual
import Verif.Spec.RoundedDual
import Verif.Lemmas.RoundedDualArith
import Verif.Lemmas.RoundedDualSubs
import Verif.Lemmas.RoundedDualLoops
import Verif.Lemmas.RoundedDualStep
import Verif.Lemmas.RoundedDualRun
import Verif.Props.RoundedDual
import Verif.Model.RoundedGreedy
import Verif.Spec.RoundedGreedy
import Verif.Lemmas.RoundedGreedy
import Verif.Props.RoundedGreedy
import Verif.Model.Memory
import Verif.Spec.Memory
import Verif.Lemmas.Memory
import Verif.Lemmas.MemoryHistory
import Verif.Props.Memory
import Verif.Lemmas.Rewrite
import Verif.Model.StoredBuilders
import Verif.Lemmas.StoredBuilders
import Verif.Props.StoredBuilders
import Verif.Model.RoundedSystem
import Verif.Spec.RoundedSystem
import Verif.Lemmas.RoundedSystem
import Verif.Lemmas.RoundedGuard
import Verif.Lemmas.RoundedGrowth
import Verif.Lemmas.RoundedParts
import Verif.Lemmas.RoundedValues
import Verif.Props.RoundedSystem
import Verif.Model.Drawing
import Verif.Model.Layouts
import Verif.Spec.Drawing
import Verif.Lemmas.Layouts
import Verif.Lemmas.LayoutEdges
import Verif.Lemmas.LayoutBoxes
import Verif.Lemmas.LayoutEdits
import Verif.Lemmas.LayoutMarks
import Verif.Lemmas.RenderDag
import Verif.Lemmas.Svg
import Verif.Lemmas.LayoutNotes
import Verif.Props.Drawing
import Verif.Model.DebugView
import Verif.Spec.DebugView
import Verif.Lemmas.PyRepr
import Verif.Lemmas.DebugView
import Verif.Props.DebugView
import Verif.Model.Tracebacks
import Verif.Spec.Tracebacks
import Verif.Props.Tracebacks
import Verif.Model.FromPaths
import Verif.Props.FromPaths
import Verif.Model.NodeHeap
import Verif.Spec.NodeHeap
import Verif.Props.NodeHeap
import Verif.Props.NodeSub
import Verif.Model.RewrittenSystem
import Verif.Spec.RewrittenSystem
import Verif.Props.RewrittenSystem
import Verif.Model.RewrittenRunner
import Verif.Props.RewrittenRunner
import Verif.Props.RewrittenReports
import Verif.Model.Views
import Verif.Spec.Views
import Verif.Props.Views
import Verif.Spec.Marks
import Verif.Lemmas.TruncMarks
import Verif.Props.Renumbered
import Verif.Model.SimpleDrawing
import Verif.Props.SimpleDrawing
import Verif.Model.ParseView
import Verif.Spec.ParseView
import Verif.Lemmas.ParseView
import Verif.Props.ParseView
import Verif.Model.Progress
import Verif.Spec.Progress
import Verif.Props.Progress
import Verif.Lemmas.RoundedAttained
import Verif.Lemmas.RoundedDrop
import Verif.Lemmas.RoundedDropBound
import Verif.Spec.RoundedStops
import Verif.Lemmas.RoundedStops
import Verif.Props.RoundedStops
import Verif.Model.RoundedConstrain
import Verif.Spec.RoundedConstrain
import Verif.Lemmas.RoundedConstrain
import Verif.Props.RoundedConstrain
import Verif.Spec.RoundedPrepared
import Verif.Lemmas.RoundedPrepared
import Verif.Props.RoundedPrepared
import Verif.Model.RoundedBaselines
import Verif.Spec.RoundedBaselines
import Verif.Props.RoundedBaselines
import Verif.Props.RoundedBaselineRuns
import Verif.Model.RoundedCommit
import Verif.Spec.RoundedCommit
import Verif.Props.RoundedCommit
import Verif.Props.RoundedCommitKeeps
import Verif.Props.RoundedCommitCases
import Verif.Model.Quantile
import Verif.Props.Quantile
