import Verif.Model.Base
import Verif.Model.Cli
import Verif.Model.Climb
import Verif.Model.Conllx
import Verif.Model.Convert
import Verif.Model.Encode
import Verif.Model.Features
import Verif.Model.Graph
import Verif.Model.Io
import Verif.Model.Machine
import Verif.Model.MachineSpan
import Verif.Model.Negra
import Verif.Model.Node
import Verif.Model.NodeApi
import Verif.Model.Pest
import Verif.Model.Ptb
import Verif.Model.Span
import Verif.Model.Tree
import Verif.Model.TreeMod
import Verif.Spec.Ancestor
import Verif.Spec.Annotate
import Verif.Spec.Bracket
import Verif.Spec.Calls
import Verif.Spec.Chains
import Verif.Spec.Cli
import Verif.Spec.Climb
import Verif.Spec.Conllx
import Verif.Spec.ConllxRead
import Verif.Spec.Convert
import Verif.Spec.ConvertRun
import Verif.Spec.Cross
import Verif.Spec.Decode
import Verif.Spec.Encoding
import Verif.Spec.Examples
import Verif.Spec.ExportAll
import Verif.Spec.Features
import Verif.Spec.Filled
import Verif.Spec.Forest
import Verif.Spec.Gather
import Verif.Spec.Grown
import Verif.Spec.History
import Verif.Spec.Holds
import Verif.Spec.HoldsFiles
import Verif.Spec.Io
import Verif.Spec.Iso
import Verif.Spec.Machine
import Verif.Spec.MachineSpan
import Verif.Spec.Negra
import Verif.Spec.NegraForest
import Verif.Spec.NegraOrder
import Verif.Spec.NegraTrip
import Verif.Spec.NodeApi
import Verif.Spec.Numeral
import Verif.Spec.Pest
import Verif.Spec.Phrases
import Verif.Spec.Projectivize
import Verif.Spec.Record
import Verif.Spec.Remove
import Verif.Spec.Rewrite
import Verif.Spec.RewriteAny
import Verif.Spec.RewriteGather
import Verif.Spec.Runs
import Verif.Spec.Secondary
import Verif.Spec.Skeleton
import Verif.Spec.Sort
import Verif.Spec.Span
import Verif.Spec.Split
import Verif.Spec.Stable
import Verif.Spec.TagFiles
import Verif.Spec.Text
import Verif.Spec.TextWords
import Verif.Spec.Through
import Verif.Spec.Tree
import Verif.Spec.Truncate
import Verif.Spec.Undo
import Verif.Proofs.Added
import Verif.Proofs.Again
import Verif.Proofs.Alike
import Verif.Proofs.AlikeMods
import Verif.Proofs.AlikeSteps
import Verif.Proofs.AlikeTree
import Verif.Proofs.Annotate
import Verif.Proofs.AnnotateEnc
import Verif.Proofs.Bracket
import Verif.Proofs.ByteOrder
import Verif.Proofs.Calls
import Verif.Proofs.ChainTrip
import Verif.Proofs.Chains
import Verif.Proofs.Check
import Verif.Proofs.CheckExport
import Verif.Proofs.Cli
import Verif.Proofs.Climb
import Verif.Proofs.ClimbMap
import Verif.Proofs.Conllx
import Verif.Proofs.ConllxRead
import Verif.Proofs.ConllxTrip
import Verif.Proofs.Context
import Verif.Proofs.Convert
import Verif.Proofs.ConvertOrder
import Verif.Proofs.ConvertRead
import Verif.Proofs.ConvertRun
import Verif.Proofs.ConvertWrite
import Verif.Proofs.Cross
import Verif.Proofs.Decode
import Verif.Proofs.DecodeGraph
import Verif.Proofs.DecodeTree
import Verif.Proofs.DecodeTrip
import Verif.Proofs.Dfs
import Verif.Proofs.Edit
import Verif.Proofs.Encode
import Verif.Proofs.Equality
import Verif.Proofs.ExportAll
import Verif.Proofs.ExportTags
import Verif.Proofs.Features
import Verif.Proofs.Filled
import Verif.Proofs.Filter
import Verif.Proofs.Forest
import Verif.Proofs.Graph
import Verif.Proofs.Grown
import Verif.Proofs.History
import Verif.Proofs.Holds
import Verif.Proofs.Incremental
import Verif.Proofs.Inverse
import Verif.Proofs.Io
import Verif.Proofs.IoBytes
import Verif.Proofs.IoCut
import Verif.Proofs.IoRun
import Verif.Proofs.Iso
import Verif.Proofs.IsoSteps
import Verif.Proofs.Lay
import Verif.Proofs.LineEnds
import Verif.Proofs.Lowering
import Verif.Proofs.Machine
import Verif.Proofs.MachineSpan
import Verif.Proofs.NegraBack
import Verif.Proofs.NegraColumns
import Verif.Proofs.NegraCopy
import Verif.Proofs.NegraExport
import Verif.Proofs.NegraFix
import Verif.Proofs.NegraForest
import Verif.Proofs.NegraInv
import Verif.Proofs.NegraNum
import Verif.Proofs.NegraOrder
import Verif.Proofs.NegraRead
import Verif.Proofs.NegraRows
import Verif.Proofs.NegraText
import Verif.Proofs.NegraTree
import Verif.Proofs.NegraTrip
import Verif.Proofs.NegraWF
import Verif.Proofs.NegraWrite
import Verif.Proofs.NodeEdit
import Verif.Proofs.Num
import Verif.Proofs.Pest
import Verif.Proofs.Phrases
import Verif.Proofs.Projectivize
import Verif.Proofs.ProjectivizeOrder
import Verif.Proofs.PtbOrder
import Verif.Proofs.PtbParse
import Verif.Proofs.PtbRead
import Verif.Proofs.PtbTrip
import Verif.Proofs.PtbWrite
import Verif.Proofs.Reattach
import Verif.Proofs.ReattachAny
import Verif.Proofs.ReattachTerms
import Verif.Proofs.Record
import Verif.Proofs.Release
import Verif.Proofs.ReleaseDecode
import Verif.Proofs.Remove
import Verif.Proofs.RemoveTerm
import Verif.Proofs.Res
import Verif.Proofs.Reset
import Verif.Proofs.Rest
import Verif.Proofs.Restore
import Verif.Proofs.Rewrite
import Verif.Proofs.RewriteAny
import Verif.Proofs.RewriteAnyGather
import Verif.Proofs.RewriteAnyNumbers
import Verif.Proofs.RewriteAnyPipeline
import Verif.Proofs.RewriteAnyRuns
import Verif.Proofs.RewriteGather
import Verif.Proofs.RewritePipeline
import Verif.Proofs.RewriteRuns
import Verif.Proofs.RewriteTags
import Verif.Proofs.Runs
import Verif.Proofs.Secondary
import Verif.Proofs.SecondaryOrder
import Verif.Proofs.Seq
import Verif.Proofs.Skeleton
import Verif.Proofs.Sort
import Verif.Proofs.Span
import Verif.Proofs.Split
import Verif.Proofs.SplitFile
import Verif.Proofs.SplitNegra
import Verif.Proofs.Stable
import Verif.Proofs.StablePtb
import Verif.Proofs.Str
import Verif.Proofs.TagFiles
import Verif.Proofs.TagRead
import Verif.Proofs.Tags
import Verif.Proofs.Terminals
import Verif.Proofs.Text
import Verif.Proofs.TextIn
import Verif.Proofs.TextNegra
import Verif.Proofs.TextOut
import Verif.Proofs.TextSays
import Verif.Proofs.TextWords
import Verif.Proofs.Through
import Verif.Proofs.ThroughNegra
import Verif.Proofs.TreeBasic
import Verif.Proofs.TreeQuery
import Verif.Proofs.Truncate
import Verif.Proofs.TruncateBracket
import Verif.Proofs.TruncateNegra
import Verif.Proofs.TruncateWritten
import Verif.Proofs.Unary
import Verif.Proofs.Undo
import Verif.Props.Again
import Verif.Props.Annotate
import Verif.Props.Bracket
import Verif.Props.ByteOrder
import Verif.Props.Calls
import Verif.Props.Chains
import Verif.Props.ChainsErr
import Verif.Props.Cli
import Verif.Props.Climb
import Verif.Props.Conllx
import Verif.Props.ConllxRead
import Verif.Props.Convert
import Verif.Props.ConvertOrder
import Verif.Props.Cross
import Verif.Props.Decode
import Verif.Props.Encode
import Verif.Props.Encoding
import Verif.Props.Equality
import Verif.Props.ExportAll
import Verif.Props.ExportTags
import Verif.Props.Features
import Verif.Props.Filled
import Verif.Props.Filter
import Verif.Props.History
import Verif.Props.Holds
import Verif.Props.HoldsFiles
import Verif.Props.Inverse
import Verif.Props.Io
import Verif.Props.Iso
import Verif.Props.IsoOptions
import Verif.Props.LabelSet
import Verif.Props.Lowering
import Verif.Props.Machine
import Verif.Props.MachineSpan
import Verif.Props.NegraForest
import Verif.Props.NegraOrder
import Verif.Props.NegraRead
import Verif.Props.NegraTree
import Verif.Props.NegraTrip
import Verif.Props.NegraWrite
import Verif.Props.NodeApi
import Verif.Props.Numeral
import Verif.Props.Pest
import Verif.Props.Phrases
import Verif.Props.Projectivize
import Verif.Props.ProjectivizeOrder
import Verif.Props.Query
import Verif.Props.Reattach
import Verif.Props.Record
import Verif.Props.Release
import Verif.Props.Rewrite
import Verif.Props.RewriteAny
import Verif.Props.RewriteGaps
import Verif.Props.RewriteGather
import Verif.Props.Runs
import Verif.Props.Secondary
import Verif.Props.Sort
import Verif.Props.Span
import Verif.Props.Split
import Verif.Props.SplitFile
import Verif.Props.SplitNegra
import Verif.Props.Stable
import Verif.Props.TagFiles
import Verif.Props.Text
import Verif.Props.TextWords
import Verif.Props.Through
import Verif.Props.ThroughNegra
import Verif.Props.TreeEdit
import Verif.Props.TreeQuery
import Verif.Props.Truncate
import Verif.Props.Undo
import Verif.Validation.Corpus
import Verif.Validation.FormatTests
import Verif.Validation.UnitTests
