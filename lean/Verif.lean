import Verif.Basic.Canon
import Verif.Basic.Dict
import Verif.Basic.Encode
import Verif.Basic.Err
import Verif.Basic.ListRel
import Verif.Basic.Names
import Verif.Basic.PySet
import Verif.Basic.Star
import Verif.Examples.Crawl
import Verif.Examples.DevProcs
import Verif.Examples.DevSession
import Verif.Examples.Programs
import Verif.Examples.World
import Verif.Model.Annotation
import Verif.Model.Args
import Verif.Model.Attach
import Verif.Model.CFrame
import Verif.Model.CFrameBuild
import Verif.Model.CFrameDraw
import Verif.Model.CFrameExpand
import Verif.Model.CFrameFilter
import Verif.Model.CFrameHistory
import Verif.Model.CFrameIndex
import Verif.Model.CFrameMany
import Verif.Model.CFrameObj
import Verif.Model.CFrameReach
import Verif.Model.CFrameShow
import Verif.Model.CFrameTable
import Verif.Model.CFrameView
import Verif.Model.CallStorage
import Verif.Model.ChangeNotice
import Verif.Model.CodeDiff
import Verif.Model.CodeHistory
import Verif.Model.Crawl
import Verif.Model.CurrentVersions
import Verif.Model.Delete
import Verif.Model.DictStorage
import Verif.Model.DropVersion
import Verif.Model.Eval
import Verif.Model.Graph
import Verif.Model.Inspect
import Verif.Model.Modes
import Verif.Model.NodeOrder
import Verif.Model.Noop
import Verif.Model.OpenStorage
import Verif.Model.Outputs
import Verif.Model.Provenance
import Verif.Model.SemanticVersions
import Verif.Model.SetDict
import Verif.Model.SourceHistory
import Verif.Model.Storage
import Verif.Model.StorageFrame
import Verif.Model.SysTracer
import Verif.Model.Tracer
import Verif.Model.TrackedDict
import Verif.Model.Transaction
import Verif.Model.Value
import Verif.Model.VersionedProcs
import Verif.Model.VersionedRun
import Verif.Model.Versioner
import Verif.Proofs.AlmostSort
import Verif.Proofs.Annotation
import Verif.Proofs.Args
import Verif.Proofs.ArgsAdd
import Verif.Proofs.ArgsInputs
import Verif.Proofs.ArgsRun
import Verif.Proofs.ArgsVisible
import Verif.Proofs.Attach
import Verif.Proofs.Backed
import Verif.Proofs.CFrame
import Verif.Proofs.CFrameAdd
import Verif.Proofs.CFrameBuild
import Verif.Proofs.CFrameDf
import Verif.Proofs.CFrameDfs
import Verif.Proofs.CFrameDraw
import Verif.Proofs.CFrameDrawText
import Verif.Proofs.CFrameDrop
import Verif.Proofs.CFrameDropFunc
import Verif.Proofs.CFrameExpand
import Verif.Proofs.CFrameExpandFresh
import Verif.Proofs.CFrameExpandGroup
import Verif.Proofs.CFrameExpandLoop
import Verif.Proofs.CFrameExpandReuse
import Verif.Proofs.CFrameFilter
import Verif.Proofs.CFrameForward
import Verif.Proofs.CFrameGraph
import Verif.Proofs.CFrameHistory
import Verif.Proofs.CFrameJoint
import Verif.Proofs.CFrameMerge
import Verif.Proofs.CFrameObj
import Verif.Proofs.CFrameReach
import Verif.Proofs.CFrameReachFix
import Verif.Proofs.CFrameReachLoop
import Verif.Proofs.CFrameRename
import Verif.Proofs.CFrameSelect
import Verif.Proofs.CFrameShow
import Verif.Proofs.CFrameSubsets
import Verif.Proofs.CFrameTable
import Verif.Proofs.CallBatch
import Verif.Proofs.CallClosure
import Verif.Proofs.CallRows
import Verif.Proofs.Cleanup
import Verif.Proofs.CodeDiff
import Verif.Proofs.CodeHistory
import Verif.Proofs.CodeMatch
import Verif.Proofs.Content
import Verif.Proofs.Crawl
import Verif.Proofs.Delete
import Verif.Proofs.DictStorage
import Verif.Proofs.Drop
import Verif.Proofs.Elements
import Verif.Proofs.Eval
import Verif.Proofs.Firm
import Verif.Proofs.FirmCall
import Verif.Proofs.FirmLoad
import Verif.Proofs.FirmLookup
import Verif.Proofs.FirmProg
import Verif.Proofs.FirmRun
import Verif.Proofs.FirmSess
import Verif.Proofs.FirmWrap
import Verif.Proofs.Frame
import Verif.Proofs.HashDict
import Verif.Proofs.History
import Verif.Proofs.Hoare
import Verif.Proofs.Identity
import Verif.Proofs.Inspect
import Verif.Proofs.Kahn
import Verif.Proofs.Keyed
import Verif.Proofs.LogFree
import Verif.Proofs.Meaning
import Verif.Proofs.Mixed
import Verif.Proofs.NoNew
import Verif.Proofs.OpenStorage
import Verif.Proofs.Outputs
import Verif.Proofs.Program
import Verif.Proofs.Queries
import Verif.Proofs.Recorded
import Verif.Proofs.Replay
import Verif.Proofs.Scc
import Verif.Proofs.SortedReach
import Verif.Proofs.SourceHistory
import Verif.Proofs.StorageCall
import Verif.Proofs.StorageCalls
import Verif.Proofs.StorageForward
import Verif.Proofs.StorageFrame
import Verif.Proofs.StorageFuns
import Verif.Proofs.StorageHistory
import Verif.Proofs.StorageInv
import Verif.Proofs.StorageTables
import Verif.Proofs.SysTracer
import Verif.Proofs.TopSort
import Verif.Proofs.TrackedDict
import Verif.Proofs.Upkeep
import Verif.Proofs.VersionedProcs
import Verif.Proofs.VersionedRun
import Verif.Proofs.Versioner
import Verif.Proofs.VersionerInv
import Verif.Proofs.VersionerRun
import Verif.Proofs.VersionerTotal
import Verif.Proofs.View
import Verif.Proofs.Whole
import Verif.Proofs.WholeProg
import Verif.Proofs.Writes
import Verif.Props.Annotation
import Verif.Props.Args
import Verif.Props.ArgsInputs
import Verif.Props.Attach
import Verif.Props.CallStorage
import Verif.Props.CallVersions
import Verif.Props.ChangeNotice
import Verif.Props.Cleanup
import Verif.Props.ClearCache
import Verif.Props.CodeDiff
import Verif.Props.CodeHistory
import Verif.Props.Content
import Verif.Props.Crawl
import Verif.Props.Creator
import Verif.Props.CurrentVersions
import Verif.Props.Delete
import Verif.Props.DictStorage
import Verif.Props.Drop
import Verif.Props.DropVersion
import Verif.Props.Elements
import Verif.Props.Eval
import Verif.Props.EvalCases
import Verif.Props.Frame
import Verif.Props.FrameDf
import Verif.Props.FrameDraw
import Verif.Props.FrameExpand
import Verif.Props.FrameExpandReuse
import Verif.Props.FrameFilter
import Verif.Props.FrameGraph
import Verif.Props.FrameHistory
import Verif.Props.FrameIndex
import Verif.Props.FrameMany
import Verif.Props.FrameMerge
import Verif.Props.FrameNames
import Verif.Props.FrameObj
import Verif.Props.FrameReach
import Verif.Props.FrameShow
import Verif.Props.FrameStream
import Verif.Props.FrameTable
import Verif.Props.FrameUnion
import Verif.Props.FrameUnionCases
import Verif.Props.FrameView
import Verif.Props.History
import Verif.Props.Identity
import Verif.Props.Inspect
import Verif.Props.Integrity
import Verif.Props.Memo
import Verif.Props.Modes
import Verif.Props.NoNew
import Verif.Props.NodeOrder
import Verif.Props.OpenStorage
import Verif.Props.Outputs
import Verif.Props.Paths
import Verif.Props.Queries
import Verif.Props.Replay
import Verif.Props.Rerun
import Verif.Props.RoundTrip
import Verif.Props.SemanticVersions
import Verif.Props.SetDict
import Verif.Props.SourceHistory
import Verif.Props.StorageForward
import Verif.Props.StorageFrame
import Verif.Props.StorageHistory
import Verif.Props.SysTracer
import Verif.Props.Tracer
import Verif.Props.TrackedDict
import Verif.Props.Transaction
import Verif.Props.Upkeep
import Verif.Props.UpkeepReplay
import Verif.Props.VersionedProcs
import Verif.Props.VersionedRun
import Verif.Props.Versioner
import Verif.Spec.Annotation
import Verif.Spec.Args
import Verif.Spec.Attach
import Verif.Spec.CFrame
import Verif.Spec.CallSpec
import Verif.Spec.Cleanup
import Verif.Spec.CodeDiff
import Verif.Spec.Crawl
import Verif.Spec.Delete
import Verif.Spec.Elements
import Verif.Spec.Eval
import Verif.Spec.Flow
import Verif.Spec.FrameDraw
import Verif.Spec.FrameExpand
import Verif.Spec.FrameFilter
import Verif.Spec.FrameHistory
import Verif.Spec.FrameReach
import Verif.Spec.FrameShow
import Verif.Spec.FrameTable
import Verif.Spec.History
import Verif.Spec.Identity
import Verif.Spec.Inspect
import Verif.Spec.MapSpec
import Verif.Spec.Meaning
import Verif.Spec.Mixed
import Verif.Spec.OpenStorage
import Verif.Spec.Order
import Verif.Spec.Program
import Verif.Spec.ProgramOK
import Verif.Spec.Queries
import Verif.Spec.Replay
import Verif.Spec.RoundTrip
import Verif.Spec.Sessions
import Verif.Spec.SourceHistory
import Verif.Spec.StorageForward
import Verif.Spec.StorageFrame
import Verif.Spec.StorageHistory
import Verif.Spec.SysTracer
import Verif.Spec.Total
import Verif.Spec.TrackedDict
import Verif.Spec.Upkeep
import Verif.Spec.Versioned
import Verif.Spec.VersionedProcs
import Verif.Spec.View
