import Verif.Model.Access
import Verif.Model.ResourceUser
import Verif.Props.Access
import Verif.Props.ResourceUser
import Verif.Model.FieldGuard
import Verif.Props.Field
import Verif.Props.MpiPool
import Verif.Props.TagMatch
import Verif.Props.CudaPool
import Verif.Props.TaskBase
import Verif.Props.Handles
import Verif.Props.Context
import Verif.Util
import Verif.Props.Roundup
import Verif.Props.Alloc
import Verif.Props.AllocFalse
import Verif.Props.Bitfield
import Verif.Props.Sync
import Verif.Props.Waiting
import Verif.Props.Graph
import Verif.Props.GraphFalse
import Verif.Props.GraphProgress
import Verif.Props.Counter
import Verif.Props.Pause
import Verif.Props.Demote
import Verif.Props.ChunkedList
import Verif.Props.AtomicList
import Verif.Props.Item
import Verif.Props.ConcList
import Verif.Model.Shutdown
import Verif.Props.Shutdown
import Verif.Model.Submit
import Verif.Props.Submit
import Verif.Model.Handout
import Verif.Props.Handout
import Verif.Props.AtomicListProgress
import Verif.Props.UserList
import Verif.Props.ConcListProgress
import Verif.Model.Lifecycle
import Verif.Props.Lifecycle
import Verif.Model.GraphWait
import Verif.Props.GraphWait
import Verif.Lemmas.GraphAny
import Verif.Lemmas.Race
import Verif.Props.Race
import Verif.Model.System
import Verif.Lemmas.System
import Verif.Lemmas.SystemProgress
import Verif.Lemmas.SystemStrict
import Verif.Props.System
import Verif.Model.Program
import Verif.Lemmas.Program
import Verif.Lemmas.ProgramProgress
import Verif.Props.Program
import Verif.Model.Full
import Verif.Lemmas.Full
import Verif.Lemmas.FullProgress
import Verif.Lemmas.SystemExec
import Verif.Lemmas.FullExec
import Verif.Props.Full
import Verif.Lemmas.ConcOrder
import Verif.Lemmas.ConcTrav
import Verif.Lemmas.ConcEff
import Verif.Lemmas.ConcExec
import Verif.Model.GraphList
import Verif.Lemmas.GraphList
import Verif.Lemmas.GraphListUsers
import Verif.Lemmas.GraphListFol
import Verif.Lemmas.GraphListExec
import Verif.Props.GraphList
import Verif.Lemmas.GraphListProgress
import Verif.Props.GraphListProgress
import Verif.Props.Bodies
import Verif.Props.BodiesRuntime
import Verif.Model.Dynamic
import Verif.Lemmas.Sort
import Verif.Lemmas.Dynamic
import Verif.Lemmas.DynamicExec
import Verif.Lemmas.DynamicProgress
import Verif.Props.Dynamic
import Verif.Props.DynamicRuntime
import Verif.Props.DynamicProgress
import Verif.Model.DynamicWorkers
import Verif.Lemmas.DynamicWorkers
import Verif.Lemmas.DynamicWorkersExec
import Verif.Props.DynamicWorkers
import Verif.Model.DynamicRun
import Verif.Lemmas.Local
import Verif.Lemmas.DynamicRun
import Verif.Props.DynamicRun
import Verif.Model.Demotions
import Verif.Lemmas.Demotions
import Verif.Lemmas.DemotionsOnce
import Verif.Lemmas.DemotionsOne
import Verif.Lemmas.DemotionsExec
import Verif.Props.Demotions
import Verif.Model.DemotionsBodies
import Verif.Lemmas.DemotionsBodies
import Verif.Props.DemotionsBodies
import Verif.Model.Code
import Verif.Model.Guards
import Verif.Lemmas.Guards
import Verif.Props.Guards
import Verif.Model.DynamicFull
import Verif.Lemmas.DynamicFull
import Verif.Lemmas.DynamicFullExec
import Verif.Lemmas.DynamicCount
import Verif.Props.DynamicFull
import Verif.Model.Visible
import Verif.Model.VisibleProg
import Verif.Lemmas.VisibleBase
import Verif.Lemmas.Visible
import Verif.Lemmas.VisibleCov
import Verif.Lemmas.VisibleProg
import Verif.Lemmas.VisibleLift
import Verif.Lemmas.VisibleExec
import Verif.Props.Visible
import Verif.Model.Weak
import Verif.Lemmas.Weak
import Verif.Props.Weak
import Verif.Model.Properties
import Verif.Lemmas.Properties
import Verif.Props.Properties
import Verif.Model.TaskQueue
import Verif.Lemmas.TaskQueue
import Verif.Lemmas.TaskQueue2
import Verif.Lemmas.TaskQueue3
import Verif.Lemmas.TaskQueue4
import Verif.Lemmas.TaskQueue5
import Verif.Lemmas.TaskQueue6
import Verif.Lemmas.TaskQueue7
import Verif.Props.TaskQueue
import Verif.Model.RealQueue
import Verif.Lemmas.RealQueue
import Verif.Lemmas.RealQueue2
import Verif.Lemmas.RealQueue3
import Verif.Lemmas.RealQueue4
import Verif.Props.RealQueue
import Verif.Model.FreeList
import Verif.Lemmas.FreeList
import Verif.Lemmas.FreeList2
import Verif.Props.FreeList
import Verif.Lemmas.ProducerHash3
import Verif.Lemmas.ProducerHash4
import Verif.Props.ProducerHash
import Verif.Model.WeakQueue
import Verif.Lemmas.WeakQueue
import Verif.Lemmas.WeakQueue2
import Verif.Lemmas.WeakQueue3
import Verif.Lemmas.WeakQueue4
import Verif.Lemmas.WeakQueue5
import Verif.Lemmas.WeakQueue6
import Verif.Lemmas.WeakQueue7
import Verif.Lemmas.WeakQueue8
import Verif.Lemmas.WeakQueue9
import Verif.Lemmas.WeakQueue10
import Verif.Lemmas.WeakQueueExec
import Verif.Props.WeakQueue
import Verif.Model.Examples
import Verif.Lemmas.Examples
import Verif.Lemmas.Life
import Verif.Lemmas.Life2
import Verif.Lemmas.Cholesky
import Verif.Lemmas.RandomGraph
import Verif.Props.Examples
import Verif.Model.WeakLock
import Verif.Lemmas.WeakLock
import Verif.Props.WeakLock
import Verif.Model.SharedPtr
import Verif.Lemmas.SharedPtr
import Verif.Props.SharedPtr
import Verif.Model.ListRefs
import Verif.Lemmas.ListRefs
import Verif.Props.ListRefs
import Verif.Model.Exceptions
import Verif.Props.Exceptions
import Verif.Props.Align
import Verif.Model.BindArgs
import Verif.Props.BindArgs
import Verif.Model.Build
import Verif.Props.Build
import Verif.Model.Policies
import Verif.Props.Policies
import Verif.Model.Idle
import Verif.Props.Idle
import Verif.Model.SmallExamples
import Verif.Props.SmallExamples
import Verif.Model.Pages
import Verif.Props.Pages
import Verif.Model.Format
import Verif.Lemmas.Json
import Verif.Lemmas.Format
import Verif.Props.Format
import Verif.Model.Placement
import Verif.Props.Placement
import Verif.Model.Create
import Verif.Props.Create
import Verif.Model.Cuda
import Verif.Props.Cuda
import Verif.Model.MpiCalls
import Verif.Props.MpiCalls
import Verif.Conformance
import Verif.Audit
