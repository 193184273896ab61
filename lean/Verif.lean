import Verif.Base
import Verif.Tomb
import Verif.Spec.Graph
import Verif.Validate
import Verif.ValidateProofs
import Verif.Props.Validate
import Verif.Delay
import Verif.Props.Delay
import Verif.Engine.Model
import Verif.Engine.Frame
import Verif.Engine.Core
import Verif.Engine.Micro
import Verif.Spec.History
import Verif.Engine.HistInv
import Verif.Engine.Emit
import Verif.Engine.Live
import Verif.Engine.More
import Verif.Props.EngineDemo
import Verif.Props.EngineHist
import Verif.Props.EngineStep
import Verif.Props.EngineLive
import Verif.Engine.Converge
import Verif.Engine.Rest
import Verif.Props.EngineConverge
import Verif.Engine.Cause
import Verif.Props.EngineCause
import Verif.Props.EngineInstall
import Verif.Spec.AtEvery
import Verif.Spec.Runner
import Verif.Runner.Model
import Verif.Runner.Trans
import Verif.Runner.Shape
import Verif.Runner.HistInv
import Verif.Runner.Emit
import Verif.Runner.HistLemmas
import Verif.Runner.Clients
import Verif.Runner.Mutex
import Verif.Runner.Live
import Verif.Runner.Progress
import Verif.Runner.Tokens
import Verif.Runner.Requests
import Verif.Props.RunnerDemo
import Verif.Props.RunnerHist
import Verif.Props.RunnerClients
import Verif.Props.RunnerLive
import Verif.Spec.Catacomb
import Verif.Catacomb.Model
import Verif.Catacomb.Trans
import Verif.Catacomb.Shape
import Verif.Catacomb.HistInv
import Verif.Catacomb.Live
import Verif.Catacomb.Progress
import Verif.Props.CatacombDemo
import Verif.Props.CatacombHist
import Verif.Props.CatacombLive
import Verif.Config
import Verif.Stub
import Verif.Spec.Worker
import Verif.Worker.Model
import Verif.Worker.Inv
import Verif.Worker.Live
import Verif.Worker.Stubs
import Verif.Props.Misc
import Verif.Props.RunnerRequests
import Verif.Catacomb.Observe
import Verif.Props.CatacombObserve
import Verif.Watcher
import Verif.Props.Watcher
import Verif.Props.EngineContext
import Verif.Runner.Helpers
import Verif.Runner.Timed
import Verif.Props.RunnerTimed
import Verif.Props.Enabled
import Verif.Spec.Fair
import Verif.Runner.Fair
import Verif.Props.RunnerFair
import Verif.Catacomb.Fair
import Verif.Props.CatacombFair
import Verif.Engine.Fair
import Verif.Props.EngineFair
import Verif.Engine.Fine
import Verif.Engine.FineAll
import Verif.Props.EngineFine
import Verif.Props.Tree
import Verif.DelayFloat
import Verif.Props.DelayFloat
import Verif.Spec.NextDelay
import Verif.Engine.NextDelay
import Verif.Engine.Timed
import Verif.Props.EngineTimed
import Verif.Runner.Race
import Verif.Runner.Held
import Verif.Props.RunnerRace
import Verif.Props.RunnerKilling
import Verif.Props.RunnerHeld
import Verif.Engine.Race
import Verif.Props.EngineStopped
import Verif.Props.EngineHeld
import Verif.Props.EngineSelf
import Verif.Props.Hung
import Verif.Props.WaitStable
import Verif.Props.CatacombExact
import Verif.Spec.RunnerExact
import Verif.Runner.Exact
import Verif.Runner.ExactCalls
import Verif.Runner.ExactLook
import Verif.Runner.ExactPlan
import Verif.Runner.ExactBack
import Verif.Props.RunnerExact
import Verif.Spec.EngineExact
import Verif.Engine.ExactInv
import Verif.Engine.ExactRel
import Verif.Engine.ExactSound
import Verif.Engine.ExactWork
import Verif.Engine.ExactArm
import Verif.Engine.ExactBack
import Verif.Engine.ExactFull
import Verif.Props.EngineExact
import Verif.Engine.FineFair
import Verif.Engine.FineConverge
import Verif.Props.EngineFineRuns
import Verif.Props.EngineFineFair
import Verif.Snapshot.Model
import Verif.Props.Snapshot
import Verif.Spec.EngineCount
import Verif.Props.EngineCount
import Verif.Props.RunnerCount
import Verif.Engine.Clients
import Verif.Spec.EngineClients
import Verif.Engine.ClientsInv
import Verif.Engine.ClientsLive
import Verif.Props.EngineClients
import Verif.Spec.EngineCalls
import Verif.Engine.ClientsExact
import Verif.Engine.ClientsFull
import Verif.Props.EngineCalls
import Verif.Spec.EngineSettle
import Verif.Props.EngineSettle
import Verif.Schedule
import Verif.Stutter
import Verif.Engine.Pauses
import Verif.Engine.ClientsRun
import Verif.Props.Continue
import Verif.Props.EngineStop
import Verif.Runner.Pauses
import Verif.Catacomb.Pauses
import Verif.Props.Pauses
import Verif.System.Model
import Verif.System.Local
import Verif.Props.SystemDemo
import Verif.Props.System
import Verif.Props.SystemLive
import Verif.Props.SystemErr
import Verif.System.Own
import Verif.Props.SystemHanded
import Verif.Props.SystemGo
import Verif.Props.SystemFail
import Verif.Props.SystemKept
import Verif.Props.SystemRest
import Verif.Props.SystemCalls
import Verif.Props.EngineBuilt
import Verif.Props.SystemBuilt
import Verif.Props.EngineKept
import Verif.Props.SystemManifolds
import Verif.Props.SystemGone
import Verif.Props.SystemWorker
import Verif.Props.SystemReason
import Verif.Props.SystemAgain
import Verif.Props.SystemBounce
