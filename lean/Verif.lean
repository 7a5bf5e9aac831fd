import Verif.Props.Config
import Verif.Props.Queue
import Verif.Props.Calls
import Verif.Props.Started
import Verif.Props.Events
import Verif.Props.Workers
import Verif.Props.Factory
import Verif.Props.Ends
import Verif.Props.Notes
import Verif.Props.Stranded
import Verif.Props.Bounds
import Verif.Props.Util
import Verif.Spec.App
import Verif.Proofs.AppInv
import Verif.Props.Lifecycle
import Verif.Props.Service
import Verif.Props.Callbacks
import Verif.Props.Dup
import Verif.Props.Rest
import Verif.Spec.Course
import Verif.Logic.Prod
import Verif.Proofs.Course
import Verif.Proofs.CourseInv
import Verif.Props.Course
import Verif.Props.Truth
import Verif.Spec.Live
import Verif.Logic.Track
import Verif.Proofs.Live
import Verif.Proofs.LiveQueue
import Verif.Proofs.LiveDone
import Verif.Props.Live
import Verif.Props.Script
import Verif.Spec.HB
import Verif.Proofs.HB
import Verif.Proofs.HBPairs
import Verif.Proofs.HBCur
import Verif.Demo.HB
import Verif.Props.DataRaces
import Verif.Proofs.Wait
import Verif.Props.Wait
import Verif.Proofs.Pool
import Verif.Props.Docs
import Verif.Props.Pool
import Verif.Props.Quick
import Verif.Model.Actions
import Verif.Props.Actions
import Verif.Props.Interrupted
import Verif.Proofs.AppIntr
import Verif.Props.Restored
import Verif.Spec.Effects
import Verif.Props.Effects
import Verif.Spec.Wiring
import Verif.Proofs.Wiring
import Verif.Props.Wiring
import Verif.Proofs.Settle
import Verif.Proofs.SettleFire
import Verif.Proofs.SettleStep
import Verif.Proofs.AppSettle
import Verif.Props.Settle
import Verif.Spec.AppLive
import Verif.Proofs.AppWait
import Verif.Proofs.AppStops
import Verif.Props.AppReturns
import Verif.Spec.Exec
import Verif.Proofs.Shared
import Verif.Demo.Busy
import Verif.Props.Shared
import Verif.Spec.Npe
import Verif.Props.Npe
import Verif.Model.Direct
import Verif.Spec.Direct
import Verif.Proofs.Direct
import Verif.Props.Direct
import Verif.Model.Reconf
import Verif.Spec.Reconf
import Verif.Proofs.Reconf
import Verif.Props.Reconf
import Verif.Spec.Determined
import Verif.Props.Determined
import Verif.Model.Context
import Verif.Spec.Context
import Verif.Proofs.Context
import Verif.Props.Context
import Verif.Model.Queues
import Verif.Spec.Queues
import Verif.Proofs.Queues
import Verif.Props.Queues
import Verif.Model.Maps
import Verif.Spec.Maps
import Verif.Proofs.Maps
import Verif.Props.Maps
import Verif.Model.Scan
import Verif.Spec.Scan
import Verif.Proofs.Scan
import Verif.Props.Scan
import Verif.Proofs.ReconfCalls
import Verif.Props.ReconfCalls
import Verif.Model.Weak
import Verif.Spec.Weak
import Verif.Proofs.Weak
import Verif.Proofs.WeakSC
import Verif.Proofs.WeakStart
import Verif.Demo.Weak
import Verif.Props.Weak
import Verif.Model.Plain
import Verif.Spec.Plain
import Verif.Proofs.Plain
import Verif.Proofs.HBListener
import Verif.Proofs.HBPayload
import Verif.Demo.Plain
import Verif.Props.Plain
import Verif.Spec.Footprint
import Verif.Proofs.Footprint
import Verif.Props.Footprint
import Verif.Spec.Checks
import Verif.Proofs.HBWrites
import Verif.Proofs.Passes
import Verif.Proofs.Checks
import Verif.Props.Checks
import Verif.Spec.Loose
import Verif.Proofs.Loose
import Verif.Props.Loose
import Verif.Model.Reuse
import Verif.Spec.Reuse
import Verif.Proofs.Reuse
import Verif.Props.Reuse
import Verif.Spec.Meddle
import Verif.Proofs.Meddle
import Verif.Props.Meddle
import Verif.Model.Open
import Verif.Proofs.Open
import Verif.Props.Open
import Verif.Model.Bypass
import Verif.Proofs.Bypass
import Verif.Props.Bypass
import Verif.Proofs.Stale
import Verif.Props.Stale
import Verif.Spec.Safe
import Verif.Proofs.Safe
import Verif.Proofs.Monitored
import Verif.Props.Safe
import Verif.Spec.Names
import Verif.Proofs.Names
import Verif.Props.Names
import Verif.Spec.Watch
import Verif.Proofs.Watch
import Verif.Props.Watch
import Verif.Spec.Groups
import Verif.Proofs.Groups
import Verif.Props.Groups
import Verif.Props.Elsewhere
import Verif.Spec.Limits
import Verif.Proofs.Limits
import Verif.Props.Limits
import Verif.Spec.Undup
import Verif.Proofs.Undup
import Verif.Props.Undup
import Verif.Spec.Cycle
import Verif.Proofs.Cycle
import Verif.Props.Cycle
import Verif.Spec.Asking
import Verif.Proofs.Asking
import Verif.Props.Asking
import Verif.Spec.Shuffle
import Verif.Proofs.Shuffle
import Verif.Props.Shuffle
import Verif.Spec.Calm
import Verif.Proofs.Calm
import Verif.Props.Calm
import Verif.Spec.Orderly
import Verif.Proofs.Orderly
import Verif.Props.Orderly
import Verif.Oracle
