import Verif.BTree.Model
import Verif.BTree.Proofs
import Verif.Backlog.Ends
import Verif.Backlog.Model
import Verif.Backlog.Proofs
import Verif.Backlog.Quiet
import Verif.Backlog.Stuck
import Verif.Base
import Verif.Batcher.Account
import Verif.Batcher.Model
import Verif.Batcher.Progress
import Verif.Batcher.Proofs
import Verif.Batches.Finish
import Verif.Batches.Items
import Verif.Batches.Model
import Verif.Batches.Proofs
import Verif.Batches.Spec
import Verif.Batches.Steps
import Verif.Batches.Store
import Verif.Boot.Model
import Verif.Boot.Proofs
import Verif.Cadence.Model
import Verif.Cadence.Proofs
import Verif.Cadence.Spec
import Verif.Cadence.Upper
import Verif.Chain.Links
import Verif.Chain.Model
import Verif.Chain.Proofs
import Verif.Chain.Sim
import Verif.Chain.Spec
import Verif.Chain.Step
import Verif.Clients.Model
import Verif.Clients.Spec
import Verif.Codec.Model
import Verif.Codec.Proofs
import Verif.CommitLog.Model
import Verif.CommitLog.Proofs
import Verif.Config.Model
import Verif.Confine.Calm
import Verif.Confine.Free
import Verif.Confine.Model
import Verif.Confine.Proofs
import Verif.Confine.Sent
import Verif.Confine.Spec
import Verif.Confine.Unordered
import Verif.Context.Model
import Verif.Context.Spec
import Verif.Deadline.Full
import Verif.Deadline.Model
import Verif.Deadline.Proofs
import Verif.Deadline.Queue
import Verif.Deadline.Spec
import Verif.Delay.Clock
import Verif.Delay.Idle
import Verif.Delay.Model
import Verif.Delay.Proofs
import Verif.Delay.Spec
import Verif.Depart.Model
import Verif.Effects.Model
import Verif.Effects.Order
import Verif.Effects.Proofs
import Verif.Effects.Spec
import Verif.Encode.Model
import Verif.Eos.Abstract
import Verif.Eos.Base
import Verif.Eos.Fin
import Verif.Eos.Model
import Verif.Eos.Order
import Verif.Eos.Proofs
import Verif.Eos.Sim
import Verif.Exact.Model
import Verif.Exact.Proofs
import Verif.Fleet.Model
import Verif.Fleet.NoLoss
import Verif.Fleet.Once
import Verif.Fleet.Pool
import Verif.Fleet.Spec
import Verif.Flush.Bound
import Verif.Flush.Eff
import Verif.Flush.Head
import Verif.Flush.Model
import Verif.Flush.Proofs
import Verif.Flush.Spec
import Verif.Flush.Steps
import Verif.Gather.Ends
import Verif.Gather.Model
import Verif.Gather.Proofs
import Verif.Global.Model
import Verif.Global.Proofs
import Verif.Global.Spec
import Verif.Handover.Model
import Verif.Handover.Proofs
import Verif.Heap.Model
import Verif.Heap.Proofs
import Verif.Helpers.Model
import Verif.Interject.Model
import Verif.Interject.Progress
import Verif.Interject.Proofs
import Verif.Interject.Spec
import Verif.Interject.Trace
import Verif.Items.Flow
import Verif.Items.Model
import Verif.Items.Order
import Verif.Items.Proofs
import Verif.Items.Shape
import Verif.Items.Spec
import Verif.Keyed.Finish
import Verif.Keyed.Model
import Verif.Keyed.Order
import Verif.Keyed.Proofs
import Verif.Keyed.Spec
import Verif.Keyed.Steps
import Verif.Keyed.Store
import Verif.Latency.Front
import Verif.Latency.Model
import Verif.Latency.Proofs
import Verif.Latency.Spec
import Verif.Lifecycle.Model
import Verif.Lifecycle.Proofs
import Verif.LinkedList.Model
import Verif.LinkedList.Proofs
import Verif.Live.Ends
import Verif.Live.Model
import Verif.Live.Proofs
import Verif.Live.Quiet
import Verif.Live.Stuck
import Verif.Loan.Flow
import Verif.Loan.Model
import Verif.Loan.Order
import Verif.Loan.Proofs
import Verif.Loan.Spec
import Verif.Locks.Model
import Verif.Locks.Proofs
import Verif.Locks.Spec
import Verif.Locks.Stuck
import Verif.Loss.Model
import Verif.Loss.Proofs
import Verif.Loss.Spec
import Verif.Marks.Model
import Verif.Marks.Proofs
import Verif.Marks.Spec
import Verif.Meter.Model
import Verif.Meter.Prepped
import Verif.Meter.Proofs
import Verif.Metrics.Model
import Verif.Migrate.Model
import Verif.Migrate.Proofs
import Verif.Migrate.Spec
import Verif.Msk.Model
import Verif.Nodes.Model
import Verif.Nodes.Proofs
import Verif.Observe.Model
import Verif.Observe.Proofs
import Verif.Observe.Spec
import Verif.Periodic.Model
import Verif.Producer.Model
import Verif.Producer.Proofs
import Verif.Promise.Model
import Verif.Promise.Once
import Verif.Promise.Proofs
import Verif.Promise.Stuck
import Verif.Props.Backlog
import Verif.Props.Batcher
import Verif.Props.Batches
import Verif.Props.Boot
import Verif.Props.Cadence
import Verif.Props.Chain
import Verif.Props.Changes
import Verif.Props.Clients
import Verif.Props.Codec
import Verif.Props.CommitLog
import Verif.Props.Complete
import Verif.Props.Config
import Verif.Props.Confine
import Verif.Props.Context
import Verif.Props.Delay
import Verif.Props.Depart
import Verif.Props.Effects
import Verif.Props.Encode
import Verif.Props.Eos
import Verif.Props.Exact
import Verif.Props.Fleet
import Verif.Props.Flush
import Verif.Props.Gather
import Verif.Props.Global
import Verif.Props.Handover
import Verif.Props.Heap
import Verif.Props.Helpers
import Verif.Props.Interject
import Verif.Props.Items
import Verif.Props.Keyed
import Verif.Props.Latency
import Verif.Props.Leave
import Verif.Props.Lifecycle
import Verif.Props.LinkedList
import Verif.Props.Live
import Verif.Props.Loan
import Verif.Props.Locks
import Verif.Props.Loss
import Verif.Props.Marks
import Verif.Props.Meter
import Verif.Props.Metrics
import Verif.Props.Migrate
import Verif.Props.Msk
import Verif.Props.Nodes
import Verif.Props.Observe
import Verif.Props.Periodic
import Verif.Props.Producer
import Verif.Props.Promise
import Verif.Props.Queue
import Verif.Props.Races
import Verif.Props.Rebalance
import Verif.Props.Record
import Verif.Props.Recover
import Verif.Props.Recycle
import Verif.Props.Replica
import Verif.Props.Reports
import Verif.Props.Rest
import Verif.Props.Resume
import Verif.Props.Retry
import Verif.Props.Route
import Verif.Props.Sak
import Verif.Props.Scheduler
import Verif.Props.SchedulerClose
import Verif.Props.SchedulerProgress
import Verif.Props.Serial
import Verif.Props.Shared
import Verif.Props.Shutdown
import Verif.Props.Simple
import Verif.Props.Stages
import Verif.Props.Stores
import Verif.Props.Sync
import Verif.Props.TPSet
import Verif.Props.Topics
import Verif.Props.Whole
import Verif.Props.Worker
import Verif.Races.Model
import Verif.Races.Proofs
import Verif.Rebalance.Build
import Verif.Rebalance.Converge
import Verif.Rebalance.Group
import Verif.Rebalance.Leave
import Verif.Rebalance.Member
import Verif.Rebalance.Model
import Verif.Rebalance.Plan
import Verif.Rebalance.Proofs
import Verif.Record.Model
import Verif.Record.Proofs
import Verif.Recycle.Model
import Verif.Recycle.Proofs
import Verif.Recycle.Spec
import Verif.Replica.Cell
import Verif.Replica.Cycle
import Verif.Replica.Model
import Verif.Replica.Proofs
import Verif.Replica.Recover
import Verif.Replica.Seq
import Verif.Replica.Spec
import Verif.Resume.Later
import Verif.Resume.Model
import Verif.Resume.Proofs
import Verif.Retry.Model
import Verif.Retry.Proofs
import Verif.Retry.Spec
import Verif.Route.Model
import Verif.Route.Proofs
import Verif.Sak.Model
import Verif.Scheduler.Bounded
import Verif.Scheduler.Close
import Verif.Scheduler.History
import Verif.Scheduler.Limits
import Verif.Scheduler.Model
import Verif.Scheduler.Progress
import Verif.Scheduler.Proofs
import Verif.Scheduler.View
import Verif.Scheduler.Wakeup
import Verif.Serial.Flow
import Verif.Serial.Model
import Verif.Serial.Order
import Verif.Serial.Proofs
import Verif.Serial.Shape
import Verif.Serial.Spec
import Verif.Serial.Steps
import Verif.Shared.Model
import Verif.Shared.Once
import Verif.Shared.Proofs
import Verif.Shared.Sent
import Verif.Shared.Spec
import Verif.Shared.Steps
import Verif.Shared.Unordered
import Verif.Shutdown.Model
import Verif.Simple.Model
import Verif.Simple.Proofs
import Verif.Simple.Rest
import Verif.Stages.Finish
import Verif.Stages.Model
import Verif.Stages.Proofs
import Verif.Stages.Spec
import Verif.Stages.Steps
import Verif.Stages.Store
import Verif.Stores.Model
import Verif.Sync.Kill
import Verif.Sync.Late
import Verif.Sync.Model
import Verif.Sync.Progress
import Verif.Sync.Proofs
import Verif.TPSet.Model
import Verif.Topics.Model
import Verif.Topics.Proofs
import Verif.Topics.Spec
import Verif.Whole.Calm
import Verif.Whole.Check
import Verif.Whole.Count
import Verif.Whole.Ended
import Verif.Whole.Inv
import Verif.Whole.Joint
import Verif.Whole.Link
import Verif.Whole.Model
import Verif.Whole.Refine
import Verif.Whole.Rest
import Verif.Whole.Seen
import Verif.Whole.Settle
import Verif.Whole.Spec
import Verif.Whole.Steps
import Verif.Whole.Tidy
import Verif.Whole.Worker
import Verif.Worker.Fifo
import Verif.Worker.Model
import Verif.Worker.Order
import Verif.Worker.Progress
import Verif.Worker.Proofs
