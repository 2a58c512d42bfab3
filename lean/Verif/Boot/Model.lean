import Mathlib.Tactic.Common
/-
Model of the start of an event source: `NewEventSource` with `newEventSourceConsumer`, the calls of the application up to `ConsumeEvents`, and the
goroutines that may run meanwhile. The Kafka client of the consumer group starts to join the group when it is made (`kgo.NewClient` with
`kgo.ConsumerGroup` and `kgo.ConsumeTopics`; franz-go, external), so that its callback for assigned partitions can come at any time from then on, in
a goroutine of the client.

Simplifications: one topic; stores are never prepared in advance (that needs an assignment first); the waits in `work` (commit log, store) may end
at any time; partitions are not revoked again (a revoked worker ends, C97).
-/
namespace Verif.Boot

/-- Where the goroutine of the application is: `NewEventSource` (`streams/event_source.go:67-90`), in it `newEventSourceConsumer`
(`streams/source_consumer.go:47-115`), and afterwards. -/
inductive At where
  /-- before `CreateSource`, `streams/event_source.go:69` -/
  | source
  /-- before `newEosCommitLog`, `streams/source_consumer.go:48` -/
  | log
  /-- before `NewClient`, `streams/source_consumer.go:91` -/
  | client
  /-- before `newEOSProducerPool`, `streams/source_consumer.go:101` -/
  | pool
  /-- before the loop over the balancers, `streams/source_consumer.go:103-108` -/
  | balancer
  /-- before `newStateStoreConsumer`, `streams/source_consumer.go:109-110` -/
  | stores
  /-- before the check of `err`, `streams/source_consumer.go:111-114`, and the assignment in `streams/event_source.go:88` -/
  | check
  /-- `NewEventSource` has returned; the error is given -/
  | back (err : Bool)
  /-- `ConsumeEvents` was called (`streams/event_source.go:95-99`) -/
  | consuming
  deriving DecidableEq, Repr

/-- What is dereferenced while it is nil, or a panic of `NewEventSource` itself. The sites are in `streams/source_consumer.go:134,211,220`,
`streams/partition_worker.go:101,212` and `streams/event_source.go:97`. -/
inductive Nil where
  | stores | pool | balancer | consumer
  deriving DecidableEq, Repr

/-- Where the goroutine of the client is that calls `assignPartitions` (`streams/source_consumer.go:189-223`) for a list of partitions. -/
inductive Cb where
  | none
  /-- at `activatePartition` (211) for the first of these partitions -/
  | activate (ps : List Nat)
  /-- at `newPartitionWorker` (213) for the first of these partitions -/
  | make (ps : List Nat)
  /-- at 220, after these partitions -/
  | tell
  deriving DecidableEq, Repr

/-- A partition worker: it has been made with these interjections (`streams/partition_worker.go:113`) and is waiting or works (206-234). -/
structure Worker where
  part : Nat
  ijs : List Nat
  working : Bool
  deriving DecidableEq, Repr

/-- The event source and its consumer (`streams/event_source.go:35-47`, `streams/source_consumer.go:28-43`): which pointers are set, the
interjections, the workers in the order of their making; `joined`: the client of the group exists. `crash` is set by a nil dereference. `early` is
history: some callback began before `NewEventSource` returned. -/
structure S where
  pc : At
  failed : Bool
  joined : Bool
  pool : Bool
  balancer : Bool
  stores : Bool
  consumer : Bool
  ijs : List Nat
  cb : Cb
  workers : List Worker
  crash : Option Nil
  early : Bool
  deriving DecidableEq, Repr

/-- Before `NewEventSource`, `streams/event_source.go:67`. -/
def S.init : S :=
  { pc := .source, failed := false, joined := false, pool := false, balancer := false, stores := false, consumer := false, ijs := [], cb := .none,
    workers := [], crash := none, early := false }

/-- What can happen (`streams/event_source.go:67-99,304-310`, `streams/source_consumer.go:47-115,189-223`, `streams/partition_worker.go:206-234`). -/
inductive Act where
  /-- the next statement of `NewEventSource`; `ok` is whether `CreateSource` or `NewClient` succeeds -/
  | main (ok : Bool)
  /-- `ScheduleInterjection`, `streams/event_source.go:304-310` -/
  | schedule (ij : Nat)
  /-- `ConsumeEvents`, `streams/event_source.go:95-99` -/
  | consume
  /-- the client calls `partitionsAssigned` with at least one partition, `streams/source_consumer.go:243-248` -/
  | assigned (ps : List Nat)
  /-- the next statement of `assignPartitions` -/
  | callback
  /-- the worker goes on from its start to its loop, `streams/partition_worker.go:206-234` -/
  | work (i : Nat)
  deriving DecidableEq, Repr

/-- The next statement of `NewEventSource`; `incr`: one of the balance strategies is the incremental one
(`streams/event_source.go:67-90`, `streams/source_consumer.go:47-115`). -/
def main (incr : Bool) (s : S) (ok : Bool) : Option S :=
  match s.pc with
  | .source => some { s with pc := if ok then .log else .back true, failed := !ok }
  | .log => some { s with pc := .client }
  | .client => some { s with pc := .pool, failed := !ok, joined := ok }
  | .pool => some { s with pc := .balancer, pool := true }
  | .balancer => some { s with pc := .stores, balancer := incr }
  | .stores => some { s with pc := .check, stores := true }
  | .check => some { s with pc := .back s.failed, consumer := !s.failed }
  | _ => none

/-- The next statement of `assignPartitions`, `streams/source_consumer.go:195-220`. A partition that has a worker is passed over (210). -/
def callback (s : S) : Option S :=
  match s.cb with
  | .none => none
  | .activate [] => some { s with cb := .tell }
  | .activate (p :: ps) =>
    if p ∈ s.workers.map Worker.part then some { s with cb := .activate ps }
    else if s.stores then some { s with cb := .make (p :: ps) } else some { s with crash := some .stores }
  | .make [] => some { s with cb := .tell }
  | .make (p :: ps) =>
    if s.pool then some { s with cb := .activate ps, workers := s.workers ++ [⟨p, s.ijs, false⟩] } else some { s with crash := some .pool }
  | .tell => if s.balancer then some { s with cb := .none } else some { s with crash := some .balancer }

/-- The step function (`streams/event_source.go:67-99,304-310`, `streams/source_consumer.go:47-115,189-223`, `streams/partition_worker.go:206-234`).
After a panic the process is gone. The application schedules interjections after `NewEventSource` has returned, before it calls `ConsumeEvents`. -/
def step (incr : Bool) (s : S) (a : Act) : Option S :=
  if s.crash.isSome then none else
  match a with
  | .main ok => main incr s ok
  | .schedule ij => if s.pc = .back false then some { s with ijs := s.ijs ++ [ij] } else none
  | .consume => if s.pc = .back false then some { s with pc := .consuming } else none
  | .assigned ps =>
    if s.joined ∧ s.cb = .none ∧ ps ≠ [] then
      some { s with cb := .activate ps, early := s.early || !(s.pc = .back false || s.pc = .consuming) }
    else none
  | .callback => callback s
  | .work i =>
    match s.workers[i]? with
    | some w =>
      if w.working then none
      else if s.consumer then some { s with workers := s.workers.set i { w with working := true } }
      else some { s with crash := some .consumer }
    | none => none

/-- A sequence of steps (`streams/event_source.go:67-99`). -/
def run (incr : Bool) (s : S) : List Act → Option S
  | [] => some s
  | a :: as => (step incr s a).bind fun s' => run incr s' as

/-- The states that can be reached (`streams/event_source.go:67-99`). -/
inductive Reach (incr : Bool) : S → Prop where
  | init : Reach incr S.init
  | step {s s' : S} (a : Act) : Reach incr s → step incr s a = some s' → Reach incr s'

end Verif.Boot
