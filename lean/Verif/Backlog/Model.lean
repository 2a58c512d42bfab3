import Verif.Scheduler.Model
/-
The partition workers together with an `AsyncJobScheduler`: who waits for whom.

The scheduler is the one of `Verif.Scheduler`; the goroutine `work` of a partition worker (`streams/partition_worker.go:234-252`) is one of its callers. Its `select` takes an
event from `eventInput` and runs the handler, which calls `Schedule` and returns `Incomplete`, or it takes a job from `asyncJobs`, which completes its event and gives
back the slot in `maxPending` (258-263). The goroutines of the scheduler put the jobs into `asyncJobs` (`streams/async_scheduler.go:90`, `streams/event_context.go:169-174`,
`streams/partition_worker.go:57-59`), whose capacity is limited (91-104).

Simplifications: every event is scheduled once, with one job; the finalizer returns `Complete`; workers are not revoked; the wait for a producer, during which jobs are taken too, is left out,
and so are interjections.
-/
namespace Verif.Backlog
open Verif.Scheduler

/-- The sizes that matter: the scheduler's and `MaxBatchSize`, `PoolSize` of the `EosConfig` (`streams/eos_config.go:40-57`). -/
structure Cfg where
  sched : Scheduler.Config
  maxBatch : Nat
  poolSize : Nat

/-- `recordsInputSize`, the capacity of `eventInput`, `streams/partition_worker.go:91,106`. -/
def Cfg.inputSize (c : Cfg) : Nat := max (c.maxBatch / 10) 100

/-- `asyncSize`, the capacity of `asyncJobs`, `streams/partition_worker.go:92,103`. -/
def Cfg.asyncSize (c : Cfg) : Nat := c.inputSize * 4

/-- `maxPendingItems`, the capacity of `maxPending`, `streams/eos_producer.go:140-142`, `streams/partition_worker.go:101`. -/
def Cfg.maxPending (c : Cfg) : Nat := c.maxBatch * c.poolSize

variable {K : Type} [DecidableEq K]

/-- The scheduler and the workers; a worker is named by its goroutine. `streams/partition_worker.go:61-79`, `streams/async_scheduler.go:106-118`. -/
structure Sys (K : Type) where
  sch : Scheduler.State K
  /-- `eventInput` -/
  evq : Nat → List (Job K)
  /-- the number of tokens in `maxPending` -/
  slots : Nat → Nat
  /-- `asyncJobs` -/
  jobs : Nat → List (Job K)
  /-- number of events so far -/
  next : Nat
  /-- history: the completed events -/
  done : List (Job K)

/-- `streams/partition_worker.go:81-116`, `streams/async_scheduler.go:172-210`. -/
def Sys.init (c : Cfg) : Sys K :=
  { sch := Scheduler.init c.sched, evq := fun _ => [], slots := fun _ => 0, jobs := fun _ => [], next := 0, done := [] }

/-- What can happen. `streams/partition_worker.go:171-174`, `234-263`, `streams/async_scheduler.go:231-301`. -/
inductive Act (K : Type) where
  /-- an event with this key gets a slot and reaches the channel, `streams/partition_worker.go:171-174` -/
  | arrive (p : Nat) (k : K)
  /-- the worker takes an event, and its handler calls `Schedule`, `streams/partition_worker.go:235`, `streams/async_scheduler.go:231-235` -/
  | handle (p : Nat)
  /-- the worker takes a job, `streams/partition_worker.go:239,258-263` -/
  | job (p : Nat)
  /-- a step inside the scheduler (or a change of its limits, or its end) -/
  | inner (l : Scheduler.Label K)

/-- One step, see `Act` for the places in the code; `AsyncJobComplete` waits for room in `asyncJobs` (`streams/partition_worker.go:57-59`). -/
def step (c : Cfg) (s : Sys K) : Act K → Option (Sys K)
  | .arrive p k =>
    if c.sched.concurrency ≤ p ∧ s.slots p < c.maxPending ∧ (s.evq p).length < c.inputSize then
      some { s with slots := upd s.slots p (s.slots p + 1), evq := upd s.evq p (s.evq p ++ [⟨k, p, s.next⟩]), next := s.next + 1 }
    else none
  | .handle p =>
    match s.evq p with
    | x :: rest => (Scheduler.step s.sch (.call x)).map fun sch => { s with sch := sch, evq := upd s.evq p rest }
    | [] => none
  | .job p =>
    match s.sch.threads p, s.jobs p with
    | .idle, x :: rest => some { s with jobs := upd s.jobs p rest, slots := upd s.slots p (s.slots p - 1), done := s.done ++ [x] }
    | _, _ => none
  | .inner l =>
    match l with
    | .call _ => none
    | .complete t =>
      match s.sch.threads t with
      | .wAdv _ x =>
        if (s.jobs x.caller).length < c.asyncSize then
          (Scheduler.step s.sch (.complete t)).map fun sch => { s with sch := sch, jobs := upd s.jobs x.caller (s.jobs x.caller ++ [x]) }
        else none
      | _ => none
    | l => (Scheduler.step s.sch l).map fun sch => { s with sch := sch }

/-- Some steps one after the other (all of the above). `streams/partition_worker.go:234-263`. -/
def run (c : Cfg) (s : Sys K) : List (Act K) → Option (Sys K)
  | [] => some s
  | a :: as => (step c s a).bind fun s' => run c s' as

/-- Reachable states. `streams/partition_worker.go:81-116`. -/
def Reach (c : Cfg) (s : Sys K) : Prop := ∃ as, run c (Sys.init c) as = some s

end Verif.Backlog
