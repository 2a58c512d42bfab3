import Verif.Batcher.Model
import Verif.Backlog.Model
/-
The partition workers together with an `AsyncBatcher` (`streams/async_batcher.go`): who waits for whom.

The handler of an event calls `AsyncBatcher.Add` on the goroutine of the worker; the goroutines of the batcher hand the callbacks to the workers (`AsyncJobComplete`,
`streams/async_batcher.go:84-88,283`, `streams/event_context.go:169-174`), which waits for room in `asyncJobs` (`streams/partition_worker.go:57-59`).

The batcher is the one of `Verif.Batcher`, with all its interleavings; the adding goroutine `p` is the goroutine of worker `p`.

Simplifications: every event calls `Add` once, with any number of items; the callback returns `Complete`; workers are not revoked; the wait for a transactional producer and interjections
are left out. A goroutine of the batcher that would wait in `AsyncJobComplete` has not counted up the item yet (in the code it has, but nobody else looks at the counter of a complete batch).
-/
namespace Verif.Gather
open Verif.Batcher (Batch upd)

/-- The sizes: those of the worker (`streams/partition_worker.go:91-103`) and those of the batcher (`streams/async_batcher.go:173`). -/
structure Cfg where
  maxBatch : Nat
  poolSize : Nat
  batchSize : Nat
  concurrent : Nat

/-- The sizes of the worker as in `Verif.Backlog`. `streams/partition_worker.go:91-103`. -/
def Cfg.worker (c : Cfg) : Backlog.Cfg := ⟨⟨0, 0, 0⟩, c.maxBatch, c.poolSize⟩

/-- The capacity of `asyncJobs`, `streams/partition_worker.go:91-92,103`. -/
def Cfg.asyncSize (c : Cfg) : Nat := c.worker.asyncSize

/-- The capacity of `eventInput`, `streams/partition_worker.go:91,106`. -/
def Cfg.inputSize (c : Cfg) : Nat := c.worker.inputSize

/-- The capacity of `maxPending`, `streams/partition_worker.go:101`, `streams/eos_producer.go:140-142`. -/
def Cfg.maxPending (c : Cfg) : Nat := c.worker.maxPending

/-- All workers and the batcher. An event is a `BatchItems`, known by its number. `streams/partition_worker.go:61-79`, `streams/async_batcher.go:50-57,159-168`. -/
structure Sys (K : Type) where
  b : Batcher.State K
  /-- the partition of the event context in a `BatchItems` -/
  part : Nat → Nat
  /-- `eventInput` of every worker -/
  evq : Nat → List (Batch K)
  /-- the number of tokens in `maxPending` -/
  slots : Nat → Nat
  /-- `asyncJobs` -/
  jobs : Nat → List Nat
  /-- number of events so far -/
  next : Nat
  /-- history: the completed events -/
  done : List Nat

/-- The state at the beginning, `streams/partition_worker.go:81-116`, `streams/async_batcher.go:173-192`. -/
def Sys.init {K : Type} (c : Cfg) : Sys K :=
  { b := Batcher.init K c.batchSize c.concurrent, part := fun _ => 0, evq := fun _ => [], slots := fun _ => 0, jobs := fun _ => [], next := 0, done := [] }

/-- What can happen. `streams/partition_worker.go:171-174`, `234-263`, `streams/async_batcher.go:195-311`. -/
inductive Act (K : Type) where
  /-- an event gets a slot and reaches the channel; its handler will add items with these keys. `streams/partition_worker.go:171-174` -/
  | arrive (p : Nat) (key : K) (keys : List K)
  /-- the worker takes an event, and its handler calls `Add`. `streams/partition_worker.go:235`, `streams/async_batcher.go:195` -/
  | handle (p : Nat)
  /-- the handler adds the next item. `streams/async_batcher.go:207-212` -/
  | add (p : Nat)
  /-- a timer fires. `streams/async_batcher.go:250` -/
  | fire (i : Nat)
  /-- a timer's function gets the lock. `streams/async_batcher.go:252-254` -/
  | flush (i : Nat)
  /-- a goroutine that executes a batch goes on; when it completes a `BatchItems` it hands over the job. `streams/async_batcher.go:277-290`, `84-88` -/
  | go (i j : Nat)
  /-- the worker takes a job. `streams/partition_worker.go:239`, `258-263` -/
  | job (p : Nat)

variable {K : Type} [DecidableEq K]

/-- One step; `streams/partition_worker.go:171-174`, `234-263`, `streams/async_batcher.go:195-311`, see `Act`. -/
def step (c : Cfg) (s : Sys K) : Act K → Option (Sys K)
  | .arrive p key keys =>
    if s.slots p < c.maxPending ∧ (s.evq p).length < c.inputSize then
      some { s with slots := upd s.slots p (s.slots p + 1), evq := upd s.evq p (s.evq p ++ [⟨s.next, key, keys⟩]), part := upd s.part s.next p, next := s.next + 1 }
    else none
  | .handle p =>
    match s.evq p with
    | B :: rest => (Batcher.step s.b (.call p B)).map fun b => { s with b := b, evq := upd s.evq p rest }
    | [] => none
  | .add p => (Batcher.step s.b (.add p)).map fun b => { s with b := b }
  | .fire i => (Batcher.step s.b (.fire i)).map fun b => { s with b := b }
  | .flush i => (Batcher.step s.b (.flush i)).map fun b => { s with b := b }
  | .go i j =>
    match Batcher.step s.b (.go i j) with
    | none => none
    | some b =>
      match b.called.drop s.b.called.length with
      | [] => some { s with b := b }
      | e :: _ =>
        if (s.jobs (s.part e)).length < c.asyncSize then some { s with b := b, jobs := upd s.jobs (s.part e) (s.jobs (s.part e) ++ [e]) } else none
  | .job p =>
    match s.b.adders p, s.jobs p with
    | [], e :: rest => some { s with jobs := upd s.jobs p rest, slots := upd s.slots p (s.slots p - 1), done := s.done ++ [e] }
    | _, _ => none

/-- Some steps one after the other. `streams/partition_worker.go:234-263`, `streams/async_batcher.go:195-311`. -/
def run (c : Cfg) (s : Sys K) : List (Act K) → Option (Sys K)
  | [] => some s
  | a :: as => (step c s a).bind fun s' => run c s' as

/-- The states that can come about. `streams/partition_worker.go:81-116`, `streams/async_batcher.go:173-192`. -/
def Reach (c : Cfg) (s : Sys K) : Prop := ∃ as, run c (Sys.init c) as = some s

end Verif.Gather
