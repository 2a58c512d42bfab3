import Verif.Backlog.Model
/-
The partition workers together with a `BatchProducer` (`streams/producer.go:90-178`): who waits for whom.

The `BatchProducer` shares one Kafka client among all workers. The client is external. It keeps the records it was given until their promises have returned, it runs the promises one at a
time, and `Produce` waits while it keeps `MaxBufferedRecords` records (10000 unless set otherwise). A promise counts down and, when it was the last of its call, hands the callback to the
worker (`streams/producer.go:135-139`), which waits for room in `asyncJobs` (`streams/partition_worker.go:57-59`).

Simplifications: every event calls `Produce` once, with at least one record and with a callback (`Verif.Producer` has the other cases); the callback returns `Complete`; workers are not
revoked; the wait for a transactional producer and interjections are left out.
-/
namespace Verif.Promise
open Verif.Scheduler (upd)

/-- The sizes: those of the worker (`streams/partition_worker.go:91-103`) and the `MaxBufferedRecords` of the client (an option of `NewBatchProducer`, `streams/producer.go:100-110`). -/
structure Cfg where
  maxBatch : Nat
  poolSize : Nat
  maxBuffered : Nat

/-- The sizes of the worker as in `Verif.Backlog`. `streams/partition_worker.go:91-103`. -/
def Cfg.worker (c : Cfg) : Backlog.Cfg := ⟨⟨0, 0, 0⟩, c.maxBatch, c.poolSize⟩

/-- The capacity of `asyncJobs`, `streams/partition_worker.go:91-92,103`. -/
def Cfg.asyncSize (c : Cfg) : Nat := c.worker.asyncSize

/-- The capacity of `eventInput`, `streams/partition_worker.go:91,106`. -/
def Cfg.inputSize (c : Cfg) : Nat := c.worker.inputSize

/-- The capacity of `maxPending`, `streams/partition_worker.go:101`, `streams/eos_producer.go:140-142`. -/
def Cfg.maxPending (c : Cfg) : Nat := c.worker.maxPending

/-- An event: its partition, its number, and how many records its handler produces. `streams/producer.go:152-162`. -/
structure Ev where
  part : Nat
  id : Nat
  recs : Nat
  deriving DecidableEq, Repr

/-- What the goroutine of a worker does: it is in its `select`, or in the loop of `produceBatch` with some records left (perhaps waiting in `client.Produce`).
`streams/partition_worker.go:234-252`, `streams/producer.go:164-171`. -/
inductive Phase where
  | idle
  | producing (e : Ev) (left : Nat)
  deriving DecidableEq, Repr

/-- All workers, the client, and the `produceBatcher` objects. `streams/partition_worker.go:61-79`, `streams/producer.go:90-122`. -/
structure Sys where
  /-- `eventInput` of every worker -/
  evq : Nat → List Ev
  /-- the number of tokens in `maxPending` -/
  slots : Nat → Nat
  /-- `asyncJobs` -/
  jobs : Nat → List Ev
  ph : Nat → Phase
  /-- the records in the client whose promises have not run, by their events -/
  buf : List Ev
  /-- the promise that is running and has counted down to 0: it is in `AsyncJobComplete` -/
  posting : Option Ev
  /-- the calls of `Produce` whose counter is not 0, with the counter -/
  batches : List (Ev × Nat)
  /-- number of events so far -/
  next : Nat
  /-- history: the completed events -/
  done : List Ev

/-- The state at the beginning, `streams/partition_worker.go:81-116`, `streams/producer.go:100-110`. -/
def Sys.init : Sys :=
  { evq := fun _ => [], slots := fun _ => 0, jobs := fun _ => [], ph := fun _ => .idle, buf := [], posting := none, batches := [], next := 0, done := [] }

/-- The number of records that the client keeps: the one whose promise runs belongs to them. (External; used by `client.Produce`, `streams/producer.go:174`.) -/
def Sys.buffered (s : Sys) : Nat := s.buf.length + if s.posting.isSome then 1 else 0

/-- What can happen. `streams/partition_worker.go:171-174`, `234-263`, `streams/producer.go:135-178`. -/
inductive Act where
  /-- an event gets a slot and reaches the channel; its handler will produce `n + 1` records. `streams/partition_worker.go:171-174` -/
  | arrive (p n : Nat)
  /-- the worker takes an event, and its handler calls `Produce`. `streams/partition_worker.go:235`, `streams/producer.go:152-159` -/
  | handle (p : Nat)
  /-- the client accepts the next record. `streams/producer.go:165-174` -/
  | produce (p : Nat)
  /-- the `i`-th record in the client ends and its promise runs. `streams/producer.go:174-177`, `135-136` -/
  | promise (i : Nat)
  /-- the callback is handed to the worker, and the promise returns. `streams/producer.go:137`, `streams/partition_worker.go:57-59` -/
  | post
  /-- the worker takes a job. `streams/partition_worker.go:239`, `258-263` -/
  | job (p : Nat)
  deriving DecidableEq, Repr

/-- `atomic.AddInt64(&b.pending, -1)`: the counter of the call is one less. `streams/producer.go:136`. -/
def countDown (e : Ev) : List (Ev × Nat) → List (Ev × Nat)
  | [] => []
  | (f, n) :: bs => if f = e then (f, n - 1) :: bs else (f, n) :: countDown e bs

/-- The counter of the call. `streams/producer.go:136`. -/
def pending (e : Ev) (bs : List (Ev × Nat)) : Option Nat := (bs.find? fun b => b.1 = e).map (·.2)

/-- One step; `streams/partition_worker.go:171-174`, `234-263`, `streams/producer.go:135-178`, see `Act`. -/
def step (c : Cfg) (s : Sys) : Act → Option Sys
  -- `streams/partition_worker.go:171-174`
  | .arrive p n =>
    if s.slots p < c.maxPending ∧ (s.evq p).length < c.inputSize then
      some { s with slots := upd s.slots p (s.slots p + 1), evq := upd s.evq p (s.evq p ++ [⟨p, s.next, n + 1⟩]), next := s.next + 1 }
    else none
  | .handle p =>
    match s.ph p, s.evq p with
    | .idle, e :: rest => some { s with evq := upd s.evq p rest, ph := upd s.ph p (.producing e e.recs), batches := s.batches ++ [(e, e.recs)] }
    | _, _ => none
  | .produce p =>
    match s.ph p with
    | .producing e (left + 1) =>
      if s.buffered < c.maxBuffered then
        some { s with buf := s.buf ++ [e], ph := upd s.ph p (if left = 0 then .idle else .producing e left) }
      else none
    | _ => none
  | .promise i =>
    match s.posting, s.buf[i]? with
    | none, some e =>
      match pending e s.batches with
      | none => none
      | some n =>
        if n = 1 then some { s with buf := s.buf.eraseIdx i, posting := some e, batches := s.batches.filter fun b => b.1 ≠ e }
        else some { s with buf := s.buf.eraseIdx i, batches := countDown e s.batches }
    | _, _ => none
  | .post =>
    match s.posting with
    | some e =>
      if (s.jobs e.part).length < c.asyncSize then some { s with posting := none, jobs := upd s.jobs e.part (s.jobs e.part ++ [e]) }
      else none
    | none => none
  | .job p =>
    match s.ph p, s.jobs p with
    | .idle, e :: rest => some { s with jobs := upd s.jobs p rest, slots := upd s.slots p (s.slots p - 1), done := s.done ++ [e] }
    | _, _ => none

/-- Some steps one after the other. `streams/partition_worker.go:234-263`, `streams/producer.go:135-178`. -/
def run (c : Cfg) (s : Sys) : List Act → Option Sys
  | [] => some s
  | a :: as => (step c s a).bind fun s' => run c s' as

/-- Reachable states. `streams/partition_worker.go:81-116`. -/
def Reach (c : Cfg) (s : Sys) : Prop := ∃ as, run c Sys.init as = some s

end Verif.Promise
