import Verif.Backlog.Model
import Verif.Exact.Model
/-
Handlers that give their events to an `AsyncJobScheduler`, and what readers see of it.

The scheduler is the one of `Verif.Scheduler`, with the channels of `Verif.Backlog`: `eventInput`, `asyncJobs`. Added here are the records of the source and their offsets, the store (a state for each key), what the
finalizers produce, commits, and crashes. The handler of a record either schedules it under its key, and the finalizer then works on the store and produces; or it does so itself and returns `Complete`.

Simplifications: a transaction is what it is for one partition: some of the next events, all completed (C02, C04, `Verif.Eos`), whose records become visible together, in the order in which they were produced (C05); the slots
`maxPending` and the room in `eventInput` are left out (they only delay); the wait for a producer, during which jobs are taken too, is part of taking the event; interjections are left out; partitions are not revoked while the
process lives.
-/
namespace Verif.Keyed
open Verif.Scheduler (Job)
open Verif.Exact (App)

variable {K σ X : Type} [DecidableEq K]

/-- What is fixed: the capacity of `asyncJobs` and the configuration of the scheduler; the application, for one key; the records of each partition with their keys; which records are scheduled
(`streams/async_scheduler.go:120-210`, `streams/partition_worker.go:91-104`, `docs/asyncprocessing.md:50-58`). -/
structure Cfg (K σ X : Type) where
  sched : Scheduler.Config
  asyncSize : Nat
  app : App σ X
  src : Nat → List (K × X)
  async : K → X → Bool

/-- The process and what is durable. Workers are named by their goroutines. `streams/partition_worker.go:61-79`, `streams/async_scheduler.go:106-118`, `streams/state_store_consumer.go:46`. -/
structure W (K σ : Type) where
  sch : Scheduler.State K
  /-- `eventInput` -/
  evq : Nat → List (Job K)
  /-- `asyncJobs` -/
  jobs : Nat → List (Job K)
  /-- number of events so far -/
  next : Nat
  /-- the events of this process, in order, and the offset of each -/
  ev : Nat → List (Job K)
  off : Nat → Nat
  /-- the store -/
  st : Nat → K → σ
  /-- the completed events with what was produced for them, in that order -/
  prod : Nat → List (Job K × List Nat)
  /-- the number of events that are committed -/
  com : Nat → Nat
  /-- the offset at which this process started -/
  base : Nat → Nat
  /-- the visible records with the key of their event -/
  vis : Nat → List (K × Nat)

/-- The next offset, as the commit log has it (`streams/commit_log.go:84-95`). -/
def W.wm (w : W K σ) (p : Nat) : Nat := w.base p + w.com p

/-- The records of a key. The change log and the output are those of `streams/event_context.go:136-166`. -/
def ofKey (k : K) (l : List (K × Nat)) : List Nat := (l.filter fun r => decide (r.1 = k)).map Prod.snd

/-- A new process: the store is filled from the change log, work starts at the watermark (`streams/state_store_consumer.go:203-270`, `streams/partition_worker.go:217-218`, `streams/async_scheduler.go:172-210`). -/
def boot (c : Cfg K σ X) (vis : Nat → List (K × Nat)) (wm : Nat → Nat) : W K σ :=
  { sch := Scheduler.init c.sched, evq := fun _ => [], jobs := fun _ => [], next := 0, ev := fun _ => [], off := fun _ => 0
    st := fun p k => (ofKey k (vis p)).foldl c.app.apply c.app.s0
    prod := fun _ => [], com := fun _ => 0, base := wm, vis := vis }

/-- Changes the store of one key (`streams/stores/simple_store.go:60-80`). -/
def put (f : Nat → K → σ) (p : Nat) (k : K) (v : σ) : Nat → K → σ := fun p' k' => if p' = p ∧ k' = k then v else f p' k'

/-- The record of an event (`streams/event_context.go:105-117`). -/
def value (c : Cfg K σ X) (w : W K σ) (y : Job K) : Option X := ((c.src y.caller)[w.off y.id]?).map Prod.snd

/-- The application works on the record: it produces, and its changes go to the store as well (`streams/event_context.go:136-166`). The event is completed (`streams/partition_worker.go:258-263,313-316`). -/
def work (c : Cfg K σ X) (w : W K σ) (y : Job K) (x : X) : W K σ :=
  let rs := c.app.handle (w.st y.caller y.key) x
  { w with
    st := put w.st y.caller y.key (rs.foldl c.app.apply (w.st y.caller y.key))
    prod := Scheduler.upd w.prod y.caller (w.prod y.caller ++ [(y, rs)]) }

/-- What can happen. `streams/partition_worker.go:170-175,234-263`, `streams/async_scheduler.go:231-301`, `streams/eos_producer.go:359-405`. -/
inductive Act (K : Type) where
  /-- the next record of a partition becomes an event, `streams/partition_worker.go:170-175` -/
  | arrive (p : Nat)
  /-- the worker takes an event and calls the handler, `streams/partition_worker.go:235,301-316` -/
  | handle (p : Nat)
  /-- the worker takes a finished job and calls the finalizer, `streams/partition_worker.go:239,258-263` -/
  | job (p : Nat)
  /-- a step inside the scheduler, or its end, `streams/async_scheduler.go:231-397`, `streams/event_source.go:266,283` -/
  | inner (l : Scheduler.Label K)
  /-- the next `m` events of the partition are committed, `streams/eos_producer.go:359-405` -/
  | commit (p m : Nat)
  /-- the process dies and another one takes its place -/
  | crash

/-- One step, see `Act` for the places. `Schedule` of a scheduler that has ended returns `Complete` (`streams/async_scheduler.go:232-234`); `AsyncJobComplete` waits for room in `asyncJobs` (`streams/partition_worker.go:57-59`). -/
def step (c : Cfg K σ X) (w : W K σ) : Act K → Option (W K σ)
  | .arrive p =>
    match (c.src p)[w.base p + (w.ev p).length]? with
    | some (k, _) =>
      if c.sched.concurrency ≤ p then
        some { w with
          evq := Scheduler.upd w.evq p (w.evq p ++ [⟨k, p, w.next⟩])
          ev := Scheduler.upd w.ev p (w.ev p ++ [⟨k, p, w.next⟩])
          off := Scheduler.upd w.off w.next (w.base p + (w.ev p).length)
          next := w.next + 1 }
      else none
    | none => none
  | .handle p =>
    match w.sch.threads p, w.evq p with
    | .idle, y :: rest =>
      match value c w y with
      | some x =>
        if c.async y.key x = true then
          if w.sch.closed = true then some { w with evq := Scheduler.upd w.evq p rest, prod := Scheduler.upd w.prod p (w.prod p ++ [(y, [])]) }
          else (Scheduler.step w.sch (.call y)).map fun sch => { w with sch := sch, evq := Scheduler.upd w.evq p rest }
        else some (work c { w with evq := Scheduler.upd w.evq p rest } y x)
      | none => none
    | _, _ => none
  | .job p =>
    match w.sch.threads p, w.jobs p with
    | .idle, y :: rest =>
      match value c w y with
      | some x => some (work c { w with jobs := Scheduler.upd w.jobs p rest } y x)
      | none => none
    | _, _ => none
  | .inner l =>
    match l with
    | .call _ => none
    | .complete t =>
      match w.sch.threads t with
      | .wAdv _ y =>
        if (w.jobs y.caller).length < c.asyncSize then
          (Scheduler.step w.sch (.complete t)).map fun sch => { w with sch := sch, jobs := Scheduler.upd w.jobs y.caller (w.jobs y.caller ++ [y]) }
        else none
      | _ => none
    | l => (Scheduler.step w.sch l).map fun sch => { w with sch := sch }
  | .commit p m =>
    let es := ((w.ev p).drop (w.com p)).take m
    if w.com p + m ≤ (w.ev p).length ∧ ∀ y ∈ es, y ∈ (w.prod p).map Prod.fst then
      some { w with
        com := Scheduler.upd w.com p (w.com p + m)
        vis := Scheduler.upd w.vis p (w.vis p ++ ((w.prod p).filter fun e => decide (e.1 ∈ es)).flatMap fun e => e.2.map fun r => (e.1.key, r)) }
    else none
  | .crash => some (boot c w.vis w.wm)

/-- The first process (`streams/event_source.go:75-118`). -/
def init (c : Cfg K σ X) : W K σ := boot c (fun _ => []) (fun _ => 0)

/-- Some steps one after the other (same places, `streams/partition_worker.go:234-263`). -/
def run (c : Cfg K σ X) (w : W K σ) : List (Act K) → Option (W K σ)
  | [] => some w
  | x :: xs => (step c w x).bind fun w' => run c w' xs

/-- The handler is not called with a record for a scheduler that has ended (`streams/async_scheduler.go:232-234`). -/
def Open (w : W K σ) : Act K → Prop
  | .handle _ => w.sch.closed = false
  | _ => True

/-- What can come after a state (same places, `streams/partition_worker.go:234-263`); `P` restricts the steps. -/
inductive From (c : Cfg K σ X) (P : W K σ → Act K → Prop) (w0 : W K σ) : W K σ → Prop where
  | init : From c P w0 w0
  | step {w w' : W K σ} (x : Act K) : From c P w0 w → P w x → step c w x = some w' → From c P w0 w'

/-- Reachable states (same places, `streams/partition_worker.go:234-263`). -/
abbrev Reach (c : Cfg K σ X) (P : W K σ → Act K → Prop) (w : W K σ) : Prop := From c P (init c) w

end Verif.Keyed
