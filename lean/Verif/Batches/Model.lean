import Verif.Batcher.Model
import Verif.Keyed.Model
/-
Handlers that give their events to an `AsyncBatcher`, and what readers see of it (`docs/asyncprocessing.md:305-360`).

The batcher is the one of `Verif.Batcher`. Each record becomes a batch under its key with as many items as the application makes for it, none being possible ("adding an empty with the correct key set"); the callback of the batch works
on the store and produces. Added here are the records of the source and their offsets, `eventInput`, `asyncJobs`, the store (a state for each key), commits, and crashes.

Simplifications: as in `Verif.Keyed`: a transaction is what it is for one partition; `maxPending`, the room in `eventInput` and the wait for a producer are left out (they only delay); no interjections, no revocation. All items of a
batch have its key (`AddWithKey` is left out).
-/
namespace Verif.Batches
open Verif.Scheduler (Job)
open Verif.Exact (App)
open Verif.Keyed (ofKey put)

variable {K σ X : Type} [DecidableEq K]

/-- What is fixed: the limits of the batcher (`streams/async_batcher.go:173`); the capacity of `asyncJobs` (`streams/partition_worker.go:91-104`); the application, for one key; the records of each partition with their keys; how many
items are made for a record (`docs/asyncprocessing.md:315-321,353-358`). -/
structure Cfg (K σ X : Type) where
  maxSize : Nat
  conc : Nat
  asyncSize : Nat
  app : App σ X
  src : Nat → List (K × X)
  parts : K → X → Nat

/-- The process and what is durable (`streams/partition_worker.go:61-79`, `streams/async_batcher.go:159-168`, `streams/state_store_consumer.go:46`). -/
structure W (K σ : Type) where
  bat : Batcher.State K
  /-- `eventInput` -/
  evq : Nat → List (Job K)
  /-- `asyncJobs` -/
  jobs : Nat → List (Job K)
  /-- number of events so far -/
  next : Nat
  /-- the events of this process, in order, and the offset of each -/
  ev : Nat → List (Job K)
  off : Nat → Nat
  /-- the event of a batch, `streams/async_batcher.go:51` -/
  evt : Nat → Option (Job K)
  /-- the store -/
  st : Nat → K → σ
  /-- the completed events with what was produced for them, in that order -/
  prod : Nat → List (Job K × List Nat)
  /-- the number of events that are committed -/
  com : Nat → Nat
  /-- the offset at which this process started -/
  base : Nat → Nat
  /-- the visible records with the key of their event -/
  vis : Nat → List (K × Nat)

/-- The next offset, as the commit log has it (`streams/commit_log.go:84-95`). -/
def W.wm (w : W K σ) (p : Nat) : Nat := w.base p + w.com p

/-- A new process: the store is filled from the change log, work starts at the watermark (`streams/state_store_consumer.go:203-270`, `streams/partition_worker.go:217-218`, `streams/async_batcher.go:173-192`). -/
def boot (c : Cfg K σ X) (vis : Nat → List (K × Nat)) (wm : Nat → Nat) : W K σ :=
  { bat := Batcher.init K c.maxSize c.conc, evq := fun _ => [], jobs := fun _ => [], next := 0, ev := fun _ => [], off := fun _ => 0, evt := fun _ => none
    st := fun p k => (ofKey k (vis p)).foldl c.app.apply c.app.s0
    prod := fun _ => [], com := fun _ => 0, base := wm, vis := vis }

/-- The record of an event (`streams/event_context.go:105-117`). -/
def value (c : Cfg K σ X) (w : W K σ) (y : Job K) : Option X := ((c.src y.caller)[w.off y.id]?).map Prod.snd

/-- The batch that the handler makes for an event (`streams/async_batcher.go:61-67,91-101`, `docs/asyncprocessing.md:316`). -/
def batchOf (c : Cfg K σ X) (y : Job K) (x : X) : Batcher.Batch K := ⟨y.id, y.key, List.replicate (c.parts y.key x) y.key⟩

/-- The callback works on the record: it produces, and its changes go to the store as well (`streams/event_context.go:136-166`). The event is completed (`streams/partition_worker.go:258-263`). -/
def work (c : Cfg K σ X) (w : W K σ) (y : Job K) (x : X) : W K σ :=
  let rs := c.app.handle (w.st y.caller y.key) x
  { w with
    st := put w.st y.caller y.key (rs.foldl c.app.apply (w.st y.caller y.key))
    prod := Scheduler.upd w.prod y.caller (w.prod y.caller ++ [(y, rs)]) }

/-- What can happen. `streams/partition_worker.go:170-175,234-263`, `streams/async_batcher.go:195-311`, `streams/eos_producer.go:359-405`. -/
inductive Act (K : Type) where
  /-- the next record of a partition becomes an event, `streams/partition_worker.go:170-175` -/
  | arrive (p : Nat)
  /-- the worker takes an event and calls the handler, which calls `Add`, `streams/partition_worker.go:235,301-316`, `streams/async_batcher.go:195` -/
  | handle (p : Nat)
  /-- the worker takes a finished job and calls the callback, `streams/partition_worker.go:239,258-263` -/
  | job (p : Nat)
  /-- a step of the batcher: an item is added, a timer fires, a batch is executed, `streams/async_batcher.go:218-311` -/
  | inner (l : Batcher.Label K)
  /-- the next `m` events of the partition are committed, `streams/eos_producer.go:359-405` -/
  | commit (p m : Nat)
  /-- the process dies and another one takes its place -/
  | crash

/-- One step, see `Act` for the places. The worker is free when its call of `Add` is over. `AsyncJobComplete` waits for room in `asyncJobs` (`streams/async_batcher.go:84-88,283`, `streams/partition_worker.go:57-59`). -/
def step (c : Cfg K σ X) (w : W K σ) : Act K → Option (W K σ)
  | .arrive p =>
    match (c.src p)[w.base p + (w.ev p).length]? with
    | some (k, _) =>
      some { w with
        evq := Scheduler.upd w.evq p (w.evq p ++ [⟨k, p, w.next⟩])
        ev := Scheduler.upd w.ev p (w.ev p ++ [⟨k, p, w.next⟩])
        off := Scheduler.upd w.off w.next (w.base p + (w.ev p).length)
        evt := Scheduler.upd w.evt w.next (some ⟨k, p, w.next⟩)
        next := w.next + 1 }
    | none => none
  | .handle p =>
    match w.bat.adders p, w.evq p with
    | [], y :: rest =>
      match value c w y with
      | some x => (Batcher.step w.bat (.call p (batchOf c y x))).map fun b => { w with bat := b, evq := Scheduler.upd w.evq p rest }
      | none => none
    | _, _ => none
  | .job p =>
    match w.bat.adders p, w.jobs p with
    | [], y :: rest =>
      match value c w y with
      | some x => some (work c { w with jobs := Scheduler.upd w.jobs p rest } y x)
      | none => none
    | _, _ => none
  | .inner l =>
    match l with
    | .call _ _ => none
    | l =>
      match Batcher.step w.bat l with
      | some b =>
        match b.called.drop w.bat.called.length with
        | [] => some { w with bat := b }
        | i :: _ =>
          match w.evt i with
          | some y =>
            if (w.jobs y.caller).length < c.asyncSize then some { w with bat := b, jobs := Scheduler.upd w.jobs y.caller (w.jobs y.caller ++ [y]) }
            else none
          | none => none
      | none => none
  | .commit p m =>
    let es := ((w.ev p).drop (w.com p)).take m
    if w.com p + m ≤ (w.ev p).length ∧ ∀ y ∈ es, y ∈ (w.prod p).map Prod.fst then
      some { w with
        com := Scheduler.upd w.com p (w.com p + m)
        vis := Scheduler.upd w.vis p (w.vis p ++ ((w.prod p).filter fun e => decide (e.1 ∈ es)).flatMap fun e => e.2.map fun r => (e.1.key, r)) }
    else none
  | .crash => some (boot c w.vis w.wm)

/-- The first process (`streams/event_source.go:75-118`). -/
def init (c : Cfg K σ X) : W K σ := boot c (fun _ => []) (fun _ => 0)

/-- Some steps one after the other (same places, `streams/partition_worker.go:234-263`). -/
def run (c : Cfg K σ X) (w : W K σ) : List (Act K) → Option (W K σ)
  | [] => some w
  | x :: xs => (step c w x).bind fun w' => run c w' xs

/-- What can come after a state (same places, `streams/partition_worker.go:234-263`). -/
inductive From (c : Cfg K σ X) (w0 : W K σ) : W K σ → Prop where
  | init : From c w0 w0
  | step {w w' : W K σ} (x : Act K) : From c w0 w → step c w x = some w' → From c w0 w'

/-- Reachable states (same places, `streams/partition_worker.go:234-263`). -/
abbrev Reach (c : Cfg K σ X) (w : W K σ) : Prop := From c (init c) w

end Verif.Batches
