import Verif.Backlog.Model
import Verif.Exact.Model
/-
Several `AsyncJobScheduler`s one after the other, as in `docs/asyncprocessing.md`, examples 2 to 4: the handler schedules the event on the first one, the finalizer of each schedules it on the next one, the last one returns
`Complete`. All of them give their finished jobs to the same channel of the worker, and the worker calls the handler and all finalizers.

Places of an event are numbered: the handler is 0, the finalizer of the `i`-th scheduler is `i + 1`. At each place the application may work on the store and produce.

Simplifications: as in `Verif.Keyed`: a transaction is what it is for one partition; `maxPending`, the room in `eventInput` and the wait for a producer are left out (they only delay); no interjections, no revocation.
-/
namespace Verif.Stages
open Verif.Scheduler (Job)

variable {K σ X : Type} [DecidableEq K]

/-- What is fixed: the number of schedulers and their configurations; the capacity of `asyncJobs`; the records of each partition with their keys; through how many schedulers the records of a key go; the state of a key, what is
produced at a place, and what a change does (`streams/async_scheduler.go:120-210`, `streams/partition_worker.go:91-104`, `docs/asyncprocessing.md:89-303`). -/
structure Cfg (K σ X : Type) where
  scheds : Nat
  sched : Nat → Scheduler.Config
  asyncSize : Nat
  src : Nat → List (K × X)
  n : K → Nat
  s0 : σ
  handle : Nat → σ → X → List Nat
  apply : σ → Nat → σ

/-- The process and what is durable (`streams/partition_worker.go:61-79`, `streams/async_scheduler.go:106-118`, `streams/state_store_consumer.go:46`). -/
structure W (K σ : Type) where
  sch : Nat → Scheduler.State K
  /-- `eventInput` -/
  evq : Nat → List (Job K)
  /-- `asyncJobs`, with the number of the scheduler -/
  jobs : Nat → List (Nat × Job K)
  /-- number of events so far -/
  next : Nat
  /-- the events of this process, in order, and the offset of each -/
  ev : Nat → List (Job K)
  off : Nat → Nat
  /-- the store -/
  st : Nat → K → σ
  /-- what was produced, for which event and at which place, in that order -/
  prod : Nat → List (Nat × Job K × List Nat)
  /-- the completed events -/
  dn : Nat → List (Job K)
  /-- the number of events that are committed -/
  com : Nat → Nat
  /-- the offset at which this process started -/
  base : Nat → Nat
  /-- the visible records with the key of their event -/
  vis : Nat → List (K × Nat)

/-- The next offset, as the commit log has it (`streams/commit_log.go:84-95`). -/
def W.wm (w : W K σ) (p : Nat) : Nat := w.base p + w.com p

/-- The records of a key. The change log and the output are those of `streams/event_context.go:136-166`. -/
def ofKey (k : K) (l : List (K × Nat)) : List Nat := (l.filter fun r => decide (r.1 = k)).map Prod.snd

/-- A new process: the store is filled from the change log, work starts at the watermark (`streams/state_store_consumer.go:203-270`, `streams/partition_worker.go:217-218`, `streams/async_scheduler.go:172-210`). -/
def boot (c : Cfg K σ X) (vis : Nat → List (K × Nat)) (wm : Nat → Nat) : W K σ :=
  { sch := fun i => Scheduler.init (c.sched i), evq := fun _ => [], jobs := fun _ => [], next := 0, ev := fun _ => [], off := fun _ => 0
    st := fun p k => (ofKey k (vis p)).foldl c.apply c.s0
    prod := fun _ => [], dn := fun _ => [], com := fun _ => 0, base := wm, vis := vis }

/-- Changes the store of one key (`streams/stores/simple_store.go:60-80`). -/
def put (f : Nat → K → σ) (p : Nat) (k : K) (v : σ) : Nat → K → σ := fun p' k' => if p' = p ∧ k' = k then v else f p' k'

/-- The record of an event (`streams/event_context.go:105-117`). -/
def value (c : Cfg K σ X) (w : W K σ) (y : Job K) : Option X := ((c.src y.caller)[w.off y.id]?).map Prod.snd

/-- The application works on the record at a place: it produces, and its changes go to the store as well (`streams/event_context.go:136-166`). -/
def work (c : Cfg K σ X) (w : W K σ) (i : Nat) (y : Job K) (x : X) : W K σ :=
  let rs := c.handle i (w.st y.caller y.key) x
  { w with
    st := put w.st y.caller y.key (rs.foldl c.apply (w.st y.caller y.key))
    prod := Scheduler.upd w.prod y.caller (w.prod y.caller ++ [(i, y, rs)]) }

/-- The event is completed (`streams/partition_worker.go:258-263,313-316`). -/
def finish (w : W K σ) (y : Job K) : W K σ := { w with dn := Scheduler.upd w.dn y.caller (w.dn y.caller ++ [y]) }

/-- The end of the handler or finalizer at a place: the event is scheduled on the next scheduler (`docs/asyncprocessing.md:260-273`), whose `Schedule` returns `Complete` if it has ended and `Incomplete` otherwise
(`streams/async_scheduler.go:231-243`), or is completed. -/
def pass (c : Cfg K σ X) (w : W K σ) (i : Nat) (y : Job K) : Option (W K σ) :=
  if i < c.n y.key then
    if (w.sch i).closed = true then some (finish w y)
    else (Scheduler.step (w.sch i) (.call y)).map fun s => { w with sch := Scheduler.upd w.sch i s }
  else some (finish w y)

/-- The worker is in none of the schedulers: it can take the next event or job (`streams/partition_worker.go:234-241`, `streams/async_scheduler.go:244-279`). -/
def free (c : Cfg K σ X) (w : W K σ) (p : Nat) : Bool := (List.range c.scheds).all fun i => decide ((w.sch i).threads p = .idle)

/-- What can happen. `streams/partition_worker.go:170-175,234-263`, `streams/async_scheduler.go:231-301`, `streams/eos_producer.go:359-405`. -/
inductive Act (K : Type) where
  /-- the next record of a partition becomes an event, `streams/partition_worker.go:170-175` -/
  | arrive (p : Nat)
  /-- the worker takes an event and calls the handler, `streams/partition_worker.go:235,301-316` -/
  | handle (p : Nat)
  /-- the worker takes a finished job and calls the finalizer, `streams/partition_worker.go:239,258-263` -/
  | job (p : Nat)
  /-- a step inside a scheduler, or its end, `streams/async_scheduler.go:231-397`, `streams/event_source.go:266,283` -/
  | inner (i : Nat) (l : Scheduler.Label K)
  /-- the next `m` events of the partition are committed, `streams/eos_producer.go:359-405` -/
  | commit (p m : Nat)
  /-- the process dies and another one takes its place -/
  | crash

/-- One step, see `Act` for the places. `AsyncJobComplete` waits for room in `asyncJobs` (`streams/partition_worker.go:57-59`). -/
def step (c : Cfg K σ X) (w : W K σ) : Act K → Option (W K σ)
  | .arrive p =>
    match (c.src p)[w.base p + (w.ev p).length]? with
    | some (k, _) =>
      if (List.range c.scheds).all (fun i => decide ((c.sched i).concurrency ≤ p)) then
        some { w with
          evq := Scheduler.upd w.evq p (w.evq p ++ [⟨k, p, w.next⟩])
          ev := Scheduler.upd w.ev p (w.ev p ++ [⟨k, p, w.next⟩])
          off := Scheduler.upd w.off w.next (w.base p + (w.ev p).length)
          next := w.next + 1 }
      else none
    | none => none
  | .handle p =>
    match free c w p, w.evq p with
    | true, y :: rest =>
      match value c w y with
      | some x => pass c (work c { w with evq := Scheduler.upd w.evq p rest } 0 y x) 0 y
      | none => none
    | _, _ => none
  | .job p =>
    match free c w p, w.jobs p with
    | true, (i, y) :: rest =>
      match value c w y with
      | some x => pass c (work c { w with jobs := Scheduler.upd w.jobs p rest } (i + 1) y x) (i + 1) y
      | none => none
    | _, _ => none
  | .inner i l =>
    match l with
    | .call _ => none
    | .complete t =>
      match (w.sch i).threads t with
      | .wAdv _ y =>
        if (w.jobs y.caller).length < c.asyncSize then
          (Scheduler.step (w.sch i) (.complete t)).map fun s => { w with sch := Scheduler.upd w.sch i s, jobs := Scheduler.upd w.jobs y.caller (w.jobs y.caller ++ [(i, y)]) }
        else none
      | _ => none
    | l => (Scheduler.step (w.sch i) l).map fun s => { w with sch := Scheduler.upd w.sch i s }
  | .commit p m =>
    let es := ((w.ev p).drop (w.com p)).take m
    if w.com p + m ≤ (w.ev p).length ∧ ∀ y ∈ es, y ∈ w.dn p then
      some { w with
        com := Scheduler.upd w.com p (w.com p + m)
        vis := Scheduler.upd w.vis p (w.vis p ++ ((w.prod p).filter fun e => decide (e.2.1 ∈ es)).flatMap fun e => e.2.2.map fun r => (e.2.1.key, r)) }
    else none
  | .crash => some (boot c w.vis w.wm)

/-- The first process (`streams/event_source.go:75-118`). -/
def init (c : Cfg K σ X) : W K σ := boot c (fun _ => []) (fun _ => 0)

/-- Some steps one after the other (same places, `streams/partition_worker.go:234-263`). -/
def run (c : Cfg K σ X) (w : W K σ) : List (Act K) → Option (W K σ)
  | [] => some w
  | x :: xs => (step c w x).bind fun w' => run c w' xs

/-- Neither the handler nor a finalizer is called after a scheduler has ended (`streams/async_scheduler.go:232-234`). -/
def Open (w : W K σ) : Act K → Prop
  | .handle _ => ∀ i, (w.sch i).closed = false
  | .job _ => ∀ i, (w.sch i).closed = false
  | _ => True

/-- What can come after a state (same places, `streams/partition_worker.go:234-263`); `P` restricts the steps. -/
inductive From (c : Cfg K σ X) (P : W K σ → Act K → Prop) (w0 : W K σ) : W K σ → Prop where
  | init : From c P w0 w0
  | step {w w' : W K σ} (x : Act K) : From c P w0 w → P w x → step c w x = some w' → From c P w0 w'

/-- Reachable states (same places, `streams/partition_worker.go:234-263`). -/
abbrev Reach (c : Cfg K σ X) (P : W K σ → Act K → Prop) (w : W K σ) : Prop := From c P (init c) w

end Verif.Stages
