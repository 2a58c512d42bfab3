import Verif.Fleet.Spec
/-
A group of consumers (`Verif.Fleet`) whose handlers use the state store: they look at the store, change it and produce records, and complete their
event before they return. Each worker has its own store, which is restored from the change log when the partition is assigned.

Simplifications: as in `Verif.Fleet`; no asynchronous jobs and no interjections (with these the change log need not be in the order of the changes, see C80);
the store is restored in one step with the assignment, from the records that read-committed readers see then.
-/
namespace Verif.Replica
open Verif.Eos Verif.Effects Verif.Fleet

/-- The group and, for each consumer and partition, the store of its worker (`streams/partition_worker.go:68-70`), the channel `eventInput`
(`streams/partition_worker.go:66`), and the event being handled with the records still to be produced. `vis` are the records of the application for a
partition that read-committed readers see, in the order in which their transactions ended (output topics and change log, `streams/topics.go:117`). -/
structure W (σ : Type) where
  g : Fleet.World
  st : Nat → Nat → σ
  queue : Nat → Nat → List Ev
  cur : Nat → Nat → Option (Ev × List Nat)
  vis : Nat → List Nat

/-- Sets the entry of a consumer and partition (`workers`, `streams/source_consumer.go:206-216`). -/
def put {α : Type} (f : Nat → Nat → α) (k tp : Nat) (v : α) : Nat → Nat → α := upd f k (upd (f k) tp v)

/-- Before the first consumer starts (`streams/source_consumer.go:60-115`). -/
def W.init {σ X : Type} (c : Cfg) (a : Exact.App σ X) : W σ :=
  { g := Fleet.World.init c, st := fun _ _ => a.s0, queue := fun _ _ => [], cur := fun _ _ => none, vis := fun _ => [] }

/-- The records for a partition that became visible by a step of a consumer (`streams/eos_producer.go:385-391`). -/
def fresh (i i' : Inc) (tp : Nat) : List Nat := ((i'.seen tp).drop (i.seen tp).length).map Prod.snd

/-- The group goes on by a step of consumer `k` (`streams/eos_producer.go:136-536`). -/
def W.go {σ : Type} (w : W σ) (k : Nat) (g' : Fleet.World) : W σ :=
  { w with g := g', vis := fun tp => w.vis tp ++ fresh (w.g.inst k) (g'.inst k) tp }

/-- What can happen, always in a consumer `k` that is alive (`streams/source_consumer.go:118-251`, `streams/partition_worker.go:129-330`,
`streams/eos_producer.go:136-536`). -/
inductive Act where
  /-- another process starts -/
  | start
  /-- the partition is assigned; its worker starts with the store restored from the change log and at the newest offset record
  (`streams/source_consumer.go:189-216`, `streams/state_store_consumer.go:46`, `streams/partition_worker.go:206-221`) -/
  | assign (k tp : Nat)
  /-- the worker is revoked; it goes on with the events that it has added to the pool (`streams/partition_worker.go:129-131,237-247`) -/
  | revoke (k tp : Nat)
  /-- the worker's next record is added to the pool and to `eventInput` (`streams/partition_worker.go:170-175`) -/
  | feed (k tp id : Nat)
  /-- the worker takes the next event that got its producer and calls the handler (`streams/partition_worker.go:235,303-313`) -/
  | begin (k tp : Nat)
  /-- the handler produces its next record and changes the store accordingly (`streams/event_context.go:136-163`) -/
  | emit (k tp : Nat)
  /-- the handler returns `Complete` (`streams/partition_worker.go:313-315`) -/
  | finish (k tp : Nat)
  /-- something else in the pool -/
  | pool (k : Nat) (l : Label)
  /-- the process dies -/
  | crash (k : Nat)
  deriving DecidableEq, Repr

/-- A step of the pool other than the completion of an event, which is `Act.finish` (`streams/eos_producer.go:136-536`). -/
def other : Label → Bool
  | .complete _ => false
  | _ => true

/-- The step function; `src` are the offsets of the records of the source topic, `val` their contents. See `Act` (`streams/source_consumer.go:118-251`,
`streams/partition_worker.go:129-330`, `streams/eos_producer.go:136-536`). -/
def step {σ X : Type} (c : Cfg) (a : Exact.App σ X) (src : Nat → List Nat) (val : Nat → Nat → X) (w : W σ) : Act → Option (W σ)
  | .start => (Fleet.step c src w.g .start).map fun g' => { w with g := g' }
  | .assign k tp => (Fleet.step c src w.g (.assign k tp (w.g.wm tp))).map fun g' =>
      { w with g := g', st := put w.st k tp ((w.vis tp).foldl a.apply a.s0), queue := put w.queue k tp [], cur := put w.cur k tp none }
  | .revoke k tp => (Fleet.step c src w.g (.revoke k tp)).map fun g' => { w with g := g' }
  | .feed k tp id =>
    match w.g.work k tp with
    | some (o :: _) => (Fleet.step c src w.g (.feed k tp id)).map fun g' =>
        { w.go k g' with queue := put w.queue k tp (w.queue k tp ++ [⟨id, tp, some o⟩]) }
    | _ => none
  | .begin k tp =>
    if w.g.alive k then
      match w.cur k tp, w.queue k tp with
      | none, e :: q =>
        if ((w.g.inst k).pool.asg e.id).isSome then some { w with
          queue := put w.queue k tp q
          cur := put w.cur k tp (some (e, a.handle (w.st k tp) (val tp (e.off.getD 0)))) }
        else none
      | _, _ => none
    else none
  | .emit k tp =>
    match w.cur k tp with
    | some (e, y :: ys) => (Fleet.step c src w.g (.emit k e y)).map fun g' =>
        { w.go k g' with st := put w.st k tp (a.apply (w.st k tp) y), cur := put w.cur k tp (some (e, ys)) }
    | _ => none
  | .finish k tp =>
    match w.cur k tp with
    | some (e, []) => (Fleet.step c src w.g (.pool k (.complete e))).map fun g' => { w.go k g' with cur := put w.cur k tp none }
    | _ => none
  | .pool k l => if other l then (Fleet.step c src w.g (.pool k l)).map fun g' => w.go k g' else none
  | .crash k => (Fleet.step c src w.g (.crash k)).map fun g' => { w with g := g' }

/-- A sequence of steps (same places, `streams/partition_worker.go:129-330`, `streams/eos_producer.go:136-536`). -/
def run {σ X : Type} (c : Cfg) (a : Exact.App σ X) (src : Nat → List Nat) (val : Nat → Nat → X) (w : W σ) : List Act → Option (W σ)
  | [] => some w
  | x :: xs => (step c a src val w x).bind fun w' => run c a src val w' xs

/-- A worker starts only when no living consumer has a worker for the partition or open transactions with records of it (`Verif.Fleet.Orderly`; which hand-overs are
orderly is the subject of C12 and C97; `streams/source_consumer.go:189-240`). -/
def Orderly {σ : Type} (w : W σ) : Act → Prop
  | .assign _ tp => ∀ j, w.g.alive j = true → w.g.work j tp = none ∧ ¬ Busy (w.g.inst j) tp
  | _ => True

/-- The states of a group with orderly hand-overs (same places, `streams/partition_worker.go:129-330`, `streams/eos_producer.go:136-536`). -/
inductive Calm {σ X : Type} (c : Cfg) (a : Exact.App σ X) (src : Nat → List Nat) (val : Nat → Nat → X) : W σ → Prop where
  | init : Calm c a src val (W.init c a)
  | step {w w' : W σ} (x : Act) : Calm c a src val w → Orderly w x → step c a src val w x = some w' → Calm c a src val w'

end Verif.Replica
