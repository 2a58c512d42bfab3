import Verif.Eos.Proofs
/-
One source partition through any number of incarnations of the process: the partition worker
(`streams/partition_worker.go`), the pool of transactional producers (`Verif.Eos`), and what read-committed readers see.

Simplifications: handlers complete their events before they return (no asynchronous jobs); the partition gets no
interjections; the worker stays assigned until the process dies. Kafka is external: a transaction that did not end is never
visible, and a new incarnation starts after the transactions of the old one have been resolved.
-/
namespace Verif.Exact
open Verif.Eos

/-- The application: the records a handler produces for an event (output and change-log records, `x : Nat` stands for topic,
key and value), and the effect of a change-log record on the store (`ReceiveChange`, `streams/state_store_consumer.go:46`; in the
handler the same change is made when the record is produced, `streams/event_context.go:150-163`). -/
structure App (S X : Type) where
  s0 : S
  handle : S → X → List Nat
  apply : S → Nat → S

/-- The process and the durable data of one source partition. `base` are the visible records of earlier incarnations, `wm` the
offset they committed. `st` is the local store, `next` the records still to be fetched, `queue` the channel `eventInput`
(`streams/partition_worker.go:66`), `cur` the event being handled with the records still to be produced. -/
structure World (S X : Type) where
  pool : Pool
  base : List Nat
  wm : Nat
  st : S
  next : List (Nat × X)
  queue : List (Ev × X)
  cur : Option (Ev × List Nat)

/-- The application's records among records (the change log and the output topics). Which records are the application's: `streams/event_context.go:136-166`, against the commit records of `streams/commit_log.go:76-82`. -/
def users (l : List Out) : List Nat :=
  l.filterMap fun o => match o.r with
    | .user x => some x
    | .commit _ _ => none

/-- The offsets among records (the commit log, `streams/commit_log.go:76-82`). -/
def offsets (l : List Out) : List Nat :=
  l.filterMap fun o => match o.r with
    | .user _ => none
    | .commit _ o => some o

/-- What read-committed readers see of a pool for the partition: the records of committed transactions. `streams/topics.go:117` sets read-committed; the records are those of `streams/eos_producer.go:359-392`, `494-536`. -/
def committedOuts (p : Pool) (tp : Nat) : List Out := p.sent.filter fun o => o.part = tp ∧ (o.gen, true) ∈ p.ended

/-- All visible records of the application. See `committedOuts` (`streams/eos_producer.go:359-392`, `494-536`). -/
def World.visible {S X : Type} (tp : Nat) (w : World S X) : List Nat := w.base ++ users (committedOuts w.pool tp)

/-- The watermark that the commit log shows: the newest record of the partition (`streams/commit_log.go:84-95,137-144`; the
initial −1 behaves like 0). -/
def World.watermark {S X : Type} (tp : Nat) (w : World S X) : Nat :=
  (offsets (committedOuts w.pool tp)).getLast?.getD w.wm

/-- A new incarnation: the store is restored from the change log (`streams/state_store_consumer.go`), the watermark read
(`lastProcessed`, `streams/partition_worker.go:217`), and records below it are skipped (`streams/partition_worker.go:170`). -/
def boot {S X : Type} (c : Cfg) (a : App S X) (src : List (Nat × X)) (base : List Nat) (wm : Nat) : World S X :=
  { pool := Pool.init c, base := base, wm := wm, st := base.foldl a.apply a.s0,
    next := src.filter fun r => wm ≤ r.1, queue := [], cur := none }

/-- What can happen. `streams/source_consumer.go:118-251`, `streams/partition_worker.go:141-317`, `streams/eos_producer.go:136-536`; details at the constructors. -/
inductive WLabel where
  /-- something in the pool that does not concern events of this partition -/
  | pool (l : Label)
  /-- the next record is added to the pool (`streams/partition_worker.go:170-174`, `streams/eos_producer.go:151`) -/
  | feed (id : Nat)
  /-- the worker takes the next event that got its producer (`streams/partition_worker.go:235,303-313`) -/
  | start
  /-- the handler produces a record and changes the store -/
  | emit
  /-- the handler returns `Complete` (`streams/partition_worker.go:313-315`) -/
  | finish
  /-- the process dies and a new incarnation starts -/
  | crash
  deriving DecidableEq, Repr

/-- A pool step that does not touch events of partition `tp`. A restriction on the steps of `streams/eos_producer.go:136-536`, no counterpart in the code. -/
def foreign (tp : Nat) : Label → Bool
  | .add e => e.part ≠ tp
  | .produce e _ => e.part ≠ tp
  | .complete e => e.part ≠ tp
  | .commitFail cont => !cont
  | _ => true

/-- One step of the process, see `WLabel` for the places in the code. (`streams/source_consumer.go:118-251`, `streams/partition_worker.go:141-317`, `streams/eos_producer.go:136-536`.) -/
def wstep {S X : Type} (c : Cfg) (a : App S X) (tp : Nat) (src : List (Nat × X)) (w : World S X) : WLabel → Option (World S X)
  | .pool l => if foreign tp l then (step c w.pool l).map fun p => { w with pool := p } else none
  | .feed id =>
    match w.next with
    | (o, x) :: next => (step c w.pool (.add ⟨id, tp, some o⟩)).map fun p =>
        { w with pool := p, next := next, queue := w.queue ++ [(⟨id, tp, some o⟩, x)] }
    | [] => none
  | .start =>
    match w.cur, w.queue with
    | none, (e, x) :: queue =>
      if (w.pool.asg e.id).isSome then some { w with queue := queue, cur := some (e, a.handle w.st x) } else none
    | _, _ => none
  | .emit =>
    match w.cur with
    | some (e, y :: ys) => (step c w.pool (.produce e y)).map fun p => { w with pool := p, st := a.apply w.st y, cur := some (e, ys) }
    | _ => none
  | .finish =>
    match w.cur with
    | some (e, []) => (step c w.pool (.complete e)).map fun p => { w with pool := p, cur := none }
    | _ => none
  | .crash => some (boot c a src (w.visible tp) (w.watermark tp))

/-- A sequence of steps. Interleaving of the steps of `wstep` (same places, `streams/source_consumer.go:118-251` …). -/
def wrun {S X : Type} (c : Cfg) (a : App S X) (tp : Nat) (src : List (Nat × X)) (w : World S X) : List WLabel → Option (World S X)
  | [] => some w
  | l :: ls => (wstep c a tp src w l).bind fun w' => wrun c a tp src w' ls

/-- The states reached from the first start. Reachability for `wstep` (same places, `streams/source_consumer.go:118-251` …). -/
inductive WReach {S X : Type} (c : Cfg) (a : App S X) (tp : Nat) (src : List (Nat × X)) : World S X → Prop where
  | init : WReach c a tp src (boot c a src [] 0)
  | step {w w' : World S X} (l : WLabel) : WReach c a tp src w → wstep c a tp src w l = some w' → WReach c a tp src w'

end Verif.Exact
