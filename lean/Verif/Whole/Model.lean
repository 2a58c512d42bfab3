import Verif.Fleet.Model
import Verif.Worker.Model
import Mathlib.Data.Nat.Pairing
/-
The parts put together: a group of consumers, each with all goroutines of its partition workers (`Verif.Worker`) and of its pool of transactional
producers (`Verif.Eos`), interleaved in every possible way. In `Verif.Worker` the pool is an environment that decides when events get a producer and
when they are finalized; in `Verif.Eos` and `Verif.Fleet` the workers are an environment that adds and completes events. Here each of these calls is a
step of both.

Simplifications: those of the parts. The channel `buffer` of the pool has the events of each worker in order; between workers any order is possible.
Kafka is external: a worker is sent the records of its partition from some offset on, in order, without gaps; that offset is not above the offset that
is read from the commit log (the offsets that are marked for the group's protocol are behind the commit log, C73; without them the client starts at the
beginning).
-/
namespace Verif.Whole
open Verif.Eos (Ev)
open Verif.Effects (Inc)
open Verif.Worker (PW It)

/-- `n`, `inst`, `dead` and `log` as in `Fleet.World` (`streams/source_consumer.go:60-115`, `streams/eos_producer.go:82-95`,
`streams/commit_log.go:76-95`). Consumer `k` has created `nw k` workers so far; `wks k j` is number `j` of these (`streams/partition_worker.go:61-79`),
`part k j` its partition, `start k j` where the fetches for it began. `cur k` is the map `workers` (`streams/source_consumer.go:39`). -/
structure Group where
  n : Nat
  inst : Nat → Inc
  dead : Nat → Bool
  log : Nat → List Nat
  nw : Nat → Nat
  wks : Nat → Nat → PW
  part : Nat → Nat → Nat
  start : Nat → Nat → Nat
  cur : Nat → Nat → Option Nat

/-- Nothing started, the commit log is empty (`streams/commit_log.go:39-61`). -/
def Group.init (c : Eos.Cfg) : Group :=
  { n := 0, inst := fun _ => Inc.start c, dead := fun _ => false, log := fun _ => [], nw := fun _ => 0, wks := fun _ _ => PW.init,
    part := fun _ _ => 0, start := fun _ _ => 0, cur := fun _ _ => none }

/-- The capacities of a worker: `maxPending` is what the pool says (`streams/partition_worker.go:101`, `streams/eos_producer.go:140-142`), `ecap` as
in `Worker.Cfg` (`streams/partition_worker.go:91,106`). -/
def wcfg (c : Eos.Cfg) (ecap : Nat) : Worker.Cfg := ⟨c.max * c.poolSize, ecap⟩

/-- The event context of a worker as the pool sees it (`streams/event_context.go:35-50,190-218`). Identities are those of the objects; an event is
known by its worker and its number there. -/
def Group.ev (w : Group) (k j : Nat) (it : It) : Ev := ⟨Nat.pair j it.id, w.part k j, it.off⟩

/-- The worker that made an event (`ec.revocationWaiter` and `ec.topicPartition` point there, `streams/event_context.go:190-218`). -/
def owner (e : Ev) : Nat := (Nat.unpair e.id).1

/-- The number of an event at its worker (`streams/event_context.go:190-218`). -/
def number (e : Ev) : Nat := (Nat.unpair e.id).2

/-- Consumer `k` has been started and has not died (`streams/source_consumer.go:60-115`). -/
def Group.alive (w : Group) (k : Nat) : Bool := k < w.n && !w.dead k

/-- The pool of consumer `k` goes on to `i`, see `Fleet.World.move` (`streams/eos_producer.go:136-536`). -/
def Group.move (w : Group) (k : Nat) (i : Inc) : Group :=
  { w with inst := Eos.upd w.inst k i, log := fun tp => w.log tp ++ Fleet.fresh (w.inst k).pool i.pool tp }

/-- Worker `j` of consumer `k` goes on to `s` (`streams/partition_worker.go:117-317`). -/
def Group.set (w : Group) (k j : Nat) (s : PW) : Group :=
  { w with wks := Eos.upd w.wks k (Eos.upd (w.wks k) j s) }

/-- What the workers of consumer `k` go on to (`streams/partition_worker.go:117-317`). -/
def Group.setAll (w : Group) (k : Nat) (f : Nat → PW) : Group := { w with wks := Eos.upd w.wks k f }

/-- What can happen in a worker without anything outside of it except the completion of its events; the other labels are steps of the group
protocol, of Kafka or of the pool, see `Act` (`streams/partition_worker.go:117-317`). -/
def own : Worker.Label → Bool
  | .offer _ => false
  | .ready _ => false
  | .revoke => false
  | .assign _ => false
  | .finalize _ => false
  | .root => false
  | _ => true

/-- The event that is completed by a step of a worker (`streams/partition_worker.go:258-263,277-281,313-316`). -/
def completes (s : PW) : Worker.Label → Option It
  | .ret true => match s.wk with
    | .run it => some it
    | _ => none
  | .job => match s.jobs with
    | (it, true) :: _ => some it
    | _ => none
  | _ => none

/-- The receive from `producerChan` (`streams/partition_worker.go:295`) finds what the pool has sent (`streams/eos_producer.go:147,153`). -/
def Group.ready (w : Group) (k j : Nat) : Worker.Label → Bool
  | .got => match (w.wks k j).wk with
    | .assign it => (w.wks k j).prod it.id != some true || ((w.inst k).pool.asg (Nat.pair j it.id)).isSome
    | _ => true
  | _ => true

/-- The first events of the partitions of a node (its events in the order of their arrival), with which the transaction entered the waiters of
their workers (`streams/eos_producer.go:308-321,397-398`). -/
def rootEvs (evs : List Ev) : List Ev := evs.foldl (fun acc e => if acc.any fun d => d.part = e.part then acc else acc ++ [e]) []

/-- `ec.revocationWaiter.Done()` of `finalizeEventContexts` (`streams/eos_producer.go:354`). -/
def finalized (cw : Worker.Cfg) (f : Nat → PW) (e : Ev) : Nat → PW :=
  Eos.upd f (owner e) ((Worker.step cw (f (owner e)) (.finalize (number e))).getD (f (owner e)))

/-- `ecs.root.revocationWaiter.Done()` for each partition of the node (`streams/eos_producer.go:397-398`). -/
def rooted (cw : Worker.Cfg) (f : Nat → PW) (es : List Ev) : Nat → PW :=
  es.foldl (fun f e => Eos.upd f (owner e) ((Worker.step cw (f (owner e)) .root).getD (f (owner e)))) f

/-- What can happen, always in a consumer `k` that is alive (`streams/source_consumer.go:118-266`, `streams/partition_worker.go:117-317`,
`streams/eos_producer.go:136-536`). -/
inductive Act where
  /-- another process starts (`streams/source_consumer.go:60-115`) -/
  | start
  /-- the partition is assigned and a worker is made; the client fetches from `from` on (`streams/source_consumer.go:189-216`) -/
  | assign (k tp «from» : Nat)
  /-- `streams/source_consumer.go:229-240` -/
  | revoke (k tp : Nat)
  /-- records from Kafka reach the worker, `streams/source_consumer.go:258-266`, `streams/partition_worker.go:121-127` -/
  | fetch (k j : Nat) (recs : List (Option Nat))
  /-- the worker starts, with the watermark of the commit log as read by this consumer (`streams/partition_worker.go:206-224`) -/
  | ready (k j : Nat) (wm : Int)
  /-- something in the worker (`streams/partition_worker.go:117-317`) -/
  | own (k j : Nat) (l : Worker.Label)
  /-- the pool takes the worker's next event from its channel (`streams/eos_producer.go:144-151,162-166`) -/
  | forward (k j : Nat)
  /-- the application produces a record for an event that it was given and has not completed (`streams/event_context.go:136-163`) -/
  | emit (k j : Nat) (it : It) (v : Nat)
  /-- one iteration of `streams/eos_producer.go:339-355`, or the next partition of 370 -/
  | wait (k : Nat)
  /-- `streams/eos_producer.go:376-398` -/
  | endTxn (k : Nat) (order : List Nat)
  /-- anything else in the pool (`streams/eos_producer.go:136-536`) -/
  | pool (k : Nat) (l : Eos.Label)
  /-- the process dies (external; named in `streams/source_consumer.go:60-115` only by being started again) -/
  | crash (k : Nat)
  deriving DecidableEq, Repr

/-- The steps of the pool that have no part in a worker (`streams/eos_producer.go:136-536`), see `Effects.internal`. -/
def poolOnly : Eos.Label → Bool
  | .add _ => false
  | .produce _ _ => false
  | .complete _ => false
  | .wait => false
  | .endTxn _ => false
  | .commitFail cont => !cont
  | _ => true

/-- The step function; `none` means that the step is not possible. `src` are the offsets of the records of the source topic. See `Act`
(`streams/source_consumer.go:118-266`, `streams/partition_worker.go:117-317`, `streams/eos_producer.go:136-536`). -/
def step (c : Eos.Cfg) (ecap : Nat) (src : Nat → List Nat) (w : Group) : Act → Option Group
  | .start => some { w with n := w.n + 1 }
  | .crash k => if w.alive k then some { w with dead := Eos.upd w.dead k true } else none
  | .assign k tp «from» =>
    if w.alive k ∧ w.cur k tp = none then some { w with
      nw := Eos.upd w.nw k (w.nw k + 1)
      part := Eos.upd w.part k (Eos.upd (w.part k) (w.nw k) tp)
      start := Eos.upd w.start k (Eos.upd (w.start k) (w.nw k) «from»)
      cur := Eos.upd w.cur k (Eos.upd (w.cur k) tp (some (w.nw k))) }
    else none
  | .revoke k tp =>
    if w.alive k then
      match w.cur k tp with
      | some j => (Worker.step (wcfg c ecap) (w.wks k j) .revoke).map fun s =>
          { w.set k j s with cur := Eos.upd w.cur k (Eos.upd (w.cur k) tp none) }
      | none => none
    else none
  | .fetch k j recs =>
    if w.alive k ∧ j < w.nw k ∧
        (((w.wks k j).fetched ++ recs).filterMap id).isPrefixOf ((src (w.part k j)).filter fun o => w.start k j ≤ o) then
      (Worker.step (wcfg c ecap) (w.wks k j) (.offer recs)).map fun s => w.set k j s
    else none
  | .ready k j wm =>
    if w.alive k ∧ j < w.nw k ∧ -1 ≤ wm ∧ wm.toNat ∈ 0 :: w.log (w.part k j) ∧ w.start k j ≤ wm.toNat then
      (Worker.step (wcfg c ecap) (w.wks k j) (.ready wm)).map fun s => w.set k j s
    else none
  | .own k j l =>
    if w.alive k ∧ j < w.nw k ∧ own l ∧ w.ready k j l then
      (Worker.step (wcfg c ecap) (w.wks k j) l).bind fun s =>
        match completes (w.wks k j) l with
        | none => some (w.set k j s)
        | some it => (Eos.step c (w.inst k).pool (.complete (w.ev k j it))).map fun p =>
            (w.set k j s).move k { w.inst k with pool := p }
    else none
  | .forward k j =>
    if w.alive k ∧ j < w.nw k then
      match (w.wks k j).buf with
      | it :: _ =>
        if (w.wks k j).revoked then
          if (w.inst k).pool.fwd = .idle then (Worker.step (wcfg c ecap) (w.wks k j) (.assign false)).map fun s => w.set k j s else none
        else
          (Eos.step c (w.inst k).pool (.add (w.ev k j it))).bind fun p =>
            (Worker.step (wcfg c ecap) (w.wks k j)
              (.assign (!((w.inst k).pool.nodes (w.inst k).pool.onDeck).has (w.part k j)))).map fun s =>
                (w.set k j s).move k { w.inst k with pool := p }
      | [] => none
    else none
  | .emit k j it v =>
    if w.alive k ∧ j < w.nw k ∧ ((w.wks k j).wk = .run it ∨ it ∈ (w.wks k j).pend) then
      (Eos.step c (w.inst k).pool (.produce (w.ev k j it) (w.inst k).prods.length)).map fun p =>
        w.move k ⟨p, (w.inst k).prods ++ [(w.ev k j it, v)]⟩
    else none
  | .wait k =>
    if w.alive k then
      (Eos.step c (w.inst k).pool .wait).map fun p =>
        match (w.inst k).pool.com with
        | .fin _ (e :: _) _ _ => (w.setAll k (finalized (wcfg c ecap) (w.wks k) e)).move k { w.inst k with pool := p }
        | _ => w.move k { w.inst k with pool := p }
    else none
  | .endTxn k order =>
    if w.alive k then
      (Eos.step c (w.inst k).pool (.endTxn order)).map fun p =>
        match (w.inst k).pool.com with
        | .fin q _ _ _ =>
          (w.setAll k (rooted (wcfg c ecap) (w.wks k) (rootEvs ((w.inst k).pool.nodes q).evs))).move k { w.inst k with pool := p }
        | _ => w.move k { w.inst k with pool := p }
    else none
  | .pool k l =>
    if w.alive k ∧ poolOnly l then (Eos.step c (w.inst k).pool l).map fun p => w.move k { w.inst k with pool := p } else none

/-- A sequence of steps (same places, `streams/partition_worker.go:117-317`, `streams/eos_producer.go:136-536`). -/
def run (c : Eos.Cfg) (ecap : Nat) (src : Nat → List Nat) (w : Group) : List Act → Option Group
  | [] => some w
  | a :: as => (step c ecap src w a).bind fun w' => run c ecap src w' as

/-- The states that can be reached (same places, `streams/partition_worker.go:117-317`, `streams/eos_producer.go:136-536`). -/
inductive Reach (c : Eos.Cfg) (ecap : Nat) (src : Nat → List Nat) : Group → Prop where
  | init : Reach c ecap src (Group.init c)
  | step {w w' : Group} (a : Act) : Reach c ecap src w → step c ecap src w a = some w' → Reach c ecap src w'

/-- The steps of the pool that happen by themselves as long as Kafka accepts transactions. The flush timer (167) counts if there is something to flush
and room in the commit queue. (`streams/eos_producer.go:136-536`.) -/
def runs (c : Eos.Cfg) (p : Eos.Pool) : Eos.Label → Bool
  | .add _ => false
  | .complete _ => false
  | .produce _ _ => false
  | .commitFail _ => false
  | .asyncFail => false
  | .tick => decide (0 < (p.nodes p.onDeck).cnt ∧ p.cq.length < c.pending)
  | _ => true

/-- What a worker does if handlers and asynchronous jobs come to an end and complete their events and there are no interjections
(`streams/partition_worker.go:117-317`). -/
def finishes : Worker.Label → Bool
  | .interject => false
  | .async _ complete => complete
  | _ => true

/-- What goes on in consumer `k` by itself, if handlers and asynchronous jobs come to an end and complete their events: not the group protocol, nothing
from Kafka, no interjections, no failures (`streams/partition_worker.go:141-317`, `streams/eos_producer.go:136-536`). -/
def internal (c : Eos.Cfg) (w : Group) (k : Nat) : Act → Bool
  | .ready k' _ _ => k' = k
  | .own k' _ l => k' = k && finishes l
  | .forward k' _ => k' = k
  | .wait k' => k' = k
  | .endTxn k' _ => k' = k
  | .pool k' l => k' = k && runs c (w.inst k).pool l
  | _ => false

/-- What may happen meanwhile: all steps of the other consumers, the start of consumers, in consumer `k` revocations and records that are produced
(`streams/source_consumer.go:60-115,229-240`, `streams/event_context.go:136-163`). -/
def aside (k : Nat) : Act → Bool
  | .start => true
  | .assign k' _ _ => k' ≠ k
  | .revoke _ _ => true
  | .fetch k' _ _ => k' ≠ k
  | .ready k' _ _ => k' ≠ k
  | .own k' _ _ => k' ≠ k
  | .forward k' _ => k' ≠ k
  | .emit _ _ _ _ => true
  | .wait k' => k' ≠ k
  | .endTxn k' _ => k' ≠ k
  | .pool k' _ => k' ≠ k
  | .crash k' => k' ≠ k

end Verif.Whole
