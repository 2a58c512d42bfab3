import Verif.Eos.Model
/-
The partition workers together with the pool of producers: who waits for whom.

The pool is the one of `Verif.Eos`. Of a worker (`streams/partition_worker.go`) the model has the goroutine that schedules events
(`pushRecords`: 171-174, 201-203), the two channels to the goroutine `work`, and that goroutine's `select` (234-245), the wait for a
producer (289-301), the handler, and the completion of events whose handler did not complete them.

Simplifications: workers are not revoked; the slots `maxPending` are left out (they only delay the arrival of events), and so is the
capacity of the pool's channel `buffer` (likewise); the records of a fetch and the interjections arrive one at a time.
-/
namespace Verif.Live
open Verif.Eos

/-- The pool and the capacity of a worker's channel `eventInput` (`streams/partition_worker.go:91,106`). -/
structure Cfg where
  pool : Eos.Cfg
  ecap : Nat

/-- The pool with the workers; a worker is named by its partition. The last group of fields is history. `streams/partition_worker.go:61-115`, `streams/eos_producer.go:82-134`, `246-294`. -/
structure Sys where
  pool : Pool
  /-- the channel `buffer`, `streams/eos_producer.go:86` -/
  buf : List Ev
  /-- what `pushRecords` is about to send to `work` (174, 203) -/
  putting : Nat → Option Ev
  /-- `eventInput` -/
  evq : Nat → List Ev
  /-- `interjectionEventInput`, capacity 1 -/
  ijq : Nat → List Ev
  /-- the event that `work` has taken from one of them -/
  cur : Nat → Option Ev
  /-- events whose handler returned without completing them -/
  pend : List Ev
  arrived : List Ev
  put : List Ev
  picked : List Ev
  handled : List Ev

/-- Initially nothing has arrived (`streams/partition_worker.go:81-116`, `streams/eos_producer.go:97-133`). -/
def Sys.init (c : Cfg) : Sys :=
  { pool := Pool.init c.pool, buf := [], putting := fun _ => none, evq := fun _ => [], ijq := fun _ => [], cur := fun _ => none, pend := [],
    arrived := [], put := [], picked := [], handled := [] }

/-- What can happen. Places in `streams/partition_worker.go:141-317` and `streams/eos_producer.go:136-536`, given at the constructors. -/
inductive Label where
  /-- `pushRecords` makes an event of a record (`off` is some) or an interjection and adds it to the pool's buffer
  (`streams/partition_worker.go:171-173,200-202`, `streams/eos_producer.go:136-138`) -/
  | arrive (e : Ev)
  /-- `streams/partition_worker.go:174,203` gets through -/
  | put (p : Nat)
  /-- the forwarding loop takes an event from the buffer, `streams/eos_producer.go:165,144-151` -/
  | forward
  /-- another step of the pool -/
  | pool (l : Eos.Label)
  /-- `streams/partition_worker.go:235` -/
  | pick (p : Nat)
  /-- `streams/partition_worker.go:237` -/
  | pickInter (p : Nat)
  /-- the producer has arrived (293) and the handler returns; `ok` if the event is complete (313-316, 277-281) -/
  | handle (p : Nat) (ok : Bool)
  /-- an event is completed later (258-263) -/
  | finish (e : Ev)
  deriving DecidableEq

/-- Steps of the pool that are not made by a worker. The goroutines of `streams/eos_producer.go:162-240`. -/
def ownStep : Eos.Label → Bool
  | .add _ => false
  | .complete _ => false
  | .commitFail true => false
  | _ => true

/-- One step, see `Label` for the places in the code. (`streams/partition_worker.go:141-317`, `streams/eos_producer.go:136-536`.) -/
def step (c : Cfg) (s : Sys) : Label → Option Sys
  | .arrive e =>
    if e.id ∈ s.arrived.map Ev.id ∨ s.putting e.part ≠ none then none
    else some { s with buf := s.buf ++ [e], putting := upd s.putting e.part (some e), arrived := s.arrived ++ [e] }
  | .put p =>
    match s.putting p with
    | some e =>
      if e.off = none then
        if (s.ijq p).length < 1 then
          some { s with putting := upd s.putting p none, ijq := upd s.ijq p (s.ijq p ++ [e]), put := s.put ++ [e] }
        else none
      else if (s.evq p).length < c.ecap then
        some { s with putting := upd s.putting p none, evq := upd s.evq p (s.evq p ++ [e]), put := s.put ++ [e] }
      else none
    | none => none
  | .forward =>
    match s.buf with
    | e :: buf => (Eos.step c.pool s.pool (.add e)).map fun pool => { s with pool := pool, buf := buf }
    | [] => none
  | .pool l => if ownStep l then (Eos.step c.pool s.pool l).map fun pool => { s with pool := pool } else none
  | .pick p =>
    match s.cur p, s.evq p with
    | none, e :: q => some { s with cur := upd s.cur p (some e), evq := upd s.evq p q, picked := s.picked ++ [e] }
    | _, _ => none
  | .pickInter p =>
    match s.cur p, s.ijq p with
    | none, e :: q => some { s with cur := upd s.cur p (some e), ijq := upd s.ijq p q, picked := s.picked ++ [e] }
    | _, _ => none
  | .handle p ok =>
    match s.cur p with
    | some e =>
      if s.pool.asg e.id = none then none
      else if ok then
        (Eos.step c.pool s.pool (.complete e)).map fun pool =>
          { s with pool := pool, cur := upd s.cur p none, handled := s.handled ++ [e] }
      else some { s with cur := upd s.cur p none, pend := s.pend ++ [e], handled := s.handled ++ [e] }
    | none => none
  | .finish e =>
    if e ∈ s.pend then (Eos.step c.pool s.pool (.complete e)).map fun pool => { s with pool := pool, pend := s.pend.erase e }
    else none

/-- A sequence of steps. Interleaving of the goroutines of `streams/partition_worker.go:141-317` and `streams/eos_producer.go:136-536`. -/
def run (c : Cfg) (s : Sys) : List Label → Option Sys
  | [] => some s
  | l :: ls => (step c s l).bind fun s' => run c s' ls

/-- The steps that happen by themselves as long as handlers return and Kafka accepts transactions. The flush timer (167) counts if
there is something to flush and room in the commit queue. (`streams/partition_worker.go:141-317`, `streams/eos_producer.go:136-536`.) -/
def internal (c : Cfg) (s : Sys) : Label → Bool
  | .arrive _ => false
  | .pool .tick => decide (0 < (s.pool.nodes s.pool.onDeck).cnt ∧ s.pool.cq.length < c.pool.pending)
  | .pool (.produce _ _) => false
  | .pool (.commitFail _) => false
  | .pool .asyncFail => false
  | _ => true

end Verif.Live
