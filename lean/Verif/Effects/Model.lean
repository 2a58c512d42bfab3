import Verif.Exact.Model
/-
All partitions of a consumer through any number of incarnations of the process, with handlers of any kind: they may keep several events of a
partition open at the same time, complete them in any order from other goroutines (asynchronous jobs), produce different records when an event is
handled again, and interjections may come at any time. On top of the pool of transactional producers (`Verif.Eos`).

`Verif.Exact.Model` has one partition, and handlers that complete their event before they return; in exchange it has the contents of the store.

Simplifications: the partitions stay assigned until the process dies; Kafka is external: a transaction that did not end is never visible, and a new
incarnation starts after the transactions of the old one have been resolved.
-/
namespace Verif.Effects
open Verif.Eos Verif.Exact

/-- An incarnation: the pool (`streams/eos_producer.go:82-95`) and, not looked at by any step, the records that the application has produced so
far, each with its event (`streams/event_context.go:136-163`). The pool gets the number of a record in this list instead of the record. -/
structure Inc where
  pool : Pool
  prods : List (Ev × Nat)

/-- The incarnations that have died, the current one, and for each partition the offsets that it has still to fetch
(`streams/partition_worker.go:161-180`). -/
structure World where
  past : List Inc
  cur : Inc
  next : Nat → List Nat

/-- A process that has just started (`streams/eos_producer.go:97-133`). -/
def Inc.start (c : Cfg) : Inc := ⟨Pool.init c, []⟩

/-- The watermark of a partition: the newest of its offset records in the commit log, which read-committed readers see in the order of the log
(`streams/commit_log.go:84-95,137-144`; the initial −1 behaves like 0). -/
def watermark (incs : List Inc) (tp : Nat) : Nat :=
  ((incs.flatMap fun i => offsets (committedOuts i.pool tp)).getLast?).getD 0

/-- A new incarnation starts each partition at its watermark (`streams/partition_worker.go:170,217`). `src` are the offsets of the records of the
source topic. -/
def boot (c : Cfg) (src : Nat → List Nat) (past : List Inc) : World :=
  { past := past, cur := Inc.start c, next := fun tp => (src tp).filter fun o => watermark past tp ≤ o }

/-- What can happen. `streams/source_consumer.go:118-251`, `streams/partition_worker.go:141-330`, `streams/eos_producer.go:136-536`. -/
inductive Act where
  /-- something in the pool, except the calls below; the completion of any event by any goroutine is among these -/
  | pool (l : Label)
  /-- the next record of a partition is added to the pool (`streams/partition_worker.go:170-174`, `streams/eos_producer.go:151`) -/
  | feed (tp id : Nat)
  /-- an interjection is added (`streams/partition_worker.go:193-204`) -/
  | interject (tp id : Nat)
  /-- the application produces a record for an event that it was given and has not completed (`streams/event_context.go:136-163`) -/
  | emit (e : Ev) (v : Nat)
  /-- the process dies and a new incarnation starts -/
  | crash
  deriving DecidableEq, Repr

/-- The steps of the pool that `Act.pool` stands for. The error handler does not answer `Continue` to a failed commit (`Continue` is documented
to lose data, `streams/error_handling.go:21-24`). -/
def internal : Label → Bool
  | .add _ => false
  | .produce _ _ => false
  | .commitFail cont => !cont
  | _ => true

/-- The step function; `none` means that the step is not possible. See `Act` (`streams/partition_worker.go:141-330`,
`streams/eos_producer.go:136-536`). -/
def step (c : Cfg) (src : Nat → List Nat) (w : World) : Act → Option World
  | .pool l =>
    if internal l then (Eos.step c w.cur.pool l).map fun p => { w with cur := { w.cur with pool := p } } else none
  | .feed tp id =>
    match w.next tp with
    | o :: rest => (Eos.step c w.cur.pool (.add ⟨id, tp, some o⟩)).map fun p =>
        { w with cur := { w.cur with pool := p }, next := upd w.next tp rest }
    | [] => none
  | .interject tp id =>
    (Eos.step c w.cur.pool (.add ⟨id, tp, none⟩)).map fun p => { w with cur := { w.cur with pool := p } }
  | .emit e v =>
    (Eos.step c w.cur.pool (.produce e w.cur.prods.length)).map fun p =>
      { w with cur := ⟨p, w.cur.prods ++ [(e, v)]⟩ }
  | .crash => some (boot c src (w.past ++ [w.cur]))

/-- A sequence of steps (same places, `streams/partition_worker.go:141-330`, `streams/eos_producer.go:136-536`). -/
def run (c : Cfg) (src : Nat → List Nat) (w : World) : List Act → Option World
  | [] => some w
  | a :: as => (step c src w a).bind fun w' => run c src w' as

/-- The states reached from the first start (same places, `streams/partition_worker.go:141-330`, `streams/eos_producer.go:136-536`). -/
inductive Reach (c : Cfg) (src : Nat → List Nat) : World → Prop where
  | init : Reach c src (boot c src [])
  | step {w w' : World} (a : Act) : Reach c src w → step c src w a = some w' → Reach c src w'

end Verif.Effects
