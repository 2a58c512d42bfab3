import Verif.Effects.Model
/-
A group of consumers that are alive at the same time. Each is a process with its own pool of transactional producers (`Verif.Eos`) and with
workers for some partitions; partitions are assigned, taken away and assigned again, also to a consumer that had them before; consumers start and
die at any time. Handlers are of any kind (`Verif.Effects.Model`). All consumers write their offsets to one commit log.

Nothing in the model keeps two consumers from having a worker for the same partition, nor a worker from starting at an old offset record: which of
these can happen is decided by the group protocol (external), and by the reading of the commit log (`Verif.Handover`, `Verif.Sync`). The theorems
that need it say so.

Simplifications: Kafka is external: a transaction that did not end is never visible. The offset records of a partition are listed in the order of the
commits of their transactions. In the commit log they are in the order in which they were sent; this can only differ if transactions with events of
the same partition are open in two consumers.
-/
namespace Verif.Fleet
open Verif.Eos Verif.Exact Verif.Effects

/-- `n` consumers have been started (`streams/source_consumer.go:60-115`), `dead` tells which of them have died. `inst` is the pool of a consumer
(`streams/eos_producer.go:82-95`) with the records of its application. `work k tp` is the worker of consumer `k` for partition `tp`: the offsets that
it has still to fetch (`streams/partition_worker.go:61-115`, `streams/source_consumer.go:206-216`). `log tp` are the offset records of the partition
that read-committed readers see (`streams/commit_log.go:76-95`). -/
structure World where
  n : Nat
  inst : Nat → Inc
  dead : Nat → Bool
  work : Nat → Nat → Option (List Nat)
  log : Nat → List Nat

/-- Nothing started, the commit log is empty (`streams/commit_log.go:39-61`). -/
def World.init (c : Cfg) : World :=
  { n := 0, inst := fun _ => Inc.start c, dead := fun _ => false, work := fun _ _ => none, log := fun _ => [] }

/-- What can happen, always in a consumer `k` that is alive. `streams/source_consumer.go:118-251`, `streams/partition_worker.go:129-330`,
`streams/eos_producer.go:136-536`. -/
inductive Act where
  /-- another process starts -/
  | start
  /-- the worker for the partition starts after its marker has come back, at the offset that was read from the commit log: some offset record, or the
  beginning if none was read (`streams/source_consumer.go:189-216`, `streams/partition_worker.go:206-221`) -/
  | assign (k tp x : Nat)
  /-- the worker is revoked; what it has added to the pool stays there (`streams/partition_worker.go:129-131`, `streams/eos_producer.go:144-151`) -/
  | revoke (k tp : Nat)
  /-- the worker's next record is added to the pool (`streams/partition_worker.go:170-174`, `streams/eos_producer.go:151`) -/
  | feed (k tp id : Nat)
  /-- an interjection is added (`streams/partition_worker.go:193-204`) -/
  | interject (k tp id : Nat)
  /-- the application produces a record for an event that it was given and has not completed (`streams/event_context.go:136-163`) -/
  | emit (k : Nat) (e : Ev) (v : Nat)
  /-- something in the pool, completion of events included -/
  | pool (k : Nat) (l : Label)
  /-- the process dies -/
  | crash (k : Nat)
  deriving DecidableEq, Repr

/-- The offset records that have become visible by a step of a pool (`streams/eos_producer.go:385-391`, `streams/commit_log.go:84-95`). -/
def fresh (p p' : Pool) (tp : Nat) : List Nat := (offsets (committedOuts p' tp)).drop (offsets (committedOuts p tp)).length

/-- Consumer `k` goes on to `i` (a step of its pool, `streams/eos_producer.go:136-536`). -/
def World.move (w : World) (k : Nat) (i : Inc) : World :=
  { w with inst := upd w.inst k i, log := fun tp => w.log tp ++ fresh (w.inst k).pool i.pool tp }

/-- Sets the worker of a consumer for a partition (`workers`, `streams/source_consumer.go:206-216,229-240`). -/
def World.setWork (w : World) (k tp : Nat) (v : Option (List Nat)) : World :=
  { w with work := upd w.work k (upd (w.work k) tp v) }

/-- Consumer `k` has been started and has not died (`streams/source_consumer.go:60-115`). -/
def World.alive (w : World) (k : Nat) : Bool := k < w.n && !w.dead k

/-- The step function; `none` means that the step is not possible. `src` are the offsets of the records of the source topic. See `Act`
(`streams/source_consumer.go:118-251`, `streams/partition_worker.go:129-330`, `streams/eos_producer.go:136-536`). -/
def step (c : Cfg) (src : Nat → List Nat) (w : World) : Act → Option World
  | .start => some { w with n := w.n + 1 }
  | .assign k tp x =>
    if w.alive k ∧ w.work k tp = none ∧ x ∈ 0 :: w.log tp then some (w.setWork k tp (some ((src tp).filter fun o => x ≤ o))) else none
  | .revoke k tp => if w.alive k then some (w.setWork k tp none) else none
  | .feed k tp id =>
    if w.alive k then
      match w.work k tp with
      | some (o :: rest) => (Eos.step c (w.inst k).pool (.add ⟨id, tp, some o⟩)).map fun p =>
          (w.move k { w.inst k with pool := p }).setWork k tp (some rest)
      | _ => none
    else none
  | .interject k tp id =>
    if w.alive k ∧ w.work k tp ≠ none then
      (Eos.step c (w.inst k).pool (.add ⟨id, tp, none⟩)).map fun p => w.move k { w.inst k with pool := p }
    else none
  | .emit k e v =>
    if w.alive k then
      (Eos.step c (w.inst k).pool (.produce e (w.inst k).prods.length)).map fun p => w.move k ⟨p, (w.inst k).prods ++ [(e, v)]⟩
    else none
  | .pool k l =>
    if w.alive k ∧ internal l then (Eos.step c (w.inst k).pool l).map fun p => w.move k { w.inst k with pool := p } else none
  | .crash k => if w.alive k then some { w with dead := upd w.dead k true } else none

/-- A sequence of steps (same places, `streams/partition_worker.go:129-330`, `streams/eos_producer.go:136-536`). -/
def run (c : Cfg) (src : Nat → List Nat) (w : World) : List Act → Option World
  | [] => some w
  | a :: as => (step c src w a).bind fun w' => run c src w' as

/-- The states of a group of consumers (same places, `streams/partition_worker.go:129-330`, `streams/eos_producer.go:136-536`). -/
inductive Reach (c : Cfg) (src : Nat → List Nat) : World → Prop where
  | init : Reach c src (World.init c)
  | step {w w' : World} (a : Act) : Reach c src w → step c src w a = some w' → Reach c src w'

end Verif.Fleet
