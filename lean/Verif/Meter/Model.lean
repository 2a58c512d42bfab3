import Verif.Eos.Model
/-
Model of the figures that the pool of transactional producers reports for a transaction (`clearState`,
`streams/eos_producer.go:394-430`) on top of the model of the pool, `Verif.Eos.Model`; and of the durations that are derived from the
times of a metric (`streams/metric.go:35-45`).

The clock is the wall clock of one process and does not go back (`time.Now` carries a monotonic reading). The send to the channel
`metrics` (411), which may block, is in `Verif.Metrics.Model`.
-/
namespace Verif.Meter
open Verif.Eos

/-- The `Metric` of a transaction, `streams/eos_producer.go:411-422`, `streams/metric.go:22-33`; `gen` names the transaction and is
not part of the metric; the constant fields (operation, topic, group, partition -1) are left out. -/
structure TxnMetric where
  gen : Nat
  start : Nat
  execute : Nat
  fin : Nat
  count : Nat
  bytes : Nat
  partitions : Nat
  deriving DecidableEq, Repr

/-- The pool (`streams/eos_producer.go:82-95`) with what its nodes measure (257, 265): `first` is `firstEvent`, `bytes` is `byteCount`,
`flying` are the records that a node's client was given and whose callback (521-535) has not run; `begun` is the local `commitStart` (360)
of the running `commit`, `parts` the local `partitionCount` (408). `on`: `metrics` is not nil. `metrics` are the values sent so far.
`arrivals` (history): the transaction of every event that was added, and when. -/
structure St where
  pool : Pool
  on : Bool
  now : Nat
  first : Nat → Nat
  bytes : Nat → Nat
  flying : List (Nat × Out)
  begun : Nat
  parts : Nat
  metrics : List TxnMetric
  arrivals : List (Nat × Nat)

/-- The state after `newEOSProducerPool`, `streams/eos_producer.go:97-133`, `280-293`, at time `t`. -/
def St.init (c : Cfg) (on : Bool) (t : Nat) : St :=
  { pool := Pool.init c, on := on, now := t, first := fun _ => 0, bytes := fun _ => 0, flying := [], begun := 0, parts := 0, metrics := [],
    arrivals := [] }

/-- What can happen: time passes; the client runs the callback of the `i`-th record in flight (`streams/eos_producer.go:521-523`); a step of
the pool. -/
inductive Act where
  | tick (d : Nat)
  | ack (i : Nat)
  | pool (l : Label)
  deriving DecidableEq, Repr

/-- The node whose client is given the records of a step, `streams/eos_producer.go:494-506` (the node of the event), `366` and `350` (the
node that is committed), `449-451` (the next node with the partition). -/
def sender (c : Cfg) (s : Pool) (l : Label) : Nat :=
  match l, s.com with
  | .produce e _, _ => (s.asg e.id).getD 0
  | .beginCommit _, .begun p => p
  | .wait, .fin p _ _ _ => p
  | .release, .relinq p (tp :: _) => ((ring c.poolSize p).find? fun q => (s.nodes q).has tp).getD p
  | _, _ => 0

/-- The records that a step gives to a client (`streams/eos_producer.go:514-535`). -/
def given (s s' : Pool) : List Out := s'.sent.drop s.sent.length

/-- The `Metric` that `clearState` builds for node `p`, `streams/eos_producer.go:411-422`. -/
def metricOf (s : St) (p : Nat) : TxnMetric :=
  { gen := s.pool.nodeGen p, start := s.first p, execute := s.begun, fin := s.now, count := (s.pool.nodes p).produceCnt,
    bytes := s.bytes p, partitions := s.parts }

/-- What a step of the pool does to the measures: 301-302 (`add`), 360 (`beginCommit`), 376 (`endTxn`: `Flush` returns when the node's client
has run all callbacks) and 408, 410-426 (the end of `clearState`). `streams/eos_producer.go:301-302`, `360`, `376-391`, `408-426`. -/
def note (s : St) (l : Label) : Option St :=
  match l, s.pool.com with
  | .add _, _ => some { s with
      first := if (s.pool.nodes s.pool.onDeck).cnt = 0 then upd s.first s.pool.onDeck s.now else s.first
      arrivals := s.arrivals ++ [(s.pool.gen, s.now)] }
  | .beginCommit _, .begun _ => some { s with begun := s.now }
  | .endTxn _, .fin p _ _ _ =>
    if s.flying.any (fun x => x.1 = p) then none else some { s with parts := (s.pool.nodes p).parts.length }
  | .release, .relinq p [] => some { s with
      metrics := if s.on ∧ 0 < (s.pool.nodes p).produceCnt then s.metrics ++ [metricOf s p] else s.metrics
      bytes := upd s.bytes p 0 }
  | _, _ => some s

/-- One step. `size` is `recordSize` (`streams/record.go:34-42`, modelled in `Verif.Record.Model`).
`streams/eos_producer.go:136-536`. -/
def step (c : Cfg) (size : Rec → Nat) (s : St) : Act → Option St
  | .tick d => some { s with now := s.now + d }
  | .ack i =>
    match s.flying[i]? with
    | some (p, o) => some { s with bytes := upd s.bytes p (s.bytes p + size o.r), flying := s.flying.eraseIdx i }
    | none => none
  | .pool l =>
    match Eos.step c s.pool l with
    | none => none
    | some pool' =>
      (note s l).map fun s1 => { s1 with
        pool := pool', flying := s1.flying ++ (given s.pool pool').map fun o => (sender c s.pool l, o) }

/-- Several steps (`streams/eos_producer.go:136-536`). -/
def run (c : Cfg) (size : Rec → Nat) (s : St) : List Act → Option St
  | [] => some s
  | l :: ls => (step c size s l).bind fun s' => run c size s' ls

/-- The states that can be reached if the error handler never answers `Continue` to a failed commit (`Continue` is
documented to lose data, `streams/error_handling.go:21-24`). -/
inductive Reach (c : Cfg) (size : Rec → Nat) (on : Bool) (t : Nat) : St → Prop where
  | init : Reach c size on t (St.init c on t)
  | step {s s' : St} (l : Act) :
      Reach c size on t s → l ≠ .pool (.commitFail true) → step c size s l = some s' → Reach c size on t s'

/-- `time.Time.Sub`: the difference in nanoseconds, limited to what an `int64` holds (used in `streams/metric.go:35-45`). A time is a number of
nanoseconds; the monotonic reading is left out. -/
def sub (a b : Int) : Int := if a - b < -2 ^ 63 then -2 ^ 63 else if 2 ^ 63 - 1 < a - b then 2 ^ 63 - 1 else a - b

/-- The times of a `Metric`, `streams/metric.go:22-33`; Go's zero time is 0. -/
structure Times where
  start : Int
  execute : Int
  fin : Int
  deriving DecidableEq, Repr

/-- `Duration`, `streams/metric.go:35-37`. -/
def Times.duration (m : Times) : Int := sub m.fin m.start

/-- `Linger`, `streams/metric.go:39-41`. -/
def Times.linger (m : Times) : Int := sub m.execute m.start

/-- `ExecuteDuration`, `streams/metric.go:43-45`. -/
def Times.executeDuration (m : Times) : Int := sub m.fin m.execute

/-- What `emitMetrics` does to the times before the handler gets the metric, `streams/event_source.go:137-139`. -/
def Times.handed (m : Times) : Times := if m.execute = 0 then { m with execute := m.start } else m

end Verif.Meter
