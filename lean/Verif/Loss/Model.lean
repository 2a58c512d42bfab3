import Verif.Meter.Model
/-
Records that the client cannot produce: what becomes of them, of their errors, and of their transaction. `produceKafkaRecord`
(`streams/eos_producer.go:514-535`), `commit` (359-392) and the commit loop (207-227) on top of the model of the pool, `Verif.Eos.Model`,
which assumes that every record given to the client ends up in its transaction.

Kafka's client is external. `Produce` ends every record once, with or without an error (too large, no such topic, not authorised, …);
`Flush` returns when all records of the client have ended, whatever the outcome; `EndTransaction` commits the records that were stored.
A failed `BeginTransaction` (326-334) is seen here as the failure of the records that follow; its own error is left out.
-/
namespace Verif.Loss
open Verif.Eos

/-- The capacity of `errorChannel`, `streams/eos_producer.go:104`. -/
def cap : Nat := 1024

/-- The pool (`streams/eos_producer.go:82-95`) with its `errorChannel` (`errs`, 89) and the clients of the nodes. A record is named by its
position among all records that were given to clients (`pool.sent`). `flying`: records whose callback has not run, with the node;
`stored` and `failed`: those that ended without and with an error; `dropped`: the errors that found the channel full (526-529); `told`: the errors that
the error handler was asked about (213, 217). -/
structure St where
  pool : Pool
  flying : List (Nat × Nat)
  stored : List Nat
  failed : List Nat
  errs : List Nat
  dropped : List Nat
  told : List Nat

/-- The state after `newEOSProducerPool`, `streams/eos_producer.go:97-133`. -/
def St.init (c : Cfg) : St := ⟨Pool.init c, [], [], [], [], [], []⟩

/-- What can happen: a step of the pool; the `i`-th record in flight ends, stored or not (`streams/eos_producer.go:521-535`); the commit loop receives
an error and the handler answers `Continue` or something else (213-224). -/
inductive Act where
  | pool (l : Label)
  | ends (i : Nat) (ok : Bool)
  | handle (cont : Bool)
  deriving DecidableEq, Repr

/-- The callback of a record, `streams/eos_producer.go:521-535`: an error is offered to the channel and dropped if it is full. -/
def ends (s : St) (i : Nat) (ok : Bool) : Option St :=
  match s.flying[i]? with
  | none => none
  | some (_, k) =>
    let s1 := { s with flying := s.flying.eraseIdx i }
    if ok then some { s1 with stored := s1.stored ++ [k] }
    else if s.errs.length < cap then some { s1 with failed := s1.failed ++ [k], errs := s1.errs ++ [k] }
    else some { s1 with failed := s1.failed ++ [k], dropped := s1.dropped ++ [k] }

/-- The commit loop takes an error from the channel, `streams/eos_producer.go:213-224`: it goes on after `Continue` and returns (or exits the process)
otherwise. -/
def handle (c : Cfg) (s : St) (cont : Bool) : Option St :=
  match s.pool.com, s.errs with
  | .idle, k :: errs =>
    let s1 := { s with errs := errs, told := s.told ++ [k] }
    if cont then some s1 else (Eos.step c s.pool .asyncFail).map fun p => { s1 with pool := p }
  | _, _ => none

/-- Whether `Flush` (`streams/eos_producer.go:376`) lets the commit go on: the client of the committing node has no records in flight. Other steps
do not wait. -/
def flushed (s : St) (l : Label) : Bool :=
  match l, s.pool.com with
  | .endTxn _, .fin p _ _ _ => !s.flying.any fun x => x.1 = p
  | _, _ => true

/-- One step, `streams/eos_producer.go:136-536`. Errors reach the loop only from the channel, so the pool's own `asyncFail` is replaced by `handle`. -/
def step (c : Cfg) (s : St) : Act → Option St
  | .pool l =>
    if l = .asyncFail ∨ flushed s l = false then none
    else (Eos.step c s.pool l).map fun p => { s with
      pool := p
      flying := s.flying ++ (List.range' s.pool.sent.length (Meter.given s.pool p).length).map fun k => (Meter.sender c s.pool l, k) }
  | .ends i ok => ends s i ok
  | .handle cont => handle c s cont

/-- Several steps (`streams/eos_producer.go:136-536`). -/
def run (c : Cfg) (s : St) : List Act → Option St
  | [] => some s
  | l :: ls => (step c s l).bind fun s' => run c s' ls

/-- The states that can be reached if the error handler never answers `Continue` to a failed commit (`Continue` is
documented to lose data, `streams/error_handling.go:21-24`). It may answer anything to the error of a record. -/
inductive Reach (c : Cfg) : St → Prop where
  | init : Reach c (St.init c)
  | step {s s' : St} (l : Act) : Reach c s → l ≠ .pool (.commitFail true) → step c s l = some s' → Reach c s'

end Verif.Loss
