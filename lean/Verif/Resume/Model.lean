import Mathlib.Tactic.Common
/-
Model of where the fetching of a partition starts: `adjustOffsetsBeforeAssign` (`streams/source_consumer.go:118-131`) with the copy of the commit log that
this process has read so far, the offset of the consumer group, and the worker that passes over what lies below the watermark.

One source partition, and one owner at a time whose transactions have ended when the next one comes (otherwise see C93 and C94). The client of the
group calls `adjustOffsetsBeforeAssign` when the partition is assigned, which may be before anything of the commit log was read: reading starts with
`ConsumeEvents`, joining with `NewEventSource` (`streams/source_consumer.go:91,270-272`). External (franz-go): without an offset of the group the client starts where
`ConsumeResetOffset` says, by default at the start of the partition; marked records are committed to the group from time to time.
-/
namespace Verif.Resume

/-- `atEnd`: the application gave the option `ConsumeResetOffset(NewOffset().AtEnd())` (additional options, `streams/source_consumer.go:81-83`); `marks` is
`shouldMarkCommit` (`streams/source.go:139-141`); `first` is the offset that the group had when the first event source began. -/
structure Cfg where
  atEnd : Bool
  marks : Bool
  first : Option Nat
  deriving DecidableEq, Repr

/-- The partition in this consumer: not assigned; assigned, the client fetches from `start` on, the worker waits for the commit log
(`streams/partition_worker.go:206-217`); or the worker works, with `highestOffset` (`streams/partition_worker.go:76,217,311`) and the next record to come. -/
inductive Phase where
  | none
  | assigned (start : Nat)
  | ready (hi : Int) (pos : Nat)
  deriving DecidableEq, Repr

/-- `size`: records in the source partition (external); `log`: the values in the commit log for this partition (`streams/commit_log.go:76-82`); `read`: how many of
them this process has read (`streams/commit_log.go:84-95`); `group`: the offset of the consumer group (external). History: `pend` records were handled,
`done` are in transactions that ended with success, `old` were handled by a traditional consumer of the group (`streams/source.go:65-74`);
`blind`: an assignment found neither commit log nor group offset although there were commits, and was sent to the end. -/
structure S where
  size : Nat
  log : List Nat
  read : Nat
  group : Option Nat
  phase : Phase
  pend : List Nat
  done : List Nat
  old : List Nat
  blind : Bool
  deriving DecidableEq, Repr

/-- Before the first event source starts (`streams/source_consumer.go:47-115`): `n` records. -/
def S.init (c : Cfg) (n : Nat) : S :=
  { size := n, log := [], read := 0, group := c.first, phase := .none, pend := [], done := [], old := [], blind := false }

/-- `Watermark`, `streams/commit_log.go:137-144`, of what was read. -/
def watermark (s : S) : Int :=
  match (s.log.take s.read).getLast? with
  | some v => v
  | none => -1

/-- The offset that the client passes to `adjustOffsetsBeforeAssign` (external, see above; the options are in `streams/source_consumer.go:70-90`). -/
def clientOffset (c : Cfg) (s : S) : Nat :=
  match s.group with
  | some g => g
  | none => if c.atEnd then s.size else 0

/-- The body of the loop in `adjustOffsetsBeforeAssign`, `streams/source_consumer.go:123-127`. -/
def adjust (wm : Int) (off : Nat) : Nat :=
  if wm > 0 then wm.toNat else off

/-- What can happen (`streams/source_consumer.go:118-131,189-240`, `streams/partition_worker.go:163-217`, `streams/eos_producer.go:339-406`). -/
inductive Act where
  /-- a record is appended to the source partition (external) -/
  | arrive
  /-- the commit log consumer of this process receives the next record, `streams/commit_log.go:84-95` -/
  | readLog
  /-- the partition is assigned, `streams/source_consumer.go:118-131,189-216` -/
  | assign
  /-- the worker has waited for its marker and starts, `streams/partition_worker.go:217-224`, `streams/commit_log.go:121-135` -/
  | ready
  /-- the worker gets the next record, `streams/partition_worker.go:163-180,309-311` -/
  | give
  /-- a transaction with the first `k` handled records ends with success, `streams/eos_producer.go:339-391`, `streams/commit_log.go:76-82` -/
  | commit (k : Nat)
  /-- the client commits a marked record to the group, `streams/source_consumer.go:85-87`, `streams/eos_producer.go:399-404` -/
  | autocommit (v : Nat)
  /-- the partition is revoked, `streams/source_consumer.go:229-240`; an open transaction is aborted or lost -/
  | revoke
  /-- the process ends and another one starts, which has read nothing of the commit log, `streams/source_consumer.go:47-115` -/
  | restart
  /-- a traditional consumer of the group has the partition for `n` records, and commits (external; `streams/source.go:65-74`) -/
  | foreign (n : Nat)
  deriving DecidableEq, Repr

/-- The step function (`streams/source_consumer.go:118-131,189-240`, `streams/partition_worker.go:163-217`, `streams/eos_producer.go:339-406`), see `Act`. -/
def step (c : Cfg) (s : S) : Act → Option S
  | .arrive => some { s with size := s.size + 1 }
  | .readLog => if s.read < s.log.length then some { s with read := s.read + 1 } else none
  | .assign =>
    match s.phase with
    | .none => some { s with
        phase := .assigned (adjust (watermark s) (clientOffset c s))
        blind := s.blind || (c.atEnd && s.group.isNone && s.read == 0 && s.log.length != 0) }
    | _ => none
  | .ready =>
    match s.phase with
    | .assigned st => if s.read = s.log.length then some { s with phase := .ready (watermark s) st } else none
    | _ => none
  | .give =>
    match s.phase with
    | .ready hi pos =>
      if pos < s.size then
        if hi ≤ (pos : Int) then some { s with phase := .ready (pos + 1 : Nat) (pos + 1), pend := s.pend ++ [pos] }
        else some { s with phase := .ready hi (pos + 1) }
      else none
    | _ => none
  | .commit k =>
    match (s.pend.take k).getLast? with
    | some o => some { s with log := s.log ++ [o + 1], done := s.done ++ s.pend.take k, pend := s.pend.drop k }
    | none => none
  | .autocommit v => if c.marks ∧ 0 < v ∧ v - 1 ∈ s.done then some { s with group := some v } else none
  | .revoke => some { s with phase := .none, pend := [] }
  | .restart => some { s with phase := .none, pend := [], read := 0 }
  | .foreign n =>
    if s.phase = .none ∧ clientOffset c s + n ≤ s.size then
      some { s with group := some (clientOffset c s + n), old := s.old ++ List.range' (clientOffset c s) n }
    else none

/-- A sequence of steps (`streams/source_consumer.go:118-131`). -/
def run (c : Cfg) (s : S) : List Act → Option S
  | [] => some s
  | a :: as => (step c s a).bind fun s' => run c s' as

/-- Traditional consumers have the partition only before the first commit of an event source: the migration is not undone
(`streams/source.go:65-74`). -/
def OneWay (s : S) : Act → Prop
  | .foreign _ => s.log = []
  | _ => True

/-- The states that can be reached with a migration that is not undone (`streams/source_consumer.go:118-131`, `streams/source.go:65-74`). -/
inductive Reach (c : Cfg) : S → Prop where
  | init (n : Nat) : (∀ g ∈ c.first, g ≤ n) → Reach c (S.init c n)
  | step {s s' : S} (a : Act) : Reach c s → OneWay s a → step c s a = some s' → Reach c s'

end Verif.Resume
