import Verif.Eos.Model
/-
Model of the marking of records for the consumer group, `clearState` (`streams/eos_producer.go:394-406`), on top of the model of
the pool of transactional producers, `Verif.Eos.Model`.

With `SourceConfig.CommitOffsets` the consumer's client is told about every record of a transaction that ended with success
(`MarkCommitRecords`); the client commits the highest marked offset + 1 to the consumer group from time to time
(`kgo.AutoCommitMarks`, `streams/source_consumer.go:85-90`).
-/
namespace Verif.Marks
open Verif.Eos

/-- The pool (`streams/eos_producer.go:82-95`) and the calls of `MarkCommitRecords` so far, each with the partition and the
offset of its record. `on` is `shouldMarkCommit` (`streams/eos_producer.go:288`, `streams/source.go:139-141`). -/
structure St where
  pool : Pool
  on : Bool
  marks : List (Nat × Nat)

/-- The state after `newEOSProducerPool` (`streams/eos_producer.go:97-133,288`). -/
def St.init (c : Cfg) (on : Bool) : St := ⟨Pool.init c, on, []⟩

/-- The loop over the events of one partition, `streams/eos_producer.go:400-404`: from the tail of the list along `prev`,
leaving out interjections. -/
def marksOfPart (nd : Node) (tp : Nat) : List (Nat × Nat) :=
  (nd.chain tp).filterMap fun e => match e.off with
    | some o => some (e.part, o)
    | none => none

/-- The loop over `currentPartitions`, `streams/eos_producer.go:397-406`; `order` is the iteration order of the map. The call of
`revocationWaiter.Done` (398) is in `Verif.Worker.Model`. -/
def marksOf (on : Bool) (nd : Node) (order : List Nat) : List (Nat × Nat) :=
  order.flatMap fun tp => if on then marksOfPart nd tp else []

/-- One step of the pool. If `EndTransaction` succeeds (`streams/eos_producer.go:385-391`), the records are marked before the
partitions are relinquished (409); `order` is the iteration order of the map in line 397, which need not be the one of
line 446. The marks are made by the commit loop alone, so that nothing in between depends on them. -/
def step (c : Cfg) (s : St) (l : Label) (order : List Nat) : Option St :=
  match Eos.step c s.pool l with
  | none => none
  | some pool' =>
    match l, s.pool.com with
    | .endTxn _, .fin p _ _ _ =>
      if IsOrder order (s.pool.nodes p).parts then
        some { s with pool := pool', marks := s.marks ++ marksOf s.on (s.pool.nodes p) order }
      else none
    | _, _ => some { s with pool := pool' }

/-- A sequence of steps. Interleaving of the goroutines of `streams/eos_producer.go:136-536`. -/
def run (c : Cfg) (s : St) : List (Label × List Nat) → Option St
  | [] => some s
  | (l, o) :: ls => (step c s l o).bind fun s' => run c s' ls

/-- The states that can be reached if the error handler never answers `Continue` to a failed commit (`Continue` is
documented to lose data, `streams/error_handling.go:21-24`). -/
inductive Reach (c : Cfg) (on : Bool) : St → Prop where
  | init : Reach c on (St.init c on)
  | step {s s' : St} (l : Label) (order : List Nat) :
      Reach c on s → l ≠ .commitFail true → step c s l order = some s' → Reach c on s'

/-- What the client does with the marks of a partition: it keeps the highest offset + 1, starting from nothing, and commits it to
the group (`MarkCommitRecords` in franz-go, external; called in `streams/eos_producer.go:402`). Leader epochs are left out. -/
def groupOffset (marks : List (Nat × Nat)) (tp : Nat) : Option Nat :=
  marks.foldl (fun h m => if m.1 = tp then
    match h with
    | none => some (m.2 + 1)
    | some k => some (if k < m.2 + 1 then m.2 + 1 else k)
  else h) none

end Verif.Marks
