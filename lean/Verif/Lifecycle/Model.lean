import Verif.Base
/-
The life of the stores of a consumer: `partitionedChangeLog` (`streams/partitioned_store.go:58-101`) and the operations
`PrepareTopicPartition`, `ForgetPreparedTopicPartition`, `assignPartitions`, `revokePartitions` of
`streams/source_consumer.go:139-244`.

Simplifications: partitions are natural numbers (one topic); stores and workers are numbered in the order of their creation;
each operation is one step (they hold `workerMux` or `preppingMux`; the map in `partitionedChangeLog` has its own lock); what a
synchronisation does is in `Verif/Sync`, here only the store that it feeds is kept; observers and metrics are left out.
-/
namespace Verif.Lifecycle

/-- What an outsider sees. Effects of `streams/source_consumer.go:118-316`. -/
inductive Ev where
  /-- the factory is called for a partition, `streams/partitioned_store.go:84` -/
  | created (st p : Nat)
  /-- `Revoked` is called on the store, `streams/partitioned_store.go:99` -/
  | revoked (st : Nat)
  /-- a worker of partition `p` handles an event with its store (`streams/partition_worker.go:303-317`) -/
  | handled (p st : Nat)
  /-- `populate` applies a record of the change log of `p` to the store (`streams/state_store_consumer.go:182`) -/
  | applied (p st : Nat)
  deriving DecidableEq

/-- A worker with its partition and the store it was made with (`streams/partition_worker.go:81-116`). -/
structure Worker where
  part : Nat
  store : Nat
  deriving DecidableEq

/-- `eventSourceConsumer`, `streams/source_consumer.go:38-58`: the parts that concern stores. -/
structure LC where
  /-- `partitionedChangeLog.data`, `streams/partitioned_store.go:60` -/
  data : Nat → Option Nat
  /-- `prepping`: the store that the preparation feeds -/
  prepping : Nat → Option Nat
  /-- `workers`: the number of the worker -/
  workers : Nat → Option Nat
  /-- all workers that were made; one that was revoked may still be handling an event -/
  all : List Worker
  /-- the goroutines `populate` that may still apply records: partition and store -/
  feeds : List (Nat × Nat)
  /-- number of stores made -/
  count : Nat
  /-- what happened -/
  trace : List Ev

/-- A consumer without partitions, `streams/source_consumer.go:60-112`. -/
def LC.init : LC := { data := fun _ => none, prepping := fun _ => none, workers := fun _ => none, all := [], feeds := [], count := 0, trace := [] }

/-- Assignment to a map entry (no counterpart in the code). Stands for the map writes of `streams/source_consumer.go:118-316`. -/
def put (f : Nat → Option Nat) (p : Nat) (v : Option Nat) : Nat → Option Nat := fun q => if q = p then v else f q

/-- `partitionedChangeLog.assign`, `streams/partitioned_store.go:77-91`: the store. -/
def storeAssign (s : LC) (p : Nat) : LC × Nat :=
  match s.data p with
  | some st => (s, st)
  | none => ({ s with data := put s.data p (some s.count), count := s.count + 1, trace := s.trace ++ [.created s.count p] }, s.count)

/-- `partitionedChangeLog.revoke`, `streams/partitioned_store.go:93-101`. -/
def storeRevoke (s : LC) (p : Nat) : LC :=
  match s.data p with
  | some st => { s with data := put s.data p none, trace := s.trace ++ [.revoked st] }
  | none => s

/-- `PrepareTopicPartition`, `streams/source_consumer.go:139-173`. -/
def prepare (s : LC) (p : Nat) : LC :=
  match s.prepping p with
  | some _ => s
  | none =>
    let (s, st) := storeAssign s p
    { s with prepping := put s.prepping p (some st), feeds := s.feeds ++ [(p, st)] }

/-- `ForgetPreparedTopicPartition`, `streams/source_consumer.go:177-188`. -/
def forget (s : LC) (p : Nat) : LC :=
  match s.prepping p with
  | some _ => { s with prepping := put s.prepping p none }
  | none => s

/-- One partition in `assignPartitions`, `streams/source_consumer.go:195-218`. -/
def assign1 (s : LC) (p : Nat) : LC :=
  let (s, st) := storeAssign s p
  match s.prepping p with
  | some _ => { s with prepping := put s.prepping p none, workers := put s.workers p (some s.all.length), all := s.all ++ [⟨p, st⟩] }
  | none =>
    match s.workers p with
    | some _ => s
    | none => { s with feeds := s.feeds ++ [(p, st)], workers := put s.workers p (some s.all.length), all := s.all ++ [⟨p, st⟩] }

/-- `assignPartitions`, `streams/source_consumer.go:190-223`. -/
def assign (s : LC) (ps : List Nat) : LC := ps.foldl assign1 s

/-- One partition in `revokePartitions`, `streams/source_consumer.go:232-239`. -/
def revoke1 (s : LC) (p : Nat) : LC := storeRevoke { s with workers := put s.workers p none } p

/-- `revokePartitions`, `streams/source_consumer.go:225-242`. -/
def revoke (s : LC) (ps : List Nat) : LC := ps.foldl revoke1 s

/-- What can happen. The callbacks of `streams/source_consumer.go:118-316`; places at the constructors. -/
inductive Op where
  | prepare (p : Nat)
  | forget (p : Nat)
  | assign (ps : List Nat)
  | revoke (ps : List Nat)
  /-- worker number `w`, revoked or not, handles an event -/
  | event (w : Nat)
  /-- the `populate` number `i` applies a record -/
  | apply (i : Nat)
  deriving DecidableEq

/-- One operation, see `Op` and the functions above for the places in the code. (`streams/source_consumer.go:118-316`.) -/
def step (s : LC) : Op → LC
  | .prepare p => prepare s p
  | .forget p => forget s p
  | .assign ps => assign s ps
  | .revoke ps => revoke s ps
  | .event w =>
    match s.all[w]? with
    | some x => { s with trace := s.trace ++ [.handled x.part x.store] }
    | none => s
  | .apply i =>
    match s.feeds[i]? with
    | some (p, st) => { s with trace := s.trace ++ [.applied p st] }
    | none => s

/-- A sequence of operations. The callbacks of `streams/source_consumer.go:118-316` one after the other. -/
def run (s : LC) (ops : List Op) : LC := ops.foldl step s

end Verif.Lifecycle
