import Verif.Base
/-
The locks of a consumer: `workerMux` and `preppingMux` (`streams/source_consumer.go:35-36`), `statusLock` of the rebalancer (`streams/incr_rebalancer.go:247`), the
`mux` of `partitionedChangeLog` (`streams/partitioned_store.go:63`) and of `stateStoreConsumer` (`streams/state_store_consumer.go:199`), the goroutines that take them
and the `WaitGroup` of `ParseSyncAssignment` (`streams/incr_rebalancer.go:407-421`).

Simplifications: a goroutine is the list of what it still has to do with locks and other goroutines; everything else in between is left out, in particular what the
maps contain, so that both branches of each condition are possible at any time. The Kafka client calls `ParseSyncAssignment`, `JoinGroupMetadata` and the callbacks
for assignments and revocations one after the other (its group goroutine). `ForceRebalance` does not block. The send to `interjectionInput` under `workerMux` is the
subject of C69, here it goes through.
-/
namespace Verif.Locks

/-- The locks. `streams/source_consumer.go:35-36`, `streams/incr_rebalancer.go:247`, `streams/partitioned_store.go:63`, `streams/state_store_consumer.go:199`. -/
inductive Lock where
  | worker | prepping | status | stores | consumer
  deriving DecidableEq, Repr

/-- What goroutines do. `prepare known`, `forget known`, `synced` start goroutines (`streams/incr_rebalancer.go:401,413`, `streams/source_consumer.go:147`); `known`:
whether the partition is in `prepping` by then. `wait` is `wg.Wait()` (`streams/incr_rebalancer.go:421`). -/
inductive Instr where
  | lock (l : Lock)
  | unlock (l : Lock)
  | prepare (known : Bool)
  | forget (known : Bool)
  | synced
  | wait
  deriving DecidableEq, Repr

/-- The goroutine started by `PrepareTopicPartition`, after its synchronisation: `PartitionPrepared` (`streams/source_consumer.go:147-158`,
`streams/incr_rebalancer.go:295-301`). -/
def syncedProg : List Instr := [.lock .status, .unlock .status]

/-- `PrepareTopicPartition`, `streams/source_consumer.go:139-174`: `assign` (`streams/partitioned_store.go:77-91`), `preparePartition`
(`streams/state_store_consumer.go:284-290`) and the goroutine. -/
def prepareProg (known : Bool) : List Instr :=
  .lock .prepping :: ((if known then [] else [.lock .stores, .unlock .stores, .lock .consumer, .unlock .consumer, .synced]) ++ [.unlock .prepping])

/-- `ForgetPreparedTopicPartition`, `streams/source_consumer.go:177-188`, with `cancelPartition` (`streams/state_store_consumer.go:277-282`). -/
def forgetProg (known : Bool) : List Instr :=
  .lock .prepping :: ((if known then [.lock .consumer, .unlock .consumer] else []) ++ [.unlock .prepping])

/-- `Interject` and the first lines of `InterjectAll`, `receive`: `streams/source_consumer.go:258-261,289-311,318-320,337-339`. -/
def workerProg : List Instr := [.lock .worker, .unlock .worker]

/-- One iteration of the loop in `assignPartitions`, `streams/source_consumer.go:195-218`: `assign`, and `activatePartition` if the partition is neither prepared nor
has a worker. -/
def assignOne (activate : Bool) : List Instr :=
  [.lock .stores, .unlock .stores] ++ if activate then [.lock .consumer, .unlock .consumer] else []

/-- What the application does in a callback: so many calls of `Interject`. `streams/source.go:123-137`, `streams/event_source.go:313-315`. -/
def callback (calls : Nat) : List Instr := (List.replicate calls workerProg).flatten

/-- One iteration of the loop in `revokePartitions`, `streams/source_consumer.go:232-239`, with `revoke` of the stores (`streams/partitioned_store.go:93-101`).
`worker.revoke` takes no lock (`streams/partition_worker.go:129-131`). -/
def revokeOne (calls : Nat × Nat) : List Instr :=
  callback calls.1 ++ (.lock .stores :: (callback calls.2 ++ [.unlock .stores]))

/-- What the group goroutine of the Kafka client calls. `streams/source_consumer.go:191-251`, `streams/incr_rebalancer.go:365-465`. -/
inductive Job where
  /-- `JoinGroupMetadata` (`streams/incr_rebalancer.go:437-465`), `PartitionsAssigned` and others that take `statusLock` only -/
  | join
  /-- `ParseSyncAssignment` (`streams/incr_rebalancer.go:365-426`) with the instructions that start goroutines -/
  | parse (prepare forget : List Bool)
  /-- `assignPartitions` (`streams/source_consumer.go:190-223`) and the calls made by the callback -/
  | assign (activate : List Bool) (calls : Nat)
  /-- `revokePartitions` (`streams/source_consumer.go:225-242`): for each partition the calls made by `OnPartitionWillRevoke` and by the method `Revoked` of the
  store (`streams/partitioned_store.go:93-101`), then those made by `OnPartitionRevoked` -/
  | revoke (will : List (Nat × Nat)) (calls : Nat)
  deriving DecidableEq, Repr

/-- The programs of these (`streams/source_consumer.go:191-251`, `streams/incr_rebalancer.go:320-335,365-465`, `streams/partitioned_store.go:77-101`). The deferred
unlocks of `assignPartitions` come in the opposite order. -/
def Job.prog : Job → List Instr
  | .join => [.lock .status, .unlock .status]
  | .parse prep forg =>
    .lock .status :: (prep.map Instr.prepare ++ forg.map Instr.forget ++ (if forg = [] then [] else [.wait]) ++ [.unlock .status])
  | .assign act calls =>
    [.lock .worker, .lock .prepping] ++ (act.flatMap assignOne ++ ([.lock .status, .unlock .status] ++ (callback calls ++
      [.unlock .prepping, .unlock .worker])))
  | .revoke will calls =>
    [.lock .worker] ++ (will.flatMap revokeOne ++ (callback calls ++ [.unlock .worker]))

/-- Goroutines that can start at any time: `Interject`, `InterjectAll`, `receive`; `GracefullyLeaveGroup` (`streams/incr_rebalancer.go:342-351`); `stop` of the
state store consumer (`streams/state_store_consumer.go:300-306`). `worker n` takes `workerMux` so many times in turn (`streams/source_consumer.go:318-348`). -/
inductive Free where
  | worker (times : Nat)
  | status
  | consumer
  deriving DecidableEq, Repr

/-- Their programs (same places, `streams/source_consumer.go:258-348`, `streams/incr_rebalancer.go:342-351`, `streams/state_store_consumer.go:300-306`). -/
def Free.prog : Free → List Instr
  | .worker n => callback n
  | .status => [.lock .status, .unlock .status]
  | .consumer => [.lock .consumer, .unlock .consumer]

/-- A goroutine other than the group goroutine: what it still has to do, and whether the `WaitGroup` counts it (`streams/incr_rebalancer.go:408,415`). -/
structure Thr where
  prog : List Instr
  counted : Bool
  deriving DecidableEq, Repr

/-- The group goroutine, the others (those that are finished stay in the list), and who has which lock: `some none` is the group goroutine.
`streams/source_consumer.go:29-44`. -/
structure St where
  g : List Instr
  ts : List Thr
  own : Lock → Option (Option Nat)

/-- A consumer that has just been made (`streams/source_consumer.go:48-112`). -/
def St.init : St := ⟨[], [], fun _ => none⟩

/-- The rest of the program of a goroutine (no counterpart in the code; the goroutines of `streams/source_consumer.go:139-251`). -/
def St.prog (s : St) : Option Nat → List Instr
  | none => s.g
  | some i => ((s.ts[i]?).map Thr.prog).getD []

/-- A goroutine has done its next instruction (no counterpart in the code; the goroutines of `streams/source_consumer.go:139-251`). -/
def St.setProg (s : St) (who : Option Nat) (p : List Instr) : St :=
  match who with
  | none => { s with g := p }
  | some i => { s with ts := s.ts.set i ⟨p, ((s.ts[i]?).map Thr.counted).getD false⟩ }

/-- Assignment to a table (no counterpart in the code; locks of `streams/source_consumer.go:35-36`). -/
def setOwn (f : Lock → Option (Option Nat)) (l : Lock) (v : Option (Option Nat)) : Lock → Option (Option Nat) := fun k => if k = l then v else f k

/-- What can happen: a goroutine does its next instruction, the group goroutine begins a job, another goroutine starts. `streams/source_consumer.go:139-399`. -/
inductive Label where
  | run (who : Option Nat)
  | job (j : Job)
  | start (f : Free)
  deriving DecidableEq, Repr

/-- One instruction; `none`: the goroutine is blocked. `streams/source_consumer.go:139-251`, `streams/incr_rebalancer.go:365-426`. -/
def exec (s : St) (who : Option Nat) (r : List Instr) : Instr → Option St
  | .lock l => if s.own l = none then some { s.setProg who r with own := setOwn s.own l (some who) } else none
  | .unlock l => some { s.setProg who r with own := setOwn s.own l none }
  | .prepare k => some { s.setProg who r with ts := (s.setProg who r).ts ++ [⟨prepareProg k, false⟩] }
  | .forget k => some { s.setProg who r with ts := (s.setProg who r).ts ++ [⟨forgetProg k, true⟩] }
  | .synced => some { s.setProg who r with ts := (s.setProg who r).ts ++ [⟨syncedProg, false⟩] }
  | .wait => if s.ts.all (fun t => !t.counted || t.prog.isEmpty) then some (s.setProg who r) else none

/-- One step. See `Label` (`streams/source_consumer.go:139-399`). -/
def step (s : St) : Label → Option St
  | .run who =>
    match s.prog who with
    | [] => none
    | i :: r => exec s who r i
  | .job j => if s.g = [] then some { s with g := j.prog } else none
  | .start f => some { s with ts := s.ts ++ [⟨f.prog, false⟩] }

/-- Several steps (`streams/source_consumer.go:139-399`). -/
def run (s : St) : List Label → Option St
  | [] => some s
  | l :: ls => (step s l).bind fun s' => run s' ls

end Verif.Locks
