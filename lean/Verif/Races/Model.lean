import Mathlib.Tactic.Common
/-
Shared fields, locks and goroutines: which accesses can happen at the same time.

A goroutine is the list of its accesses to shared fields and of what it does with locks, in the order of the code; everything else is left out, so that both branches of a condition are
possible at any time. Any number of goroutines may run any of the functions, except that functions which are only executed by one goroutine begin and end with its token (`loop`, a lock without
counterpart in the code).

Not modelled: fields that are handed from goroutine to goroutine through channels (event contexts, `onDeck`, the items of an executor of the batcher; for the fields of a producer node see
`Verif.Nodes`) and fields that are written only before the goroutines start.
-/
namespace Verif.Races

/-- The locks: of the consumer (`streams/source_consumer.go:35-36`), the rebalancer (`streams/incr_rebalancer.go:247`), the stores (`streams/partitioned_store.go:63`), the state store consumer and its
partitions (`streams/state_store_consumer.go:199,58`), the commit log (`streams/commit_log.go:29-30`), the owners and the producer nodes (`streams/eos_producer.go:35,262-264`), the batcher
(`streams/async_batcher.go:167`), the job scheduler (`streams/async_scheduler.go:115-116`), MSK (`msk/cluster.go:73`). `loop` is the token of the commit loop (`streams/eos_producer.go:131`). -/
inductive Lock where
  | worker | prepping | status | stores | consumer | waiter | marks | syncs | owners
  | commit (n : Nat) | part (n : Nat) | produce (n : Nat) | loop
  | batcher | sched | update | msk
  deriving DecidableEq, Repr

/-- The fields. `sets`: `preparing` and `ready`; `member`: `memberStatus` and `leaveTime` (`streams/incr_rebalancer.go:242-245`); `counts`: `count` and `byteCount`, `state`
(`streams/state_store_consumer.go:55-57`); `parts n`, `produceCnt n`: of producer node `n` (`streams/eos_producer.go:256,259`); `batches`: `assignments`, `pendingItems`, `executingCount` and the states of the
executors (`streams/async_batcher.go:161-164,127`); `channel`: `workerChannel` (`streams/async_scheduler.go:112`); `options`: `builtOptions` (`msk/cluster.go:72`). The others have the names of the code. -/
inductive Field where
  | workers | prepping | sets | member | stores | buffer | counts | state | waiters | watermarks | pendingSyncs | owners
  | parts (n : Nat) | produceCnt (n : Nat) | batches | workerMap | maxKeys | depth | channel | options | ready | highestOffset
  deriving DecidableEq, Repr

/-- A plain read, a plain write or an operation of `sync/atomic`, such as in `streams/state_store_consumer.go:115,123,187`. -/
inductive Acc where
  | read | write | atomic
  deriving DecidableEq, Repr

/-- What goroutines do; `rlock` is `RLock` of a `RWMutex` (`streams/eos_producer.go:444`, `streams/async_scheduler.go:369`). -/
inductive Instr where
  | lock (l : Lock)
  | unlock (l : Lock)
  | rlock (l : Lock)
  | runlock (l : Lock)
  | acc (f : Field) (a : Acc)
  deriving DecidableEq, Repr

/-- A goroutine: the locks it holds (`true`: exclusively) and what it still does (`streams/source_consumer.go:139-266` and the other functions below). -/
structure Thread where
  held : List (Lock × Bool)
  rest : List Instr
  deriving DecidableEq, Repr

/-! ### The functions -/

/-- `l.Lock(); …; l.Unlock()`, as in `streams/commit_log.go:90-92`. -/
def within (l : Lock) (is : List Instr) : List Instr := .lock l :: is ++ [.unlock l]

/-- `partitionedChangeLog.assign` and `revoke`, `streams/partitioned_store.go:77-101`. -/
def storesProg : List Instr := within .stores [.acc .stores .read, .acc .stores .write]

/-- `prep`, `streams/state_store_consumer.go:130-144`. -/
def prepProg : List Instr := [.acc .state .atomic, .acc .counts .write, .acc .buffer .write]

/-- `cancel`, `streams/state_store_consumer.go:83-86` with `66-81`. -/
def cancelProg : List Instr := [.acc .state .atomic, .acc .buffer .read, .acc .buffer .write]

/-- `addWaiter` and `removeWaiterForMark`, `streams/state_store_consumer.go:88-106`. -/
def waiterProg : List Instr := within .waiter [.acc .waiters .read, .acc .waiters .write]

/-- What `assignPartitions` does with one partition: it was prepared, it gets a worker without preparation, or it has one. `streams/source_consumer.go:195-218`. -/
inductive Branch where
  | prepared | fresh | kept
  deriving DecidableEq, Repr

/-- One iteration in `assignPartitions`, `streams/source_consumer.go:195-218`. -/
def assignOne : Branch → List Instr
  | .prepared => storesProg ++ [.acc .prepping .read, .acc .prepping .write, .acc .workers .write]
  | .fresh => storesProg ++ [.acc .prepping .read, .acc .workers .read] ++ within .consumer prepProg ++ [.acc .workers .write]
  | .kept => storesProg ++ [.acc .prepping .read, .acc .workers .read]

/-- One iteration in `revokePartitions`, `streams/source_consumer.go:232-239`. -/
def revokeOne (known : Bool) : List Instr := .acc .workers .read :: (if known then [.acc .workers .write] else []) ++ storesProg

/-- `partitionOwners`: `owned` reads, the others read and write, `streams/eos_producer.go:38-62`. -/
def ownersProg (w : Bool) : List Instr := within .owners (.acc .owners .read :: if w then [.acc .owners .write] else [])

/-- `enqueueWorker`, `streams/async_scheduler.go:365-372`. -/
def enqueueProg : List Instr := [.rlock .update, .acc .channel .read, .runlock .update]

/-- `relinquishOwnership` of node `n` looks at another node `m` for a partition, `streams/eos_producer.go:448-457`. -/
def lookAt (m : Nat) : List Instr := within (.produce m) (.acc (.parts m) .read :: ownersProg true)

/-- `relinquishOwnership`, `streams/eos_producer.go:442-467`: each partition is looked for in the first nodes (`tps`: in how many). -/
def relinquish (n : Nat) (others tps : List Nat) : List Instr :=
  (others.map fun m => Instr.rlock (.part m)) ++ (tps.map fun k => ((others.take k).map lookAt).flatten ++ ownersProg true ++ [.acc (.parts n) .write]).flatten ++
    (others.map fun m => Instr.runlock (.part m))

/-- The functions, with the branches they take; places at `prog`. (`streams/source_consumer.go:139-348` and others.) -/
inductive Fn where
  | receive
  | interject
  | allPartitions
  | assign (bs : List Branch)
  | revoke (ks : List Bool)
  | prepare (known : Bool)
  | prepared
  | forget (known : Bool)
  | syncStore
  | populate (ends : Bool) (changes : Nat)
  | consume (sends : Bool)
  | stopConsumer
  | partitionPrepared
  | leave
  | parseSync
  | userData
  | offset
  | mark
  | watermark
  | syncMarks
  | addEvent (n : Nat)
  | tryFlush (n : Nat)
  | produce (n : Nat)
  | commit (n : Nat) (others : List Nat) (tps : List Nat) (ok : Bool)
  | conditionallyUpdate
  | batcher
  | schedule (waits : Nat) (created : Bool)
  | work (again : Bool)
  | setMaxKeys (more : Bool)
  | setDepth
  | mskConfig
  | push
  | handle
  | ready
  deriving DecidableEq, Repr

/-- What each function does with locks and fields; the places are at each function, the first is `streams/source_consumer.go:139-348`. -/
def prog : Fn → List Instr
  -- `receive`, `streams/source_consumer.go:258-262`
  | .receive => within .worker [.acc .workers .read]
  -- `interject`, `streams/source_consumer.go:289-316`
  | .interject => within .worker [.acc .workers .read, .acc .ready .atomic]
  -- `forEachChangeLogPartitionSync`, `…Async`, `streams/source_consumer.go:319-321,335-337`
  | .allPartitions => within .worker [.acc .workers .read]
  -- `assignPartitions`, `streams/source_consumer.go:190-223`, with `PartitionsAssigned`, `streams/incr_rebalancer.go:320-335`
  | .assign bs => within .worker (within .prepping ((bs.map assignOne).flatten ++ within .status [.acc .sets .write]))
  -- `revokePartitions`, `streams/source_consumer.go:225-242`
  | .revoke ks => within .worker (ks.map revokeOne).flatten
  -- `PrepareTopicPartition`, `streams/source_consumer.go:139-174`
  | .prepare known => within .prepping (.acc .prepping .read :: if known then [] else storesProg ++ within .consumer prepProg ++ [.acc .prepping .write])
  -- its goroutine, `streams/source_consumer.go:147-172`: `sync`, `processed`, `PartitionPrepared`
  | .prepared => waiterProg ++ [.acc .counts .atomic] ++ within .status [.acc .sets .write] ++ [.acc .counts .atomic]
  -- `ForgetPreparedTopicPartition`, `streams/source_consumer.go:177-188`, with `cancelPartition`, `streams/state_store_consumer.go:277-282`
  | .forget known => within .prepping (.acc .prepping .read :: if known then within .consumer cancelProg ++ [.acc .prepping .write] else [])
  -- `sync` in the function that a worker waits for, `streams/source_consumer.go:205-208`, `streams/state_store_consumer.go:108-112`
  | .syncStore => waiterProg
  -- `populate`, `streams/state_store_consumer.go:165-192`: some changes, then a mark that ends the synchronisation or one that does not (`isCompletionMarker`, 146-163)
  | .populate ends changes => .acc .buffer .read :: List.replicate changes (.acc .counts .atomic) ++ waiterProg ++ .acc .state .atomic :: if ends then cancelProg else []
  -- a partition in `consume`, `streams/state_store_consumer.go:263-270`: `add` (62-64) or `pause` (66-74)
  | .consume sends => .acc .state .atomic :: if sends then [.acc .buffer .read] else [.acc .state .atomic]
  -- `stop`, `streams/state_store_consumer.go:300-306`
  | .stopConsumer => within .consumer [.acc .buffer .read, .acc .buffer .write]
  -- `PartitionPrepared`, `PartitionPreparationFailed`, `streams/incr_rebalancer.go:295-317`
  | .partitionPrepared => within .status [.acc .sets .write]
  -- `GracefullyLeaveGroup`, `streams/incr_rebalancer.go:342-351`
  | .leave => within .status [.acc .member .read, .acc .member .write]
  -- `ParseSyncAssignment`, `streams/incr_rebalancer.go:379-425`
  | .parseSync => within .status [.acc .member .read, .acc .member .write, .acc .sets .write]
  -- `userData`, `streams/incr_rebalancer.go:454-465`
  | .userData => within .status [.acc .member .read, .acc .sets .read]
  -- `ReceiveChange` for an offset, `streams/commit_log.go:88-93`
  | .offset => within .marks [.acc .watermarks .write]
  -- `closeSyncRequest`, `streams/commit_log.go:99-106`
  | .mark => within .syncs [.acc .pendingSyncs .read, .acc .pendingSyncs .write]
  -- `Watermark`, `streams/commit_log.go:137-144`
  | .watermark => within .marks [.acc .watermarks .read]
  -- `syncCommitLogPartition`, `streams/commit_log.go:126-135`
  | .syncMarks => within .syncs [.acc .pendingSyncs .write]
  -- `addEventContext` of node `n`, `streams/eos_producer.go:296-324`
  | .addEvent n => within (.commit n) (within (.part n) [.acc (.parts n) .read, .acc (.parts n) .write])
  -- `shouldTryFlush`, `shouldForceFlush` with node `n` on deck, `streams/eos_producer.go:173-179`
  | .tryFlush n => [.acc (.produceCnt n) .atomic]
  -- `ProduceRecord` of node `n`, `streams/eos_producer.go:494-512`
  | .produce n => within (.produce n) (.acc (.produceCnt n) .read :: .acc (.produceCnt n) .write :: ownersProg false)
  -- `commit`, `clearState`, `relinquishOwnership` of node `n`, `streams/eos_producer.go:359-467`; `others` are the other nodes, `tps` says for each partition at how many of them it looks, `ok` whether the
  -- transaction was committed. (The accesses to `produceCnt` in 382, 410, 418 and 424 happen after all events have been finished and before the node is used again.)
  | .commit n others tps ok => within .loop (within (.commit n) (within (.produce n) (.acc (.parts n) .read :: ownersProg true) ++ [.acc (.parts n) .read] ++
      if ok then relinquish n others tps else []))
  -- `conditionallyUpdate`, `streams/eos_producer.go:50-56,152`
  | .conditionallyUpdate => ownersProg true
  -- `add`, the timer, and the end of `executeBatch`, `streams/async_batcher.go:218-226,250-255,277-290`
  | .batcher => within .batcher [.acc .batches .read, .acc .batches .write]
  -- `scheduleItem` with `grabWorker`, after `waits` attempts without success, `streams/async_scheduler.go:245-279,399-414`
  | .schedule waits created => (List.replicate waits (within .sched [.acc .workerMap .read, .acc .maxKeys .read])).flatten ++ within .sched [.acc .workerMap .read, .acc .maxKeys .read, .acc .depth .atomic, .acc .workerMap .write] ++ if created then enqueueProg else []
  -- `work` with `releaseWorker`, `streams/async_scheduler.go:281-288,382-397`
  | .work again => .acc .channel .read :: within .sched [.acc .workerMap .write] ++ if again then enqueueProg else []
  -- `SetMaxConcurrentKeys`, `streams/async_scheduler.go:310-349`
  | .setMaxKeys more => within .update (.acc .maxKeys .read :: within .sched [.acc .maxKeys .write] ++ if more then [.acc .channel .read, .acc .channel .write] else [])
  -- `SetWorkerQueueDepth`, `streams/async_scheduler.go:303-305`
  | .setDepth => [.acc .depth .atomic]
  -- `Config`, `msk/cluster.go:141-166`
  | .mskConfig => within .msk [.acc .options .read, .acc .options .write]
  -- `scheduleTxnAndExecution` in the goroutine of `pushRecords`, `streams/partition_worker.go:168-170`
  | .push => [.acc .highestOffset .read]
  -- `forwardToEventSource` in the goroutine of `work`, `streams/partition_worker.go:310-311`
  | .handle => [.acc .highestOffset .write]
  -- `work` at the end of the initialisation, `streams/partition_worker.go:225`
  | .ready => [.acc .ready .atomic]

/-! ### Executions -/

/-- Goroutine `i` (`t`) does its next step, if it can: a lock must be free, for `RLock` nobody may hold it exclusively. Go's `sync.Mutex` and `sync.RWMutex`, as in `streams/source_consumer.go:191-194`. -/
def next (ts : List Thread) (t : Thread) : Option Thread :=
  match t.rest with
  | [] => none
  | .lock l :: is => if ∀ u ∈ ts, (l, true) ∉ u.held ∧ (l, false) ∉ u.held then some ⟨(l, true) :: t.held, is⟩ else none
  | .rlock l :: is => if ∀ u ∈ ts, (l, true) ∉ u.held then some ⟨(l, false) :: t.held, is⟩ else none
  | .unlock l :: is => some ⟨t.held.erase (l, true), is⟩
  | .runlock l :: is => some ⟨t.held.erase (l, false), is⟩
  | .acc _ _ :: is => some ⟨t.held, is⟩

/-- What can happen: a goroutine starts one of the functions, or does a step. `streams/source_consumer.go:139-348` and the other functions. -/
inductive Act where
  | start (f : Fn)
  | go (i : Nat)
  deriving DecidableEq, Repr

/-- One step. `streams/source_consumer.go:139-348` and the other functions. -/
def step (ts : List Thread) : Act → Option (List Thread)
  | .start f => some (ts ++ [⟨[], prog f⟩])
  | .go i =>
    match ts[i]? with
    | some t => (next ts t).map fun t' => ts.set i t'
    | none => none

/-- Several steps. `streams/source_consumer.go:139-348` and the other functions. -/
def run (ts : List Thread) : List Act → Option (List Thread)
  | [] => some ts
  | a :: as => (step ts a).bind fun ts' => run ts' as

/-- Reachable states, from none of the functions running. `streams/source_consumer.go:139-348` and the other functions. -/
def Reach (ts : List Thread) : Prop := ∃ as, run [] as = some ts

end Verif.Races
