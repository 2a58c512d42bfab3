import Verif.Eos.Model
/-
State stores and the goroutines that use them: the caller who makes a store, the goroutine `populate` that fills it from the change log, the goroutine `work` that gives it to the handlers, and the caller who
tells it that it was revoked.

The state has the list of all accesses to stores and of everything that orders goroutines among those. Simplifications: of what orders goroutines only the following is listed (so fewer accesses are ordered than in the
code): the start of a goroutine, the closing of a waiter and the waiting for it, the lock of `partitionedChangeLog`. The change log and the channels with fetched records are left out: `populate` may at any time get a change, a
marker that somebody is waiting for, or find its channel closed and empty (this allows more than the code does). Values are left out.
-/
namespace Verif.Confine
open Verif.Eos (upd)

/-- The goroutines: those that call `PrepareTopicPartition`, `assignPartitions`, `revokePartitions` (`streams/source_consumer.go:139-242`); `populate` (`streams/state_store_consumer.go:143`), the one that waits for a
preparation (`streams/source_consumer.go:148`), `work` (`streams/partition_worker.go:113`). -/
inductive Gor where
  | caller (c : Nat) | pop (n : Nat) | prep (n : Nat) | work (k : Nat)
  deriving DecidableEq, Repr

/-- Who waits for a marker: the goroutine of preparation `n` (`streams/source_consumer.go:152`) or worker `k` (`streams/source_consumer.go:207,214`). -/
inductive Wt where
  | prep (n : Nat) | work (k : Nat)
  deriving DecidableEq, Repr

/-- Its goroutine (`streams/source_consumer.go:148`, `streams/partition_worker.go:113`). -/
def Wt.gor : Wt → Gor
  | .prep n => .prep n
  | .work k => .work k

/-- What orders goroutines: the start of `populate` (`streams/state_store_consumer.go:143`), the start of a worker (`streams/partition_worker.go:113`), the closing of a waiter (`streams/state_store_consumer.go:111,161`). -/
inductive Msg where
  | goPop (n : Nat) | goWork (k : Nat) | closed (w : Wt)
  deriving DecidableEq, Repr

/-- What is done with a store: the factory makes it (`streams/partitioned_store.go:85`), `ReceiveChange` (46), a handler, interjection or finalizer uses it (`w`: and changes it; `streams/event_context.go:182-184`), `Revoked`
(`streams/partitioned_store.go:55`). -/
inductive Kind where
  | made | change | handled (w : Bool) | revoked
  deriving DecidableEq, Repr

/-- An access to store `st`, a send, a receive, locking and unlocking of `partitionedChangeLog.mux` (`streams/partitioned_store.go:78-79,94-95`). -/
inductive Op where
  | acc (g : Gor) (st : Nat) (k : Kind)
  | snd (g : Gor) (m : Msg)
  | rcv (g : Gor) (m : Msg)
  | lock (g : Gor)
  | unlock (g : Gor)
  deriving DecidableEq, Repr

/-- `partitionState`, as far as it is used (`streams/state_store_consumer.go:30-36`). -/
inductive SSt where
  | paused | prepping | ready
  deriving DecidableEq, Repr

/-- A goroutine `populate`: not begun, running, ended (`streams/state_store_consumer.go:143,165-173`). -/
inductive PSt where
  | new | run | done
  deriving DecidableEq, Repr

/-- A waiter: not there yet, in the map, closed, seen closed (`streams/state_store_consumer.go:88-112,161`). -/
inductive WSt where
  | no | sent | closed | got
  deriving DecidableEq, Repr

/-- The trace; the number of stores; the store of a partition (`data`, `streams/partitioned_store.go:60`); the state of the change log of a partition (`streams/state_store_consumer.go:55`); the number of `populate` goroutines,
their partitions and stores and how far they are; the preparation of a partition (`prepping`, `streams/source_consumer.go:143`), which has the number of its `populate`; the number of workers, their partitions and stores, the
worker of a partition (`workers`, `streams/source_consumer.go:206`); which workers are revoked, which have scheduled an event; the waiters. -/
structure St where
  tr : List Op
  stores : Nat
  data : Nat → Option Nat
  ss : Nat → SSt
  pops : Nat
  pPart : Nat → Nat
  pStore : Nat → Nat
  pSt : Nat → PSt
  prepping : Nat → Option Nat
  works : Nat
  wPart : Nat → Nat
  wStore : Nat → Nat
  workers : Nat → Option Nat
  revoked : Nat → Bool
  has : Nat → Bool
  wait : Wt → WSt

/-- Changes the state of one waiter (`streams/state_store_consumer.go:94,102`). -/
def setW (f : Wt → WSt) (w : Wt) (x : WSt) : Wt → WSt := fun v => if v = w then x else f v

/-- The start: all partitions are paused, nobody has anything (`streams/state_store_consumer.go:229-238`, `streams/partitioned_store.go:66-71`). -/
def St.init : St :=
  { tr := [], stores := 0, data := fun _ => none, ss := fun _ => .paused, pops := 0, pPart := fun _ => 0, pStore := fun _ => 0, pSt := fun _ => .done, prepping := fun _ => none, works := 0
    wPart := fun _ => 0, wStore := fun _ => 0, workers := fun _ => none, revoked := fun _ => false, has := fun _ => false, wait := fun _ => .no }

/-- What can happen (`streams/source_consumer.go:139-242`, `streams/state_store_consumer.go:108-192`, `streams/partition_worker.go:141-317`). -/
inductive Act where
  /-- `PrepareTopicPartition` (`streams/source_consumer.go:139-173`) -/
  | prepare (c p : Nat)
  /-- `ForgetPreparedTopicPartition` (`streams/source_consumer.go:177-188`) -/
  | forget (p : Nat)
  /-- `assignPartitions`, for one partition (`streams/source_consumer.go:196-217`) -/
  | assign (c p : Nat)
  /-- `revokePartitions`, for one partition (`streams/source_consumer.go:233-238`) -/
  | revoke (c p : Nat)
  /-- the goroutine `populate` begins (`streams/state_store_consumer.go:165`) -/
  | begin (n : Nat)
  /-- it gives a change to the store (`streams/state_store_consumer.go:182`) -/
  | apply (n : Nat)
  /-- it reads the marker of a waiter (`streams/state_store_consumer.go:146-163,177-180`) -/
  | mark (n : Nat) (w : Wt)
  /-- its channel is closed and empty (`streams/state_store_consumer.go:167`) -/
  | drain (n : Nat)
  /-- `sync` begins: the waiter is put into the map, the marker is sent (`streams/state_store_consumer.go:109-110`) -/
  | sync (w : Wt)
  /-- `sync` ends (`streams/state_store_consumer.go:111`) -/
  | got (w : Wt)
  /-- `pushRecords` finds that the worker is not revoked and schedules an event or an interjection (`streams/partition_worker.go:145-146,164-174,193-203`) -/
  | sched (k : Nat)
  /-- a handler, an interjection or a finalizer uses the store, in the goroutine `work` (`streams/partition_worker.go:235-240,258-317`) -/
  | handle (k : Nat) (w : Bool)
  deriving DecidableEq, Repr

/-- `partitionedChangeLog.assign`: the store of the partition, a new one if there is none (`streams/partitioned_store.go:77-91`). -/
def storeOf (s : St) (p : Nat) : Nat := (s.data p).getD s.stores

/-- The same, as a change of the state (`streams/partitioned_store.go:77-91`). -/
def assignStore (s : St) (c p : Nat) : St :=
  match s.data p with
  | some _ => { s with tr := s.tr ++ [.lock (.caller c), .unlock (.caller c)] }
  | none => { s with
      tr := s.tr ++ [.lock (.caller c), .acc (.caller c) s.stores .made, .unlock (.caller c)]
      data := upd s.data p (some s.stores), stores := s.stores + 1 }

/-- `prep`: a new channel and a new goroutine `populate` for the store (`streams/state_store_consumer.go:130-144`). -/
def startPop (s : St) (c p st : Nat) (x : SSt) : St :=
  { s with
    tr := s.tr ++ [.snd (.caller c) (.goPop s.pops)]
    ss := upd s.ss p x, pPart := upd s.pPart s.pops p, pStore := upd s.pStore s.pops st, pSt := upd s.pSt s.pops .new, pops := s.pops + 1 }

/-- `newPartitionWorker` (`streams/partition_worker.go:81-116`, `streams/source_consumer.go:206,213`). -/
def startWork (s : St) (c p st : Nat) : St :=
  { s with
    tr := s.tr ++ [.snd (.caller c) (.goWork s.works)]
    wPart := upd s.wPart s.works p, wStore := upd s.wStore s.works st, revoked := upd s.revoked s.works false, has := upd s.has s.works false, workers := upd s.workers p (some s.works), works := s.works + 1 }

/-- The partition of a waiter: waiters are kept by `stateStorePartition` (`streams/state_store_consumer.go:53`). -/
def Wt.part (s : St) : Wt → Nat
  | .prep n => s.pPart n
  | .work k => s.wPart k

/-- Does the goroutine that waits exist? (`streams/source_consumer.go:148`, `streams/partition_worker.go:113`.) The preparation of a partition has the number of its `populate`. -/
def Wt.exists (s : St) : Wt → Bool
  | .prep n => decide (n < s.pops)
  | .work k => decide (k < s.works)

/-- The step function; places at `Act` (`streams/source_consumer.go:139-242`, `streams/state_store_consumer.go:108-192`, `streams/partition_worker.go:141-317`). Simplification: `populate` goroutines of `activatePartition` have no preparation,
here one may wait for them as well (it would only add waiters). -/
def step (s : St) : Act → Option St
  | .prepare c p =>
    match s.prepping p with
    | some _ => some s
    | none => some { startPop (assignStore s c p) c p (storeOf s p) .prepping with prepping := upd s.prepping p (some s.pops) }
  | .forget p =>
    match s.prepping p with
    | some _ => some { s with ss := upd s.ss p .paused, prepping := upd s.prepping p none }
    | none => some s
  | .assign c p =>
    match s.prepping p with
    | some _ => some { startWork (assignStore s c p) c p (storeOf s p) with prepping := upd s.prepping p none }
    | none =>
      match s.workers p with
      | some _ => some (assignStore s c p)
      | none => some (startWork (startPop (assignStore s c p) c p (storeOf s p) .ready) c p (storeOf s p))
  | .revoke c p =>
    let s1 := match s.workers p with
      | some k => { s with revoked := upd s.revoked k true, workers := upd s.workers p none }
      | none => s
    match s.data p with
    | some st => some { s1 with tr := s.tr ++ [.lock (.caller c), .acc (.caller c) st .revoked, .unlock (.caller c)], data := upd s.data p none }
    | none => some { s1 with tr := s.tr ++ [.lock (.caller c), .unlock (.caller c)] }
  | .begin n => if n < s.pops ∧ s.pSt n = .new then some { s with tr := s.tr ++ [.rcv (.pop n) (.goPop n)], pSt := upd s.pSt n .run } else none
  | .apply n => if n < s.pops ∧ s.pSt n = .run then some { s with tr := s.tr ++ [.acc (.pop n) (s.pStore n) .change] } else none
  | .mark n w =>
    if n < s.pops ∧ s.pSt n = .run ∧ s.wait w = .sent ∧ w.part s = s.pPart n then
      let s1 := { s with tr := s.tr ++ [.snd (.pop n) (.closed w)], wait := setW s.wait w .closed }
      match s.ss (s.pPart n) with
      | .prepping => some { s1 with ss := upd s.ss (s.pPart n) .ready }
      | .ready => some { s1 with ss := upd s.ss (s.pPart n) .paused, pSt := upd s.pSt n .done }
      | .paused => some s1
    else none
  | .drain n => if n < s.pops ∧ s.pSt n = .run then some { s with pSt := upd s.pSt n .done } else none
  | .sync w =>
    if w.exists s = true ∧ s.wait w = .no then
      match w with
      | .prep _ => some { s with wait := setW s.wait w .sent }
      | .work k => some { s with tr := s.tr ++ [.rcv (.work k) (.goWork k)], wait := setW s.wait w .sent }
    else none
  | .got w => if s.wait w = .closed then some { s with tr := s.tr ++ [.rcv w.gor (.closed w)], wait := setW s.wait w .got } else none
  | .sched k => if k < s.works ∧ s.wait (.work k) = .got ∧ s.revoked k = false then some { s with has := upd s.has k true } else none
  | .handle k w => if k < s.works ∧ s.has k = true then some { s with tr := s.tr ++ [.acc (.work k) (s.wStore k) (.handled w)] } else none

/-- Several steps (same places, `streams/source_consumer.go:139-242`, `streams/state_store_consumer.go:108-192`). -/
def run (s : St) : List Act → Option St
  | [] => some s
  | x :: xs => (step s x).bind fun s' => run s' xs

/-- The reachable states (same places, `streams/source_consumer.go:139-242`, `streams/state_store_consumer.go:108-192`). -/
inductive Reach : St → Prop where
  | init : Reach St.init
  | step {s s' : St} (x : Act) : Reach s → step s x = some s' → Reach s'

end Verif.Confine
