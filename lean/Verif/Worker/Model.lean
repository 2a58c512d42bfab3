import Mathlib.Tactic.Common
import Mathlib.Data.List.Perm.Basic
import Mathlib.Data.List.Nodup
/-
The partition worker, `streams/partition_worker.go`, with its two goroutines (`pushRecords` and `work`), its channels, the slots
`maxPending` and the `revocationWaiter`.

Simplifications: the pool of producers is an environment that gives producers to events in the order in which they were added
and finalizes completed events some time later (the pool itself is modelled in `Verif.Eos`); its channel `buffer` is unbounded.
The application obeys its contract: it completes each event at most once. Kafka's fetches arrive through `offer`/`send`.
-/
namespace Verif.Worker

/-- An event of the partition: a record with its offset or an interjection (`streams/event_context.go:190-218`). `id` is the
identity of the object, `tag` says which call of `interject` an interjection answers. -/
structure It where
  id : Nat
  off : Option Nat
  tag : Nat
  deriving DecidableEq, Repr

/-- Capacities: `maxPending` is `MaxBatchSize * PoolSize` (`streams/partition_worker.go:101`, `streams/eos_producer.go:140-142`),
`ecap` that of `eventInput` (`streams/partition_worker.go:91,106`). -/
structure Cfg where
  maxPending : Nat
  ecap : Nat

/-- Where the goroutine `pushRecords` is. `rest` are the records of the batch still to be scheduled; `back` says where an
interjection was taken from: the batch with its rest (180), or the select in 142-143. `streams/partition_worker.go:141-204`. -/
inductive Push where
  /-- before `work` starts it (`streams/partition_worker.go:224`) -/
  | unborn
  /-- `streams/partition_worker.go:143` -/
  | idle
  /-- the loop `streams/partition_worker.go:169` -/
  | next (rest : List (Option Nat))
  /-- wants a slot, `streams/partition_worker.go:172,201` -/
  | slot (it : It) (back : Option (List (Option Nat)))
  /-- wants to add to the pool, `streams/partition_worker.go:173,202` -/
  | add (it : It) (back : Option (List (Option Nat)))
  /-- wants to send to the worker, `streams/partition_worker.go:174,203` -/
  | put (it : It) (back : Option (List (Option Nat)))
  /-- `interleaveInterjection`, `streams/partition_worker.go:180,184-190` -/
  | inter (rest : List (Option Nat))
  /-- `streams/partition_worker.go:152` -/
  | stop
  /-- `streams/partition_worker.go:153` -/
  | wait
  /-- `streams/partition_worker.go:154-158` -/
  | closed
  deriving DecidableEq, Repr

/-- Where the goroutine `work` is. `streams/partition_worker.go:206-317`. -/
inductive Wk where
  /-- up to `streams/partition_worker.go:217` -/
  | boot
  /-- `streams/partition_worker.go:234` -/
  | idle
  /-- `assignProducer`, `streams/partition_worker.go:289-301` -/
  | assign (it : It)
  /-- the handler runs, `streams/partition_worker.go:277,313` -/
  | run (it : It)
  /-- `streams/partition_worker.go:248` -/
  | stopped
  deriving DecidableEq, Repr

/-- The worker with its channels (`streams/partition_worker.go:61-79`). The last group of fields is history. -/
structure PW where
  /-- records about to be sent by `add` (121-127) after its check -/
  sending : Option (List (Option Nat))
  /-- `partitionInput` -/
  input : List (List (Option Nat))
  /-- `interjectionInput` -/
  ijIn : List Nat
  push : Push
  /-- `eventInput` -/
  evq : List It
  /-- `interjectionEventInput` -/
  ijq : List It
  /-- this partition's part of the pool's `buffer` -/
  buf : List It
  /-- what is in the events' `producerChan`: nothing, a node, or nil (`streams/eos_producer.go:147,153`) -/
  prod : Nat → Option Bool
  wk : Wk
  /-- `asyncJobs`: the event and whether its finalizer returns `Complete` -/
  jobs : List (It × Bool)
  /-- events whose handler returned something else than `Complete` -/
  pend : List It
  /-- the number of tokens in `maxPending` -/
  slots : Nat
  revoked : Bool
  /-- the counter of `revocationWaiter` -/
  waiter : Int
  /-- transactions that hold the partition (`streams/eos_producer.go:316,398`) -/
  roots : Nat
  /-- the goroutine `waitForRevocation` (253-256) runs -/
  waiting : Bool
  /-- `revokedSignal` holds a token -/
  signal : Bool
  highest : Int
  /-- a send on a closed channel -/
  panic : Bool
  nextId : Nat
  nextTag : Nat
  wm : Int
  fetched : List (Option Nat)
  sched : List It
  accepted : List It
  offered : List Nat
  released : List Nat
  done : List Nat
  fin : List Nat
  /-- one-off interjections whose function returned, so that the channel was closed (`streams/source_consumer.go:305-309`) -/
  answered : List Nat
  /-- one-off interjections that were dropped -/
  lost : List Nat
  /-- a record that was refused a producer was taken -/
  refused : Bool
  /-- a batch was thrown away because of the revocation -/
  dropped : Bool

/-- `newPartitionWorker`, `streams/partition_worker.go:81-116`. -/
def PW.init : PW :=
  { sending := none, input := [], ijIn := [], push := .unborn, evq := [], ijq := [], buf := [], prod := fun _ => none,
    wk := .boot, jobs := [], pend := [], slots := 0, revoked := false, waiter := 0, roots := 0, waiting := false,
    signal := false, highest := -1, panic := false, nextId := 0, nextTag := 0, wm := -1, fetched := [], sched := [], accepted := [],
    offered := [], released := [], done := [], fin := [], answered := [], lost := [], refused := false, dropped := false }

/-- What can happen. Line numbers at the constructors are in `streams/partition_worker.go` (117-317) unless another file is named. -/
inductive Label where
  /-- `add` passes its check, `streams/partition_worker.go:121-125` (called by the poll loop, `streams/source_consumer.go:258-266`) -/
  | offer (recs : List (Option Nat))
  /-- `streams/partition_worker.go:126` -/
  | send
  /-- a one-off interjection arrives, `streams/source_consumer.go:302` -/
  | interject
  /-- `work` up to 224 with the watermark of the commit log -/
  | ready (wm : Int)
  /-- `revoke`, `streams/partition_worker.go:129-131` -/
  | revoke
  /-- `streams/partition_worker.go:144-147,163-168` -/
  | take
  /-- `streams/partition_worker.go:148-149,192-200` -/
  | takeIj
  /-- `streams/partition_worker.go:150` -/
  | stop
  /-- one iteration up to 171 or 176, or the end of the loop -/
  | record
  /-- `streams/partition_worker.go:184-190` -/
  | inter
  /-- `streams/partition_worker.go:172,201` -/
  | acquire
  /-- `streams/partition_worker.go:173,202` -/
  | poolAdd
  /-- `streams/partition_worker.go:174,203` -/
  | put
  /-- the pool decides, `streams/eos_producer.go:144-153`; `root`: first event of the partition in the transaction (316) -/
  | assign (root : Bool)
  /-- `streams/partition_worker.go:235` -/
  | handle
  /-- `streams/partition_worker.go:237` -/
  | handleIj
  /-- `streams/partition_worker.go:239,297,258-263` -/
  | job
  /-- `streams/partition_worker.go:295` and what follows it (272-277, 305-313) -/
  | got
  /-- the handler returns, `Complete` or not (277-281, 313-316) -/
  | ret (complete : Bool)
  /-- `AsyncJobComplete`, `streams/event_context.go:169-174` -/
  | async (it : It) (complete : Bool)
  /-- the transaction of a completed event passes it, `streams/eos_producer.go:354` -/
  | finalize (id : Nat)
  /-- the end of a transaction, `streams/eos_producer.go:398` -/
  | root
  /-- 152 meets 241-245 -/
  | stopSend
  /-- `streams/partition_worker.go:254-255` -/
  | waited
  /-- 246-248 meets 153-158 -/
  | finish
  deriving DecidableEq, Repr

/-- `scheduleInterjection`, `streams/partition_worker.go:192-200`. One-off interjections have no callback
(`streams/source_consumer.go:302-310`), so a refused one is lost. -/
def schedIj (s : PW) (ij : Nat) (back : Option (List (Option Nat))) : PW :=
  if s.revoked then
    { s with lost := s.lost ++ [ij], push := match back with
      | none => .idle
      | some rest => .next rest }
  else { s with
    waiter := s.waiter + 1, nextId := s.nextId + 1, sched := s.sched ++ [⟨s.nextId, none, ij⟩]
    push := .slot ⟨s.nextId, none, ij⟩ back }

/-- The pusher after the event was sent to the worker (174 or 203). `streams/partition_worker.go:163-204`. -/
def afterPut (it : It) : Option (List (Option Nat)) → Push
  | none => .idle
  | some rest => if it.off.isSome then .inter rest else .next rest

/-- Assignment to an entry of a table (no counterpart in the code). Stands for the writes of `streams/partition_worker.go:141-317`. -/
def upd {α : Type} (f : Nat → α) (i : Nat) (a : α) : Nat → α := fun j => if j = i then a else f j

/-- The call of `interject` that is answered when the function returns. `streams/event_source.go:313-352`. -/
def tagOf (it : It) : List Nat := if it.off.isSome then [] else [it.tag]

/-- `ec.complete(); <-pw.maxPending` (260-261, 278-279, 314-315); the receive blocks if there is no token. In `streams/partition_worker.go`. -/
def completeEv (s : PW) (it : It) : Option PW :=
  if s.slots = 0 then none
  else some { s with slots := s.slots - 1, done := s.done ++ [it.id], released := s.released ++ [it.id] }

/-- The selects that receive from `asyncJobs` (`streams/partition_worker.go:234-240,294-299`). -/
def takesJobs : Wk → Bool
  | .idle => true
  | .assign _ => true
  | _ => false

/-- One step, see `Label` for the places in the code. (`streams/partition_worker.go:117-317`.) -/
def step (c : Cfg) (s : PW) : Label → Option PW
  | .offer recs => if s.revoked ∨ s.sending ≠ none then none else some { s with sending := some recs, fetched := s.fetched ++ recs }
  | .send =>
    match s.sending with
    | some recs =>
      if s.push = .closed then some { s with sending := none, panic := true, dropped := true }
      else if s.input.length < 4 then some { s with sending := none, input := s.input ++ [recs] } else none
    | none => none
  | .interject => if s.ijIn = [] ∧ s.push ≠ .unborn then some { s with ijIn := [s.nextTag], nextTag := s.nextTag + 1 } else none
  | .ready wm => if s.wk = .boot then some { s with wk := .idle, push := .idle, highest := wm, wm := wm } else none
  | .revoke => some { s with revoked := true }
  | .take =>
    match s.push, s.input with
    | .idle, recs :: input =>
      if s.revoked then some { s with input := input, dropped := true }
      else some { s with input := input, waiter := s.waiter + recs.length, push := .next recs }
    | _, _ => none
  | .takeIj =>
    match s.push, s.ijIn with
    | .idle, ij :: ijIn => some (schedIj { s with ijIn := ijIn } ij none)
    | _, _ => none
  | .stop => if s.push = .idle ∧ s.revoked then some { s with push := .stop } else none
  | .record =>
    match s.push with
    | .next (r :: rest) =>
      match r with
      | some off =>
        if s.highest ≤ off then
          some { s with push := .slot ⟨s.nextId, some off, 0⟩ (some rest), nextId := s.nextId + 1,
                        sched := s.sched ++ [⟨s.nextId, some off, 0⟩] }
        else some { s with push := .inter rest, waiter := s.waiter - 1 }
      | none => some { s with push := .inter rest, waiter := s.waiter - 1 }
    | .next [] => some { s with push := .idle }
    | _ => none
  | .inter =>
    match s.push, s.ijIn with
    | .inter rest, ij :: ijIn => some (schedIj { s with ijIn := ijIn } ij (some rest))
    | .inter rest, [] => some { s with push := .next rest }
    | _, _ => none
  | .acquire =>
    match s.push with
    | .slot it back =>
      if s.slots < c.maxPending then
        some { s with slots := s.slots + 1, accepted := s.accepted ++ [it], push := .add it back }
      else none
    | _ => none
  | .poolAdd =>
    match s.push with
    | .add it back => some { s with buf := s.buf ++ [it], push := .put it back }
    | _ => none
  | .put =>
    match s.push with
    | .put it back =>
      if it.off.isSome then
        if s.evq.length < c.ecap then some { s with evq := s.evq ++ [it], push := afterPut it back } else none
      else
        if s.ijq.length < 1 then some { s with ijq := s.ijq ++ [it], push := afterPut it back } else none
    | _ => none
  | .assign root =>
    match s.buf with
    | it :: buf =>
      if s.revoked then some { s with buf := buf, prod := upd s.prod it.id (some false), waiter := s.waiter - 1 }
      else some { s with
        buf := buf, prod := upd s.prod it.id (some true)
        waiter := s.waiter + (if root then 1 else 0), roots := s.roots + (if root then 1 else 0) }
    | [] => none
  | .handle =>
    match s.wk, s.evq with
    | .idle, it :: evq => some { s with evq := evq, wk := .assign it }
    | _, _ => none
  | .handleIj =>
    match s.wk, s.ijq with
    | .idle, it :: ijq => some { s with ijq := ijq, wk := .assign it }
    | _, _ => none
  | .job =>
    match s.jobs with
    | (it, complete) :: jobs =>
      if takesJobs s.wk then
        if complete then (completeEv s it).map fun s' => { s' with jobs := jobs, pend := s'.pend.erase it }
        else some { s with jobs := jobs }
      else none
    | [] => none
  | .got =>
    match s.wk with
    | .assign it =>
      match s.prod it.id with
      | some true =>
        match it.off with
        | some off => some { s with wk := .run it, highest := off + 1, offered := s.offered ++ [off] }
        | none => some { s with wk := .run it }
      | some false =>
        if s.slots = 0 then none
        else some { s with
          wk := .idle, slots := s.slots - 1, released := s.released ++ [it.id]
          lost := if it.off.isSome then s.lost else s.lost ++ [it.tag]
          refused := s.refused || it.off.isSome }
      | none => none
    | _ => none
  | .ret complete =>
    match s.wk with
    | .run it =>
      if complete then
        if (it, true) ∈ s.jobs then none
        else (completeEv s it).map fun s' => { s' with wk := .idle, answered := s.answered ++ tagOf it }
      else some { s with wk := .idle, pend := s.pend ++ [it], answered := s.answered ++ tagOf it }
    | _ => none
  | .async it complete =>
    if (it ∈ s.pend ∨ s.wk = .run it) ∧ (it, true) ∉ s.jobs then some { s with jobs := s.jobs ++ [(it, complete)] } else none
  | .finalize id =>
    if id ∈ s.done ∧ id ∉ s.fin then some { s with fin := s.fin ++ [id], waiter := s.waiter - 1 } else none
  | .root => if s.roots = 0 then none else some { s with roots := s.roots - 1, waiter := s.waiter - 1 }
  | .stopSend => if s.push = .stop ∧ s.wk = .idle then some { s with push := .wait, waiting := true } else none
  | .waited => if s.waiting ∧ s.waiter = 0 then some { s with waiting := false, signal := true } else none
  | .finish =>
    if s.signal ∧ s.wk = .idle ∧ s.push = .wait then some { s with wk := .stopped, push := .closed, signal := false } else none

/-- A sequence of steps. Interleaving of the goroutines of `streams/partition_worker.go:117-317`. -/
def run (c : Cfg) (s : PW) : List Label → Option PW
  | [] => some s
  | l :: ls => (step c s l).bind fun s' => run c s' ls

/-- The states that can be reached. (`streams/partition_worker.go:117-317`.) -/
inductive Reach (c : Cfg) : PW → Prop where
  | init : Reach c PW.init
  | step {s s' : PW} (l : Label) : Reach c s → step c s l = some s' → Reach c s'

end Verif.Worker
