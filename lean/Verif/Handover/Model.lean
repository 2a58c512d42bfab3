/-
One source partition that moves from consumer to consumer, and the partition of the commit log to which its offsets are written.

Sources: `streams/source_consumer.go:189-240` (assign, revoke), `streams/partition_worker.go:129-131,161-180,206-221` (revoke, filter, start),
`streams/commit_log.go:76-93,113-131` (commit record, reading, marker), `streams/eos_producer.go:144-151,272-278,359-391,430-455` (accept, transactional ids, commit).

Simplifications: every offset of the source holds a record; transactions of other partitions are left out (they only delay readers); the transactions of a session
commit in the order in which they were begun (property C04, `Verif/Eos`); each session reads the commit log from its beginning, whereas a consumer that has been
running has read a part of it before; an aborted transaction makes the session fail (`streams/eos_producer.go:193-216`).
The transactional ids are random (`streams/eos_producer.go:276`), so that a session does not fence the transactions of others; hence no step does that.
-/
namespace Verif.Handover

/-- The state of a transaction in Kafka, as far as a record of it in the commit log is concerned (`streams/eos_producer.go:376-389`). -/
inductive Status where
  | undecided | committed | aborted
  deriving DecidableEq

/-- An entry of the commit log partition: a commit record of a session (`streams/commit_log.go:76-82`), with the offset after the last event, or the marker of a
session (`streams/commit_log.go:118-127`). -/
inductive Entry where
  | cmt (sid : Nat) (off : Nat) (st : Status)
  | mark (sid : Nat)
  deriving DecidableEq

/-- One assignment of the partition to a consumer: a partition worker (`streams/partition_worker.go:81-116`) with the reader of the commit log. -/
structure Sess where
  /-- the marker was sent -/
  marked : Bool
  /-- entries of the commit log read -/
  pos : Nat
  /-- `watermarks[partition]` -/
  wm : Nat
  /-- `highestOffset`, once the marker came back (`streams/partition_worker.go:217`) -/
  start : Option Nat
  /-- the next event -/
  next : Nat
  /-- transactions that are not ended, oldest first, with the offsets of their events -/
  pend : List (List Nat)
  /-- the commit record of the oldest was produced (`streams/eos_producer.go:370-375`) -/
  prep : Bool
  revoked : Bool
  failed : Bool

/-- A new worker (`streams/partition_worker.go:81-116`). -/
def Sess.init : Sess :=
  { marked := false, pos := 0, wm := 0, start := none, next := 0, pend := [], prep := false, revoked := false, failed := false }

/-- `n` sessions so far; `effects` lists the events whose effects are committed, in the order of the commits. A session is one life of a `partitionWorker` (`streams/partition_worker.go:61-115`), possibly in different processes. -/
structure St where
  n : Nat
  sess : Nat → Sess
  log : List Entry
  effects : List Nat

/-- Nothing assigned yet (`streams/source_consumer.go:60-115`). -/
def St.init : St := { n := 0, sess := fun _ => Sess.init, log := [], effects := [] }

/-- Changes a session (an entry of `workers`, `streams/source_consumer.go:206-216`). -/
def St.set (s : St) (i : Nat) (v : Sess) : St := { s with sess := fun j => if j = i then v else s.sess j }

/-- The end of the transaction of session `i` decides its commit record (`streams/eos_producer.go:385`; abort: the broker, or `TryAbort`). -/
def settle (i : Nat) (st : Status) : Entry → Entry
  | .cmt j o .undecided => if j = i then .cmt j o st else .cmt j o .undecided
  | e => e

/-- `assign`: `streams/source_consumer.go:189-216`, after the others were revoked (the group protocol); `mark`: `streams/commit_log.go:118-127`;
`read`: the next entry reaches the reader, `streams/commit_log.go:84-93`; `revoke`: `streams/partition_worker.go:129-131`;
`handle`: the next event is given to the newest transaction or to a new one, `streams/eos_producer.go:144-151`;
`prepare`: `streams/eos_producer.go:370-375`; `commit`: 385; `abort`: the prepared transaction is aborted; `fail`: the session stops with an error, its
transactions are aborted, except a prepared one whose end is under way. -/
inductive Label where
  | assign
  | mark (i : Nat)
  | read (i : Nat)
  | revoke (i : Nat)
  | handle (i : Nat) (new : Bool)
  | prepare (i : Nat)
  | commit (i : Nat)
  | abort (i : Nat)
  | fail (i : Nat)
  deriving DecidableEq

/-- The event is added to the newest transaction, unless that is being committed, or to a new one (`streams/eos_producer.go:296-330`). -/
def addEvent (v : Sess) (new : Bool) : Option (List (List Nat)) :=
  if new then some (v.pend ++ [[v.next]])
  else if (if v.prep then 1 else 0) < v.pend.length then
    (v.pend.getLast?).map fun t => v.pend.dropLast ++ [t ++ [v.next]]
  else none

/-- One step; see `Label`. A read-committed reader gets an entry only after the transactions before it are decided (`streams/topics.go:117`). -/
def step (s : St) : Label → Option St
  | .assign =>
    if (List.range s.n).all (fun j => (s.sess j).revoked) then some { s with n := s.n + 1 } else none
  | .mark i =>
    if i < s.n ∧ (s.sess i).marked = false then
      some { s.set i { s.sess i with marked := true } with log := s.log ++ [.mark i] }
    else none
  | .read i =>
    if i < s.n then
      match s.log[(s.sess i).pos]? with
      | some (.cmt _ _ .undecided) => none
      | some (.cmt _ o .committed) => some (s.set i { s.sess i with pos := (s.sess i).pos + 1, wm := o })
      | some (.cmt _ _ .aborted) => some (s.set i { s.sess i with pos := (s.sess i).pos + 1 })
      | some (.mark j) =>
        if j = i then some (s.set i { s.sess i with pos := (s.sess i).pos + 1, start := some (s.sess i).wm, next := (s.sess i).wm })
        else some (s.set i { s.sess i with pos := (s.sess i).pos + 1 })
      | none => none
    else none
  | .revoke i => if i < s.n then some (s.set i { s.sess i with revoked := true }) else none
  | .handle i new =>
    if i < s.n ∧ (s.sess i).start.isSome ∧ (s.sess i).revoked = false ∧ (s.sess i).failed = false then
      (addEvent (s.sess i) new).map fun p => s.set i { s.sess i with pend := p, next := (s.sess i).next + 1 }
    else none
  | .prepare i =>
    if (s.sess i).prep = false ∧ (s.sess i).failed = false then
      match (s.sess i).pend with
      | [] => none
      | t :: _ => some { s.set i { s.sess i with prep := true } with log := s.log ++ [.cmt i (t.getLastD 0 + 1) .undecided] }
    else none
  | .commit i =>
    if (s.sess i).prep then
      match (s.sess i).pend with
      | [] => none
      | t :: rest =>
        some { s.set i { s.sess i with prep := false, pend := rest } with log := s.log.map (settle i .committed), effects := s.effects ++ t }
    else none
  | .abort i =>
    if (s.sess i).prep then
      some { s.set i { s.sess i with prep := false, pend := [], failed := true } with log := s.log.map (settle i .aborted) }
    else none
  | .fail i =>
    if i < s.n then some (s.set i { s.sess i with failed := true, pend := if (s.sess i).prep then (s.sess i).pend.take 1 else [] }) else none

/-- Several steps (any order of the events of `streams/source_consumer.go:189-240` and `streams/eos_producer.go:359-391`). -/
def run (s : St) : List Label → Option St
  | [] => some s
  | l :: ls => (step s l).bind fun s' => run s' ls

end Verif.Handover
