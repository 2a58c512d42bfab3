import Verif.Record.Model
/-
The synchronisation of a state store with its change log, `streams/state_store_consumer.go`, for one partition: the client's
position, the loop `consume`, the channel `buffer`, the goroutines `populate`, the markers.

Simplifications: `log` is what a reader with isolation read-committed (`streams/topics.go:117`) gets from the partition, in order;
`prep` is one step (its assignments, 130-144, are not interleaved with `consume`); `prep`, `cancel` are serialised by `mux`.
Marks are fresh UUIDs: a new mark is different from all values in the log and from all marks before.
-/
namespace Verif.Sync
open Verif.Record

/-- `partitionState`, `streams/state_store_consumer.go:28-36`; `standby` and `active` are never set. -/
inductive PState where
  | paused | prepping | standby | ready | active
  deriving DecidableEq, Repr

/-- A channel `buffer` (51) with its contents. `streams/state_store_consumer.go:51`. -/
structure Buf where
  q : List (List KRecord)
  closed : Bool
  deriving DecidableEq

/-- A goroutine `populate` (165-173): the channel that it ranges over, the rest of the batch in hand (176), and whether it
returned. `streams/state_store_consumer.go:165-173`. -/
structure Pop where
  chan : Nat
  cur : List KRecord
  ended : Bool
  deriving DecidableEq

/-- `stateStorePartition`, `streams/state_store_consumer.go:50-60`, with its surroundings. -/
structure SS where
  log : List KRecord
  /-- the client's next offset in the log -/
  pos : Nat
  /-- fetching is paused in the client (66-74, 140-142) -/
  held : Bool
  /-- a fetch returned by `pollConsumer` (252) before the check in 265 -/
  polled : Option (List KRecord)
  /-- after the check, before the channel is read in 63 -/
  passed : Option (List KRecord)
  /-- sending to a channel (63), or to the nil channel -/
  sending : Option (List KRecord × Option Nat)
  state : PState
  /-- the field `buffer`: nil or one of the channels -/
  buffer : Option Nat
  bufs : List Buf
  pops : List Pop
  /-- `waiters` (53) -/
  waiters : List Bytes
  /-- marks that `sync` is about to produce (110) -/
  toSend : List Bytes
  /-- marks whose `sync` returned (111, 161) -/
  synced : List Bytes
  /-- all marks that were made -/
  marks : List Bytes
  /-- what the store received, in order (182) -/
  applied : List KRecord
  /-- a send on a closed channel -/
  panic : Bool
  deriving DecidableEq

/-- A partition whose change log is `log`, `streams/state_store_consumer.go:230-237`. -/
def SS.init (log : List KRecord) : SS :=
  { log := log, pos := 0, held := true, polled := none, passed := none, sending := none, state := .paused, buffer := some 0,
    bufs := [⟨[], false⟩], pops := [], waiters := [], toSend := [], synced := [], marks := [], applied := [], panic := false }

/-- What can happen. Line numbers at the constructors are in `streams/state_store_consumer.go` (62-306) unless another file is named. -/
inductive Label where
  /-- someone writes to the change log -/
  | append (r : KRecord)
  /-- `pollConsumer`, 252, returns `n + 1` records of the partition or as many as there are -/
  | poll (n : Nat)
  /-- 264-266 -/
  | check
  /-- the operand `ssp.buffer` of 63 is evaluated -/
  | eval
  /-- 63 -/
  | send
  /-- `preparePartition` (284-290) or `activatePartition` (292-298); `fresh`: for a new store
  (`streams/partitioned_store.go:83-89`) -/
  | prep (s : PState) (fresh : Bool)
  /-- `cancelPartition` (277-282) -/
  | cancel
  /-- `sync` up to 109 -/
  | sync (mark : Bytes)
  /-- the marker record arrives in the log (110, 308-322) -/
  | produce (mark : Bytes)
  /-- `populate` number `i` receives a batch or the end of its channel (167) -/
  | next (i : Nat)
  /-- `populate` number `i` handles one record (176-190) -/
  | record (i : Nat)
  deriving DecidableEq

/-- The value under which `isCompletionMarker` looks for the waiter (`streams/state_store_consumer.go:178,149,101`). -/
def markOf (r : KRecord) : Bytes := r.value.getD []

/-- `setAt l i x` replaces the entry at `i` (no counterpart in the code). Stands for writes through pointers in `streams/state_store_consumer.go:62-192`. -/
def setAt {α : Type} (l : List α) (i : Nat) (x : α) : List α := l.set i x

/-- `kill`, `streams/state_store_consumer.go:76-81`. -/
def kill (s : SS) : SS :=
  match s.buffer with
  | some b => { s with bufs := (match s.bufs[b]? with
      | some c => setAt s.bufs b { c with closed := true }
      | none => s.bufs), buffer := none }
  | none => s

/-- `cancel`, `streams/state_store_consumer.go:83-86,66-74`. -/
def cancel (s : SS) : SS := kill { s with state := .paused, held := true }

/-- `isCompletionMarker`, `streams/state_store_consumer.go:146-163`: the new state and whether the synchronisation is complete. -/
def completion (s : SS) (mark : Bytes) : SS × Bool :=
  if mark ∈ s.waiters then
    let s := { s with waiters := s.waiters.erase mark, synced := s.synced ++ [mark] }
    match s.state with
    | .prepping => ({ s with state := .ready }, false)
    | .ready => (cancel s, true)
    | _ => (s, false)
  else (s, false)

/-- One record in `handleRecordsAndContinue`, `streams/state_store_consumer.go:176-190`, by the goroutine `i` = `p` with `rest`
still to come. -/
def handle (s : SS) (i : Nat) (p : Pop) (r : KRecord) (rest : List KRecord) : SS :=
  if isMarkerRecord r then
    let (s', complete) := completion s (markOf r)
    { s' with pops := setAt s'.pops i { p with cur := rest, ended := complete } }
  else { s with applied := s.applied ++ [r], pops := setAt s.pops i { p with cur := rest } }

/-- One step, see `Label` for the places in the code. (`streams/state_store_consumer.go:62-306`.) -/
def step (s : SS) : Label → Option SS
  | .append r => if isMarkerRecord r ∧ markOf r ∈ s.marks then none else some { s with log := s.log ++ [r] }
  | .poll n =>
    if s.held ∨ s.polled ≠ none ∨ s.passed ≠ none ∨ s.sending ≠ none ∨ s.log.length ≤ s.pos then none
    else some { s with polled := some ((s.log.drop s.pos).take (n + 1)), pos := min (s.pos + n + 1) s.log.length }
  | .check =>
    match s.polled with
    | some b => if s.state = .paused then some { s with polled := none, held := true } else some { s with polled := none, passed := some b }
    | none => none
  | .eval =>
    match s.passed with
    | some b => some { s with passed := none, sending := some (b, s.buffer) }
    | none => none
  | .send =>
    match s.sending with
    | some (b, some i) =>
      match s.bufs[i]? with
      | some c =>
        if c.closed then some { s with sending := none, panic := true }
        else if c.q.length < 1024 then some { s with sending := none, bufs := setAt s.bufs i { c with q := c.q ++ [b] } }
        else none
      | none => none
    | _ => none
  | .prep st fresh => some { s with
      applied := if fresh then [] else s.applied
      state := st, buffer := some s.bufs.length, bufs := s.bufs ++ [⟨[], false⟩], pos := 0, held := false
      pops := s.pops ++ [⟨s.bufs.length, [], false⟩] }
  | .cancel => some (cancel s)
  | .sync mark =>
    if mark ∈ s.marks ∨ (∃ r ∈ s.log, isMarkerRecord r = true ∧ markOf r = mark) then none
    else some { s with waiters := s.waiters ++ [mark], toSend := s.toSend ++ [mark], marks := s.marks ++ [mark] }
  | .produce mark =>
    if mark ∈ s.toSend then some { s with toSend := s.toSend.erase mark, log := s.log ++ [markerRecord ⟨0#32, []⟩ mark] } else none
  | .next i =>
    match s.pops[i]? with
    | some ⟨ch, [], false⟩ =>
      match s.bufs[ch]? with
      | some ⟨b :: q, cl⟩ => some { s with bufs := setAt s.bufs ch ⟨q, cl⟩, pops := setAt s.pops i ⟨ch, b, false⟩ }
      | some ⟨[], true⟩ => some { s with pops := setAt s.pops i ⟨ch, [], true⟩ }
      | _ => none
    | _ => none
  | .record i =>
    match s.pops[i]? with
    | some ⟨ch, r :: rest, false⟩ => some (handle s i ⟨ch, r :: rest, false⟩ r rest)
    | _ => none

/-- A sequence of steps. Interleaving of the goroutines of `streams/state_store_consumer.go:62-306`. -/
def run (s : SS) : List Label → Option SS
  | [] => some s
  | l :: ls => (step s l).bind fun s' => run s' ls

end Verif.Sync
