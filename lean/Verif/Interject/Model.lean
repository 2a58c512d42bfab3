import Mathlib.Tactic.Common
import Mathlib.Data.List.Perm.Basic
/-
`Interject`, `InterjectAll` and `InterjectAllSync` over all partitions of a consumer: `streams/source_consumer.go:289-348` and
`streams/event_source.go:313-352`, with the mutex `workerMux` that they share with the poll loop (258-266) and with assignment and revocation
(190-242).

Simplifications: of a worker only the way of interjections is kept: the channel `interjectionInput` (capacity 1), the goroutine `pushRecords` that takes
from it, and the interjections that it has accepted; their way through the pool of producers is one queue. An accepted interjection runs at any later time,
or is dropped if the worker was revoked (`streams/partition_worker.go:269-276`). Periodic interjections, which use the same channel, are left out (see
`Verif/Periodic`); events are left out. Interjectors return. `interject` itself is two steps: the checks (290-301) and the send (302-310), between which the
mutex is held.
-/
namespace Verif.Interject

/-- A partition worker, `streams/partition_worker.go:61-115`: its partition; the flag `ready` (117-119, 228); its run status (129-131); whether
`pushRecords` has left its loop (150-158); `interjectionInput`; the interjections accepted in 192-204. -/
structure Wk where
  part : Nat
  ready : Bool
  halted : Bool
  stopped : Bool
  chan : Option Nat
  pend : List Nat
  deriving DecidableEq

/-- The state of a channel `c` made in `streams/source_consumer.go:292`: nothing yet, an error was sent (295, 299), closed (307). -/
inductive Res where
  | opened | err | closed
  deriving DecidableEq

/-- A call of `interject` (`streams/source_consumer.go:289-312`) with its channel: who made it, for which partition. -/
structure Tag where
  call : Nat
  part : Nat
  res : Res
  deriving DecidableEq

/-- Where a call of `forEachChangeLogPartitionSync` (`streams/source_consumer.go:318-327`) or `forEachChangeLogPartitionAsync` (334-348) is: before 319/335;
before the call of `interject` for the next partition (323, 341), with the partitions left and the channels kept (`its`); in the send of 302, holding the mutex;
in the receive of 323; in the loop of 343; returned. -/
inductive Pc where
  | start
  | next (rest : List Nat) (its : List Nat)
  | sending (w t : Nat) (rest : List Nat) (its : List Nat)
  | waiting (t : Nat) (rest : List Nat)
  | collect (its : List Nat)
  | done
  deriving DecidableEq

/-- A call, `streams/source_consumer.go:318-348`. -/
structure Call where
  sync : Bool
  pc : Pc
  deriving DecidableEq

/-- What an outsider sees of `streams/source_consumer.go:258-348`: the partitions that call `i` found, or the one that it
was made for; an interjector handed to a worker; run; refused; the
call returned; the poll loop got through `receive` (258-266); a partition got a worker (200-207); it lost it (225-233). -/
inductive Ev where
  | found (i : Nat) (ps : List Nat)
  | single (i p : Nat)
  | sent (i p : Nat)
  | ran (i p : Nat)
  | refused (i p : Nat)
  | returned (i : Nat)
  | polled
  | assigned (p : Nat)
  | revoked (p : Nat)
  deriving DecidableEq

/-- The consumer, `streams/source_consumer.go:28-46`: holder of `workerMux`, the map `workers`, all workers ever made, the calls, the channels. `lost` is
history: interjections that were dropped. `halted`: the run status of the event source (`streams/event_source.go:282-284`). -/
structure St where
  mux : Option Nat
  map : List (Nat × Nat)
  wks : List Wk
  calls : List Call
  tags : List Tag
  halted : Bool
  lost : List Nat
  trace : List Ev
  deriving DecidableEq

/-- A consumer without partitions, `streams/source_consumer.go:48-115`. -/
def St.init : St := { mux := none, map := [], wks := [], calls := [], tags := [], halted := false, lost := [], trace := [] }

/-- What can happen.
* `call sync`: a goroutine calls `InterjectAllSync` or `InterjectAll` (`streams/event_source.go:334-352`); `one p`: `Interject` (313-315), seen as an
  `InterjectAll` for the partition `p` alone;
* `snap i ps`: 319-321 / 335-337, `ps` is the order in which Go iterates over the map; `begin i`: 290-301; `send i`: 302-312; `recv i`: 323, 344; `fin i`: the end
  of the loop in 322 / 340;
* `assign p`, `revoke p`: one partition in `streams/source_consumer.go:190-242`; `halt`: `streams/event_source.go:283`; `receive`: 258-262;
* `ready w`, `take w`, `stop w`: `streams/partition_worker.go:226-228`, `148-149` with `192-204`, `150-151`; `run w`, `drop w`: 269-282 with and without a
  producer. -/
inductive Label where
  | call (sync : Bool)
  | one (p : Nat)
  | snap (i : Nat) (ps : List Nat)
  | begin (i : Nat)
  | send (i : Nat)
  | recv (i : Nat)
  | fin (i : Nat)
  | assign (p : Nat)
  | revoke (p : Nat)
  | halt
  | receive
  | ready (w : Nat)
  | take (w : Nat)
  | stop (w : Nat)
  | run (w : Nat)
  | drop (w : Nat)
  deriving DecidableEq

/-- `sc.workers[partition]`, `streams/source_consumer.go:293`. -/
def St.worker (s : St) (p : Nat) : Option Nat := (s.map.find? (fun e => e.1 = p)).map (·.2)

/-- Where a call goes on after `interject` has returned the channel `t`: it receives from it (323) or keeps it (341). `streams/source_consumer.go:318-348`. -/
def after (sync : Bool) (t : Nat) (rest its : List Nat) : Pc := if sync then .waiting t rest else .next rest (its ++ [t])

/-- Call `i` is now at `pc` (`streams/source_consumer.go:318-348`). -/
def St.goto (s : St) (i : Nat) (pc : Pc) : St :=
  match s.calls[i]? with
  | some c => { s with calls := s.calls.set i { c with pc := pc } }
  | none => s

/-- The channel of a call of `interject`, if there is something to receive: `streams/source_consumer.go:323,344`. -/
def St.answered (s : St) (t : Nat) : Bool :=
  match s.tags[t]? with
  | some x => x.res ≠ .opened
  | none => false

/-- The steps of the calls, `streams/source_consumer.go:289-348`. -/
def stepCall (s : St) : Label → Option St
  | .call sync => some { s with calls := s.calls ++ [⟨sync, .start⟩] }
  | .one p => some { s with calls := s.calls ++ [⟨false, .next [p] []⟩], trace := s.trace ++ [.single s.calls.length p] }
  | .snap i ps =>
    match s.calls[i]? with
    | some ⟨_, .start⟩ =>
      if s.mux = none ∧ ps.Perm (s.map.map (·.1)) then some { s.goto i (.next ps []) with trace := s.trace ++ [.found i ps] } else none
    | _ => none
  | .begin i =>
    match s.calls[i]? with
    | some ⟨sync, .next (p :: rest) its⟩ =>
      if s.mux = none then
        match s.worker p with
        | some w =>
          match s.wks[w]? with
          | some k =>
            if k.ready then
              some { s.goto i (.sending w s.tags.length rest its) with mux := some i, tags := s.tags ++ [⟨i, p, .opened⟩] }
            else
              some { s.goto i (after sync s.tags.length rest its) with tags := s.tags ++ [⟨i, p, .err⟩], trace := s.trace ++ [.refused i p] }
          | none => none
        | none => some { s.goto i (after sync s.tags.length rest its) with tags := s.tags ++ [⟨i, p, .err⟩], trace := s.trace ++ [.refused i p] }
      else none
    | _ => none
  | .send i =>
    match s.calls[i]? with
    | some ⟨sync, .sending w t rest its⟩ =>
      match s.wks[w]? with
      | some k =>
        if k.chan = none then
          some { s.goto i (after sync t rest its) with mux := none, wks := s.wks.set w { k with chan := some t }, trace := s.trace ++ [.sent i k.part] }
        else none
      | none => none
    | _ => none
  | .recv i =>
    match s.calls[i]? with
    | some ⟨_, .waiting t rest⟩ => if s.answered t then some (s.goto i (.next rest [])) else none
    | some ⟨_, .collect (t :: its)⟩ => if s.answered t then some (s.goto i (.collect its)) else none
    | _ => none
  | .fin i =>
    match s.calls[i]? with
    | some ⟨true, .next [] _⟩ => some { s.goto i .done with trace := s.trace ++ [.returned i] }
    | some ⟨false, .next [] its⟩ => some (s.goto i (.collect its))
    | some ⟨_, .collect []⟩ => some { s.goto i .done with trace := s.trace ++ [.returned i] }
    | _ => none
  | _ => none

/-- The steps of the workers and of the consumer, `streams/source_consumer.go:190-266` and `streams/partition_worker.go:129-282`. -/
def stepWorker (s : St) : Label → Option St
  | .assign p =>
    if s.mux = none ∧ s.worker p = none then
      some { s with map := s.map ++ [(p, s.wks.length)], wks := s.wks ++ [⟨p, false, s.halted, false, none, []⟩],
                    trace := s.trace ++ [.assigned p] }
    else none
  | .revoke p =>
    if s.mux = none then
      match s.worker p with
      | some w =>
        match s.wks[w]? with
        | some k =>
          some { s with map := s.map.filter (fun e => e.1 ≠ p), wks := s.wks.set w { k with halted := true }, trace := s.trace ++ [.revoked p] }
        | none => none
      | none => some s
    else none
  | .halt => some { s with halted := true, wks := s.wks.map fun k => { k with halted := true } }
  | .receive => if s.mux = none then some { s with trace := s.trace ++ [.polled] } else none
  | .ready w =>
    match s.wks[w]? with
    | some k => if k.ready then none else some { s with wks := s.wks.set w { k with ready := true } }
    | none => none
  | .take w =>
    match s.wks[w]? with
    | some k =>
      match k.chan with
      | some t =>
        if k.ready ∧ k.stopped = false then
          if k.halted then some { s with wks := s.wks.set w { k with chan := none }, lost := s.lost ++ [t] }
          else some { s with wks := s.wks.set w { k with chan := none, pend := k.pend ++ [t] } }
        else none
      | none => none
    | none => none
  | .stop w =>
    match s.wks[w]? with
    | some k => if k.ready ∧ k.halted ∧ k.stopped = false then some { s with wks := s.wks.set w { k with stopped := true } } else none
    | none => none
  | .run w =>
    match s.wks[w]? with
    | some k =>
      match k.pend with
      | t :: r =>
        match s.tags[t]? with
        | some x => some { s with wks := s.wks.set w { k with pend := r }, tags := s.tags.set t { x with res := .closed }, trace := s.trace ++ [.ran x.call k.part] }
        | none => none
      | [] => none
    | none => none
  | .drop w =>
    match s.wks[w]? with
    | some k =>
      match k.pend with
      | t :: r => if k.halted then some { s with wks := s.wks.set w { k with pend := r }, lost := s.lost ++ [t] } else none
      | [] => none
    | none => none
  | _ => none

/-- One step, see `Label` for the places in the code (`streams/source_consumer.go:190-348`, `streams/partition_worker.go:117-282`). -/
def step (s : St) (l : Label) : Option St :=
  match stepCall s l with
  | some s' => some s'
  | none => stepWorker s l

/-- Several steps (`streams/source_consumer.go:190-348`, `streams/partition_worker.go:117-282`). -/
def run (s : St) : List Label → Option St
  | [] => some s
  | l :: ls => (step s l).bind fun s' => run s' ls

end Verif.Interject
