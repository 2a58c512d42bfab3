import Mathlib.Tactic.Common
/-
What the callbacks `OnPartitionAssigned`, `OnPartitionActivated`, `OnPartitionWillRevoke` and `OnPartitionRevoked` see, and when a partition is paused:
`streams/source.go:123-165`, `streams/source_consumer.go:190-266`, `streams/partition_worker.go:117-262`.

Simplifications: of an event only three moments are kept: the pool decides to give it a producer because its worker is not revoked
(`streams/eos_producer.go:140-153`), its handler is called, its handler returns. Interjections, asynchronous jobs and stores are left out; `sync` stands for the
return of `waiter()`. Preparations (`prepping`) are left out. Callbacks are given and return. Offsets and records are left out. The client fetches a partition
only while it has a worker and while no assignment or revocation is under way, as franz-go waits for the callbacks.
-/
namespace Verif.Observe

/-- How far `work` has got, `streams/partition_worker.go:206-262`: before 212; in `waiter()`; before 222; before 233; in the loop of 234; returned. -/
inductive Stage where
  | new | syncing | synced | resumed | active | ended
  deriving DecidableEq

/-- A worker, `streams/partition_worker.go:61-115`: its partition, how far it is, whether it was revoked (129-131), the number of its events that got a producer and
are not handled yet (`producerChan`, `streams/event_context.go:39`), whether its handler is being called (313). -/
structure Wk where
  part : Nat
  stage : Stage
  halted : Bool
  granted : Nat
  busy : Bool
  deriving DecidableEq

/-- Where the holder of `workerMux` is. `assign rest all`, `tellAssigned left`: the loop of `streams/source_consumer.go:195-219` and the callbacks of 222;
`will rest all`, `cut p rest all`, `tellRevoked left`: 232-233, 234-238, 241. -/
inductive Op where
  | assign (rest all : List Nat)
  | tellAssigned (left : List Nat)
  | will (rest all : List Nat)
  | cut (p : Nat) (rest all : List Nat)
  | tellRevoked (left : List Nat)
  deriving DecidableEq

/-- What can be seen. The callbacks of `streams/source.go:123-137` with their partition; a worker is created (`streams/source_consumer.go:207`, 213) and told to
stop (235); its steps in `streams/partition_worker.go:206-262`: pause, end of synchronisation, resume, activation; the grant of a producer
(`streams/eos_producer.go:145-153`); the handler is called and returns (`streams/partition_worker.go:313`); records of a partition are fetched
(`streams/source_consumer.go:285`). -/
inductive Ev where
  | assigned (p : Nat)
  | will (p : Nat)
  | revoked (p : Nat)
  | created (w p : Nat)
  | cut (w p : Nat)
  | paused (w p : Nat)
  | synced (w p : Nat)
  | resumed (w p : Nat)
  | activated (w p : Nat)
  | grant (w p : Nat)
  | started (w p : Nat)
  | finished (w p : Nat)
  | fetched (p : Nat)
  deriving DecidableEq

/-- The consumer, `streams/source_consumer.go:28-46`: the holder of the mutex, the map `workers`, all workers ever made, the paused partitions of the client. -/
structure St where
  op : Option Op
  map : List (Nat × Nat)
  wks : List Wk
  paused : List Nat
  trace : List Ev
  deriving DecidableEq

/-- A consumer without partitions, `streams/source_consumer.go:48-115`. -/
def St.init : St := { op := none, map := [], wks := [], paused := [], trace := [] }

/-- What can happen: `assign`, `revoke` (`streams/source_consumer.go:244-256`), `next`: the next step of the one under way; the steps of worker `w` in the order of
`streams/partition_worker.go:206-262`; `grant w`: `streams/eos_producer.go:145-153`; `fetch p`: `streams/source_consumer.go:270-286`. -/
inductive Label where
  | assign (ps : List Nat)
  | revoke (ps : List Nat)
  | next
  | pause (w : Nat)
  | sync (w : Nat)
  | resume (w : Nat)
  | activate (w : Nat)
  | grant (w : Nat)
  | start (w : Nat)
  | finish (w : Nat)
  | stop (w : Nat)
  | fetch (p : Nat)
  deriving DecidableEq

/-- `sc.workers[p]`, `streams/source_consumer.go:210,234,260`. -/
def St.worker (s : St) (p : Nat) : Option Nat := (s.map.find? (fun e => e.1 = p)).map (·.2)

/-- One step of `assignPartitions` (190-223) or `revokePartitions` (225-242) of `streams/source_consumer.go`. -/
def stepOp (s : St) : Op → Option St
  | .assign (p :: rest) all =>
    match s.worker p with
    | none => some { s with op := some (.assign rest all), map := s.map ++ [(p, s.wks.length)], wks := s.wks ++ [⟨p, .new, false, 0, false⟩],
                            trace := s.trace ++ [.created s.wks.length p] }
    | some _ => some { s with op := some (.assign rest all) }
  | .assign [] all => some { s with op := some (.tellAssigned all) }
  | .tellAssigned (p :: left) => some { s with op := some (.tellAssigned left), trace := s.trace ++ [.assigned p] }
  | .tellAssigned [] => some { s with op := none }
  | .will (p :: rest) all => some { s with op := some (.cut p rest all), trace := s.trace ++ [.will p] }
  | .will [] all => some { s with op := some (.tellRevoked all) }
  | .cut p rest all =>
    match s.worker p with
    | some w =>
      match s.wks[w]? with
      | some k =>
        some { s with op := some (.will rest all), map := s.map.filter (fun e => e.1 ≠ p), wks := s.wks.set w { k with halted := true }, trace := s.trace ++ [.cut w p] }
      | none => none
    | none => some { s with op := some (.will rest all) }
  | .tellRevoked (p :: left) => some { s with op := some (.tellRevoked left), trace := s.trace ++ [.revoked p] }
  | .tellRevoked [] => some { s with op := none }

/-- One step of a worker or of the pool for it, `streams/partition_worker.go:206-262,303-317` and `streams/eos_producer.go:140-153`: the new worker and the event. -/
def stepWk (k : Wk) (w : Nat) : Label → Option (Wk × List Ev)
  | .pause _ => if k.stage = .new then some ({ k with stage := .syncing }, [.paused w k.part]) else none
  | .sync _ => if k.stage = .syncing then some ({ k with stage := .synced }, [.synced w k.part]) else none
  | .resume _ => if k.stage = .synced then some ({ k with stage := .resumed }, [.resumed w k.part]) else none
  | .activate _ => if k.stage = .resumed then some ({ k with stage := .active }, [.activated w k.part]) else none
  | .grant _ => if (k.stage = .resumed ∨ k.stage = .active) ∧ k.halted = false then some ({ k with granted := k.granted + 1 }, [.grant w k.part]) else none
  | .start _ => if k.stage = .active ∧ k.busy = false ∧ 0 < k.granted then some ({ k with granted := k.granted - 1, busy := true }, [.started w k.part]) else none
  | .finish _ => if k.busy then some ({ k with busy := false }, [.finished w k.part]) else none
  | .stop _ => if k.stage = .active ∧ k.busy = false ∧ k.halted then some ({ k with stage := .ended }, []) else none
  | _ => none

/-- The worker that a label of `streams/partition_worker.go:206-262` is about. -/
def Label.wk : Label → Option Nat
  | .pause w | .sync w | .resume w | .activate w | .grant w | .start w | .finish w | .stop w => some w
  | _ => none

/-- What a worker does to the set of paused partitions: `streams/partition_worker.go:212-214` and `222-224`. -/
def pausing (l : Label) (p : Nat) (ps : List Nat) : List Nat :=
  match l with
  | .pause _ => p :: ps
  | .resume _ => ps.filter (· ≠ p)
  | _ => ps

/-- One step (`streams/source_consumer.go:190-286`, `streams/partition_worker.go:206-262`). -/
def step (s : St) : Label → Option St
  | .assign ps => if s.op = none then some { s with op := some (.assign ps ps) } else none
  | .revoke ps => if s.op = none then some { s with op := some (.will ps ps) } else none
  | .next =>
    match s.op with
    | some o => stepOp s o
    | none => none
  | .fetch p => if s.op = none ∧ s.worker p ≠ none ∧ p ∉ s.paused then some { s with trace := s.trace ++ [.fetched p] } else none
  | l =>
    match l.wk with
    | some w =>
      match s.wks[w]? with
      | some k =>
        match stepWk k w l with
        | some (k', evs) => some { s with wks := s.wks.set w k', paused := pausing l k.part s.paused, trace := s.trace ++ evs }
        | none => none
      | none => none
    | none => none

/-- Several steps (`streams/source_consumer.go:190-286`, `streams/partition_worker.go:206-262`). -/
def run (s : St) : List Label → Option St
  | [] => some s
  | l :: ls => (step s l).bind fun s' => run s' ls

end Verif.Observe
