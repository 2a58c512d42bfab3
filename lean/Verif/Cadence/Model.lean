import Verif.Periodic.Model
/-
A periodic interjection of one partition worker with its clock: `streams/interjection.go` and its use in `streams/partition_worker.go:184-282`, a layer over
`Verif/Periodic/Model.lean` (same state machine) that keeps the time at which each timer is due and the times at which the interjector is entered and left.

Simplifications: time is a number of nanoseconds since the worker began; the clock moves only in the step `pass`, so that every other step takes no time of its own;
the call of the interjector (`streams/interjection.go:40-42`) has a beginning (`enter`) and an end, and anything may happen between them.
-/
namespace Verif.Cadence
open Verif.Periodic

/-- The milestones of the interjection in a worker: its first `tick` (`streams/partition_worker.go:230`), the beginning and the end of a call of the interjector (277). -/
inductive Ev where
  | started (t : Nat)
  | began (t : Nat)
  | ended (t : Nat)
  deriving DecidableEq, Repr

/-- The interjection with its clock (`streams/interjection.go:24-37`). `due`: when each armed timer expires, in the order of arming; `mark`: when the activation last moved
on (not in the code, for the statements about time only); `running`: the worker is inside the interjector; `hist`: what happened when, newest first (not in the code). -/
structure S where
  ij : Ij
  now : Nat
  due : List Nat
  mark : Nat
  running : Bool
  hist : List Ev
  deriving DecidableEq

/-- A new worker (`streams/partition_worker.go:81-116`). -/
def S.init : S := { ij := Ij.init, now := 0, due := [], mark := 0, running := false, hist := [] }

/-- What can happen (`streams/interjection.go:65-91`, `streams/partition_worker.go:184-282`). `start k n`, `leave k n`: the first `tick` and the return of `Complete`
followed by `tick`, with the draws of `timerDuration`; `expire i`: the i-th armed timer expires; `enter`: the interjector is called; `does`: the steps of
`Verif/Periodic/Model.lean` that neither arm nor expire a timer; `pass d`: time passes. -/
inductive Label where
  | start (k n : Nat)
  | expire (i : Nat)
  | enter
  | leave (k n : Nat)
  | does (l : Periodic.Label)
  | pass (d : Nat)
  deriving DecidableEq

/-- The time at which a timer armed now with delay `d` expires: `time.AfterFunc` with a negative delay expires at once (`streams/interjection.go:71`). -/
def S.dueAt (s : S) (every jitter : Int) (k n : Nat) : Nat := s.now + (timerDuration every jitter k n).toNat

/-- When the activation last moved on: now, if this step moved it (`streams/interjection.go:73-76`, `streams/partition_worker.go:148-149,186-187`). -/
def S.moved (s : S) (j : Ij) : Nat :=
  if (j.pushing, j.chan.count true, j.sched) = (s.ij.pushing, s.ij.chan.count true, s.ij.sched) then s.mark else s.now

/-- One step; see `Label`. A draw of `rand.Float64` is `k / 2⁵³ < 1`. (`streams/interjection.go:40-91`, `streams/partition_worker.go:184-282`.) -/
def step (every jitter : Int) (s : S) : Label → Option S
  | .start k n =>
    if k < 2 ^ 53 then
      (Periodic.step s.ij .start).map fun j =>
        { s with ij := j, due := s.due ++ [s.dueAt every jitter k n], hist := .started s.now :: s.hist }
    else none
  | .expire i =>
    match s.due[i]? with
    | some d => if d ≤ s.now then (Periodic.step s.ij .fire).map fun j => { s with ij := j, due := s.due.eraseIdx i, mark := s.now } else none
    | none => none
  | .enter => if 0 < s.ij.sched ∧ s.running = false then some { s with running := true, hist := .began s.now :: s.hist } else none
  | .leave k n =>
    if k < 2 ^ 53 ∧ s.running = true then
      (Periodic.step s.ij (.handle .complete)).map fun j =>
        { s with ij := j, due := s.due ++ [s.dueAt every jitter k n], running := false, hist := .ended s.now :: s.hist }
    else none
  | .does l =>
    match l with
    | .start | .fire | .handle .complete => none
    | .handle .incomplete =>
      if s.running then (Periodic.step s.ij (.handle .incomplete)).map fun j => { s with ij := j, running := false, hist := .ended s.now :: s.hist } else none
    | .handle .noProducer => if s.running then none else (Periodic.step s.ij (.handle .noProducer)).map fun j => { s with ij := j }
    | .cancel => (Periodic.step s.ij .cancel).map fun j => { s with ij := j, due := s.due.dropLast }
    | l => (Periodic.step s.ij l).map fun j => { s with ij := j, mark := s.moved j }
  | .pass d => some { s with now := s.now + d }

/-- Several steps (`streams/partition_worker.go:227-282`). -/
def run (every jitter : Int) (s : S) : List Label → Option S
  | [] => some s
  | l :: ls => (step every jitter s l).bind fun s' => run every jitter s' ls

end Verif.Cadence
