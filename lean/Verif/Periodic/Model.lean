/-
A periodic interjection in one partition worker: `streams/interjection.go` and its use in `streams/partition_worker.go:148-152,184-204,227-245,258-282`.

Simplifications: the timer is a step that can happen at any time after it was armed; the way of an accepted interjection through the slots and the pool of
producers (199-203) is one state (`sched`); other interjections use the same channel of capacity 1. Everything is counted, so that the model does not assume
that there is only one timer or one activation. Each worker has its own copy of the interjection (`ToPtrSlice`, `streams/sak/util.go:111-119`), taken before `init`.
-/
namespace Verif.Periodic

/-- `timerDuration`, `streams/interjection.go:52-63`. `k` is the draw of `rand.Float64`, as a multiple of 2⁻⁵³ (that is how the library makes it), `n` that of
`rand.Intn(10)`. The product is taken exactly and then truncated; in the code it is rounded to a float first. -/
def timerDuration (every jitter : Int) (k n : Nat) : Int :=
  if jitter = 0 then every
  else
    let j := (k * jitter).tdiv (2 ^ 53)
    if n < 5 then every + j else every - j

/-- How the handling of an activation ends (`streams/partition_worker.go:269-282`): no producer (272), the interjector returns `Complete` (277), or
something else. -/
inductive Outcome where
  | noProducer | complete | incomplete
  deriving DecidableEq

/-- The interjection and its surroundings. `chan` is `interjectionInput` (capacity 1): true for this interjection, false for another one. `streams/interjection.go:24-92`, `streams/partition_worker.go:61-79`. -/
structure Ij where
  started : Bool
  /-- armed timers (`streams/interjection.go:71`) -/
  timers : Nat
  /-- timer functions in their `select` (72-80) -/
  pushing : Nat
  chan : List Bool
  /-- activations accepted by `scheduleInterjection` (199-203) that `work` has not picked up -/
  sched : Nat
  /-- activations whose interjector did not return `Complete` -/
  pend : Nat
  /-- `cancelSignal` (capacity 1) is full -/
  signal : Bool
  cancelled : Bool
  revoked : Bool
  /-- `pushRecords` is still in its loop -/
  loop : Bool
  /-- how often the interjector was called (`streams/interjection.go:40-42`) -/
  fired : Nat
  deriving DecidableEq

/-- A new worker (`streams/partition_worker.go:81-116`). -/
def Ij.init : Ij :=
  { started := false, timers := 0, pushing := 0, chan := [], sched := 0, pend := 0, signal := false, cancelled := false, revoked := false, loop := true, fired := 0 }

/-- What can happen: `start`: 228-231; `fire`: the timer expires; `push`, `quit`: the two cases in `streams/interjection.go:73-79`; `other`: another interjection
enters the channel; `take`: `pushRecords` receives (148, 186); `revoke`; `stop`: 150-152; `cancel`: 241-244; `handle`: 269-282; `async`: 258-263 for a
pending activation. -/
inductive Label where
  | start | fire | push | quit | other | take | revoke | stop | cancel
  | handle (o : Outcome)
  | async
  deriving DecidableEq

/-- `tick` for an interjection that is not one-off, `streams/interjection.go:65-82`. -/
def Ij.tick (s : Ij) : Ij := { s with timers := s.timers + 1 }

/-- One step; see `Label`. (`streams/interjection.go:24-92`, `streams/partition_worker.go:184-282`.) -/
def step (s : Ij) : Label → Option Ij
  | .start => if s.started then none else some { s.tick with started := true }
  | .fire => if 0 < s.timers then some { s with timers := s.timers - 1, pushing := s.pushing + 1 } else none
  | .push => if 0 < s.pushing ∧ s.chan.length < 1 then some { s with pushing := s.pushing - 1, chan := s.chan ++ [true] } else none
  | .quit => if 0 < s.pushing ∧ s.signal then some { s with pushing := s.pushing - 1, signal := false } else none
  | .other => if s.chan.length < 1 then some { s with chan := s.chan ++ [false] } else none
  | .take =>
    if s.loop then
      match s.chan with
      | true :: rest => some { s with chan := rest, sched := if s.revoked then s.sched else s.sched + 1 }
      | false :: rest => some { s with chan := rest }
      | [] => none
    else none
  | .revoke => some { s with revoked := true }
  | .stop => if s.revoked ∧ s.loop then some { s with loop := false } else none
  | .cancel =>
    if s.loop = false ∧ s.started ∧ s.cancelled = false then some { s with cancelled := true, signal := true, timers := s.timers - 1 } else none
  | .handle o =>
    if 0 < s.sched then
      match o with
      | .noProducer => if s.revoked then some { s with sched := s.sched - 1 } else none
      | .complete => some { s.tick with sched := s.sched - 1, fired := s.fired + 1 }
      | .incomplete => some { s with sched := s.sched - 1, fired := s.fired + 1, pend := s.pend + 1 }
    else none
  | .async => if 0 < s.pend then some { s with pend := s.pend - 1 } else none

/-- Several steps (`streams/partition_worker.go:227-282`). -/
def run (s : Ij) : List Label → Option Ij
  | [] => some s
  | l :: ls => (step s l).bind fun s' => run s' ls

end Verif.Periodic
