/-
Metrics: the channel `metrics` of the event source, the goroutine `emitMetrics`, and those who send to it
(`streams/event_source.go:73-76,119-146`, `streams/eos_producer.go:410-423`, `streams/source_consumer.go:159-170`).

Simplifications: a metric is its start time, its execute time and a number; a time is a natural number with 0 for Go's zero time. `ConsumeEvents`
(93-97) has been called. Go's `select` in 135-144 chooses freely between its ready cases. A panic ends the process.
-/
namespace Verif.Metrics

/-- `Metric`, the fields that matter (`streams/metric.go:22-33`, used in `streams/event_source.go:137-139`). -/
structure Metric where
  start : Nat
  execute : Nat
  id : Nat
  deriving DecidableEq

/-- What the goroutine `emitMetrics` does (`streams/event_source.go:129-146`): wait in the `select`, run the handler (140), returned (143). -/
inductive Emitter where
  | waiting
  | handling (m : Metric)
  | ended
  deriving DecidableEq

/-- The channel and the goroutines around it. `on`: a handler is configured, so that the channel is not nil (`streams/event_source.go:73-76`).
`blocked`: the metrics that goroutines are about to send with a plain send (`streams/eos_producer.go:411`, `streams/source_consumer.go:160`).
`accepted`, `dropped`, `handled` are history. -/
structure Chan where
  on : Bool
  buf : List Metric
  closed : Bool
  halted : Bool
  emitter : Emitter
  blocked : List Metric
  accepted : List Metric
  dropped : List Metric
  handled : List Metric
  panic : Bool
  deriving DecidableEq

/-- The capacity, `streams/event_source.go:75`. -/
def cap : Nat := 2048

/-- A new event source that consumes events (`streams/event_source.go:67-97`). -/
def Chan.init (on : Bool) : Chan :=
  { on := on, buf := [], closed := false, halted := false, emitter := if on then .waiting else .ended, blocked := [], accepted := [], dropped := [],
    handled := [], panic := false }

/-- What can happen: `emit` is `EmitMetric` (`streams/event_source.go:119-127`); `send` reaches a plain send and `sent` completes the `i`-th of them
(`streams/eos_producer.go:410-411`, `streams/source_consumer.go:159-160`); `recv`, `ret`, `close`: `emitMetrics` takes a metric (136-139), the handler
returns (140), the run status is done (141-143); `halt`: `Halt` (266, 283). -/
inductive Label where
  | emit (m : Metric)
  | send (m : Metric)
  | sent (i : Nat)
  | recv
  | ret
  | halt
  | close
  deriving DecidableEq

/-- `streams/event_source.go:137-139`. -/
def fill (m : Metric) : Metric := if m.execute = 0 then { m with execute := m.start } else m

/-- A value goes into the channel (`streams/event_source.go:122`, `streams/eos_producer.go:411`, `streams/source_consumer.go:160`). -/
def Chan.push (s : Chan) (m : Metric) : Chan := { s with buf := s.buf ++ [m], accepted := s.accepted ++ [m] }

/-- One step; see `Label` for the places in the code. (`streams/event_source.go:119-160` and the senders named in `Label`.) -/
def step (s : Chan) (l : Label) : Option Chan :=
  if s.panic then none else
  match l with
  | .emit m =>
    if s.on then
      if s.closed then some { s with panic := true }
      else if s.buf.length < cap then some (s.push m)
      else some { s with dropped := s.dropped ++ [m] }
    else some s
  | .send m => if s.on then some { s with blocked := s.blocked ++ [m] } else some s
  | .sent i =>
    match s.blocked[i]? with
    | some m =>
      if s.closed then some { s with panic := true }
      else if s.buf.length < cap then some { s.push m with blocked := s.blocked.eraseIdx i }
      else none
    | none => none
  | .recv =>
    match s.emitter, s.buf with
    | .waiting, m :: rest => some { s with buf := rest, emitter := .handling (fill m) }
    | _, _ => none
  | .ret =>
    match s.emitter with
    | .handling m => some { s with emitter := .waiting, handled := s.handled ++ [m] }
    | _ => none
  | .halt => some { s with halted := true }
  | .close =>
    match s.emitter with
    | .waiting => if s.halted then some { s with emitter := .ended, closed := true } else none
    | _ => none

/-- Several steps (`streams/event_source.go:119-146`). -/
def run (s : Chan) : List Label → Option Chan
  | [] => some s
  | l :: ls => (step s l).bind fun s' => run s' ls

end Verif.Metrics
