import Mathlib.Tactic.Common
/-
The global change log, `streams/global_change_log.go:38-136`, with `pollConsumer`, `streams/source.go:33-41`.

Simplifications: the client is a next offset and a pause flag per partition; a poll returns for any selection of partitions that are not paused any number of
their next records; a time-out is a poll that returns nothing. Fetch errors are only logged and left out. Records are offset and value; a log only grows (its
offsets may have gaps, compaction during the run is left out). `Start` is called once; the client is not closed from elsewhere. `ReceiveChange` returns.
-/
namespace Verif.Global

/-- A record of the topic: offset and contents (`kgo.Record`, `streams/global_change_log.go:131`). -/
structure Rec where
  offset : Nat
  val : Nat
  deriving DecidableEq

/-- A partition of the topic and what the client knows of it: next offset and pause flag (`streams/global_change_log.go:54-64,81-103`). -/
structure Part where
  log : List Rec
  next : Nat
  paused : Bool
  deriving DecidableEq

/-- Where `consume` is (`streams/global_change_log.go:113-129`): before the test of 114; before the poll of 115; in `EachRecord` of 125 with the records left;
returned. -/
inductive Pc where
  | top
  | poll
  | each (left : List (Nat × Rec))
  | done
  deriving DecidableEq

/-- What can be seen: a poll begins (115), a record is returned by it, `ReceiveChange` is called with it and returns an error or not (133), the calls of 81-107,
the client is closed (128) in `streams/global_change_log.go`. -/
inductive Ev where
  | poll
  | polled (p : Nat) (r : Rec)
  | received (p : Nat) (r : Rec) (ok : Bool)
  | paused (p : Nat)
  | reset (p off : Nat)
  | stopped
  | closed
  deriving DecidableEq

/-- The state of a `GlobalChangeLog`, `streams/global_change_log.go:38-45`. -/
structure St where
  parts : List Part
  running : Bool
  pc : Pc
  trace : List Ev
  deriving DecidableEq

/-- `NewGlobalChangeLogWithRunStatus`, `streams/global_change_log.go:53-78`: all partitions, at their start; `logs` is what is in the topic. -/
def St.init (logs : List (List Rec)) : St := { parts := logs.map fun l => ⟨l, 0, false⟩, running := true, pc := .top, trace := [] }

/-- `produce`: a record is appended to the topic; `check`, `poll`, `forward`: the steps of `consume` (114, 115-124, 125 with 131-136), the poll with the number of
records returned for each partition; the calls of 81-107 of `streams/global_change_log.go`. -/
inductive Label where
  | produce (p : Nat) (r : Rec)
  | check
  | poll (ns : List (Nat × Nat))
  | forward (ok : Bool)
  | pause (p : Nat)
  | pauseAll
  | resumeAt (p off : Nat)
  | stop
  deriving DecidableEq

/-- The records that the client may return next for a partition (`streams/source.go:38`). -/
def Part.ahead (t : Part) : List Rec := t.log.filter fun r => t.next ≤ r.offset

/-- Takes `n` records of a partition (`streams/source.go:38`). -/
def Part.take (t : Part) (n : Nat) : Part × List Rec :=
  if t.paused then (t, [])
  else
    match (t.ahead.take n).getLast? with
    | some r => ({ t with next := r.offset + 1 }, t.ahead.take n)
    | none => (t, [])

/-- `PollFetches`, `streams/source.go:38`. -/
def pollAll (ps : List Part) : List (Nat × Nat) → List Part × List (Nat × Rec)
  | [] => (ps, [])
  | (p, n) :: ns =>
    match ps[p]? with
    | none => pollAll ps ns
    | some t =>
      let u := t.take n
      let v := pollAll (ps.set p u.1) ns
      (v.1, u.2.map (fun r => (p, r)) ++ v.2)

/-- One step (`streams/global_change_log.go:81-136`). -/
def step (s : St) : Label → Option St
  | .produce p r =>
    match s.parts[p]? with
    | some t => if ∀ q ∈ t.log, q.offset < r.offset then some { s with parts := s.parts.set p { t with log := t.log ++ [r] } } else none
    | none => none
  | .check =>
    match s.pc with
    | .top => if s.running then some { s with pc := .poll } else some { s with pc := .done, trace := s.trace ++ [.closed] }
    | _ => none
  | .poll ns =>
    match s.pc with
    | .poll =>
      let v := pollAll s.parts ns
      some { s with parts := v.1, pc := .each v.2, trace := s.trace ++ .poll :: v.2.map fun e => .polled e.1 e.2 }
    | _ => none
  | .forward ok =>
    match s.pc with
    | .each ((p, r) :: left) => some { s with pc := .each left, trace := s.trace ++ [.received p r ok] }
    | .each [] => some { s with pc := .top }
    | _ => none
  | .pause p =>
    match s.parts[p]? with
    | some t => some { s with parts := s.parts.set p { t with paused := true }, trace := s.trace ++ [.paused p] }
    | none => some s
  | .pauseAll => some { s with parts := s.parts.map fun t => { t with paused := true }, trace := s.trace ++ (List.range s.parts.length).map .paused }
  | .resumeAt p off =>
    match s.parts[p]? with
    | some t => some { s with parts := s.parts.set p { t with next := off, paused := false }, trace := s.trace ++ [.reset p off] }
    | none => some s
  | .stop => some { s with running := false, trace := s.trace ++ [.stopped] }

/-- Several steps (`streams/global_change_log.go:81-136`). -/
def run (s : St) : List Label → Option St
  | [] => some s
  | l :: ls => (step s l).bind fun s' => run s' ls

end Verif.Global
