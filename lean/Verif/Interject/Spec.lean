import Verif.Interject.Model
/-
What is claimed about interjections over all partitions, in terms of the trace only.
-/
namespace Verif.Interject

/-- The partitions that have a worker after these events. Specification of the map of `streams/source_consumer.go:190-242`. -/
def owned : List Ev → List Nat :=
  List.foldl (fun ps e => match e with
    | .assigned p => ps ++ [p]
    | .revoked p => ps.filter (· ≠ p)
    | _ => ps) []

/-- What call `i` set out to interject into. Specification for `streams/source_consumer.go:318-348`. -/
def targets (i : Nat) : List Ev → List (List Nat) :=
  List.filterMap fun e => match e with
    | .found j ps => if j = i then some ps else none
    | .single j p => if j = i then some [p] else none
    | _ => none

/-- The partitions in which the interjector of call `i` ran or which refused it, in the order of the events. Specification for
`streams/source_consumer.go:289-348`. -/
def outcomes (i : Nat) : List Ev → List Nat :=
  List.filterMap fun e => match e with
    | .ran j p => if j = i then some p else none
    | .refused j p => if j = i then some p else none
    | _ => none

/-- The partitions to whose worker call `i` handed its interjector (`streams/source_consumer.go:302`). -/
def sends (i : Nat) : List Ev → List Nat :=
  List.filterMap fun e => match e with
    | .sent j p => if j = i then some p else none
    | _ => none

/-- The partitions in which the interjector of call `i` ran (`streams/source_consumer.go:302-308`). -/
def runs (i : Nat) : List Ev → List Nat :=
  List.filterMap fun e => match e with
    | .ran j p => if j = i then some p else none
    | _ => none

/-- The steps that are not requests from outside, not changes of the assignment and not failures (`streams/source_consumer.go:289-348`,
`streams/partition_worker.go:192-282`). -/
def inner : Label → Bool
  | .snap _ _ | .begin _ | .send _ | .recv _ | .fin _ | .ready _ | .take _ | .run _ => true
  | _ => false

end Verif.Interject
