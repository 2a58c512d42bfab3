import Mathlib.Tactic.Common
import Verif.Base
/-
Model of `BatchProducer` and `Producer` (`streams/producer.go`).
The Kafka client is represented by its contract: every produced record is acknowledged (with or without an error) exactly once, at any later time,
in any order; its promise then runs.
-/
namespace Verif.Producer

/-- A record as far as the producers look at it: topic (`record.kRecord.Topic`) and the error set by the promise (producer.go:175). -/
structure Rec where
  topic : Bytes
  err : Option Nat
deriving DecidableEq, Repr

/-- Lines 166-168 of `produceBatch` (producer.go:164-171), and 75-77 of `ProduceAsync`: the default topic fills an empty topic. -/
def withDefault (default : Bytes) (r : Rec) : Rec := if r.topic.length = 0 then { r with topic := default } else r

/-- `produceBatcher` (producer.go:116-122) during one call of `Produce`: `recs` are the records (addressed by position), `next` how many the loop of
`produceBatch` has handed to the client, `flight` those not yet acknowledged, `pending` the atomic counter, `hasCb` whether `callback != nil`,
`posted` the number of calls of `AsyncJobComplete`, `ran` the number of runs of `executeCallback` on the event loop (producer.go:141-145) with
`seen` the records passed to the callback, `sent` the topics in the order of the produce calls, `released` whether `cleanup` ran. -/
structure State where
  recs : List Rec
  next : Nat
  flight : List Nat
  pending : Int
  hasCb : Bool
  posted : Nat
  ran : Nat
  seen : List (List Rec)
  sent : List Bytes
  released : Bool
deriving DecidableEq, Repr

/-- `Produce` up to the loop (producer.go:152-159). -/
def init (recs : List Rec) (hasCb : Bool) : State :=
  { recs, next := 0, flight := [], pending := recs.length, hasCb, posted := 0, ran := 0, seen := [], sent := [], released := false }

/-- Steps: the loop of `produceBatch` hands over the next record; the client acknowledges record `i` with error `e`; the event loop of the partition
runs the posted callback. `streams/producer.go:116-178`. -/
inductive Label where
  | produce
  | ack (i : Nat) (e : Option Nat)
  | execute

/-- `recordComplete` (producer.go:135-139). -/
def recordComplete (s : State) : State :=
  { s with pending := s.pending - 1, posted := if s.pending - 1 = 0 ∧ s.hasCb = true then s.posted + 1 else s.posted }

/-- The promise of `produceRecord` (producer.go:173-178). -/
def promise (s : State) (i : Nat) (e : Option Nat) : State :=
  recordComplete { s with flight := s.flight.erase i, recs := s.recs.modify i fun r => { r with err := e } }

/-- The transition function (producer.go:135-178) with default topic `d`. -/
def step (d : Bytes) (s : State) : Label → Option State
  | .produce =>
    match s.recs[s.next]? with
    | none => none
    | some r =>
      some { s with recs := s.recs.set s.next (withDefault d r), next := s.next + 1, flight := s.flight ++ [s.next],
                    sent := s.sent ++ [(withDefault d r).topic] }
  | .ack i e => if i ∈ s.flight then some (promise s i e) else none
  | .execute =>
    if s.ran < s.posted then some { s with ran := s.ran + 1, seen := s.seen ++ [s.recs], released := true } else none

/-- A sequence of steps (any order of acknowledgements; producer.go:152-178). -/
def run (d : Bytes) (s : State) : List Label → Option State
  | [] => some s
  | l :: ls => (step d s l).bind fun s' => run d s' ls

/-- States reachable in one call of `Produce` (producer.go:152-162). -/
def Reach (d : Bytes) (recs : List Rec) (hasCb : Bool) (s : State) : Prop := ∃ ls, run d (init recs hasCb) ls = some s

end Verif.Producer
