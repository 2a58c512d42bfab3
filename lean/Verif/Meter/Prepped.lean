import Verif.Sync.Model
/-
Model of the figures that are reported for the preparation of a partition (`PrepareTopicPartition`, `streams/source_consumer.go:146-171`), on
top of the model of the synchronisation, `Verif.Sync.Model`.
-/
namespace Verif.Meter
open Verif.Record

/-- `stateStorePartition` with its counters (`streams/state_store_consumer.go:50-60`), and the goroutine of `PrepareTopicPartition`
(`streams/source_consumer.go:146-171`): `seen` is its local `processed` (153), `report` the `Count` and `Bytes` of the metric that it sent
(160-169). -/
structure PS where
  ss : Sync.SS
  count : Nat
  bytes : Nat
  seen : Option Nat
  report : Option (Nat × Nat)
  deriving DecidableEq

/-- What can happen: a step of the synchronisation; the goroutine reads `processed` when `sync` for the mark has returned
(`streams/source_consumer.go:152-153`); it sends the metric (159-169). -/
inductive PLabel where
  | sync (l : Sync.Label)
  | read (mark : Bytes)
  | report
  deriving DecidableEq

/-- What a step does to the counters: `streams/state_store_consumer.go:132-133` (`prep`) and `187-188` (a change). -/
def tally (s : Sync.SS) (l : Sync.Label) (count bytes : Nat) : Nat × Nat :=
  match l with
  | .prep _ _ => (0, 0)
  | .record i =>
    match s.pops[i]? with
    | some ⟨_, r :: _, false⟩ => if isMarkerRecord r then (count, bytes) else (count + 1, bytes + recordSize r)
    | _ => (count, bytes)
  | _ => (count, bytes)

/-- One step; the places are given in `PLabel` (`streams/source_consumer.go:146-171`, `streams/state_store_consumer.go:62-306`). -/
def pstep (s : PS) : PLabel → Option PS
  | .sync l => (Sync.step s.ss l).map fun ss' =>
      { s with ss := ss', count := (tally s.ss l s.count s.bytes).1, bytes := (tally s.ss l s.count s.bytes).2 }
  | .read m => if m ∈ s.ss.synced ∧ s.seen = none then some { s with seen := some s.count } else none
  | .report =>
    match s.seen, s.report with
    | some c, none => some { s with report := some (c, s.bytes) }
    | _, _ => none

/-- Several steps (`streams/source_consumer.go:146-171`, `streams/state_store_consumer.go:62-306`). -/
def prun (s : PS) : List PLabel → Option PS
  | [] => some s
  | l :: ls => (pstep s l).bind fun s' => prun s' ls

end Verif.Meter
