import Verif.Global.Model
/-
What a global change log owes its receiver, in terms of the trace.
-/
namespace Verif.Global

/-- The records of a partition that polls returned. Specification for `streams/global_change_log.go:115`. -/
def polledOf (p : Nat) (tr : List Ev) : List Rec :=
  tr.filterMap fun e => match e with
    | .polled q r => if q = p then some r else none
    | _ => none

/-- The records of a partition that the receiver was called with. Specification for `streams/global_change_log.go:133`. -/
def receivedOf (p : Nat) (tr : List Ev) : List Rec :=
  tr.filterMap fun e => match e with
    | .received q r _ => if q = p then some r else none
    | _ => none

/-- `ResumePartitionAt` was not called for the partition. Specification for `streams/global_change_log.go:95-103`. -/
def NoReset (p : Nat) (tr : List Ev) : Prop := ∀ off, Ev.reset p off ∉ tr

/-- The offsets of a log increase. -/
def Sorted (log : List Rec) : Prop := log.Pairwise fun a b => a.offset < b.offset

end Verif.Global
