import Verif.Marks.Model
/-
What C73 says, in terms of the events that were added and the transactions that have ended.
-/
namespace Verif.Marks
open Verif.Eos

/-- The event was in a transaction that has ended with success. -/
def Committed (s : Pool) (e : Ev) : Prop := ∃ g, (e, g) ∈ s.added ∧ (g, true) ∈ s.ended

/-- The offsets of the real events of a partition in a transaction, oldest first. -/
def offsetsOf (s : Pool) (g tp : Nat) : List Nat :=
  (s.added.filter fun x => x.2 = g ∧ x.1.part = tp).filterMap fun x => x.1.off

/-- The offset records for partition `tp` in the transactions that have ended, in the order of the transactions. -/
def committedRecords (s : Pool) (tp : Nat) : List Nat :=
  (s.ended.map Prod.fst).flatMap fun g =>
    (s.sent.filter fun x => x.gen = g ∧ x.part = tp).filterMap fun x => match x.r with
      | .commit _ off => some off
      | .user _ => none

/-- The records of the partition reach the source in the order of their offsets. -/
def InOrder (s : Pool) (tp : Nat) : Prop :=
  ((s.added.filter fun x => x.1.part = tp).filterMap fun x => x.1.off).Pairwise (· < ·)

end Verif.Marks
