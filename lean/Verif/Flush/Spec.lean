import Verif.Flush.Model
/-
What is claimed of the delays of the batcher.
-/
namespace Verif.Flush

open Verif.Batcher

variable {K : Type} [DecidableEq K]

/-- Executor `i` has items and waits for more. -/
def Open (s : S K) (i : Nat) : Prop :=
  (s.b.execs i).executing = false ∧ (s.b.execs i).items ++ (s.b.execs i).noops ≠ []

/-- It is all right for time to go on by `d` if nobody is late: no timer fires later than `L` after it is due, no timer function waits for the lock for longer than `L`,
and no execution of a batch, from the moment at which it is decided on to the moment at which its executor is free again, takes longer than `E`. -/
def InTime (L E : Nat) (s : S K) (d : Nat) : Prop :=
  ∀ i, ((s.b.execs i).timer = .armed → s.now + d ≤ s.due i + L) ∧ (∀ f ∈ s.fired i, s.now + d ≤ f + L) ∧
    ((s.b.execs i).executing = true → s.now + d ≤ s.start i + E)

/-- What can happen next, if nobody is late. -/
def Next (delay L E : Nat) (s s' : S K) : Prop :=
  ∃ l, (∀ d, l = .pass d → InTime L E s d) ∧ step delay s l = some s'

/-- What can happen in the end, if nobody is late. -/
inductive Goes (delay L E : Nat) (s : S K) : S K → Prop where
  | refl : Goes delay L E s s
  | step {s' s'' : S K} : Goes delay L E s s' → Next delay L E s' s'' → Goes delay L E s s''

/-- The states of a batcher for which nobody is late. -/
def Prompt (delay L E max n : Nat) (s : S K) : Prop := Goes delay L E (S.init K max n) s

/-- The steps of the batcher itself in an execution. -/
def acts (ls : List (Label K)) : List (Batcher.Label K) :=
  ls.filterMap fun | .does l => some l | .flush i _ => some (.flush i) | .pass _ => none

end Verif.Flush
