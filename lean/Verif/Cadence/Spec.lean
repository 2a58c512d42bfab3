import Verif.Cadence.Model
/-
What "every interval, plus or minus the jitter" means for the history of an interjection. Only `Ev`, the clock and the states of the activation are used.
-/
namespace Verif.Cadence.Spec
open Verif.Periodic

/-- A history, newest event first, in which every call begins at least `gap` after the end of the call before it (or after the first `tick`), and in which calls do not
overlap: a `began` follows an `ended` or the `started`, an `ended` follows its `began`, not earlier. -/
def Spaced (gap : Nat) : List Ev → Prop
  | [] => True
  | [.started _] => True
  | .began b :: .started e :: rest => e + gap ≤ b ∧ Spaced gap (.started e :: rest)
  | .began b :: .ended e :: rest => e + gap ≤ b ∧ Spaced gap (.ended e :: rest)
  | .ended e :: .began b :: rest => b ≤ e ∧ Spaced gap (.began b :: rest)
  | _ => False

/-- A history in which no call begins later than `u` after the end of the call before it (or after the first `tick`). -/
def Upto (u : Nat) : List Ev → Prop
  | .began b :: .started e :: rest => b ≤ e + u ∧ Upto u (.started e :: rest)
  | .began b :: .ended e :: rest => b ≤ e + u ∧ Upto u (.ended e :: rest)
  | _ :: rest => Upto u rest
  | [] => True

/-- The times at which calls began. -/
def begins : List Ev → List Nat
  | [] => []
  | .began b :: rest => b :: begins rest
  | _ :: rest => begins rest

/-- The calls that began within `[t, t + w]`. -/
def within (t w : Nat) (h : List Ev) : Nat := ((begins h).filter fun b => decide (t ≤ b ∧ b ≤ t + w)).length

/-- The latencies: of an expired timer, of a timer function in its `select`, of an interjection in the channel, of an accepted interjection before its call. -/
structure Lat where
  timer : Nat
  push : Nat
  take : Nat
  call : Nat

/-- Nothing is later than its latency allows. -/
structure InTime (l : Lat) (s : S) : Prop where
  timer : ∀ d ∈ s.due, s.now ≤ d + l.timer
  push : 0 < s.ij.pushing → s.now ≤ s.mark + l.push
  take : true ∈ s.ij.chan → s.now ≤ s.mark + l.take
  call : 0 < s.ij.sched → s.running = false → s.now ≤ s.mark + l.call

/-- The whole run is in time. -/
def Prompt (every jitter : Int) (l : Lat) (ls : List Label) : Prop :=
  ∀ n s, run every jitter S.init (ls.take n) = some s → InTime l s

/-- The sum of the latencies. -/
def Lat.sum (l : Lat) : Nat := l.timer + l.push + l.take + l.call

/-- The shortest delay: the interval less the jitter, but not less than zero. -/
def shortest (every jitter : Int) : Nat := (every - jitter.natAbs).toNat

/-- The longest delay. -/
def longest (every jitter : Int) : Nat := (every + jitter.natAbs).toNat

end Verif.Cadence.Spec
