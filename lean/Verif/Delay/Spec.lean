import Verif.Delay.Model
/-
What is claimed of the flush timer.
-/
namespace Verif.Delay

/-- All executions. -/
inductive Reach (c : Cfg) : S → Prop where
  | init : Reach c (S.init c)
  | step {s s' : S} (l : Label) : Reach c s → step c s l = some s' → Reach c s'

/-- The forwarding loop is in the middle of an iteration and not blocked. -/
def Busy (s : S) : Prop := s.pool.fwd ≠ .idle ∧ s.pool.fwd ≠ .force ∧ s.pool.fwd ≠ .swap

/-- The forwarding loop is blocked: it waits for the commit loop. -/
def Blocked (s : S) : Prop := s.pool.fwd = .force ∨ s.pool.fwd = .swap

/-- It is all right for time to go on by `d` if nobody is late by more than `L`: the runtime with a tick, the loop with an iteration,
and the loop with taking the tick that is there. -/
def InTime (L : Nat) (s : S) (d : Nat) : Prop :=
  s.now + d ≤ s.due + L ∧ (Busy s → s.now + d ≤ s.since + L) ∧ (s.chan = true → ¬ Blocked s → s.now + d ≤ s.ready + L)

/-- Executions in which nobody is late by more than `L`. How long the commit loop and the application take is left open. -/
inductive Prompt (c : Cfg) (L : Nat) : S → Prop where
  | init : Prompt c L (S.init c)
  | step {s s' : S} (l : Label) : Prompt c L s → (∀ d, l = .pass d → InTime L s d) → step c s l = some s' → Prompt c L s'

/-- Executions in which, moreover, the commit queue has room whenever the loop tries to commit. -/
inductive Roomy (c : Cfg) (L : Nat) : S → Prop where
  | init : Roomy c L (S.init c)
  | step {s s' : S} (l : Label) : Roomy c L s → (∀ d, l = .pass d → InTime L s d) →
      (l = .pool .tryFlush → s.pool.cq.length < c.eos.pending) → step c s l = some s' → Roomy c L s'

/-- How often the timer woke the loop. -/
def wakes : List Label → Nat
  | [] => 0
  | .pool .tick :: ls => wakes ls + 1
  | _ :: ls => wakes ls

/-- The steps of the pool in an execution. -/
def poolSteps (ls : List Label) : List Eos.Label :=
  ls.filterMap fun | .pool l => some l | _ => none

end Verif.Delay
