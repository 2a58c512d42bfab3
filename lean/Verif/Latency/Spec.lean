import Verif.Latency.Model
import Verif.Deadline.Spec
/-
When nobody is late.
-/
namespace Verif.Latency

/-- It is all right for time to go on by `d` if nobody is late by more than `L`: as in `Deadline.InTime`, and the blocking send to the commit queue
gets through when there is room. -/
def InTime (c : Delay.Cfg) (L : Nat) (s : S) (d : Nat) : Prop :=
  Deadline.InTime L s.d d ∧ (s.pool.fwd = .force → s.pool.cq.length < c.eos.pending → s.now + d ≤ s.room + L)

/-- Executions in which nobody is late by more than `L` and the error handler never answers `Continue` to a failed commit, which is documented to
lose data. How long the application takes is left open. -/
inductive Prompt (c : Delay.Cfg) (L : Nat) : S → Prop where
  | init : Prompt c L (S.init c)
  | step {s s' : S} (l : Delay.Label) : Prompt c L s → l ≠ .pool (.commitFail true) → (∀ d, l = .pass d → InTime c L s d) →
      step c s l = some s' → Prompt c L s'

end Verif.Latency
