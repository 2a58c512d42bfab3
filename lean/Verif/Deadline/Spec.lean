import Verif.Deadline.Model
import Verif.Delay.Spec
/-
When nobody is late, the commit loop included.
-/
namespace Verif.Deadline

/-- The commit loop is at work and waits for nobody, or has something to take. -/
def Due (s : S) : Prop :=
  (∃ p, s.d.pool.com = .begun p) ∨ (∃ p r, s.d.pool.com = .relinq p r) ∨ (∃ p, s.d.pool.com = .back p) ∨
  (s.d.pool.com = .idle ∧ s.d.pool.cq ≠ [])

/-- It is all right for time to go on by `d` if nobody is late by more than `L`: runtime and forwarding loop (`Delay.InTime`), the commit loop
with its work, and, while it waits for events and for the client, with giving up when the context of the transaction ends. -/
def InTime (L : Nat) (s : S) (d : Nat) : Prop :=
  Delay.InTime L s.d d ∧ (Due s → s.d.now + d ≤ s.stage + L) ∧
  (∀ p cur flag rest, s.d.pool.com = .fin p cur flag rest → s.d.now + d ≤ max (s.dead p) s.stage + L)

/-- Executions in which nobody is late by more than `L`. How long the application takes is left open. -/
inductive Prompt (c : Delay.Cfg) (L : Nat) : S → Prop where
  | init : Prompt c L (S.init c)
  | step {s s' : S} (l : Delay.Label) : Prompt c L s → (∀ d, l = .pass d → InTime L s d) → step c s l = some s' → Prompt c L s'

end Verif.Deadline
